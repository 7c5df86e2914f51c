import Verif.Prog.Model

/-!
# C83 and C84: the name and the directory of the program
-/

namespace ZT.Prog

open ZT.Cstr

/-- A static buffer: `pm + 1` bytes, the last one NUL. -/
def Buf (pm : Nat) (st : List Byte) : Prop := st.length = pm + 1 ∧ st.drop pm = [0]

theorem fill_eq {pm : Nat} {st : List Byte} (h : Buf pm st) (t : List Byte) : fill t st pm = t.take pm ++ List.replicate (pm + 1 - min t.length pm) 0 := by
  have : min t.length pm ≤ pm := Nat.min_le_right _ _
  rw [fill, h.2, List.drop_append_of_le_length (by simp; omega), List.drop_replicate, show pm + 1 - min t.length pm = (pm - min t.length pm) + 1 by omega, List.replicate_succ']

theorem fill_buf {pm : Nat} {st : List Byte} (h : Buf pm st) (t : List Byte) : Buf pm (fill t st pm) := by
  have h1 : min t.length pm ≤ pm := Nat.min_le_right _ _
  have h2 : (t.take pm).length = min t.length pm := by rw [List.length_take, Nat.min_comm]
  rw [fill_eq h]
  constructor
  · rw [List.length_append, h2, List.length_replicate]; omega
  · rw [List.drop_append, List.drop_of_length_le (by omega), h2, List.drop_replicate, show pm + 1 - min t.length pm - (pm - min t.length pm) = 1 by omega]
    rfl

theorem fill_str {pm : Nat} {st : List Byte} (h : Buf pm st) {t : List Byte} (ht : ∀ b ∈ t, b ≠ 0) : IsStr (fill t st pm) (t.take pm) := by
  have h1 : min t.length pm ≤ pm := Nat.min_le_right _ _
  rw [fill_eq h]
  refine ⟨fun b hb => ht b (List.mem_of_mem_take hb), List.replicate (pm - min t.length pm) 0, ?_⟩
  rw [show pm + 1 - min t.length pm = (pm - min t.length pm) + 1 by omega, List.replicate_succ]

theorem fill_twice {pm : Nat} {st : List Byte} (h : Buf pm st) (t : List Byte) : fill t (List.replicate pm 0 ++ st.drop pm) pm = fill t st pm := by
  rw [fill, fill]
  congr 2
  rw [List.drop_left' (i := pm) (by simp)]

theorem cleared {pm : Nat} {st : List Byte} (h : Buf pm st) : memset0 st pm = .ok (List.replicate pm 0 ++ st.drop pm) ∧ Buf pm (List.replicate pm 0 ++ st.drop pm) := by
  have hl := h.1
  refine ⟨memset0_ok (by omega), ?_, ?_⟩
  · rw [h.2]; simp
  · rw [List.drop_left' (by simp), h.2]

theorem first_ne {m s : List Byte} (h : IsStr m s) (hs : s ≠ []) : ∃ c, rd m 0 = .ok c ∧ c ≠ 0 ∧ s.head? = some c := by
  obtain ⟨h0, rest, rfl⟩ := h
  cases s with
  | nil => exact absurd rfl hs
  | cons c cs => exact ⟨c, rfl, h0 c (by simp), rfl⟩

/-! ## C83: the name -/

/-- **C83 (the name).** The buffer holds the name, cut at PATH_MAX bytes, and is a C string. -/
theorem c83_set {pm : Nat} {st : List Byte} (hb : Buf pm st) {m s : List Byte} (h : IsStr m s) (hs : s ≠ []) :
    ∃ r, progname pm st (some m) false = .ok r ∧ Buf pm r ∧ IsStr r (s.take pm) := by
  obtain ⟨c, e, hc, -⟩ := first_ne h hs
  obtain ⟨e1, hb1⟩ := cleared hb
  refine ⟨fill s st pm, ?_, fill_buf hb s, fill_str hb h.1⟩
  simp only [progname, e, Outcome.ok_bind, if_neg hc, e1, Bool.false_eq_true, if_false, h.strlen]
  have hml := h.length
  rw [memcpy, if_pos (by rw [hb1.1]; omega), fill]
  obtain ⟨_, rest, rfl⟩ := h
  congr 1
  rw [List.take_append_of_le_length (by omega), Nat.min_comm pm]
  congr 1
  rw [Nat.min_comm, List.take_eq_take_iff]
  omega

/-- **C83 (the last component).** With STRIP_DIR, for a name that does not end in "/". -/
theorem c83_strip {pm : Nat} {st : List Byte} (hb : Buf pm st) {m s d b : List Byte} (h : IsStr m s) (hs : Splits s d b) :
    ∃ r, progname pm st (some m) true = .ok r ∧ Buf pm r ∧ IsStr r (b.take pm) := by
  have hne : s ≠ [] := fun e => by
    have := hs.1
    rw [e] at this
    exact hs.2.2.2 (List.append_eq_nil_iff.1 this.symm).2
  obtain ⟨c, e, hc, -⟩ := first_ne h hne
  obtain ⟨e1, hb1⟩ := cleared hb
  refine ⟨fill b st pm, ?_, fill_buf hb b, fill_str hb (fun x hx => h.1 x (by rw [hs.1]; simp [hx]))⟩
  simp only [progname, e, Outcome.ok_bind, if_neg hc, e1, if_true]
  rw [basename_exact h hs _ pm (by rw [hb1.1]; omega), fill_twice hb]

/-- **C83 (asking).** NULL and the empty name change nothing. -/
theorem c83_ask (pm : Nat) (st : List Byte) (strip : Bool) {m : List Byte} (h : IsStr m []) : progname pm st none strip = .ok st ∧ progname pm st (some m) strip = .ok st := by
  obtain ⟨-, rest, rfl⟩ := h
  exact ⟨rfl, rfl⟩

/-- A call: the name, if any, and whether the directory is to be removed. -/
abbrev Call := Option Str × Bool

/-- The last component of a path. -/
def lastComp (s : Str) : Str := (s.reverse.takeWhile (· ≠ 47)).reverse

/-- What zt_progname is to show after a call. -/
def shown (pm : Nat) (cur : Str) : Call → Str
  | (none, _) => cur
  | (some [], _) => cur
  | (some s, false) => s.take pm
  | (some s, true) => (lastComp s).take pm

/-- C strings, not ending in "/" if the directory is to be removed. -/
def Call.Ok (c : Call) : Prop := ∀ s, c.1 = some s → (∀ b ∈ s, b ≠ 0) ∧ (c.2 = true → s.getLast? ≠ some 47)

/-- The calls one after the other; each name is followed by anything in memory. -/
def calls (pm : Nat) (st : List Byte) : List (Call × List Byte) → Outcome (List Byte)
  | [] => .ok st
  | (c, rest) :: cs => do
      let st ← progname pm st (c.1.map (· ++ 0 :: rest)) c.2
      calls pm st cs

theorem splits_last {s : Str} (hs : s ≠ []) (hl : s.getLast? ≠ some 47) : ∃ d, Splits s d (lastComp s) := by
  have hsp := List.takeWhile_append_dropWhile (p := fun b : Byte => decide (b ≠ 47)) (l := s.reverse)
  refine ⟨(s.reverse.dropWhile (· ≠ 47)).reverse, ?_, ?_, ?_, ?_⟩
  · have := congrArg List.reverse hsp
    rw [List.reverse_append, List.reverse_reverse] at this
    exact this.symm
  · cases hd : s.reverse.dropWhile (· ≠ 47) with
    | nil => left; simp
    | cons x xs =>
        right
        have := List.head?_dropWhile_not (fun b : Byte => decide (b ≠ 47)) s.reverse
        rw [hd] at this
        simp at this
        simp [this]
  · intro hm
    have := List.all_takeWhile (p := fun b : Byte => decide (b ≠ 47)) (l := s.reverse)
    rw [List.all_eq_true] at this
    exact absurd (this 47 (List.mem_reverse.1 hm)) (by decide)
  · intro he
    rw [lastComp, List.reverse_eq_nil_iff] at he
    cases hr : s.reverse with
    | nil => exact hs (List.reverse_eq_nil_iff.1 hr)
    | cons x xs =>
        have hx : s.getLast? = some x := by
          have := congrArg List.reverse hr
          rw [List.reverse_reverse, List.reverse_cons] at this
          rw [this, List.getLast?_concat]
        rw [hr, List.takeWhile_cons] at he
        split at he
        · cases he
        · next h => simp at h; rw [h] at hx; exact hl hx

/-- **C83 (histories).** After any calls the static buffer is a C string that shows the last name given. -/
theorem c83_calls {pm : Nat} : ∀ (cs : List (Call × List Byte)) (st : List Byte) (cur : Str), Buf pm st → IsStr st cur → (∀ c ∈ cs, c.1.Ok) →
    ∃ r, calls pm st cs = .ok r ∧ Buf pm r ∧ IsStr r (cs.foldl (fun cur c => shown pm cur c.1) cur) := by
  intro cs
  induction cs with
  | nil => intro st cur hb h _; exact ⟨st, rfl, hb, h⟩
  | cons c cs ih =>
      intro st cur hb h hok
      obtain ⟨⟨name, strip⟩, rest⟩ := c
      have hc := hok ((name, strip), rest) (by simp)
      have key : ∃ r, progname pm st (name.map (· ++ 0 :: rest)) strip = .ok r ∧ Buf pm r ∧ IsStr r (shown pm cur (name, strip)) := by
        cases name with
        | none => exact ⟨st, rfl, hb, h⟩
        | some s =>
            obtain ⟨h0, h1⟩ := hc s rfl
            have hm : IsStr (s ++ 0 :: rest) s := ⟨h0, rest, rfl⟩
            cases s with
            | nil => exact ⟨st, (c83_ask pm st strip hm).2, hb, h⟩
            | cons x xs =>
                cases strip with
                | false => exact c83_set hb hm (by simp)
                | true =>
                    obtain ⟨d, hd⟩ := splits_last (by simp) (h1 rfl)
                    exact c83_strip hb hm hd
      obtain ⟨r, e, hb', h'⟩ := key
      obtain ⟨r', e', q⟩ := ih r _ hb' h' (fun c hc => hok c (by simp [hc]))
      exact ⟨r', by rw [calls]; simp only [e, Outcome.ok_bind]; exact e', q⟩

/-- Violation of C83: a name that ends in "/" is shown as "/". -/
theorem c83_slash_violation {pm : Nat} (hpm : 0 < pm) {st : List Byte} (hb : Buf pm st) : ∃ r, progname pm st (some [47, 97, 47, 0]) true = .ok r ∧ IsStr r [47] := by
  obtain ⟨e1, hb1⟩ := cleared hb
  have hm : IsStr [47, 97, 47, 0] [47, 97, 47] := ⟨by decide, [], rfl⟩
  refine ⟨fill [47] st pm, ?_, ?_⟩
  · simp only [progname, show rd ([47, 97, 47, 0] : List Byte) 0 = .ok 47 from rfl, Outcome.ok_bind, e1, if_true]
    rw [if_neg (by decide), basename, memset0_ok (by rw [hb1.1]; omega), show baseStart [47, 97, 47, 0] = .ok 3 by decide +kernel]
    simp only [Outcome.ok_bind, baseEnd]
    rw [c38_copy hm (by decide) 3 (-1) (t := [47]) (by decide) _ pm (by simp)]
    exact congrArg Outcome.ok (fill_twice hb [47])
  · have := fill_str hb (t := [47]) (by decide)
    rw [List.take_of_length_le (by simp; omega)] at this
    exact this

/-- Violation of C83: a name that comes from zt_progname itself is lost; afterwards the name is empty. -/
theorem c83_self_violation {pm : Nat} (hpm : 0 < pm) {st : List Byte} (hb : Buf pm st) {s : Str} (h : IsStr st s) (hs : s ≠ []) :
    ∃ r, prognameSelf pm st 0 false = .ok r ∧ IsStr r [] := by
  obtain ⟨c, e, hc, -⟩ := first_ne h hs
  obtain ⟨e1, hb1⟩ := cleared hb
  have hz : IsStr (List.replicate pm 0 ++ st.drop pm) [] := by
    refine ⟨by simp, List.replicate (pm - 1) 0 ++ st.drop pm, ?_⟩
    rw [show pm = (pm - 1) + 1 by omega, List.replicate_succ]
    simp
  refine ⟨_, ?_, hz⟩
  simp only [prognameSelf, e, Outcome.ok_bind, if_neg hc, e1, Bool.false_eq_true, if_false, List.drop_zero, hz.strlen, List.length_nil, Nat.min_zero]
  rw [memcpy, if_pos (by omega)]
  simp

/-- The initial buffer ("*UNKNOWN*", zt_progname.c 34-35) and a history for `c83_calls`. -/
example : Buf 20 ("*UNKNOWN*".toUTF8.toList ++ List.replicate 12 0) ∧ IsStr ("*UNKNOWN*".toUTF8.toList ++ List.replicate 12 0) "*UNKNOWN*".toUTF8.toList ∧
    Call.Ok (some "/bin/ls".toUTF8.toList, true) ∧ shown 20 [] (some "/bin/ls".toUTF8.toList, true) = "ls".toUTF8.toList := by
  refine ⟨⟨by decide +kernel, by decide +kernel⟩, ⟨by decide +kernel, List.replicate 11 0, by decide +kernel⟩, ?_, by decide +kernel⟩
  intro s hs
  cases hs
  exact ⟨by decide +kernel, fun _ => by decide +kernel⟩

end ZT.Prog
