import Verif.Cstr.Trim

/-!
# C42: path names
-/

namespace ZT.Cstr

theorem isStr_sep : IsStr SEP [47] := ⟨by decide, [], rfl⟩

/-- `memset(npath, 0, len)` followed by a copy of `t` into it: a string if there is room for the terminator. -/
theorem memset0_ok {b : List Byte} {n : Nat} (h : n ≤ b.length) : memset0 b n = .ok (List.replicate n 0 ++ b.drop n) := by rw [memset0, if_pos h]

/-- What a buffer holds after `memset(dst, 0, n)` and a copy of at most `n` bytes of `t`. -/
abbrev fill (t dst : List Byte) (n : Nat) : List Byte := t.take n ++ (List.replicate n 0 ++ dst.drop n).drop (min t.length n)

theorem filled {t dst : List Byte} {n : Nat} (h0 : ∀ b ∈ t, b ≠ 0) (ht : t.length < n) (hn : n ≤ dst.length) :
    IsStr (t.take n ++ (List.replicate n 0 ++ dst.drop n).drop (min t.length n)) t ∧ (t.take n ++ (List.replicate n 0 ++ dst.drop n).drop (min t.length n)).drop n = dst.drop n := by
  rw [List.take_of_length_le (by omega), Nat.min_eq_left (by omega), List.drop_append_of_le_length (by simp; omega), List.drop_replicate]
  constructor
  · refine ⟨h0, List.replicate (n - t.length - 1) 0 ++ dst.drop n, ?_⟩
    rw [show n - t.length = (n - t.length - 1) + 1 by omega, List.replicate_succ]
    simp
  · rw [← List.append_assoc, List.drop_left' (by simp; omega)]

theorem chars_all {s : List Byte} {a : Nat} (h : s ≠ []) : chars s a (s.length - 1) = s.drop a := by
  have := List.length_pos_iff.2 h
  rw [chars, List.take_of_length_le (by omega)]

theorem occurs_sep {s : List Byte} {b k : Nat} (hb : b < s.length) : Occurs s [47] b k ↔ k ≤ b ∧ s[k]? = some 47 := by
  rw [Occurs]
  constructor
  · rintro ⟨h1, h2⟩
    simp at h1
    refine ⟨h1, ?_⟩
    rw [drop_cons (by omega)] at h2
    rw [List.getElem?_eq_getElem (by omega)]
    exact congrArg _ (List.cons.inj h2).1
  · rintro ⟨h1, h2⟩
    refine ⟨by simpa using h1, ?_⟩
    rw [drop_cons (by omega)]
    rw [List.getElem?_eq_getElem (by omega)] at h2
    simp at h2
    simp [h2]

/-- The last separator from position 0 to `b`. -/
theorem rfind_sep {m s : List Byte} (h : IsStr m s) {j : Int} {b : Nat} (hs : s ≠ []) (hb : bounds s.length 0 j = some (0, b)) :
    (∀ k, k ≤ b → s[k]? = some 47 → (∀ k', k < k' → k' ≤ b → s[k']? ≠ some 47) → rfind m 0 j SEP = .ok (k : Int)) ∧ ((∀ k, k ≤ b → s[k]? ≠ some 47) → rfind m 0 j SEP = .ok (-1)) := by
  have hbs := bounds_some (List.length_pos_iff.2 hs) hb
  obtain ⟨r, e, hf⟩ := c39_rfind h hs isStr_sep (by decide) hb
  rw [e]
  constructor
  · intro k hk h1 h2
    rcases hf with ⟨k', rfl, _, hle, hocc, hlater⟩ | ⟨_, hno⟩
    · have ho := (occurs_sep hbs.2).1 hocc
      have : k' = k := by
        rcases Nat.lt_trichotomy k k' with hlt | heq | hgt
        · exact absurd ho.2 (h2 k' hlt hle)
        · exact heq.symm
        · exact absurd ((occurs_sep hbs.2).2 ⟨hk, h1⟩) (hlater k hgt hk)
      rw [this]
    · exact absurd ((occurs_sep hbs.2).2 ⟨hk, h1⟩) (hno k (by omega) hk)
  · intro hno
    rcases hf with ⟨k', rfl, _, hle, hocc, hlater⟩ | ⟨rfl, _⟩
    · have ho := (occurs_sep hbs.2).1 hocc
      exact absurd ho.2 (hno k' hle)
    · rfl

/-- A path: a directory part, empty or ending in "/", and a last component without "/". -/
def Splits (s d b : List Byte) : Prop := s = d ++ b ∧ (d = [] ∨ d.getLast? = some 47) ∧ (47 : Byte) ∉ b ∧ b ≠ []

theorem Splits.not {s d b : List Byte} (h : Splits s d b) {k : Nat} (hk : d.length ≤ k) : s[k]? ≠ some 47 := by
  obtain ⟨rfl, _, hb, _⟩ := h
  rw [List.getElem?_append_right hk]
  intro e
  exact hb (List.mem_of_getElem? e)

theorem baseStart_ok {m s d b : List Byte} (h : IsStr m s) (hs : Splits s d b) : baseStart m = .ok (d.length : Int) := by
  have hs' := hs
  obtain ⟨hsd, hd, hb47, hb⟩ := hs
  have hbl : 0 < b.length := List.length_pos_iff.2 hb
  have hl : s.length = d.length + b.length := by rw [hsd]; simp
  have hne : s ≠ [] := fun e => by rw [e] at hl; simp at hl; omega
  have hbd : bounds s.length 0 (-1) = some (0, s.length - 1) := bounds_all (a := 0) (by omega)
  have hr := rfind_sep h hne hbd
  rw [baseStart]
  rcases hd with hd | hd
  · subst hd
    rw [hr.2 (fun k _ => hs'.not (by simp))]
    simp
  · have hdl : 0 < d.length := by cases d with | nil => simp at hd | cons _ _ => simp
    rw [hr.1 (d.length - 1) (by omega) ?_ (fun k h1 _ => hs'.not (by omega))]
    · simp only [Outcome.ok_bind, Outcome.pure_eq]
      rw [if_pos (by omega)]
      exact congrArg _ (by omega)
    · rw [hsd, List.getElem?_append_left (by omega), ← hd, List.getLast?_eq_getElem?]

/-- The exact contents of the buffer. -/
theorem basename_exact {m s d b : List Byte} (h : IsStr m s) (hs : Splits s d b) (npath : List Byte) (n : Nat) (hn : n ≤ npath.length) :
    basename npath n m none = .ok (fill b npath n) := by
  have hs' := hs
  obtain ⟨hsd, hd, hb47, hb⟩ := hs
  have hbl : 0 < b.length := List.length_pos_iff.2 hb
  have hl : s.length = d.length + b.length := by rw [hsd]; simp
  have hne : s ≠ [] := fun e => by rw [e] at hl; simp at hl; omega
  have hsl : slice s (d.length : Int) (-1) = some b := by
    rw [slice_of (bounds_all (by omega)), chars_all hne, hsd]; simp
  have hc := c38_copy h hne (d.length : Int) (-1) hsl (List.replicate n 0 ++ npath.drop n) n (by simp)
  rw [basename, memset0_ok hn, baseStart_ok h hs']
  simp only [Outcome.ok_bind, baseEnd]
  rw [hc]
  rfl

/-- **C42** (partial): zt_cstr_basename copies the last component of the path, with a terminator if the buffer has room for it. Not proved, since false: paths ending in "/", and results that fill the buffer
(`c42_basename_violation`). -/
theorem c42_basename_partial {m s d b : List Byte} (h : IsStr m s) (hs : Splits s d b) (npath : List Byte) (n : Nat) (hn : n ≤ npath.length) (hfit : b.length < n) :
    ∃ r, basename npath n m none = .ok r ∧ IsStr r b ∧ r.drop n = npath.drop n :=
  ⟨_, basename_exact h hs npath n hn, filled (t := b) (fun c hc => h.1 c (by rw [hs.1]; exact List.mem_append_right _ hc)) hfit hn⟩

/-- **C42** (partial): a suffix that begins with "." is removed from the last component. Not proved, since false: a component that consists of the suffix only, and suffixes without "." (`c42_suffix_violation`). -/
theorem c42_suffix_partial {m s d c x ms : List Byte} (h : IsStr m s) (hs : Splits s d (c ++ 46 :: x)) (hsfx : IsStr ms (46 :: x)) (hc : c ≠ []) (npath : List Byte) (n : Nat) (hn : n ≤ npath.length)
    (hfit : c.length < n) : ∃ r, basename npath n m (some ms) = .ok r ∧ IsStr r c ∧ r.drop n = npath.drop n := by
  have hs' := hs
  obtain ⟨hsd, hd, hb47, hb⟩ := hs
  have hcl : 0 < c.length := List.length_pos_iff.2 hc
  have hl : s.length = d.length + (c.length + (x.length + 1)) := by rw [hsd]; simp
  have hne : s ≠ [] := fun e => by rw [e] at hl; simp at hl
  have hbd : bounds s.length (d.length : Int) (-1) = some (d.length, s.length - 1) := bounds_all (by omega)
  have hsl : slice s (d.length : Int) ((d.length + c.length - 1 : Nat) : Int) = some c := by
    rw [slice_of (bounds_of (position_nat (by omega)) (position_nat (by omega)) (by omega)), chars, hsd, show d.length + c.length - 1 + 1 = (d ++ c).length by rw [List.length_append]; omega, ← List.append_assoc, List.take_left]
    simp
  have hcp := c38_copy h hne (d.length : Int) ((d.length + c.length - 1 : Nat) : Int) hsl (List.replicate n 0 ++ npath.drop n) n (by simp)
  refine ⟨_, ?_, filled (t := c) (fun b hb => h.1 b (by rw [hsd]; simp [hb])) hfit hn⟩
  have hend : baseEnd m d.length (some ms) = .ok ((d.length + c.length - 1 : Nat) : Int) := by
    obtain ⟨r, e, hf⟩ := c39_rfind h hne hsfx (by simp) hbd
    have hocc : Occurs s (46 :: x) (s.length - 1) (d.length + c.length) := by
      refine ⟨by simp; omega, ?_⟩
      rw [hsd, ← List.append_assoc, show d.length + c.length = (d ++ c).length by simp, List.drop_left, List.take_of_length_le (Nat.le_refl _)]
    have hr : r = ((d.length + c.length : Nat) : Int) := by
      rcases hf with ⟨k', rfl, _, hle, ho, hlater⟩ | ⟨_, hno⟩
      · have h1 := ho.1
        simp at h1
        have : k' = d.length + c.length := by
          rcases Nat.lt_trichotomy (d.length + c.length) k' with hlt | heq | hgt
          · omega
          · exact heq.symm
          · exact absurd hocc (hlater _ hgt (by omega))
        rw [this]
      · exact absurd hocc (hno _ (by omega) (by omega))
    have hget : rdI m ((d.length + c.length : Nat) : Int) = .ok 46 := by
      rw [rdI_nat, h.get (by omega)]
      simp only [hsd]
      rw [List.getElem_append_right (by omega), List.getElem_append_right (by omega)]
      simp
    rw [baseEnd, e]
    simp only [Outcome.ok_bind]
    rw [hr, if_pos (by omega), hget]
    simp only [Outcome.ok_bind, Outcome.pure_eq, if_true]
    exact congrArg _ (by omega)
  rw [basename, memset0_ok hn, baseStart_ok h hs', ]
  simp only [Outcome.ok_bind]
  rw [hend]
  simp only [Outcome.ok_bind]
  rw [hcp]
  rfl

/-- A suffix that does not occur in the last component changes nothing. -/
theorem c42_suffix_absent {m s d b ms sfx : List Byte} (h : IsStr m s) (hs : Splits s d b) (hsfx : IsStr ms sfx) (hx : sfx ≠ []) (hno : ∀ k, (b.drop k).take sfx.length ≠ sfx) (npath : List Byte) (n : Nat)
    (hn : n ≤ npath.length) (hfit : b.length < n) : ∃ r, basename npath n m (some ms) = .ok r ∧ IsStr r b ∧ r.drop n = npath.drop n := by
  obtain ⟨r, e, hr⟩ := c42_basename_partial h hs npath n hn hfit
  refine ⟨r, ?_, hr⟩
  rw [← e]
  have hs' := hs
  obtain ⟨hsd, hd, hb47, hb⟩ := hs
  have hbl : 0 < b.length := List.length_pos_iff.2 hb
  have hl : s.length = d.length + b.length := by rw [hsd]; simp
  have hne : s ≠ [] := fun e => by rw [e] at hl; simp at hl; omega
  have hbd : bounds s.length (d.length : Int) (-1) = some (d.length, s.length - 1) := bounds_all (by omega)
  obtain ⟨r, e, hf⟩ := c39_rfind h hne hsfx hx hbd
  have hr : r = -1 := by
    rcases hf with ⟨k', rfl, hle0, hle, ho, hlater⟩ | ⟨hr, _⟩
    · have h2 := ho.2
      rw [hsd, List.drop_append, List.drop_of_length_le (by omega)] at h2
      exact absurd (by simpa using h2) (hno (k' - d.length))
    · exact hr
  have hend : baseEnd m d.length (some ms) = .ok (-1) := by
    rw [baseEnd, e, hr]; rfl
  rw [basename, basename, memset0_ok hn, baseStart_ok h hs']
  simp only [Outcome.ok_bind]
  rw [hend]
  rfl

/-- Instance: "usr/lib/libzt.so" without ".so". -/
example : basename [7, 7, 7, 7, 7, 7, 7] 6 [117, 47, 108, 105, 98, 46, 115, 111, 0] (some [46, 115, 111, 0]) = .ok [108, 105, 98, 0, 0, 0, 7] := by decide +kernel
example : Splits [117, 47, 108, 105, 98, 46, 115, 111] [117, 47] ([108, 105, 98] ++ 46 :: [115, 111]) := by refine ⟨by decide, by decide, by decide, by decide⟩

/-- Violations: of "/a/" the result is "/", and the result is not terminated if it fills the buffer. -/
theorem c42_basename_violation : basename [7, 7, 7, 7] 4 [47, 97, 47, 0] none = .ok [47, 0, 0, 0] ∧ basename [7, 7, 7, 7] 3 [97, 98, 99, 100, 0] none = .ok [97, 98, 99, 7] := by decide +kernel

/-- Violations: "a.foo" without "foo" is "a.f", and "/.foo" without ".foo" is "/.", reaching outside of the last component. -/
theorem c42_suffix_violation : basename (List.replicate 6 7) 6 [97, 46, 102, 111, 111, 0] (some [102, 111, 111, 0]) = .ok [97, 46, 102, 0, 0, 0] ∧
    basename (List.replicate 6 7) 6 [47, 46, 102, 111, 111, 0] (some [46, 102, 111, 111, 0]) = .ok [47, 46, 0, 0, 0, 0] := by decide +kernel

/-! ## Directories -/

theorem strcmp_ok : ∀ {p u q t : List Byte}, IsStr p u → IsStr q t → ∃ r, strcmp p q = .ok r ∧ (r = 0 ↔ u = t) := by
  intro p u
  induction u generalizing p with
  | nil =>
      intro q t hp hq
      obtain ⟨_, rp, rfl⟩ := hp
      obtain ⟨h0, rq, rfl⟩ := hq
      cases t with
      | nil => exact ⟨0, by simp [strcmp], by simp⟩
      | cons y t =>
          have hy : y ≠ 0 := h0 y (by simp)
          refine ⟨if (0 : Byte) < y then -1 else 1, ?_, ?_⟩
          · rw [List.nil_append, List.cons_append, strcmp, if_pos (Ne.symm hy)]
          · split <;> simp
  | cons x u ih =>
      intro q t hp hq
      obtain ⟨h0p, rp, rfl⟩ := hp
      obtain ⟨h0, rq, rfl⟩ := hq
      have hx : x ≠ 0 := h0p x (by simp)
      cases t with
      | nil =>
          refine ⟨if x < (0 : Byte) then -1 else 1, ?_, ?_⟩
          · rw [List.nil_append, List.cons_append, strcmp, if_pos hx]
          · split <;> simp
      | cons y t =>
          by_cases hxy : x = y
          · subst hxy
            obtain ⟨r, e, hr⟩ := ih (p := u ++ 0 :: rp) (q := t ++ 0 :: rq) (t := t) ⟨fun b hb => h0p b (by simp [hb]), rp, rfl⟩ ⟨fun b hb => h0 b (by simp [hb]), rq, rfl⟩
            refine ⟨r, ?_, by simpa using hr⟩
            rw [List.cons_append, List.cons_append, strcmp, if_neg (by simp), if_neg hx, e]
          · refine ⟨if x < y then -1 else 1, ?_, ?_⟩
            · rw [List.cons_append, List.cons_append, strcmp, if_pos hxy]
            · constructor
              · intro h; split at h <;> simp at h
              · intro h; exact absurd (List.cons.inj h).1 hxy

/-- Does the path end in "/"? -/
theorem endsSep {m s : List Byte} (h : IsStr m s) (hs : s ≠ []) : ∃ r, strcmp (m.drop (s.length - 1)) SEP = .ok r ∧ (r = 0 ↔ s.getLast? = some 47) := by
  have hl := List.length_pos_iff.2 hs
  have hd := h.drop (k := s.length - 1) (by omega)
  obtain ⟨r, e, hr⟩ := strcmp_ok hd isStr_sep
  refine ⟨r, e, hr.trans ?_⟩
  rw [drop_cons (by omega), List.getLast?_eq_getElem?, List.getElem?_eq_getElem (by omega), List.drop_of_length_le (by omega)]
  simp

/-- The exact contents of the buffer. -/
theorem dirname_exact {m s d b tail : List Byte} (h : IsStr m s) (hs : s = d ++ 47 :: (b ++ tail)) (hd : d ≠ []) (hb : (47 : Byte) ∉ b) (ht : (b ≠ [] ∧ tail = []) ∨ tail = [47]) (npath : List Byte) (n : Nat)
    (hn : n ≤ npath.length) : dirname npath n m = .ok (fill d npath n) := by
  have hdl : 0 < d.length := List.length_pos_iff.2 hd
  have hl : s.length = d.length + (b.length + tail.length + 1) := by rw [hs]; simp
  have hne : s ≠ [] := fun e => by rw [e] at hl; simp at hl
  have hml := h.length
  obtain ⟨r, er, hr⟩ := endsSep h hne
  have hsl : slice s 0 ((d.length : Int) - 1) = some d := by
    rw [show (d.length : Int) - 1 = ((d.length - 1 : Nat) : Int) by omega,
      slice_of (bounds_of (i := 0) (position_nat (k := 0) (by omega)) (position_nat (k := d.length - 1) (by omega)) (by omega)), chars, hs, show d.length - 1 + 1 = d.length by omega, List.take_left]
    rfl
  have hcp := c38_copy h hne 0 ((d.length : Int) - 1) hsl (List.replicate n 0 ++ npath.drop n) n (by simp)
  have hat : s[d.length]? = some 47 := by rw [hs, List.getElem?_append_right (by omega)]; simp
  have hlater : ∀ k', d.length < k' → k' ≤ d.length + b.length → s[k']? ≠ some 47 := by
    intro k' h1 h2 e
    rw [hs, List.getElem?_append_right (by omega), show k' - d.length = (k' - d.length - 1) + 1 by omega, List.getElem?_cons_succ, List.getElem?_append_left (by omega)] at e
    exact hb (List.mem_of_getElem? e)
  have hfind : rfind m 0 (if r = 0 then -2 else -1) SEP = .ok (d.length : Int) := by
    rcases ht with ⟨hbne, ht⟩ | ht
    · have hr0 : r ≠ 0 := by
        rw [Ne, hr, List.getLast?_eq_getElem?]
        subst ht
        have := List.length_pos_iff.2 hbne
        exact hlater _ (by simp at hl; omega) (by simp at hl; omega)
      rw [if_neg hr0]
      subst ht
      simp at hl
      exact (rfind_sep h hne (bounds_all (a := 0) (by omega))).1 d.length (by omega) hat (fun k' h1 h2 => hlater k' h1 (by omega))
    · have hr0 : r = 0 := by
        rw [hr, hs, ht, show d ++ 47 :: (b ++ [47]) = (d ++ 47 :: b) ++ [47] by simp]
        exact List.getLast?_concat
      rw [if_pos hr0]
      subst ht
      simp at hl
      exact (rfind_sep h hne (bounds_of (position_nat (k := 0) (by omega)) (position_neg (k := 2) (by omega) (by omega)) (by omega))).1 d.length (by omega) hat (fun k' h1 h2 => hlater k' h1 (by omega))
  rw [dirname, memset0_ok hn, h.strlen]
  simp only [Outcome.ok_bind]
  rw [show ((s.length : Int) - 1) = ((s.length - 1 : Nat) : Int) by omega, ptr_nat (by omega)]
  simp only [Outcome.ok_bind]
  rw [er]
  simp only [Outcome.ok_bind]
  rw [hfind]
  simp only [Outcome.ok_bind]
  rw [if_neg (by omega), hcp]
  rfl

/-- **C42** (partial): zt_cstr_dirname copies what precedes the last component (a "/" at the end does not count), without the "/" between them. Not proved, since false: paths whose only directory is the root, and
the empty path (`c42_dirname_violation`). -/
theorem c42_dirname_partial {m s d b tail : List Byte} (h : IsStr m s) (hs : s = d ++ 47 :: (b ++ tail)) (hd : d ≠ []) (hb : (47 : Byte) ∉ b) (ht : (b ≠ [] ∧ tail = []) ∨ tail = [47]) (npath : List Byte) (n : Nat)
    (hn : n ≤ npath.length) (hfit : d.length < n) : ∃ r, dirname npath n m = .ok r ∧ IsStr r d ∧ r.drop n = npath.drop n :=
  ⟨_, dirname_exact h hs hd hb ht npath n hn, filled (t := d) (fun b hb => h.1 b (by rw [hs]; simp [hb])) hfit hn⟩

theorem dirname_dot_exact {m s : List Byte} (h : IsStr m s) (hs : s ≠ []) (hb : (47 : Byte) ∉ s) (npath : List Byte) (n : Nat) (hn : n ≤ npath.length) :
    dirname npath n m = .ok (fill [46] npath n) := by
  have hl := List.length_pos_iff.2 hs
  have hml := h.length
  obtain ⟨r, er, hr⟩ := endsSep h hs
  have hr0 : r ≠ 0 := by
    rw [Ne, hr, List.getLast?_eq_getElem?]
    exact fun e => hb (List.mem_of_getElem? e)
  have hfind : rfind m 0 (if r = 0 then -2 else -1) SEP = .ok (-1) := by
    rw [if_neg hr0]
    exact (rfind_sep h hs (bounds_all (a := 0) (by omega))).2 (fun k _ e => hb (List.mem_of_getElem? e))
  have hcp := c38_copy (m := [46, 0]) (s := [46]) ⟨by decide, [], rfl⟩ (by decide) 0 (-1) (t := [46]) (by decide) (List.replicate n 0 ++ npath.drop n) n (by simp)
  rw [dirname, memset0_ok hn, h.strlen]
  simp only [Outcome.ok_bind]
  rw [show ((s.length : Int) - 1) = ((s.length - 1 : Nat) : Int) by omega, ptr_nat (by omega)]
  simp only [Outcome.ok_bind]
  rw [er]
  simp only [Outcome.ok_bind]
  rw [hfind]
  simp only [Outcome.ok_bind]
  rw [if_pos trivial, hcp]
  rfl

/-- A path without "/" lies in the directory ".". -/
theorem c42_dirname_dot {m s : List Byte} (h : IsStr m s) (hs : s ≠ []) (hb : (47 : Byte) ∉ s) (npath : List Byte) (n : Nat) (hn : n ≤ npath.length) (hfit : 1 < n) :
    ∃ r, dirname npath n m = .ok r ∧ IsStr r [46] ∧ r.drop n = npath.drop n :=
  ⟨_, dirname_dot_exact h hs hb npath n hn, filled (t := [46]) (by decide) hfit hn⟩

/-- Instance: the directory of "u/l/". -/
example : dirname [7, 7, 7, 7] 3 [117, 47, 108, 47, 0] = .ok [117, 0, 0, 7] := by decide +kernel

/-- Violations: the directory of "/ab" is "/ab"; "/" ends the program; "" reads before the string. -/
theorem c42_dirname_violation : dirname [7, 7, 7, 7] 4 [47, 97, 98, 0] = .ok [47, 97, 98, 0] ∧ dirname [7, 7, 7, 7] 4 [47, 0] = .abort ∧ dirname [7, 7, 7, 7] 4 [0] = .ub := by decide +kernel

/-! ## Joining paths -/

theorem sepAt {m s : List Byte} (h : IsStr m s) {k : Nat} (hk : k < s.length) : ptr m (k : Int) = .ok (m.drop k) ∧ ∃ r, strncmp 1 (m.drop k) SEP = .ok r ∧ (r = 0 ↔ s[k] = 47) := by
  have hml := h.length
  refine ⟨ptr_nat (by omega), ?_⟩
  have hd := h.drop (k := k) (by omega)
  rw [drop_cons hk] at hd
  have := strncmp_lex 1 hd isStr_sep
  refine ⟨_, this, ?_⟩
  simp only [List.take_succ_cons, List.take_zero, lex]
  constructor
  · intro e
    split at e
    · simp at e
    · split at e
      · simp at e
      · rename_i h1 h2
        exact UInt8.le_antisymm (UInt8.not_lt.1 h2) (UInt8.not_lt.1 h1)
  · intro e
    rw [e]
    simp

theorem trimY_ok {m p : List Byte} {j : Nat} (h : IsStr m (p ++ List.replicate j 47)) (hp : p.length = 1 ∨ p.getLast? ≠ some 47) (hpne : p ≠ []) : ∀ (i fuel : Nat), i ≤ j → i < fuel →
    trimY m fuel ((p.length + i : Nat) - 1 : Int) = .ok ((p.length : Int) - 1) := by
  have hpl : 0 < p.length := List.length_pos_iff.2 hpne
  intro i
  induction i with
  | zero =>
      intro fuel _ hf
      cases fuel with
      | zero => omega
      | succ fuel =>
          rw [trimY, Nat.add_zero]
          split
          · rename_i hpos
            have hk : p.length - 1 < (p ++ List.replicate j (47 : Byte)).length := by simp; omega
            obtain ⟨e1, r, e2, hr⟩ := sepAt h hk
            rw [show ((p.length : Int) - 1) = ((p.length - 1 : Nat) : Int) by omega, e1]
            simp only [Outcome.ok_bind]
            rw [e2]
            simp only [Outcome.ok_bind]
            rw [if_neg]
            rw [hr, List.getElem_append_left (by omega)]
            intro e
            rcases hp with hp | hp
            · omega
            · apply hp
              rw [List.getLast?_eq_getElem?, List.getElem?_eq_getElem (by omega), e]
          · rfl
  | succ i ih =>
      intro fuel hi hf
      cases fuel with
      | zero => omega
      | succ fuel =>
          have hk : p.length + i < (p ++ List.replicate j (47 : Byte)).length := by simp; omega
          obtain ⟨e1, r, e2, hr⟩ := sepAt h hk
          rw [trimY, if_pos (by omega), show (((p.length + (i + 1) : Nat) : Int) - 1) = ((p.length + i : Nat) : Int) by omega, e1]
          simp only [Outcome.ok_bind]
          rw [e2]
          simp only [Outcome.ok_bind]
          rw [if_pos]
          · exact ih fuel (by omega) (by omega)
          · rw [hr, List.getElem_append_right (by omega)]
            simp

theorem trimX_ok {m q : List Byte} {j : Nat} (h : IsStr m (List.replicate j 47 ++ q)) (hq : q.head? ≠ some 47) (hqne : q ≠ []) : ∀ (i fuel k : Nat), k + i = j → i < fuel →
    trimX m (List.replicate j (47 : Byte) ++ q).length fuel (k : Int) = .ok (j : Int) := by
  have hql : 0 < q.length := List.length_pos_iff.2 hqne
  have hlen : (List.replicate j (47 : Byte) ++ q).length = j + q.length := by simp
  intro i
  induction i with
  | zero =>
      intro fuel k hk hf
      have : k = j := by omega
      subst this
      cases fuel with
      | zero => omega
      | succ fuel =>
          obtain ⟨e1, r, e2, hr⟩ := sepAt h (k := k) (by omega)
          rw [trimX, if_pos (by omega), e1]
          simp only [Outcome.ok_bind]
          rw [e2]
          simp only [Outcome.ok_bind]
          rw [if_neg]
          rw [hr, List.getElem_append_right (by simp)]
          intro e
          apply hq
          rw [List.head?_eq_getElem?, List.getElem?_eq_getElem hql, ← e]
          simp
  | succ i ih =>
      intro fuel k hk hf
      cases fuel with
      | zero => omega
      | succ fuel =>
          obtain ⟨e1, r, e2, hr⟩ := sepAt h (k := k) (by omega)
          rw [trimX, if_pos (by omega), e1]
          simp only [Outcome.ok_bind]
          rw [e2]
          simp only [Outcome.ok_bind]
          rw [if_pos]
          · have := ih fuel (k + 1) (by omega) (by omega)
            rw [← this]
            rfl
          · rw [hr, List.getElem_append_left (by simp; omega)]
            simp

/-- **C42** (partial): zt_cstr_path_append joins two paths with one "/" whatever separators there were; a first path that consists of separators only keeps one of them (giving "//..."). Not proved, since false:
empty paths, and a second path of separators only (`c42_append_violation`). -/
theorem c42_append_partial (junk : Byte) {m1 m2 p q : List Byte} {i j : Nat} (h1 : IsStr m1 (p ++ List.replicate i 47)) (h2 : IsStr m2 (List.replicate j 47 ++ q)) (hp : p ≠ []) (hpl : p.length = 1 ∨ p.getLast? ≠ some 47)
    (hq : q ≠ []) (hql : q.head? ≠ some 47) : ∃ r, pathAppend junk m1 m2 = .ok r ∧ IsStr r (p ++ 47 :: q) := by
  have hp0 : 0 < p.length := List.length_pos_iff.2 hp
  have hq0 : 0 < q.length := List.length_pos_iff.2 hq
  have hl1 : (p ++ List.replicate i (47 : Byte)).length = p.length + i := by simp
  have hl2 : (List.replicate j (47 : Byte) ++ q).length = j + q.length := by simp
  have hne1 : p ++ List.replicate i (47 : Byte) ≠ [] := fun e => by rw [e] at hl1; simp at hl1; omega
  have hne2 : List.replicate j (47 : Byte) ++ q ≠ [] := fun e => by rw [e] at hl2; simp at hl2; omega
  have e1 : slice (p ++ List.replicate i (47 : Byte)) 0 ((p.length : Int) - 1) = some p := by
    rw [show (p.length : Int) - 1 = ((p.length - 1 : Nat) : Int) by omega,
      slice_of (s := p ++ List.replicate i (47 : Byte)) (bounds_of (i := 0) (position_nat (k := 0) (by omega)) (position_nat (k := p.length - 1) (by omega)) (by omega)), chars, show p.length - 1 + 1 = p.length by omega, List.take_left]
    rfl
  have e2 : slice (List.replicate j (47 : Byte) ++ q) (j : Int) (-1) = some q := by
    rw [slice_of (bounds_all (by omega)), chars_all hne2, List.drop_left' (by simp)]
  obtain ⟨r, er, hr⟩ := c38_catv junk (fun x => (slice (cstr x.s) x.i x.j).getD []) [⟨m1, 0, (p.length : Int) - 1⟩, ⟨SEP, 0, -1⟩, ⟨m2, (j : Int), -1⟩] (by
    intro x hx
    simp only [List.mem_cons, List.not_mem_nil, or_false] at hx
    rcases hx with rfl | rfl | rfl
    · exact ⟨_, h1, hne1, by rw [h1.cstr, e1]; rfl⟩
    · exact ⟨_, isStr_sep, by decide, by rw [isStr_sep.cstr]; rfl⟩
    · exact ⟨_, h2, hne2, by rw [h2.cstr, e2]; rfl⟩)
  simp only [List.flatMap_cons, List.flatMap_nil, h1.cstr, h2.cstr, e1, e2, isStr_sep.cstr, Option.getD_some] at hr
  rw [show slice [47] 0 (-1) = some [47] by decide] at hr
  refine ⟨r, ?_, by simpa using hr⟩
  have ey := trimY_ok h1 hpl hp i ((p ++ List.replicate i (47 : Byte)).length + 1) (Nat.le_refl _) (by omega)
  have ex := trimX_ok h2 hql hq j ((List.replicate j (47 : Byte) ++ q).length + 1) 0 (by omega) (by omega)
  rw [pathAppend, h1.strlen, h2.strlen]
  simp only [Outcome.ok_bind]
  rw [hl1] at ey ⊢
  rw [ey]
  simp only [Outcome.ok_bind]
  rw [show (0 : Int) = ((0 : Nat) : Int) by rfl, ex]
  exact er

/-- Instance: "a/" and "//b". -/
example : pathAppend 7 [97, 47, 0] [47, 47, 98, 0] = .ok [97, 47, 98, 0, 7, 7, 7] := by decide +kernel

/-- Violations: "" joined with "b" reads as "", and "a" joined with "//" as "a//". -/
theorem c42_append_violation : (do let r ← pathAppend 7 [0] [98, 0]; pure (cstr r)) = .ok [] ∧ (do let r ← pathAppend 7 [97, 0] [47, 47, 0]; pure (cstr r)) = .ok [97, 47, 47] := by decide +kernel

/-- zt_cstr_abspath is true for the paths that begin with "/" or "./". -/
theorem c42_abspath {m s : List Byte} (h : IsStr m s) : ∃ r, abspath m = .ok r ∧ (r = true ↔ (s.head? = some 47 ∨ s.take 2 = [46, 47])) := by
  have key : ∀ {p u : List Byte}, IsStr p u → ∃ r, strncmp 1 p SEP = .ok r ∧ (r = 0 ↔ u.head? = some 47) := by
    intro p u hp
    cases u with
    | nil => exact ⟨_, strncmp_lex 1 hp isStr_sep, by simp [lex]⟩
    | cons x u =>
        obtain ⟨_, r, e, hr⟩ := sepAt hp (k := 0) (by simp)
        exact ⟨r, e, by simpa using hr⟩
  obtain ⟨r, e, hr⟩ := key h
  rw [abspath, e]
  simp only [Outcome.ok_bind]
  by_cases h0 : r = 0
  · rw [if_pos h0]
    exact ⟨true, rfl, by simp [hr.1 h0]⟩
  · rw [if_neg h0]
    have hnot : s.head? ≠ some 47 := fun e => h0 (hr.2 e)
    cases s with
    | nil =>
        obtain ⟨_, rest, rfl⟩ := h
        exact ⟨false, by simp [rd], by simp⟩
    | cons x s =>
        have hml := h.length
        rw [h.get (by simp)]
        simp only [Outcome.ok_bind, List.getElem_cons_zero]
        by_cases hx : x = 46
        · rw [if_pos hx]
          obtain ⟨r', e', hr'⟩ := key (h.drop (k := 1) (by simp))
          rw [show (1 : Int) = ((1 : Nat) : Int) by rfl, ptr_nat (by omega)]
          simp only [Outcome.ok_bind]
          rw [e']
          refine ⟨_, rfl, ?_⟩
          rw [decide_eq_true_iff, hr']
          subst hx
          cases s with
          | nil => simp
          | cons y s => simp
        · rw [if_neg hx]
          refine ⟨false, rfl, ?_⟩
          simp only [Bool.false_eq_true, false_iff, not_or]
          refine ⟨hnot, ?_⟩
          intro e
          cases s with
          | nil => simp at e
          | cons y s => simp at e; exact hx e.1

example : abspath [46, 47, 97, 0] = .ok true ∧ abspath [97, 47, 0] = .ok false ∧ abspath [46, 46, 47, 0] = .ok false := by decide +kernel

end ZT.Cstr
