import Verif.Cfg.Props

/-!
# Reading one line of a file
-/

namespace ZT.Cfg

open Spec

theorem fgets_line : ∀ (L : Str) (n : Nat) (rest : Str), 0x0A ∉ L → L.length < n → fgets n (L ++ 0x0A :: rest) = (L ++ [0x0A], rest) := by
  intro L
  induction L with
  | nil =>
    intro n rest _ h
    obtain ⟨n, rfl⟩ : ∃ k, n = k + 1 := ⟨n - 1, by simp at h; omega⟩
    simp [fgets]
  | cons c L ih =>
    intro n rest hn h
    obtain ⟨n, rfl⟩ : ∃ k, n = k + 1 := ⟨n - 1, by simp at h; omega⟩
    have hc : c ≠ 0x0A := fun e => hn (by simp [e])
    simp only [List.cons_append, fgets, if_neg hc]
    rw [ih n rest (fun e => hn (by simp [e])) (by simp at h; omega)]

theorem fgets_eof : ∀ (L : Str) (n : Nat), 0x0A ∉ L → L.length ≤ n → fgets n L = (L, []) := by
  intro L
  induction L with
  | nil => intro n _ _; cases n <;> rfl
  | cons c L ih =>
    intro n hn h
    obtain ⟨n, rfl⟩ : ∃ k, n = k + 1 := ⟨n - 1, by simp at h; omega⟩
    have hc : c ≠ 0x0A := fun e => hn (by simp [e])
    simp only [fgets, if_neg hc]
    rw [ih n (fun e => hn (by simp [e])) (by simp at h; omega)]

theorem cstr_eq {m : List Byte} {o : Nat} {s z : Str} (h : m.drop o = s ++ 0 :: z) (hs : 0x00 ∉ s) : cstr m o = .ok s := by
  unfold cstr
  rw [h, strlen_eq s z fun b hb e => hs (by rw [← e]; exact hb)]
  simp

theorem name_iff {b : Byte} : validName b = true ↔ IsNameByte b := by simp [validName, IsNameByte, or_assoc]

theorem blank_iff {b : Byte} : isBlank b = true ↔ (b = 0x20 ∨ b = 0x09) := by simp [isBlank]

theorem span_eq {p : Byte → Bool} : ∀ {a t : Str}, (∀ b ∈ a, p b = true) → (∀ b, t.head? = some b → p b = false) → span p (a ++ t) = a.length := by
  intro a t h ht
  unfold span
  induction a with
  | nil =>
    cases t with
    | nil => rfl
    | cons b t => simp [ht b rfl]
  | cons b a ih =>
    simp only [List.cons_append, List.takeWhile_cons, h b (by simp), if_true, List.length_cons]
    rw [ih fun x hx => h x (by simp [hx])]

theorem commentAt_none {s : Str} (h : ∀ b ∈ s, ¬ IsMark b) : commentAt s = none := by
  induction s with
  | nil => rfl
  | cons b s ih =>
    rw [commentAt, if_neg (by exact h b (by simp)), ih fun x hx => h x (by simp [hx])]
    rfl

theorem commentAt_some {s t : Str} {m : Byte} (h : ∀ b ∈ s, ¬ IsMark b) (hm : IsMark m) : commentAt (s ++ m :: t) = some s.length := by
  induction s with
  | nil => simp only [List.nil_append, commentAt]; rw [if_pos (by exact hm)]; rfl
  | cons b s ih =>
    simp only [List.cons_append, commentAt]
    rw [if_neg (by exact h b (by simp)), ih fun x hx => h x (by simp [hx])]
    rfl

theorem drop_set_ge {m : List Byte} {o i : Nat} (a : Byte) : (m.set (o + i) a).drop o = (m.drop o).set i a := by
  rw [List.drop_set, if_neg (by omega), Nat.add_sub_cancel_left]

theorem take_set_ge {m : List Byte} {o i : Nat} (a : Byte) : (m.set (o + i) a).take o = m.take o := by
  rw [List.take_set_of_le (by omega)]

theorem rd_drop {m : List Byte} {o i : Nat} {a : Byte} (h : (m.drop o)[i]? = some a) : rd m (o + i) = .ok a := by
  rw [rd_eq_ok, ← List.getElem?_drop]; exact h

theorem len_drop {m : List Byte} {o i : Nat} (h : i < (m.drop o).length) : o + i < m.length := by simp at h; omega

theorem strip_ok {val : Nat} {w : Str} {e : Byte} (he : ¬ (e = 0x20 ∨ e = 0x09)) : ∀ (k : Nat) (bl : Str) (m : List Byte) (z : Str), bl.length = k → Blank bl → m.drop val = w ++ [e] ++ bl ++ 0 :: z →
    ∃ m' z', stripLoop m val (w.length + bl.length) = .ok m' ∧ m'.take val = m.take val ∧ m'.drop val = w ++ [e] ++ 0 :: z' := by
  intro k
  induction k with
  | zero =>
    intro bl m z hk _ hm
    rw [List.length_eq_zero_iff] at hk
    subst hk
    refine ⟨m, z, ?_, rfl, by simpa using hm⟩
    cases w with
    | nil => rfl
    | cons a w =>
      simp only [List.length_cons, List.length_nil, Nat.add_zero]
      rw [stripLoop, rd_drop (a := e) (by rw [hm]; simp)]
      simp only [Outcome.ok_bind]
      rw [if_neg (by rw [blank_iff]; exact he)]
  | succ k ih =>
    intro bl m z hk hb hm
    have hne : bl ≠ [] := by rintro rfl; cases hk
    have esplit := (List.dropLast_concat_getLast hne).symm
    generalize bl.dropLast = bl' at esplit
    generalize bl.getLast hne = b at esplit
    subst esplit
    have hlen : w.length + (bl' ++ [b]).length = (w.length + bl'.length) + 1 := by simp; omega
    have hlt : val + (w.length + bl'.length + 1) < m.length := len_drop (by rw [hm]; simp; omega)
    rw [hlen, stripLoop, rd_drop (a := b) (by rw [hm]; simp [Nat.add_assoc])]
    simp only [Outcome.ok_bind]
    rw [if_pos (blank_iff.2 (hb b (by simp))), wr_lt hlt]
    simp only [Outcome.ok_bind]
    have hset : (m.set (val + (w.length + bl'.length + 1)) 0).drop val = w ++ [e] ++ bl' ++ 0 :: (0 :: z) := by
      rw [drop_set_ge, hm]
      have e1 : w ++ [e] ++ (bl' ++ [b]) ++ 0 :: z = (w ++ [e] ++ bl') ++ b :: 0 :: z := by simp
      rw [e1, List.set_append_right _ _ (by simp; omega)]
      simp [Nat.add_assoc]
    obtain ⟨m', z', h1, h2, h3⟩ := ih bl' _ _ (by simpa using hk) (fun x hx => hb x (by simp [hx])) hset
    exact ⟨m', z', h1, by rw [h2, take_set_ge], h3⟩

/-- The fields of a line in a buffer. -/
theorem fields_ok {name gap pad value tail : Str} (ha : IsAssign name gap pad value tail) {m : List Byte} {z : Str} {len : Nat} (hm : m = (name ++ gap ++ 0x3D :: (pad ++ value ++ tail)) ++ 0 :: z)
    (h0 : 0x00 ∉ name ++ gap ++ 0x3D :: (pad ++ value ++ tail)) (hl : (name ++ gap).length + 1 + pad.length < len) : fields m len (name ++ gap).length = .ok (some (name, value)) := by
  obtain ⟨hn, hg, hp, hv, bl, com, htail, hbl, hcom⟩ := ha
  have h0n : 0x00 ∉ name := fun h => h0 (by simp [h])
  have h0p : 0x00 ∉ pad ++ value ++ tail := fun h => h0 (by simp at h; simp [h])
  have h0v : 0x00 ∉ value ++ tail := fun h => h0p (by simp at h; rcases h with h | h <;> simp [h])
  have h0vb : 0x00 ∉ value ++ bl := fun h => h0v (by rw [htail]; simp at h; rcases h with h | h <;> simp [h])
  have hspan : span validName (name ++ gap ++ 0x3D :: (pad ++ value ++ tail)) = name.length := by
    rw [List.append_assoc]
    refine span_eq (fun b hb => name_iff.2 (hn.2 b hb)) fun b hb => ?_
    cases hgap : gap with
    | nil =>
      rw [hgap] at hb
      simp only [List.nil_append, List.head?_cons, Option.some.injEq] at hb
      subst hb; decide
    | cons x g =>
      rw [hgap] at hb
      simp only [List.cons_append, List.head?_cons, Option.some.injEq] at hb
      subst hb
      have := hg.2 x (by rw [hgap]; rfl)
      rw [← name_iff] at this
      simpa using this
  unfold fields
  rw [cstr_eq (s := name ++ gap ++ 0x3D :: (pad ++ value ++ tail)) (z := z) (by rw [hm]; rfl) h0]
  simp only [Outcome.ok_bind]
  rw [hspan, wr_lt (by rw [hm]; simp; omega)]
  simp only [Outcome.ok_bind]
  -- the buffer with the name ended
  generalize hm1 : m.set name.length 0 = m1
  have hd1 : m1.drop ((name ++ gap).length + 1) = pad ++ value ++ tail ++ 0 :: z := by
    rw [← hm1, List.drop_set_of_lt (by simp; omega), hm]
    have : name ++ gap ++ 0x3D :: (pad ++ value ++ tail) ++ 0 :: z = (name ++ gap ++ [0x3D]) ++ (pad ++ value ++ tail ++ 0 :: z) := by simp
    rw [this, List.drop_left' (by rw [List.length_append]; rfl)]
  have hname : ∃ y, m1 = name ++ 0 :: y := by
    cases hgap : gap with
    | nil =>
      refine ⟨pad ++ value ++ tail ++ 0 :: z, ?_⟩
      rw [← hm1, hm, hgap]
      rw [show name ++ [] ++ 0x3D :: (pad ++ value ++ tail) ++ 0 :: z = name ++ 0x3D :: (pad ++ value ++ tail ++ 0 :: z) by simp, List.set_append_right _ _ (by simp)]
      simp
    | cons x g =>
      refine ⟨g ++ 0x3D :: (pad ++ value ++ tail) ++ 0 :: z, ?_⟩
      rw [← hm1, hm, hgap]
      rw [show name ++ x :: g ++ 0x3D :: (pad ++ value ++ tail) ++ 0 :: z = name ++ x :: (g ++ 0x3D :: (pad ++ value ++ tail) ++ 0 :: z) by simp, List.set_append_right _ _ (by simp)]
      simp
  rw [cstr_eq hd1 h0p]
  simp only [Outcome.ok_bind]
  have hspan2 : span isBlank (pad ++ value ++ tail) = pad.length := by
    rw [List.append_assoc]
    refine span_eq (fun b hb => blank_iff.2 (hp b hb)) fun b hb => ?_
    cases hval : value with
    | nil => exact absurd hval hv.1
    | cons x v =>
      rw [hval] at hb
      simp only [List.cons_append, List.head?_cons, Option.some.injEq] at hb
      subst hb
      have := hv.2.2.1 x (by rw [hval]; rfl)
      rw [← blank_iff] at this
      simpa using this
  rw [hspan2]
  generalize hval : (name ++ gap).length + 1 + pad.length = val
  have hd2 : m1.drop val = value ++ tail ++ 0 :: z := by
    rw [← hval, ← List.drop_drop, hd1]
    rw [show pad ++ value ++ tail ++ 0 :: z = pad ++ (value ++ tail ++ 0 :: z) by simp, List.drop_left' rfl]
  rw [cstr_eq hd2 h0v]
  simp only [Outcome.ok_bind]
  have hvlt : (name.length : Nat) < val := by rw [← hval]; simp; omega
  -- without the comment
  have hmark : ∀ b ∈ value ++ bl, ¬ IsMark b := by
    intro b hb
    rcases List.mem_append.1 hb with hb | hb
    · exact hv.2.1 b hb
    · rcases hbl b hb with rfl | rfl <;> simp [IsMark]
  have hcut : ∃ m2 z2, cutComment m1 val (value ++ tail) = .ok m2 ∧ m2.take val = m1.take val ∧ m2.drop val = value ++ bl ++ 0 :: z2 := by
    rcases hcom with rfl | ⟨mk, t, rfl, hmk⟩
    · rw [List.append_nil] at htail
      subst htail
      exact ⟨m1, z, by rw [cutComment, commentAt_none hmark], rfl, hd2⟩
    · subst htail
      have hlt : val + (value ++ bl).length < m1.length := len_drop (by rw [hd2]; simp)
      refine ⟨_, t ++ 0 :: z, by rw [cutComment, ← List.append_assoc, commentAt_some hmark hmk]; exact wr_lt hlt, take_set_ge _, ?_⟩
      rw [drop_set_ge, hd2]
      rw [show value ++ (bl ++ mk :: t) ++ 0 :: z = (value ++ bl) ++ mk :: (t ++ 0 :: z) by simp, List.set_append_right _ _ (by simp)]
      simp
  obtain ⟨m2, z2, e2, ht2, hd3⟩ := hcut
  rw [e2]
  simp only [Outcome.ok_bind]
  rw [cstr_eq hd3 h0vb]
  simp only [Outcome.ok_bind]
  have hvne : (value ++ bl).length ≠ 0 := by simp [hv.1]
  rw [if_neg hvne]
  have hlast := (List.dropLast_concat_getLast hv.1).symm
  have hwlen : (value ++ bl).length - 1 = value.dropLast.length + bl.length := by
    have : value.length ≠ 0 := by simp [hv.1]
    simp; omega
  obtain ⟨m3, z3, e3, ht3, hd4⟩ := strip_ok (val := val) (w := value.dropLast) (e := value.getLast hv.1) (hv.2.2.2 _ (List.getLast?_eq_some_getLast hv.1)) bl.length bl m2 z2 rfl hbl (by rw [← hlast]; exact hd3)
  rw [hwlen, e3]
  simp only [Outcome.ok_bind]
  rw [if_neg (by rw [← hval]; omega)]
  rw [← hlast] at hd4
  obtain ⟨y, hy⟩ := hname
  have hn3 : ∃ y', m3.drop 0 = name ++ 0 :: y' := by
    have : m3 = m3.take val ++ m3.drop val := (List.take_append_drop val m3).symm
    rw [ht3, ht2, hy] at this
    have e1 : (name ++ 0 :: y).take val = name ++ 0 :: y.take (val - name.length - 1) := by
      rw [List.take_append, List.take_of_length_le (by omega)]
      obtain ⟨k, hk⟩ : ∃ k, val - name.length = k + 1 := ⟨val - name.length - 1, by omega⟩
      rw [hk, List.take_succ_cons]
      simp
    rw [e1] at this
    rw [List.drop_zero, this]
    exact ⟨y.take (val - name.length - 1) ++ m3.drop val, by simp⟩
  obtain ⟨y', hy'⟩ := hn3
  rw [cstr_eq hy' h0n]
  simp only [Outcome.ok_bind]
  rw [cstr_eq hd4 (fun h => h0v (by simp [h]))]
  rfl

theorem idx_eq {A t : Str} (h : 0x3D ∉ A) : (A ++ 0x3D :: t).idxOf? (0x3D : Byte) = some A.length := by
  induction A with
  | nil => simp [List.idxOf?_cons]
  | cons b A ih =>
    have hb : b ≠ 0x3D := fun e => h (by simp [e])
    rw [List.cons_append, List.idxOf?_cons, if_neg (by simpa using hb), ih fun e => h (by simp [e])]
    rfl

theorem name_no_eq {name : Str} (h : ∀ b ∈ name, IsNameByte b) : 0x3D ∉ name := by
  intro hm
  have := h _ hm
  rw [← name_iff] at this
  revert this; decide

/-- A well-formed assignment ended by a newline. -/
theorem parseLine_ok {name gap pad value tail : Str} (ha : IsAssign name gap pad value tail) (h0 : 0x00 ∉ name ++ gap ++ 0x3D :: (pad ++ value ++ tail)) (hnl : 0x0A ∉ name ++ gap ++ 0x3D :: (pad ++ value ++ tail))
    (hl : (name ++ gap ++ 0x3D :: (pad ++ value ++ tail)).length ≤ 1022) (rest : Str) :
    parseLine (name ++ gap ++ 0x3D :: (pad ++ value ++ tail) ++ 0x0A :: rest) = .ok (some (name, value), rest) := by
  have hne : (0x3D : Byte) ∉ name ++ gap := fun h => by
    rcases List.mem_append.1 h with h | h
    · exact name_no_eq ha.name.2 h
    · exact ha.gap.1 h
  have hidx := idx_eq (t := pad ++ value ++ tail ++ [0x0A]) hne
  have hv : 0 < value.length := by cases h : value with
    | nil => exact absurd h ha.value.1
    | cons _ _ => simp
  unfold parseLine
  rw [fgets_line _ 1023 rest hnl (by omega)]
  simp only
  rw [if_neg (by simp)]
  obtain ⟨z, hz⟩ : ∃ z, List.replicate (1024 - (name ++ gap ++ 0x3D :: (pad ++ value ++ tail) ++ [0x0A]).length) (0 : Byte) = 0 :: z := by
    rw [List.length_append]
    obtain ⟨k, hk⟩ : ∃ k, 1024 - ((name ++ gap ++ 0x3D :: (pad ++ value ++ tail)).length + [(0x0A : Byte)].length) = k + 1 := ⟨1024 - ((name ++ gap ++ 0x3D :: (pad ++ value ++ tail)).length + 1) - 1, by simp only [List.length_singleton]; omega⟩
    rw [hk, List.replicate_succ]; exact ⟨_, rfl⟩
  rw [hz]
  have h0' : 0x00 ∉ name ++ gap ++ 0x3D :: (pad ++ value ++ tail) ++ [0x0A] := fun h => by
    rcases List.mem_append.1 h with h | h
    · exact h0 h
    · simp at h
  rw [cstr_eq (s := name ++ gap ++ 0x3D :: (pad ++ value ++ tail) ++ [0x0A]) (z := z) (by rw [List.drop_zero]) h0']
  simp only [Outcome.ok_bind]
  rw [show name ++ gap ++ 0x3D :: (pad ++ value ++ tail) ++ [0x0A] = name ++ gap ++ 0x3D :: (pad ++ value ++ tail ++ [0x0A]) by simp, hidx]
  simp only
  have hlen : (name ++ gap ++ 0x3D :: (pad ++ value ++ tail ++ [0x0A])).length - 1 = (name ++ gap ++ 0x3D :: (pad ++ value ++ tail)).length := by simp; omega
  have hbuf : name ++ gap ++ 0x3D :: (pad ++ value ++ tail ++ [0x0A]) ++ 0 :: z = (name ++ gap ++ 0x3D :: (pad ++ value ++ tail)) ++ 0x0A :: (0 :: z) := by simp
  rw [hlen, hbuf]
  have hchop : chopLine ((name ++ gap ++ 0x3D :: (pad ++ value ++ tail)) ++ 0x0A :: (0 :: z)) (name ++ gap ++ 0x3D :: (pad ++ value ++ tail)).length rest = .ok (some ((name ++ gap ++ 0x3D :: (pad ++ value ++ tail)) ++ 0 :: (0 :: z))) := by
    unfold chopLine
    rw [rd_append_right]
    simp only [Outcome.ok_bind, if_true]
    rw [wr_lt (by rw [List.length_append (bs := 0x0A :: 0 :: z)]; simp)]
    simp only [Outcome.ok_bind]
    rw [List.set_append_right _ _ (Nat.le_refl _), Nat.sub_self]
    rfl
  rw [hchop]
  simp only [Outcome.ok_bind]
  rw [fields_ok ha rfl h0 (by simp; omega)]
  rfl

/-- A well-formed assignment at the end of the file, without newline; what follows '=' and blanks has at least two bytes. -/
theorem parseLine_last {name gap pad value tail : Str} (ha : IsAssign name gap pad value tail) (h0 : 0x00 ∉ name ++ gap ++ 0x3D :: (pad ++ value ++ tail)) (hnl : 0x0A ∉ name ++ gap ++ 0x3D :: (pad ++ value ++ tail))
    (hl : (name ++ gap ++ 0x3D :: (pad ++ value ++ tail)).length ≤ 1023) (h2 : 2 ≤ (value ++ tail).length) :
    parseLine (name ++ gap ++ 0x3D :: (pad ++ value ++ tail)) = .ok (some (name, value), []) := by
  have hne : (0x3D : Byte) ∉ name ++ gap := fun h => by
    rcases List.mem_append.1 h with h | h
    · exact name_no_eq ha.name.2 h
    · exact ha.gap.1 h
  unfold parseLine
  rw [fgets_eof _ 1023 hnl hl]
  simp only
  rw [if_neg (by simp)]
  obtain ⟨z, hz⟩ : ∃ z, List.replicate (1024 - (name ++ gap ++ 0x3D :: (pad ++ value ++ tail)).length) (0 : Byte) = 0 :: z := by
    obtain ⟨k, hk⟩ : ∃ k, 1024 - (name ++ gap ++ 0x3D :: (pad ++ value ++ tail)).length = k + 1 := ⟨1024 - (name ++ gap ++ 0x3D :: (pad ++ value ++ tail)).length - 1, by omega⟩
    rw [hk, List.replicate_succ]; exact ⟨_, rfl⟩
  rw [hz, cstr_eq (s := name ++ gap ++ 0x3D :: (pad ++ value ++ tail)) (z := z) (by rw [List.drop_zero]) h0]
  simp only [Outcome.ok_bind]
  rw [idx_eq (t := pad ++ value ++ tail) hne]
  simp only
  have hchop : chopLine (name ++ gap ++ 0x3D :: (pad ++ value ++ tail) ++ 0 :: z) ((name ++ gap ++ 0x3D :: (pad ++ value ++ tail)).length - 1) [] = .ok (some (name ++ gap ++ 0x3D :: (pad ++ value ++ tail) ++ 0 :: z)) := by
    have hlpos : name ++ gap ++ 0x3D :: (pad ++ value ++ tail) ≠ [] := by simp
    generalize name ++ gap ++ 0x3D :: (pad ++ value ++ tail) = L at *
    unfold chopLine
    have hlt : L.length - 1 < (L ++ 0 :: z).length := by simp; omega
    rw [rd_lt hlt]
    simp only [Outcome.ok_bind]
    have hlt2 : L.length - 1 < L.length := by cases L with
      | nil => exact absurd rfl hlpos
      | cons _ _ => simp
    rw [if_neg (by
      rw [List.getElem_append_left hlt2]
      intro e; exact hnl (by rw [← e]; exact List.getElem_mem _))]
    rfl
  rw [hchop]
  simp only [Outcome.ok_bind]
  rw [fields_ok ha rfl h0 (by simp at h2 ⊢; omega)]
  rfl

end ZT.Cfg
