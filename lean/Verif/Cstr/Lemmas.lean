import Verif.Cstr.Spec

namespace ZT.Cstr

theorem IsStr.strlen {m s : List Byte} (h : IsStr m s) : strlen m = .ok s.length := by
  obtain ⟨h0, rest, rfl⟩ := h
  exact strlen_eq s rest h0

theorem IsStr.length {m s : List Byte} (h : IsStr m s) : s.length < m.length := by
  obtain ⟨_, rest, rfl⟩ := h
  simp

theorem IsStr.get {m s : List Byte} (h : IsStr m s) {k : Nat} (hk : k < s.length) : rd m k = .ok s[k] := by
  obtain ⟨_, rest, rfl⟩ := h
  rw [rd_lt (by simp; omega)]
  simp [List.getElem_append_left hk]

theorem IsStr.drop {m s : List Byte} (h : IsStr m s) {k : Nat} (hk : k ≤ s.length) : IsStr (m.drop k) (s.drop k) := by
  obtain ⟨h0, rest, rfl⟩ := h
  refine ⟨fun b hb => h0 b (List.mem_of_mem_drop hb), rest, ?_⟩
  rw [List.drop_append_of_le_length hk]

theorem IsStr.chars {m s : List Byte} (h : IsStr m s) {a b : Nat} (hb : b < s.length) : (m.drop a).take (b + 1 - a) = chars s a b := by
  obtain ⟨_, rest, rfl⟩ := h
  rw [Cstr.chars, List.drop_take]
  by_cases ha : a ≤ s.length
  · rw [List.drop_append_of_le_length ha, List.take_append_of_le_length (by simp; omega)]
  · have : b + 1 - a = 0 := by omega
    simp [this]

theorem IsStr.cstr {m s : List Byte} (h : IsStr m s) : cstr m = s := by
  obtain ⟨h0, rest, rfl⟩ := h
  rw [Cstr.cstr, List.takeWhile_append_of_pos (by simpa using h0)]
  simp

theorem length_chars {s : List Byte} {a b : Nat} (hab : a ≤ b) (hb : b < s.length) : (chars s a b).length = b + 1 - a := by simp [chars]; omega

theorem bounds_some {n : Nat} {i j : Int} {a b : Nat} (hn : 0 < n) (h : bounds n i j = some (a, b)) : a ≤ b ∧ b < n := by
  have key : ∀ k p, position n k = some p → p < n := by
    intro k p hk
    simp only [position] at hk
    split at hk
    · cases hk; omega
    · split at hk
      · cases hk; omega
      · cases hk
  simp only [bounds] at h
  split at h
  · rename_i x y hx hy
    cases h
    have := key _ _ hx
    have := key _ _ hy
    omega
  · cases h

theorem idx_position {n : Nat} (hn : 0 < n) (k : Int) : (∀ p, position n k = some p → idx k n = p ∧ p < n) ∧ (position n k = none → idx k n < 0) := by
  simp only [position, idx, base]
  constructor
  · intro p hp
    split at hp
    · rename_i h
      rw [if_neg (by omega)]
      cases hp
      split <;> omega
    · split at hp
      · rename_i h1 h2
        rw [if_pos (by omega), if_neg (by omega)]
        cases hp
        omega
      · cases hp
  · intro hp
    split at hp
    · cases hp
    · split at hp
      · cases hp
      · rw [if_pos (by omega), if_neg (by omega)]
        omega

theorem convert_ok {m s : List Byte} (h : IsStr m s) {i j : Int} {a b : Nat} (hs : s ≠ []) (hb : bounds s.length i j = some (a, b)) : convert m i j = .ok ((a : Int), (b : Int)) := by
  have hn : 0 < s.length := List.length_pos_iff.2 hs
  have hab := bounds_some hn hb
  simp only [bounds] at hb
  split at hb
  · rename_i x y hx hy
    have h1 := (idx_position hn i).1 x hx
    have h2 := (idx_position hn j).1 y hy
    simp only [Option.some.injEq, Prod.mk.injEq] at hb
    rw [convert, h.strlen]
    simp only [Outcome.ok_bind, if_pos hn, h1.1, h2.1, order]
    by_cases hxy : (x : Int) > y
    · rw [if_pos hxy]
      have e1 : y = a := by omega
      have e2 : x = b := by omega
      subst e1; subst e2
      simp only
      rw [if_pos (by omega)]
    · rw [if_neg hxy]
      have e1 : x = a := by omega
      have e2 : y = b := by omega
      subst e1; subst e2
      simp only
      rw [if_pos (by omega)]
  · cases hb

theorem convert_abort {m s : List Byte} (h : IsStr m s) {i j : Int} (hs : s ≠ []) (hb : bounds s.length i j = none) : convert m i j = .abort := by
  have hn : 0 < s.length := List.length_pos_iff.2 hs
  have key : idx i s.length < 0 ∨ idx j s.length < 0 := by
    simp only [bounds] at hb
    split at hb
    · cases hb
    · rename_i hno
      cases hi : position s.length i with
      | none => exact .inl ((idx_position hn i).2 hi)
      | some x =>
          cases hj : position s.length j with
          | none => exact .inr ((idx_position hn j).2 hj)
          | some y => exact absurd hj (hno x y hi)
  rw [convert, h.strlen]
  simp only [Outcome.ok_bind, if_pos hn, order]
  split
  · simp only; rw [if_neg (by omega)]
  · simp only; rw [if_neg (by omega)]

theorem convert_empty {m : List Byte} (h : IsStr m []) (i j : Int) : convert m i j = .ok (0, 0) := by
  rw [convert, h.strlen]
  rfl

theorem idxlen_eq {a b : Nat} (h : a ≤ b) : idxlen a b = .ok (b + 1 - a) := by
  simp only [idxlen]
  split
  · rw [if_pos (by omega)]; exact congrArg _ (by omega)
  · rw [if_pos (by omega)]; exact congrArg _ (by omega)

theorem rounds_eq (a b : Nat) : rounds a b = (b + 1 - a) + 1 := by simp only [rounds]; omega

theorem rdI_nat (m : List Byte) (k : Nat) : rdI m k = rd m k := by simp [rdI]

theorem ptr_nat {m : List Byte} {k : Nat} (h : k ≤ m.length) : ptr m k = .ok (m.drop k) := by
  rw [ptr, if_pos (by omega)]; rfl

theorem copyUp_spec {m : List Byte} {f : Byte → Outcome Byte} {g : Byte → Byte} {b : Nat} (hf : ∀ c ∈ m, f c = .ok (g c)) (hb : b < m.length) : ∀ (n a : Nat) (done tail : List Byte) (fuel : Nat), a + n = b + 1 →
    n ≤ tail.length → n < fuel → copyUp m f b fuel a (done ++ tail) done.length = .ok (done ++ ((m.drop a).take n).map g ++ tail.drop n, done.length + n) := by
  intro n
  induction n with
  | zero =>
      intro a done tail fuel ha _ hfu
      cases fuel with
      | zero => omega
      | succ fuel =>
          rw [copyUp, if_neg (by omega)]
          simp
  | succ n ih =>
      intro a done tail fuel ha ht hfu
      cases fuel with
      | zero => omega
      | succ fuel =>
          cases tail with
          | nil => simp at ht
          | cons t tail =>
              have ham : a < m.length := by omega
              rw [copyUp, if_pos (by omega), rdI_nat, rd_lt ham, Outcome.ok_bind, hf _ (List.getElem_mem ham), Outcome.ok_bind, wr_lt (by simp), Outcome.ok_bind]
              have e : (done ++ t :: tail).set done.length (g m[a]) = (done ++ [g m[a]]) ++ tail := by simp
              have h := ih (a + 1) (done ++ [g m[a]]) tail fuel (by omega) (by simp at ht; omega) (by omega)
              rw [List.length_append, List.length_singleton] at h
              rw [e]
              refine Eq.trans h ?_
              rw [List.drop_eq_getElem_cons ham, List.take_succ_cons, List.map_cons, List.drop_succ_cons]
              simp only [List.append_assoc, List.cons_append, List.nil_append]
              rw [show done.length + 1 + n = done.length + (n + 1) by omega]

theorem copyDown_spec {m : List Byte} {a : Nat} : ∀ (n : Nat) (b : Int) (done tail : List Byte) (fuel : Nat), b + 1 = a + n → a + n ≤ m.length →
    n ≤ tail.length → n < fuel → copyDown m a fuel b (done ++ tail) done.length = .ok (done ++ ((m.drop a).take n).reverse ++ tail.drop n, done.length + n) := by
  intro n
  induction n with
  | zero =>
      intro b done tail fuel hb _ _ hfu
      cases fuel with
      | zero => omega
      | succ fuel =>
          rw [copyDown, if_neg (by omega)]
          simp
  | succ n ih =>
      intro b done tail fuel hb hm ht hfu
      cases fuel with
      | zero => omega
      | succ fuel =>
          cases tail with
          | nil => simp at ht
          | cons t tail =>
              obtain ⟨k, rfl⟩ : ∃ k : Nat, b = k := ⟨b.toNat, by omega⟩
              have hk : k = a + n := by omega
              have ham : k < m.length := by omega
              rw [copyDown, if_pos (by omega), rdI_nat, rd_lt ham, Outcome.ok_bind, wr_lt (by simp), Outcome.ok_bind]
              have e : (done ++ t :: tail).set done.length m[k] = (done ++ [m[k]]) ++ tail := by simp
              have h := ih ((k : Int) - 1) (done ++ [m[k]]) tail fuel (by omega) (by omega) (by simp at ht; omega) (by omega)
              rw [List.length_append, List.length_singleton] at h
              rw [e]
              refine Eq.trans h ?_
              have e2 : (m.drop a).take (n + 1) = (m.drop a).take n ++ [m[k]] := by
                rw [List.take_add_one]
                simp [hk]
              rw [e2, List.reverse_append, List.reverse_singleton, List.drop_succ_cons]
              simp only [List.append_assoc, List.cons_append, List.nil_append]
              rw [show done.length + 1 + n = done.length + (n + 1) by omega]

theorem copy_ok {m s : List Byte} (h : IsStr m s) {a b : Nat} (hab : a ≤ b) (hb : b < s.length) (done tail : List Byte) (ht : b + 1 - a ≤ tail.length) :
    copyUp m .ok b (rounds a b) a (done ++ tail) done.length = .ok (done ++ chars s a b ++ tail.drop (b + 1 - a), done.length + (b + 1 - a)) := by
  rw [rounds_eq]
  have := copyUp_spec (m := m) (f := .ok) (g := id) (fun c _ => rfl) (b := b) (by have := h.length; omega) (b + 1 - a) a done tail (b + 1 - a + 1) (by omega) ht (by omega)
  rw [h.chars hb, List.map_id] at this
  exact this

theorem wr_last (done : List Byte) (x : Byte) (rest : List Byte) (c : Byte) : wr (done ++ x :: rest) done.length c = .ok (done ++ c :: rest) := by
  rw [wr_lt (by simp)]
  simp

end ZT.Cstr
