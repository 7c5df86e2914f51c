import Verif.Itoa.Model
import Verif.Numeral

/-!
# C34: zt_cstr_itoa

Specification: `Num.signed v`, the decimal text of `v` (Verif/Numeral.lean).
-/

namespace ZT.Itoa

open Num

theorem natAbs_tdiv (v : Int) (n : Nat) : (v.tdiv n).natAbs = v.natAbs / n := by
  rw [Int.natAbs_tdiv]; rfl

/-! ## The display length -/

theorem len_step {n : Nat} (h : 1000 ≤ n) : (digits 10 n).length = (digits 10 (n / 1000)).length + 3 := by
  rw [digits_ge (by omega) (by omega), digits_ge (n := n / 10) (by omega) (by omega), digits_ge (n := n / 10 / 10) (by omega) (by omega)]
  rw [Nat.div_div_eq_div_mul, Nat.div_div_eq_div_mul]
  simp

theorem lenLoop_spec : ∀ (fuel : Nat) (v r : Int), v.natAbs < 1000 ^ fuel → 0 < fuel →
    ∃ v' r', lenLoop fuel v r = .ok (v', r') ∧ v'.natAbs < 1000 ∧ r' - r = (digits 10 v.natAbs).length - (digits 10 v'.natAbs).length := by
  intro fuel
  induction fuel with
  | zero => intro v r _ h; omega
  | succ fuel ih =>
      intro v r hv _
      rw [lenLoop]
      by_cases hc : v ≥ 1000 ∨ v ≤ -1000
      · rw [if_pos hc]
        have hn : 1000 ≤ v.natAbs := by omega
        have hd : (v.tdiv 1000).natAbs = v.natAbs / 1000 := natAbs_tdiv v 1000
        have hf : 0 < fuel := by
          rcases Nat.eq_zero_or_pos fuel with h | h
          · subst h; simp at hv; omega
          · exact h
        obtain ⟨v', r', e, h1, h2⟩ := ih (v.tdiv 1000) (r + 3) (by rw [hd]; rw [Nat.pow_succ] at hv; omega) hf
        refine ⟨v', r', e, h1, ?_⟩
        rw [hd] at h2
        rw [len_step hn]
        omega
      · rw [if_neg hc]
        exact ⟨v, r, rfl, by omega, by omega⟩

theorem digits_len_small {n : Nat} (h : n < 1000) : (digits 10 n).length = if n ≥ 100 then 3 else if n ≥ 10 then 2 else 1 := by
  have h0 : 0 < (digits 10 n).length := by
    have := digits_ne_nil 10 n
    cases hd : digits 10 n with
    | nil => exact absurd hd this
    | cons => simp
  have h1 := digits_length_le (b := 10) (n := n) (k := 1) (by omega) (by omega)
  have h2 := digits_length_le (b := 10) (n := n) (k := 2) (by omega) (by omega)
  have h3 := digits_length_le (b := 10) (n := n) (k := 3) (by omega) (by omega)
  simp only [Nat.reducePow] at h1 h2 h3
  split
  · omega
  · split <;> omega

/-- zt_cstr_int_display_len is the length of the decimal text. -/
theorem c34_display_len {v : Int} {fuel : Nat} (hv : v.natAbs < 1000 ^ fuel) (hf : 0 < fuel) : displayLen fuel v = .ok (signed v).length := by
  obtain ⟨v', r', e, h1, h2⟩ := lenLoop_spec fuel v (if v ≥ 0 then 1 else 2) hv hf
  rw [displayLen]
  simp only
  rw [e]
  simp only [Outcome.ok_bind]
  have hs := digits_len_small h1
  have hl : ((signed v).length : Int) = (if v < 0 then 1 else 0) + (digits 10 v.natAbs).length := by
    rw [signed, List.length_append]
    split <;> simp
  rw [hl]
  have e1 : (v' ≥ 100 ∨ v' ≤ -100) ↔ v'.natAbs ≥ 100 := by omega
  have e2 : (v' ≥ 10 ∨ v' ≤ -10) ↔ v'.natAbs ≥ 10 := by omega
  by_cases c1 : v'.natAbs ≥ 100
  · rw [if_pos (e1.2 c1)]
    rw [if_pos c1] at hs
    refine congrArg Outcome.ok ?_
    split at h2 <;> split <;> omega
  · rw [if_neg (mt e1.1 c1)]
    rw [if_neg c1] at hs
    by_cases c2 : v'.natAbs ≥ 10
    · rw [if_pos (e2.2 c2)]
      rw [if_pos c2] at hs
      refine congrArg Outcome.ok ?_
      split at h2 <;> split <;> omega
    · rw [if_neg (mt e2.1 c2)]
      rw [if_neg c2] at hs
      refine congrArg Outcome.ok ?_
      split at h2 <;> split <;> omega

/-! ## The digits -/

theorem table (v : Int) : rd integers (9 + v.tmod 10).toNat = .ok (byte (v.natAbs % 10).digitChar) := by
  have key : ∀ k : Fin 19, rd integers k.val = .ok (byte (Nat.digitChar ((k.val : Int) - 9).natAbs)) := by decide
  have h1 : (v.tmod 10).natAbs = v.natAbs % 10 := by rw [Int.natAbs_tmod]; rfl
  have h2 : v.natAbs % 10 < 10 := Nat.mod_lt _ (by omega)
  have hk : (9 + v.tmod 10).toNat < 19 := by omega
  have := key ⟨(9 + v.tmod 10).toNat, hk⟩
  simp only at this
  rw [this]
  congr 3
  omega

theorem set_at {α : Type} (pre post : List α) (x y : α) : (pre ++ x :: post).set pre.length y = pre ++ y :: post := by simp

theorem digitLoop_spec : ∀ (fuel : Nat) (v : Int) (pre mid post : List Byte), v.natAbs < 10 ^ fuel → 0 < fuel → mid.length = (digits 10 v.natAbs).length → pre.length + mid.length < 2 ^ 64 →
    digitLoop fuel (pre ++ mid ++ post) v (pre.length + mid.length - 1) = .ok (pre ++ digits 10 v.natAbs ++ post) := by
  intro fuel
  induction fuel with
  | zero => intro v _ _ _ _ h; omega
  | succ fuel ih =>
      intro v pre mid post hv _ hm hlt
      rw [digitLoop, table]
      simp only [Outcome.ok_bind]
      have hd : (v.tdiv 10).natAbs = v.natAbs / 10 := natAbs_tdiv v 10
      rcases EList_snoc mid with rfl | ⟨t, x, rfl⟩
      · have := digits_ne_nil 10 v.natAbs
        simp at hm
        exact absurd hm.symm (by simpa using this)
      · have hloc : pre.length + (t ++ [x]).length - 1 = (pre ++ t).length := by simp
        rw [hloc]
        have hb : pre ++ (t ++ [x]) ++ post = (pre ++ t) ++ x :: post := by simp
        rw [hb, wr_lt (by simp), set_at]
        simp only [Outcome.ok_bind]
        by_cases hz : v.tdiv 10 = 0
        · rw [if_neg (by simpa using hz)]
          have hs : v.natAbs < 10 := by
            have : (v.tdiv 10).natAbs = 0 := by rw [hz]; rfl
            omega
          rw [digits_lt hs] at hm ⊢
          have ht : t = [] := by simp at hm; exact hm
          subst ht
          rw [Nat.mod_eq_of_lt hs]
          simp
        · rw [if_pos hz]
          have hs : 10 ≤ v.natAbs := by
            have : (v.tdiv 10).natAbs ≠ 0 := fun h => hz (Int.natAbs_eq_zero.1 h)
            omega
          rw [digits_ge (by omega) hs] at hm ⊢
          have ht : t.length = (digits 10 (v.natAbs / 10)).length := by simpa using hm
          have h0 : 0 < t.length := by
            rw [ht]
            cases hd : digits 10 (v.natAbs / 10) with
            | nil => exact absurd hd (digits_ne_nil _ _)
            | cons => simp
          have hdec : dec (pre ++ t).length = pre.length + t.length - 1 := by
            simp only [List.length_append, List.length_cons, List.length_nil] at hlt ⊢
            rw [dec]
            omega
          rw [hdec]
          have hf : 0 < fuel := by
            rcases Nat.eq_zero_or_pos fuel with h | h
            · subst h; simp at hv; omega
            · exact h
          have hih := ih (v.tdiv 10) pre t (byte (v.natAbs % 10).digitChar :: post) (by rw [hd]; rw [Nat.pow_succ] at hv; omega) hf (by rw [hd]; exact ht) (by
            simp only [List.length_append, List.length_cons, List.length_nil] at hlt; omega)
          rw [hih, hd]
          simp
where
  EList_snoc (l : List Byte) : l = [] ∨ ∃ t p, l = t ++ [p] := by
    cases l with
    | nil => exact .inl rfl
    | cons x xs => exact .inr ⟨_, _, (List.dropLast_concat_getLast (l := x :: xs) (by simp)).symm⟩

/-- The loop bounds needed for a 32-bit int. -/
theorem fuel_ok {v : Int} (h : -2 ^ 31 ≤ v ∧ v < 2 ^ 31) {fuel : Nat} (hf : 10 ≤ fuel) : v.natAbs < 10 ^ fuel ∧ v.natAbs < 1000 ^ fuel := by
  have h1 : (10 : Nat) ^ 10 ≤ 10 ^ fuel := Nat.pow_le_pow_right (by omega) hf
  have h2 : (1000 : Nat) ^ 10 ≤ 1000 ^ fuel := Nat.pow_le_pow_right (by omega) hf
  have h3 : v.natAbs ≤ 2 ^ 31 := by omega
  constructor
  · exact Nat.lt_of_le_of_lt h3 (Nat.lt_of_lt_of_le (by decide) h1)
  · exact Nat.lt_of_le_of_lt h3 (Nat.lt_of_lt_of_le (by decide) h2)

theorem signed_len_le {v : Int} (h : -2 ^ 31 ≤ v ∧ v < 2 ^ 31) : (signed v).length ≤ 11 := by
  have h1 := (digits_length_le (b := 10) (n := v.natAbs) (k := 10) (by omega) (by omega)).2 (fuel_ok h (Nat.le_refl 10)).1
  rw [signed, List.length_append]
  split <;> simp <;> omega

/-- C34, where it holds: for every int, when the buffer has room for the text and its terminator behind `offset`, exactly these bytes are stored, the rest of the buffer is unchanged, and the position of the
terminator is returned. -/
theorem c34_itoa_partial {v : Int} (hv : -2 ^ 31 ≤ v ∧ v < 2 ^ 31) {fuel : Nat} (hf : 10 ≤ fuel) (pre mid post : List Byte) (x : Byte) (hm : mid.length = (signed v).length) (bufsiz : Nat)
    (hb : (pre ++ mid).length < bufsiz) (hblk : (pre ++ mid).length + 12 < 2 ^ 64) :
    itoa fuel (some (pre ++ mid ++ x :: post)) v pre.length bufsiz = .ok ((pre ++ mid).length, some (pre ++ signed v ++ 0 :: post)) := by
  obtain ⟨f1, f2⟩ := fuel_ok hv hf
  rw [itoa, c34_display_len f2 (by omega)]
  simp only [Outcome.ok_bind, Int.toNat_natCast]
  have hmod : (pre.length + (signed v).length) % 2 ^ 64 = (pre ++ mid).length := by
    rw [← hm, List.length_append, Nat.mod_eq_of_lt]
    simp only [List.length_append] at hblk
    omega
  rw [hmod, if_neg (by omega)]
  have hpos : 0 < (digits 10 v.natAbs).length := by
    cases hd : digits 10 v.natAbs with
    | nil => exact absurd hd (digits_ne_nil _ _)
    | cons => simp
  by_cases hneg : v < 0
  · rw [if_pos hneg]
    rw [signed, if_pos hneg] at hm ⊢
    cases mid with
    | nil => simp at hm
    | cons m mid =>
        have hm' : mid.length = (digits 10 v.natAbs).length := by simp at hm; omega
        have e1 : pre ++ m :: mid ++ x :: post = pre ++ m :: (mid ++ x :: post) := by simp
        rw [e1, wr_lt (by simp), set_at]
        simp only [Outcome.ok_bind]
        have e2 : pre ++ 45 :: (mid ++ x :: post) = (pre ++ 45 :: mid) ++ x :: post := by simp
        have l2 : (pre ++ m :: mid).length = (pre ++ 45 :: mid).length := by simp
        rw [e2, l2, wr_lt (by simp), set_at]
        simp only [Outcome.ok_bind]
        have hdec : dec (pre ++ 45 :: mid).length = (pre ++ [45]).length + mid.length - 1 := by
          simp only [List.length_append, List.length_cons, List.length_nil] at hblk ⊢
          rw [dec]; omega
        have hl := digitLoop_spec fuel v (pre ++ [45]) mid (0 :: post) f1 (by omega) hm' (by
          simp only [List.length_append, List.length_cons, List.length_nil] at hblk ⊢; omega)
        rw [hdec]
        have e3 : (pre ++ 45 :: mid) ++ 0 :: post = pre ++ [45] ++ mid ++ 0 :: post := by simp
        rw [e3, hl]
        simp [byte]
  · rw [if_neg hneg]
    rw [signed, if_neg hneg] at hm ⊢
    simp only [Outcome.pure_eq, Outcome.ok_bind]
    simp only [List.nil_append] at hm ⊢
    rw [wr_lt (by simp), set_at]
    simp only [Outcome.ok_bind]
    have hdec : dec (pre ++ mid).length = pre.length + mid.length - 1 := by
      simp only [List.length_append] at hblk ⊢
      rw [dec]; omega
    rw [hdec, digitLoop_spec fuel v pre mid (0 :: post) f1 (by omega) hm (by
      simp only [List.length_append] at hblk; omega)]
    simp

/-- C34: a buffer without room for the text is refused and left as it is. -/
theorem c34_refuse {v : Int} (hv : -2 ^ 31 ≤ v ∧ v < 2 ^ 31) {fuel : Nat} (hf : 10 ≤ fuel) (b : List Byte) (offset bufsiz : Nat) (h : bufsiz < offset + (signed v).length) (ho : offset + 12 < 2 ^ 64) :
    itoa fuel (some b) v offset bufsiz = .ok (-1, some b) := by
  obtain ⟨f1, f2⟩ := fuel_ok hv hf
  rw [itoa, c34_display_len f2 (by omega)]
  simp only [Outcome.ok_bind, Int.toNat_natCast]
  have := signed_len_le hv
  rw [Nat.mod_eq_of_lt (by omega), if_pos h]
  rfl

/-- C34: a null destination is refused. -/
theorem c34_null {v : Int} (hv : -2 ^ 31 ≤ v ∧ v < 2 ^ 31) {fuel : Nat} (hf : 10 ≤ fuel) (offset bufsiz : Nat) : itoa fuel none v offset bufsiz = .ok (-1, none) := by
  rw [itoa, c34_display_len (fuel_ok hv hf).2 (by omega)]
  rfl

/-- C34 is violated at one size: when the text fits but its terminator does not, for every value the terminator is stored one byte behind the buffer. -/
theorem c34_overrun_violation {v : Int} (hv : -2 ^ 31 ≤ v ∧ v < 2 ^ 31) {fuel : Nat} (hf : 10 ≤ fuel) (b : List Byte) (offset : Nat) (h : b.length = offset + (signed v).length) (ho : offset + 12 < 2 ^ 64) :
    itoa fuel (some b) v offset b.length = .ub := by
  obtain ⟨f1, f2⟩ := fuel_ok hv hf
  rw [itoa, c34_display_len f2 (by omega)]
  simp only [Outcome.ok_bind, Int.toNat_natCast]
  have := signed_len_le hv
  rw [Nat.mod_eq_of_lt (by omega), if_neg (by omega)]
  have hpos : 0 < (signed v).length := by
    rw [signed, List.length_append]
    cases hd : digits 10 v.natAbs with
    | nil => exact absurd hd (digits_ne_nil _ _)
    | cons => simp only [List.length_cons]; omega
  split
  · rw [wr_lt (by omega)]
    simp only [Outcome.ok_bind]
    rw [wr_ge (by simp; omega)]
    rfl
  · simp only [Outcome.pure_eq, Outcome.ok_bind]
    rw [wr_ge (by omega)]
    rfl

/-- C34 is violated for an offset so large that the end position wraps around: the check passes and the store is far outside. -/
theorem c34_wrap_violation : itoa 10 (some [1, 2, 3, 4]) 0 (2 ^ 64 - 1) 4 = .ub := by decide +kernel

example : itoa 10 (some [1, 2, 3, 4, 5, 6, 7]) (-120) 1 7 = .ok (5, some [1, 45, 49, 50, 48, 0, 7]) := by decide +kernel
example : signed (-120) = [45, 49, 50, 48] := by decide +kernel

end ZT.Itoa
