import Verif.IntTime.Lemmas

/-!
# Property theorems for zt_int.h (C43) and zt_time.c (C44)

`Width w` : `w` is the width of char, short, int or long. `InS w x` / `InU w x` : representable.
-/

namespace ZT.IntOps
open CInt

/-- **C43** unsigned addition: exact when representable, abort otherwise. -/
theorem uadd_exact (w : Nat) (l r : Nat) (hl : InU w l) (hr : InU w r) :
    uadd w l r = if InU w (l + r) then .ok (l + r) else .abort := by
  have hp : 0 < 2 ^ w := Nat.two_pow_pos w
  have hu : umax w = 2 ^ w - 1 := rfl
  simp only [uadd, assert, toU]
  by_cases h : InU w (l + r)
  · rw [if_pos h]
    simp only [InU] at *
    rw [if_pos (by omega), Nat.mod_eq_of_lt (by omega)]
  · rw [if_neg h]
    simp only [InU] at *
    rw [if_neg (by omega)]

example : InU 8 200 ∧ InU 8 100 ∧ ¬ InU 8 (200 + 100) := by decide

/-- **C43** signed addition. -/
theorem sadd_exact (w : Nat) (hw : Width w) (l r : Int) (hl : InS w l) (hr : InS w r) :
    sadd w l r = if InS w (l + r) then .ok (l + r) else .abort := by
  have ⟨hl1, hl2⟩ := InS_mono w hw l hl
  have ⟨hr1, hr2⟩ := InS_mono w hw r hr
  have hb1 : r < 0 → InS (promote w) (smin w - r) := by
    simp only [InS, smin, smax] at *
    rcases hw with rfl | rfl | rfl | rfl <;> simp [promote] at * <;> omega
  have hb2 : ¬ l < 0 → InS (promote w) (smax w - l) := by
    simp only [InS, smin, smax] at *
    rcases hw with rfl | rfl | rfl | rfl <;> simp [promote] at * <;> omega
  have hret : InS w (l + r) →
      (do let s ← arith (promote w) (l + r); pure (toS w s) : Outcome Int) = .ok (l + r) := by
    intro hin
    simp [arith, (InS_mono w hw _ hin).1, toS_of_in w hw _ hin]
  simp only [sadd, sameSign_eq l r hl2 hr2, assert]
  by_cases h1 : l < 0 <;> by_cases h2 : r < 0
  · simp only [h1, h2, decide_true, if_true, arith, hb1 h2, Outcome.ok_bind]
    by_cases hin : InS w (l + r)
    · have := hret hin
      simp only [arith] at this
      rw [if_pos (by simp only [InS] at hin; omega), if_pos hin, this]
    · rw [if_neg (by simp only [InS] at *; omega), if_neg hin]
  · have hin : InS w (l + r) := by simp only [InS, smin, smax] at *; omega
    simp [h1, h2, hin]
    exact hret hin
  · have hin : InS w (l + r) := by simp only [InS, smin, smax] at *; omega
    simp [h1, h2, hin]
    exact hret hin
  · simp only [h1, h2, decide_true, if_true, if_false, arith, hb2 h1, Outcome.ok_bind]
    by_cases hin : InS w (l + r)
    · have := hret hin
      simp only [arith] at this
      rw [if_pos (by simp only [InS] at hin; omega), if_pos hin, this]
    · rw [if_neg (by simp only [InS] at *; omega), if_neg hin]

/-- **C43** signed subtraction. -/
theorem ssub_exact (w : Nat) (hw : Width w) (l r : Int) (hl : InS w l) (hr : InS w r) :
    ssub w l r = if InS w (l - r) then .ok (l - r) else .abort := by
  have ⟨hl1, hl2⟩ := InS_mono w hw l hl
  have ⟨hr1, hr2⟩ := InS_mono w hw r hr
  have hb1 : r < 0 → InS (promote w) (smax w + r) := by
    simp only [InS, smin, smax] at *
    rcases hw with rfl | rfl | rfl | rfl <;> simp [promote] at * <;> omega
  have hb2 : ¬ r < 0 → InS (promote w) (smin w + r) := by
    simp only [InS, smin, smax] at *
    rcases hw with rfl | rfl | rfl | rfl <;> simp [promote] at * <;> omega
  have hret : InS w (l - r) →
      (do let s ← arith (promote w) (l - r); pure (toS w s) : Outcome Int) = .ok (l - r) := by
    intro hin
    simp [arith, (InS_mono w hw _ hin).1, toS_of_in w hw _ hin]
  simp only [ssub, sameSign_eq l r hl2 hr2, assert]
  by_cases h1 : l < 0 <;> by_cases h2 : r < 0
  · have hin : InS w (l - r) := by simp only [InS, smin, smax] at *; omega
    simp [h1, h2, hin]
    exact hret hin
  · have h3 : ¬ l ≥ 0 := by omega
    simp only [h1, h2, h3, decide_false, Bool.not_false, iff_false, not_true_eq_false, if_true, if_false, arith,
      hb2 h2, Outcome.ok_bind]
    by_cases hin : InS w (l - r)
    · have := hret hin
      simp only [arith] at this
      rw [if_pos (by simp only [InS] at hin; omega), if_pos hin, this]
    · rw [if_neg (by simp only [InS] at *; omega), if_neg hin]
  · have h3 : l ≥ 0 := by omega
    simp only [h1, h2, h3, decide_false, Bool.not_false, iff_true, if_true, arith,
      hb1 h2, Outcome.ok_bind]
    by_cases hin : InS w (l - r)
    · have := hret hin
      simp only [arith] at this
      rw [if_pos (by simp only [InS] at hin; omega), if_pos hin, this]
    · rw [if_neg (by simp only [InS] at *; omega), if_neg hin]
  · have hin : InS w (l - r) := by simp only [InS, smin, smax] at *; omega
    simp [h1, h2, hin]
    exact hret hin

example : Width 32 ∧ InS 32 (-2147483648) ∧ InS 32 1 ∧ ¬ InS 32 (-2147483648 - 1) := by decide

/-- **C43** unsigned multiplication (char, short, int; the long instance does not exist on x86_64). -/
theorem umul_exact (w : Nat) (hw : w = 8 ∨ w = 16 ∨ w = 32) (l r : Nat) (hl : InU w l) (hr : InU w r) :
    umul w l r = if InU w (l * r) then .ok (l * r) else .abort := by
  have hprod : l * r ≤ umax w * umax w := Nat.mul_le_mul hl hr
  have hu : umax w = 2 ^ w - 1 := rfl
  have hlt : l * r < 2 ^ cvWidth w := by
    simp only [InU] at *
    rcases hw with rfl | rfl | rfl <;> simp [umax, cvWidth] at * <;> omega
  simp only [umul, assert, toU, Nat.shiftRight_eq_div_pow, Nat.mod_eq_of_lt hlt]
  have hp : 0 < 2 ^ w := Nat.two_pow_pos w
  by_cases h : InU w (l * r)
  · rw [if_pos h]
    simp only [InU] at h
    rw [Nat.div_eq_of_lt (by omega), Nat.mod_eq_of_lt (by omega)]; simp
  · rw [if_neg h]
    simp only [InU] at h
    have : 1 ≤ l * r / 2 ^ w := by rw [Nat.le_div_iff_mul_le hp]; omega
    rw [if_neg (by omega)]

/-- **C43** signed multiplication. -/
theorem smul_exact (w : Nat) (hw : w = 8 ∨ w = 16 ∨ w = 32) (l r : Int) (hl : InS w l) (hr : InS w r) :
    smul w l r = if InS w (l * r) then .ok (l * r) else .abort := by
  have hW : Width w := by rcases hw with rfl | rfl | rfl <;> decide
  have hz : InS w 0 := by rcases hw with rfl | rfl | rfl <;> decide
  unfold smul
  by_cases h0 : r = 0 ∨ l = 0
  · rw [if_pos h0]
    rcases h0 with rfl | rfl <;> simp [hz]
  · rw [if_neg h0]
    by_cases h1 : r = 1 ∨ l = 1
    · rw [if_pos h1]
      have hin : InS w (l * r) := by rcases h1 with rfl | rfl <;> simpa
      have ⟨hp, _⟩ := InS_mono w hW _ hin
      rw [Int.mul_comm r l]
      simp [arith, hp, toS_of_in w hW _ hin, hin]
    · rw [if_neg h1]
      -- |l * r| <= 2^(w-1) * 2^(w-1)
      have hlb : l.natAbs ≤ 2 ^ (w - 1) := by simp only [InS, smin, smax] at hl; omega
      have hrb : r.natAbs ≤ 2 ^ (w - 1) := by simp only [InS, smin, smax] at hr; omega
      have hpb := Nat.mul_le_mul hlb hrb
      rw [← Int.natAbs_mul] at hpb
      have hcv : InS (cvWidth w) (l * r) := by
        simp only [InS, smin, smax]
        rcases hw with rfl | rfl | rfl <;> simp [cvWidth] at * <;> omega
      simp only [arith, hcv, if_true, Outcome.ok_bind, assert]
      by_cases hin : InS w (l * r)
      · have ⟨hp, _⟩ := InS_mono w hW _ hin
        have hb := hin
        simp only [InS] at hb
        rw [if_pos (by simp; omega), if_pos hin, if_pos hp]
        simp [toS_of_in w hW _ hin]
      · have hb := hin
        simp only [InS] at hb
        rw [if_neg hin, if_neg (by simp; omega)]

example : InS 32 65536 ∧ InS 32 32768 ∧ ¬ InS 32 (65536 * 32768) := by decide

/-- **C43** unsigned division: exact unless the divisor is zero, which aborts. -/
theorem udiv_exact (w : Nat) (l r : Nat) (hl : InU w l) :
    udiv w l r = if r = 0 then .abort else .ok (l / r) := by
  simp only [udiv, assert, toU, InU, umax] at *
  have hp : 0 < 2 ^ w := Nat.two_pow_pos w
  have hle : l / r ≤ l := Nat.div_le_self l r
  by_cases h : r = 0
  · simp [h]
  · simp [h, Nat.mod_eq_of_lt (show l / r < 2 ^ w by omega)]

/-- **C43 (part)** unsigned subtraction is exact, and it aborts whenever the result is negative.
Missing from the full property `if r ≤ l then ok (l - r) else abort`: the case `l = r` (see below). -/
theorem usub_exact_partial (w : Nat) (l r : Nat) (hl : InU w l) (hne : l ≠ r) :
    usub w l r = if r ≤ l then .ok (l - r) else .abort := by
  simp only [usub, assert, toU, InU, umax] at *
  have hp : 0 < 2 ^ w := Nat.two_pow_pos w
  by_cases h : r ≤ l
  · rw [if_pos (by omega), if_pos h, Nat.mod_eq_of_lt (by omega)]
  · rw [if_neg (by omega), if_neg h]

/-- Violation of C43: `zt_*_sub(x, x)` aborts for every `x` of every unsigned type, although 0 is
representable (the assertion is `lhs > rhs` instead of `lhs >= rhs`). -/
theorem usub_equal_aborts (w x : Nat) : usub w x x = .abort := by simp [usub, assert]

/-- **C43 (part)** signed division: exact when representable, abort on zero divisor and on `MIN / -1`.
Missing: both operands negative with a divisor other than -1 (see below). -/
theorem sdiv_exact_partial (w : Nat) (hw : w = 8 ∨ w = 16 ∨ w = 32) (l r : Int) (hl : InS w l) (hr : InS w r)
    (hneg : ¬ (l < 0 ∧ r < 0 ∧ r ≠ -1)) :
    sdiv w l r = if r ≠ 0 ∧ InS w (l.tdiv r) then .ok (l.tdiv r) else .abort := by
  have hW : Width w := by rcases hw with rfl | rfl | rfl <;> decide
  have ⟨hl1, hl2⟩ := InS_mono w hW l hl
  have ⟨hr1, hr2⟩ := InS_mono w hW r hr
  simp only [sdiv, sameSign_eq l r hl2 hr2, assert]
  by_cases h0 : r = 0
  · simp [h0]
  · simp only [ne_eq, h0, not_false_eq_true, decide_true, if_true, true_and]
    have habs : (l.tdiv r).natAbs ≤ l.natAbs := by
      rw [Int.natAbs_tdiv]; exact Nat.div_le_self _ _
    by_cases hn : l < 0 ∧ r < 0
    · have hr1' : r = -1 := by
        by_cases e : r = -1
        · exact e
        · exact absurd ⟨hn.1, hn.2, e⟩ hneg
      subst hr1'
      have hd : l.tdiv (-1) = -l := by simp [Int.tdiv_neg]
      rw [hd]
      simp only [hn, true_and, if_true, and_true, decide_true, Bool.and_true]
      by_cases hm : l = smin w
      · have hni : ¬ InS w (-l) := by
          rw [hm]; rcases hw with rfl | rfl | rfl <;> decide
        simp [hm] at hni ⊢
        simp [hni]
      · have hi : InS w (-l) := by
          simp only [InS, smin, smax] at *; omega
        have ⟨hip, _⟩ := InS_mono w hW _ hi
        simp only [hm, not_false_eq_true, decide_true, if_true, hi, cdiv, hd, arith]
        simp [hip, toS_of_in w hW _ hi]
    · rw [if_neg hn]
      have hi : InS w (l.tdiv r) := by
        by_cases hlz : 0 ≤ l
        · simp only [InS, smin, smax] at *; omega
        · have hrp : 0 < r := by omega
          have h1 : (l.tdiv r) ≤ 0 := by
            have := Int.tdiv_nonneg (a := -l) (b := r) (by omega) (by omega)
            rw [Int.neg_tdiv] at this; omega
          simp only [InS, smin, smax] at *; omega
      have ⟨hip, _⟩ := InS_mono w hW _ hi
      have hicv : InS (cvWidth w) (l.tdiv r) := by
        simp only [InS, smin, smax] at *
        rcases hw with rfl | rfl | rfl <;> simp [cvWidth] at * <;> omega
      simp only [hi, if_true, cdiv, h0, if_false, arith, hip, hicv, Outcome.ok_bind, Outcome.pure_eq,
        toS_of_in w hW _ hi]
      split
      · rfl
      · rw [if_pos]
        simp only [InS] at hi; simp; exact hi.1

example : InS 32 (-7) ∧ InS 32 2 ∧ ¬ ((-7 : Int) < 0 ∧ (2 : Int) < 0 ∧ (2 : Int) ≠ -1) := by decide

/-- Violation of C43: dividing a negative number by a negative number other than -1 always aborts, e.g.
`zt_int_div(-6, -2)`. -/
theorem sdiv_negative_aborts (w : Nat) (l r : Int) (h1 : l < 0) (h2 : r < 0) (h3 : r ≠ -1) :
    sdiv w l r = .abort := by
  have : r ≠ 0 := by omega
  simp [sdiv, assert, h1, h2, h3, this]

theorem sdiv_counterexample : sdiv 32 (-6) (-2) = .abort ∧ InS 32 ((-6 : Int).tdiv (-2)) := by decide

end ZT.IntOps

namespace ZT.Time
open CInt

/-- A normalized time value. -/
def Norm (t : Timeval) : Prop := 0 ≤ t.usec ∧ t.usec < 1000000
instance (t : Timeval) : Decidable (Norm t) := inferInstanceAs (Decidable (_ ∧ _))

/-- Seconds small enough that no 64-bit computation can overflow. -/
def Small (t : Timeval) : Prop := -(2 ^ 62) < t.sec ∧ t.sec < 2 ^ 62
instance (t : Timeval) : Decidable (Small t) := inferInstanceAs (Decidable (_ ∧ _))

/-- The instant denoted, in microseconds. -/
def micros (t : Timeval) : Int := t.sec * 1000000 + t.usec

/-- **C44** addition is exact and normalized. -/
theorem add_exact (a b : Timeval) (ha : Norm a) (hb : Norm b) (sa : Small a) (sb : Small b) :
    ∃ r, add a b = .ok r ∧ Norm r ∧ micros r = micros a + micros b := by
  simp only [Norm, Small, micros] at *
  have h1 : InS 64 (a.sec + b.sec) := by simp [InS, smin, smax]; omega
  have h2 : InS 64 (a.usec + b.usec) := by simp [InS, smin, smax]; omega
  have h3 : InS 64 (a.sec + b.sec + 1) := by simp [InS, smin, smax]; omega
  simp only [add, arith, h1, h2, if_true, Outcome.ok_bind]
  rw [carryLoop]
  split
  · simp only [arith, h3, if_true, Outcome.ok_bind]
    rw [carryLoop, if_neg (by omega)]
    exact ⟨_, rfl, by simp; omega, by simp; omega⟩
  · exact ⟨_, rfl, by simp; omega, by simp; omega⟩

example : Norm ⟨3, 999999⟩ ∧ Small ⟨3, 999999⟩ ∧ add ⟨3, 999999⟩ ⟨0, 1⟩ = .ok ⟨4, 0⟩ := by
  refine ⟨by decide, by decide, ?_⟩
  have h : ∀ x : Int, -100 < x → x < 2000000 → arith 64 x = .ok x := by
    intro x h1 h2; rw [arith, if_pos]; simp only [InS, smin, smax]; omega
  rw [add, h _ (by decide) (by decide), Outcome.ok_bind, h _ (by decide) (by decide), Outcome.ok_bind, carryLoop]
  simp only [Int.reduceAdd, ge_iff_le, Int.le_refl, if_true]
  rw [h _ (by decide) (by decide), Outcome.ok_bind, carryLoop]
  rfl

/-- **C44** subtraction is exact and normalized. -/
theorem sub_exact (a b : Timeval) (ha : Norm a) (hb : Norm b) (sa : Small a) (sb : Small b) :
    ∃ r, sub a b = .ok r ∧ Norm r ∧ micros r = micros a - micros b := by
  simp only [Norm, Small, micros] at *
  have h1 : InS 64 (a.sec - b.sec) := by simp [InS, smin, smax]; omega
  have h2 : InS 64 (a.usec - b.usec) := by simp [InS, smin, smax]; omega
  have h3 : InS 64 (a.sec - b.sec - 1) := by simp [InS, smin, smax]; omega
  simp only [sub, arith, h1, h2, if_true, Outcome.ok_bind]
  rw [borrowLoop]
  split
  · simp only [arith, h3, if_true, Outcome.ok_bind]
    rw [borrowLoop, if_neg (by omega)]
    exact ⟨_, rfl, by simp; omega, by simp; omega⟩
  · exact ⟨_, rfl, by simp; omega, by simp; omega⟩

/-- **C44** `zt_diff_time(dt, t1, t2)` is `t2 - t1`. -/
theorem diff_exact (a b : Timeval) (ha : Norm a) (hb : Norm b) (sa : Small a) (sb : Small b) :
    ∃ r, diff a b = .ok r ∧ Norm r ∧ micros r = micros b - micros a := by
  have : diff a b = sub b a := rfl
  rw [this]
  exact sub_exact b a hb ha sb sa

/-- **C44** addition and subtraction are inverse to each other. -/
theorem sub_add (a b r : Timeval) (ha : Norm a) (hb : Norm b) (sa : Small a) (sb : Small b) (sr : Small r)
    (h : add a b = .ok r) : sub r b = .ok a := by
  obtain ⟨r', h1, hn, hm⟩ := add_exact a b ha hb sa sb
  rw [h] at h1; cases h1
  obtain ⟨q, h2, hqn, hqm⟩ := sub_exact r b hn hb sr sb
  rw [h2]
  simp only [Norm, micros] at *
  cases a; cases q; simp at *; omega

/-- **C44** comparison is the order of the instants. -/
theorem cmp_order (a b : Timeval) (ha : Norm a) (hb : Norm b) (sa : Small a) (sb : Small b) :
    ∃ c, cmp a b = .ok c ∧ (c < 0 ↔ micros a < micros b) ∧ (c = 0 ↔ a = b) ∧
      (0 < c ↔ micros b < micros a) := by
  simp only [Norm, Small, micros] at *
  have h1 : InS 64 (a.sec - b.sec) := by simp [InS, smin, smax]; omega
  have h2 : InS 64 (a.usec - b.usec) := by simp [InS, smin, smax]; omega
  simp only [cmp, arith, h1, h2, if_true, Outcome.ok_bind]
  cases a with | mk as au => cases b with | mk bs bu =>
  simp only at *
  by_cases hs : as - bs ≠ 0
  · rw [if_pos hs]
    refine ⟨_, rfl, ?_, ?_, ?_⟩ <;> (try simp only [Timeval.mk.injEq]) <;> omega
  · rw [if_neg hs]
    refine ⟨_, rfl, ?_, ?_, ?_⟩ <;> (try simp only [Timeval.mk.injEq]) <;> omega

end ZT.Time
