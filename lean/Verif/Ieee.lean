import Verif.Common

/-!
# Floating-point numbers (IEEE 754 binary formats)

The finite numbers of a format and rounding to nearest, on rational numbers. Which of two equally near numbers is taken is left open, so that everything proved holds for ties to even.
-/

namespace ZT.Ieee

/-- A binary format: `p` bits of significand, exponents (of the last bit) from `lo` to `hi`. -/
structure Format where
  p : Nat
  lo : Int
  hi : Int

/-- binary64 -/
def double : Format := ⟨53, -1074, 971⟩

/-- binary32 -/
def single : Format := ⟨24, -149, 104⟩

/-- The finite numbers of the format. -/
def Num (F : Format) (x : Rat) : Prop := ∃ m e : Int, -2 ^ F.p < m ∧ m < 2 ^ F.p ∧ F.lo ≤ e ∧ e ≤ F.hi ∧ x = m * (2 : Rat) ^ e

/-- `r` is a number of the format, and none is nearer to `x`. -/
def Near (F : Format) (x r : Rat) : Prop := Num F r ∧ ∀ d, Num F d → (r - x).abs ≤ (d - x).abs

/-- Rounding in a format: what is at most 2^(p + hi - 1) is rounded to a nearest number. Nothing is said of larger results, the upper half of the last binade and those which overflow. -/
def Rounds (F : Format) (rnd : Rat → Rat) : Prop := ∀ x : Rat, x.abs ≤ (2 : Rat) ^ ((F.p : Int) + (F.hi - 1)) → Near F x (rnd x)

theorem two_pos (e : Int) : 0 < (2 : Rat) ^ e := Rat.zpow_pos (by decide)

theorem two_add (a b : Int) : (2 : Rat) ^ (a + b) = 2 ^ a * 2 ^ b := Rat.zpow_add (by decide) a b

theorem two_succ (a : Int) : (2 : Rat) ^ (a + 1) = 2 * 2 ^ a := by rw [two_add, Rat.zpow_one, Rat.mul_comm]

theorem two_nat (n : Nat) : (2 : Rat) ^ (n : Int) = ((2 ^ n : Int) : Rat) := by
  rw [Rat.zpow_natCast, Rat.intCast_pow]; rfl

theorem one_le_two (n : Nat) : (1 : Rat) ≤ 2 ^ (n : Int) := by
  rw [two_nat]
  have : (1 : Int) ≤ 2 ^ n := Int.pow_pos (by decide)
  have := Rat.intCast_le_intCast.2 this
  simpa using this

theorem two_mono {a b : Int} (h : a ≤ b) : (2 : Rat) ^ a ≤ 2 ^ b := by
  obtain ⟨n, rfl⟩ := Int.le.dest h
  rw [two_add]
  have h1 := two_pos a
  have h2 := one_le_two n
  have := Rat.mul_le_mul_of_nonneg_left h2 (Rat.le_of_lt h1)
  rw [Rat.mul_one] at this; exact this

theorem abs_def (x : Rat) : x.abs = if x ≤ 0 then -x else x := by
  by_cases h : x ≤ 0
  · rw [if_pos h, Rat.abs_of_nonpos h]
  · rw [if_neg h, Rat.abs_of_nonneg (by grind)]

theorem Near.exact {F : Format} {x r : Rat} (h : Near F x r) (hx : Num F x) : r = x := by
  have := h.2 x hx
  simp only [abs_def] at this
  grind

/-- Rounding keeps the order. -/
theorem Near.mono {F : Format} {x y r s : Rat} (hx : Near F x r) (hy : Near F y s) (h : x < y) : r ≤ s := by
  have h1 := hx.2 s hy.1
  have h2 := hy.2 r hx.1
  simp only [abs_def] at h1 h2
  grind

theorem Near.le_num {F : Format} {x r d : Rat} (h : Near F x r) (hd : Num F d) (hx : x ≤ d) : r ≤ d := by
  have := h.2 d hd
  simp only [abs_def] at this
  grind

theorem Near.num_le {F : Format} {x r d : Rat} (h : Near F x r) (hd : Num F d) (hx : d ≤ x) : d ≤ r := by
  have := h.2 d hd
  simp only [abs_def] at this
  grind

/-- Numbers from 2^(p - 1 + j) on are multiples of 2^j. -/
theorem Num.multiple {F : Format} {d : Rat} (h : Num F d) {j : Int} (hd : (2 : Rat) ^ ((F.p : Int) + j) ≤ 2 * d) : ∃ n : Int, d = n * 2 ^ j := by
  obtain ⟨m, e, h1, h2, h3, h4, rfl⟩ := h
  by_cases he : j ≤ e
  · obtain ⟨n, rfl⟩ := Int.le.dest he
    refine ⟨m * 2 ^ n, ?_⟩
    rw [two_add, two_nat, Rat.intCast_mul]
    grind
  · exfalso
    have e1 : (2 : Rat) ^ (e + 1) ≤ 2 ^ j := two_mono (by omega)
    rw [two_succ] at e1
    have h2' : (m : Rat) < ((2 ^ F.p : Int) : Rat) := Rat.intCast_lt_intCast.2 h2
    rw [← two_nat] at h2'
    rw [two_add] at hd
    have p1 := two_pos e
    have p2 := two_pos (F.p : Int)
    have q1 := Rat.mul_lt_mul_of_pos_right h2' p1
    have q2 := Rat.mul_le_mul_of_nonneg_left e1 (Rat.le_of_lt p2)
    generalize (2 : Rat) ^ (F.p : Int) = P at *
    generalize (2 : Rat) ^ e = E at *
    generalize (2 : Rat) ^ j = J at *
    grind

/-- Multiples of 2^j up to 2^(p + j) are numbers. -/
theorem num_of_multiple {F : Format} {n j : Int} (h0 : 0 ≤ n) (hn : n ≤ 2 ^ F.p) (hp : 1 ≤ F.p) (h1 : F.lo ≤ j) (h2 : j < F.hi) : Num F (n * 2 ^ j) := by
  by_cases h : n = 2 ^ F.p
  · subst h
    obtain ⟨q, hq⟩ : ∃ q, F.p = q + 1 := ⟨F.p - 1, by omega⟩
    have hpos : (0 : Int) < 2 ^ q := Int.pow_pos (by decide)
    refine ⟨2 ^ q, j + 1, ?_, ?_, by omega, by omega, ?_⟩
    · rw [hq, Int.pow_succ]; omega
    · rw [hq, Int.pow_succ]; omega
    · rw [two_succ, hq, Int.pow_succ, Rat.intCast_mul]
      grind
  · have hpos : (0 : Int) < 2 ^ F.p := Int.pow_pos (by decide)
    exact ⟨n, j, by omega, by omega, h1, by omega, rfl⟩

/-- A multiple of 2^j at most half of 2^j away. -/
theorem close {F : Format} {x : Rat} {j : Int} (h0 : 0 ≤ x) (hx : x ≤ (2 : Rat) ^ ((F.p : Int) + j)) : ∃ n : Int, 0 ≤ n ∧ n ≤ 2 ^ F.p ∧ 2 * ((n : Rat) * 2 ^ j - x).abs ≤ 2 ^ j := by
  have pj := two_pos j
  generalize hy : x / 2 ^ j = y
  have hxy : x = y * 2 ^ j := by rw [← hy, Rat.div_mul_cancel (by grind)]
  have y0 : 0 ≤ y := by
    rcases Rat.le_total (a := 0) (b := y) with h | h
    · exact h
    · have := Rat.mul_le_mul_of_nonneg_right h (Rat.le_of_lt pj)
      have h3 : y * 2 ^ j = 0 := by grind
      rcases Rat.mul_eq_zero.1 h3 with h4 | h4 <;> grind
  have yp : y ≤ ((2 ^ F.p : Int) : Rat) := by
    rw [two_add, hxy, two_nat] at hx
    exact Rat.le_of_mul_le_mul_right hx pj
  have f1 := Rat.floor_le (a := y + 1 / 2)
  have f2 := Rat.lt_floor_add_one (a := y + 1 / 2)
  rw [Rat.intCast_add] at f2
  have i1 : ((1 : Int) : Rat) = 1 := rfl
  rw [i1] at f2
  refine ⟨(y + 1 / 2).floor, ?_, ?_, ?_⟩
  · exact Rat.le_floor_iff.2 (by grind)
  · have : (y + 1 / 2).floor < 2 ^ F.p + 1 := by
      rw [Rat.floor_lt_iff, Rat.intCast_add]
      grind
    omega
  · generalize ((y + 1 / 2).floor : Rat) = n at f1 f2 ⊢
    rw [hxy, abs_def]
    have g1 : (n - y) * 2 ^ j ≤ 1 / 2 * 2 ^ j := Rat.mul_le_mul_of_nonneg_right (by grind) (Rat.le_of_lt pj)
    have g2 : (y - n) * 2 ^ j ≤ 1 / 2 * 2 ^ j := Rat.mul_le_mul_of_nonneg_right (by grind) (Rat.le_of_lt pj)
    split <;> grind

/-- The error of rounding. -/
theorem Near.error {F : Format} {x r : Rat} (h : Near F x r) {j : Int} (h0 : 0 ≤ x) (hx : x ≤ (2 : Rat) ^ ((F.p : Int) + j)) (hp : 1 ≤ F.p) (h1 : F.lo ≤ j) (h2 : j < F.hi) : 2 * (r - x).abs ≤ 2 ^ j := by
  obtain ⟨n, n0, n1, e⟩ := close h0 hx
  have := h.2 _ (num_of_multiple n0 n1 hp h1 h2)
  grind

/-- Among multiples of 2^j the one at most half of 2^j away is nearest. -/
theorem nearest {x : Rat} {j n : Int} (h : 2 * ((n : Rat) * 2 ^ j - x).abs ≤ 2 ^ j) (m : Int) : ((n : Rat) * 2 ^ j - x).abs ≤ ((m : Rat) * 2 ^ j - x).abs := by
  have pj := two_pos j
  rcases Int.lt_trichotomy m n with g | g | g
  · have g' : ((m + 1 : Int) : Rat) ≤ n := Rat.intCast_le_intCast.2 g
    rw [Rat.intCast_add] at g'
    have i1 : ((1 : Int) : Rat) = 1 := rfl
    rw [i1] at g'
    have k := Rat.mul_le_mul_of_nonneg_right g' (Rat.le_of_lt pj)
    generalize (2 : Rat) ^ j = J at *
    simp only [abs_def] at h ⊢
    grind
  · subst g; exact Rat.le_refl
  · have g' : ((n + 1 : Int) : Rat) ≤ m := Rat.intCast_le_intCast.2 g
    rw [Rat.intCast_add] at g'
    have i1 : ((1 : Int) : Rat) = 1 := rfl
    rw [i1] at g'
    have k := Rat.mul_le_mul_of_nonneg_right g' (Rat.le_of_lt pj)
    generalize (2 : Rat) ^ j = J at *
    simp only [abs_def] at h ⊢
    grind

theorem Num.multiple_lo {F : Format} {d : Rat} (h : Num F d) : ∃ n : Int, d = n * 2 ^ F.lo := by
  obtain ⟨m, e, h1, h2, h3, h4, rfl⟩ := h
  obtain ⟨n, rfl⟩ := Int.le.dest h3
  refine ⟨m * 2 ^ n, ?_⟩
  rw [two_add, two_nat, Rat.intCast_mul]
  grind

theorem Num.neg {F : Format} {d : Rat} (h : Num F d) : Num F (-d) := by
  obtain ⟨m, e, h1, h2, h3, h4, rfl⟩ := h
  exact ⟨-m, e, by omega, by omega, h3, h4, by rw [Rat.intCast_neg]; grind⟩

theorem Near.neg {F : Format} {x r : Rat} (h : Near F x r) : Near F (-x) (-r) := by
  refine ⟨h.1.neg, fun d hd => ?_⟩
  have := h.2 _ hd.neg
  simp only [abs_def] at this ⊢
  grind

theorem least {P : Nat → Prop} : ∀ n, P n → ∃ k, k ≤ n ∧ P k ∧ ∀ i, i < k → ¬ P i := by
  intro n
  induction n using Nat.strongRecOn with
  | ind n ih =>
    intro h
    by_cases g : ∃ i, i < n ∧ P i
    · obtain ⟨i, hi, hp⟩ := g
      obtain ⟨k, a, b, c⟩ := ih i hi hp
      exact ⟨k, by omega, b, c⟩
    · exact ⟨n, Nat.le_refl n, h, fun i hi hp => g ⟨i, hi, hp⟩⟩

theorem exists_near_nonneg {F : Format} (hp : 1 ≤ F.p) (hf : F.lo < F.hi) {x : Rat} (h0 : 0 ≤ x) (hx : x ≤ (2 : Rat) ^ ((F.p : Int) + (F.hi - 1))) : ∃ r, Near F x r := by
  obtain ⟨n, hn⟩ := Int.le.dest (show F.lo ≤ F.hi - 1 by omega)
  obtain ⟨k, k1, k2, k3⟩ := least (P := fun k => x ≤ (2 : Rat) ^ ((F.p : Int) + (F.lo + k))) n (by rw [hn]; exact hx)
  obtain ⟨m, m0, m1, e⟩ := close h0 k2
  have hm := num_of_multiple (F := F) m0 m1 hp (j := F.lo + k) (by omega) (by omega)
  refine ⟨_, hm, fun d hd => ?_⟩
  rcases k with - | k
  · obtain ⟨i, rfl⟩ := hd.multiple_lo
    have := nearest e i
    simpa using this
  · have hk := k3 k (by omega)
    have e2 : (2 : Rat) ^ ((F.p : Int) + (F.lo + (k + 1 : Nat))) = 2 * 2 ^ ((F.p : Int) + (F.lo + k)) := by
      rw [← two_succ]; congr 1; omega
    by_cases hd2 : (2 : Rat) ^ ((F.p : Int) + (F.lo + (k + 1 : Nat))) ≤ 2 * d
    · obtain ⟨i, rfl⟩ := hd.multiple hd2
      exact nearest e i
    · obtain ⟨q, hq⟩ : ∃ q, F.p = q + 1 := ⟨F.p - 1, by omega⟩
      have e3 : (2 : Rat) ^ ((F.p : Int) + (F.lo + k)) = ((2 ^ q : Int) : Rat) * 2 ^ (F.lo + (k + 1 : Nat)) := by
        rw [← two_nat, ← two_add]; congr 1; omega
      have := nearest e (2 ^ q)
      rw [← e3] at this
      rw [e2] at hd2
      generalize (2 : Rat) ^ ((F.p : Int) + (F.lo + k)) = A at *
      generalize (m : Rat) * 2 ^ (F.lo + (k + 1 : Nat)) = B at *
      clear e e3 hm e2 k3 k2 hx
      simp only [abs_def] at this ⊢
      grind

/-- There is a nearest number. -/
theorem exists_near {F : Format} (hp : 1 ≤ F.p) (hf : F.lo < F.hi) {x : Rat} (hx : x.abs ≤ (2 : Rat) ^ ((F.p : Int) + (F.hi - 1))) : ∃ r, Near F x r := by
  by_cases h : x ≤ 0
  · rw [Rat.abs_of_nonpos h] at hx
    obtain ⟨r, hr⟩ := exists_near_nonneg hp hf (by grind) hx
    have := hr.neg
    rw [Rat.neg_neg] at this
    exact ⟨_, this⟩
  · have h' : 0 ≤ x := by grind
    rw [Rat.abs_of_nonneg h'] at hx
    exact exists_near_nonneg hp hf h' hx

/-- There are rounding functions: what is proved of them says something. -/
theorem exists_rounds {F : Format} (hp : 1 ≤ F.p) (hf : F.lo < F.hi) : ∃ rnd, Rounds F rnd := by
  classical
  refine ⟨fun x => if h : ∃ r, Near F x r then h.choose else 0, fun x hx => ?_⟩
  have h := exists_near hp hf hx
  simp only [dif_pos h]
  exact h.choose_spec

variable {rnd : Rat → Rat}

theorem small {x : Rat} (h0 : 0 ≤ x) (h : x ≤ 2 ^ 64) : x.abs ≤ (2 : Rat) ^ (((double.p : Nat) : Int) + (double.hi - 1)) := by
  rw [Rat.abs_of_nonneg h0]
  have : (2 : Rat) ^ (64 : Int) ≤ (2 : Rat) ^ (((double.p : Nat) : Int) + (double.hi - 1)) := two_mono (by decide)
  exact Rat.le_trans h this

theorem num_scaled {n : Nat} {e : Int} (h : n < 2 ^ 53) (h1 : -1074 ≤ e) (h2 : e ≤ 971) : Num double ((n : Rat) * 2 ^ e) :=
  ⟨n, e, by simp only [double]; omega, by simp only [double]; omega, h1, h2, by rw [Rat.intCast_natCast]⟩

theorem rnd_exact (hr : Rounds double rnd) {n : Nat} {e : Int} (h : n < 2 ^ 53) (h1 : -1074 ≤ e) (h2 : e ≤ 0) {x : Rat} (hx : x = (n : Rat) * 2 ^ e) : rnd x = x := by
  have e1 : (2 : Rat) ^ e ≤ 2 ^ (0 : Int) := two_mono h2
  have e0 := two_pos e
  have n0 : (0 : Rat) ≤ n := by exact Rat.natCast_nonneg
  have n1 : (n : Rat) ≤ ((2 ^ 53 : Nat) : Rat) := Rat.natCast_le_natCast.2 (by omega)
  have m1 := Rat.mul_le_mul_of_nonneg_left e1 n0
  have m0 := Rat.mul_nonneg n0 (Rat.le_of_lt e0)
  have z : (2 : Rat) ^ (0 : Int) = 1 := rfl
  rw [z] at m1
  have c1 : ((2 ^ 53 : Nat) : Rat) = 9007199254740992 := by decide +kernel
  subst hx
  refine (hr _ (small m0 ?_)).exact (num_scaled h h1 (by omega))
  have c2 : (2 : Rat) ^ 64 = 18446744073709551616 := by decide +kernel
  rw [c2]; rw [c1] at n1
  generalize (n : Rat) * 2 ^ e = a at *
  grind

/-- Rounding keeps the order. -/
theorem Rounds.mono {F : Format} (hr : Rounds F rnd) {x y : Rat} (hx : x.abs ≤ (2 : Rat) ^ ((F.p : Int) + (F.hi - 1))) (hy : y.abs ≤ (2 : Rat) ^ ((F.p : Int) + (F.hi - 1))) (h : x ≤ y) : rnd x ≤ rnd y := by
  by_cases g : x = y
  · subst g; exact Rat.le_refl
  · exact (hr x hx).mono (hr y hy) (by grind)

end ZT.Ieee
