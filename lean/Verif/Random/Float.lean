import Verif.Ieee
import Verif.Random.Props

/-!
# C123: random numbers as floating point

The macros of zt_random.h which turn an output of the generator into a `double`, with the arithmetic of IEEE 754 binary64.
-/

namespace ZT.Random

open Ieee

/-- zt_random.h 22 `zt_random_float`. `rnd` is the rounding of binary64: it applies to the conversion of the output, to the constants, to the quotient and to the product. -/
def float (rnd : Rat → Rat) (now : Word) (s : State) : Outcome (State × Rat) := do
  let r ← uint32 now s
  pure (r.1, rnd (rnd r.2.toNat * rnd (rnd 1 / rnd 4294967295)))

/-- zt_random.h 25 `zt_random_float00` -/
def float00 (rnd : Rat → Rat) (now : Word) (s : State) : Outcome (State × Rat) := do
  let r ← uint32 now s
  pure (r.1, rnd (rnd (rnd r.2.toNat + rnd (1 / 2)) * rnd (rnd 1 / rnd 4294967296)))

/-- zt_random.h 28 `zt_random_float10` -/
def float10 (rnd : Rat → Rat) (now : Word) (s : State) : Outcome (State × Rat) := do
  let r ← uint32 now s
  pure (r.1, rnd (rnd r.2.toNat * rnd (rnd 1 / rnd 4294967296)))

variable {rnd : Rat → Rat}

theorem rnd_word (hr : Rounds double rnd) (u : Word) : rnd u.toNat = u.toNat :=
  rnd_exact hr (n := u.toNat) (e := 0) (by have := u.isLt; omega) (by decide) (by decide) (by rw [Rat.zpow_zero, Rat.mul_one])

theorem rnd_one (hr : Rounds double rnd) : rnd 1 = 1 := rnd_exact hr (n := 1) (e := 0) (by decide) (by decide) (by decide) (by decide +kernel)

theorem rnd_m (hr : Rounds double rnd) : rnd 4294967295 = 4294967295 := rnd_exact hr (n := 4294967295) (e := 0) (by decide) (by decide) (by decide) (by decide +kernel)

theorem rnd_n (hr : Rounds double rnd) : rnd 4294967296 = 4294967296 := rnd_exact hr (n := 4294967296) (e := 0) (by decide) (by decide) (by decide) (by decide +kernel)

theorem rnd_inv (hr : Rounds double rnd) : rnd (1 / 4294967296) = 1 / 4294967296 := rnd_exact hr (n := 1) (e := -32) (by decide) (by decide) (by decide) (by decide +kernel)

theorem rnd_half (hr : Rounds double rnd) : rnd (1 / 2) = 1 / 2 := rnd_exact hr (n := 1) (e := -1) (by decide) (by decide) (by decide) (by decide +kernel)

/-- C123: zt_random_float10 takes one output u of the generator and gives u / 2^32, exactly: a number from 0 on and below 1, whatever the state holds. -/
theorem c123_half_open (hr : Rounds double rnd) {s : State} (h : s.mt.length = 624) (now : Word) :
    ∃ s' u v, uint32 now s = .ok (s', u) ∧ float10 rnd now s = .ok (s', v) ∧ v = (u.toNat : Rat) / 2 ^ 32 ∧ 0 ≤ v ∧ v < 1 := by
  obtain ⟨s', u, e, _⟩ := c49_safe h now
  have u0 : (0 : Rat) ≤ u.toNat := by exact Rat.natCast_nonneg
  have u1 : (u.toNat : Rat) < ((4294967296 : Nat) : Rat) := Rat.natCast_lt_natCast.2 (by have := u.isLt; omega)
  have c : ((4294967296 : Nat) : Rat) = 4294967296 := rfl
  have c2 : (2 : Rat) ^ 32 = 4294967296 := by decide +kernel
  rw [c] at u1
  have e1 : rnd (rnd u.toNat * rnd (rnd 1 / rnd 4294967296)) = (u.toNat : Rat) / 2 ^ 32 := by
    rw [rnd_word hr, rnd_one hr, rnd_n hr, rnd_inv hr, c2]
    have : (u.toNat : Rat) / 4294967296 = (u.toNat : Rat) * (1 / 4294967296) := by grind
    rw [this]
    exact rnd_exact hr (n := u.toNat) (e := -32) (by have := u.isLt; omega) (by decide) (by decide) (by congr 1; decide +kernel)
  refine ⟨s', u, _, e, ?_, e1, ?_, ?_⟩
  · rw [float10, e]; rfl
  · rw [e1, c2]; grind
  · rw [e1, c2]; grind

/-- C123: zt_random_float00 gives (u + 1/2) / 2^32, exactly: a number above 0 and below 1. -/
theorem c123_open (hr : Rounds double rnd) {s : State} (h : s.mt.length = 624) (now : Word) :
    ∃ s' u v, uint32 now s = .ok (s', u) ∧ float00 rnd now s = .ok (s', v) ∧ v = ((u.toNat : Rat) + 1 / 2) / 2 ^ 32 ∧ 0 < v ∧ v < 1 := by
  obtain ⟨s', u, e, _⟩ := c49_safe h now
  have u0 : (0 : Rat) ≤ u.toNat := by exact Rat.natCast_nonneg
  have u1 : ((u.toNat + 1 : Nat) : Rat) ≤ ((4294967296 : Nat) : Rat) := Rat.natCast_le_natCast.2 (by have := u.isLt; omega)
  have c : ((4294967296 : Nat) : Rat) = 4294967296 := rfl
  have c2 : (2 : Rat) ^ 32 = 4294967296 := by decide +kernel
  have h1 : (2 : Rat) ^ (-1 : Int) = 1 / 2 := by decide +kernel
  have h33 : (2 : Rat) ^ (-33 : Int) = 1 / 8589934592 := by decide +kernel
  rw [c, Rat.natCast_add] at u1
  have o : ((1 : Nat) : Rat) = 1 := rfl
  rw [o] at u1
  have t : ((2 * u.toNat + 1 : Nat) : Rat) = 2 * (u.toNat : Rat) + 1 := by rw [Rat.natCast_add, Rat.natCast_mul]; rfl
  have e1 : rnd (rnd (rnd u.toNat + rnd (1 / 2)) * rnd (rnd 1 / rnd 4294967296)) = ((u.toNat : Rat) + 1 / 2) / 2 ^ 32 := by
    rw [rnd_word hr, rnd_one hr, rnd_n hr, rnd_inv hr, rnd_half hr, c2]
    rw [rnd_exact hr (x := (u.toNat : Rat) + 1 / 2) (n := 2 * u.toNat + 1) (e := -1) (by have := u.isLt; omega) (by decide) (by decide) (by rw [t, h1]; grind)]
    have : ((u.toNat : Rat) + 1 / 2) / 4294967296 = ((u.toNat : Rat) + 1 / 2) * (1 / 4294967296) := by grind
    rw [this]
    exact rnd_exact hr (n := 2 * u.toNat + 1) (e := -33) (by have := u.isLt; omega) (by decide) (by decide) (by rw [t, h33]; grind)
  refine ⟨s', u, _, e, ?_, e1, ?_, ?_⟩
  · rw [float00, e]; rfl
  · rw [e1, c2]; grind
  · rw [e1, c2]; grind

/-- The constant of zt_random_float. -/
theorem constant (hr : Rounds double rnd) : rnd (rnd 1 / rnd 4294967295) = 4294967297 / 18446744073709551616 := by
  rw [rnd_one hr, rnd_m hr]
  have hn := hr (1 / 4294967295) (small (by decide +kernel) (by decide +kernel))
  have hc : Num double (4294967297 / 18446744073709551616) := by
    have := num_scaled (n := 4294967297) (e := -64) (by decide) (by decide) (by decide)
    have e : ((4294967297 : Nat) : Rat) * 2 ^ (-64 : Int) = 4294967297 / 18446744073709551616 := by decide +kernel
    rwa [e] at this
  have hl : Num double (1 / 4294967296) := by
    have := num_scaled (n := 1) (e := -32) (by decide) (by decide) (by decide)
    have e : ((1 : Nat) : Rat) * 2 ^ (-32 : Int) = 1 / 4294967296 := by decide +kernel
    rwa [e] at this
  have h1 := hn.num_le hl (by decide +kernel)
  have h2 := hn.2 _ hc
  obtain ⟨n, e⟩ := hn.1.multiple (j := -84) (by
    have : (2 : Rat) ^ (((double.p : Nat) : Int) + (-84)) = 1 / 2147483648 := by decide +kernel
    rw [this]; grind)
  have c : (2 : Rat) ^ (-84 : Int) = 1 / 19342813113834066795298816 := by decide +kernel
  rw [c] at e
  rw [e] at h2 ⊢
  have k1 : n = 4503599628419072 := by
    rcases Int.lt_trichotomy n 4503599628419072 with g | g | g
    · exfalso
      have g' : (n : Rat) ≤ ((4503599628419071 : Int) : Rat) := Rat.intCast_le_intCast.2 (by omega)
      have z : ((4503599628419071 : Int) : Rat) = 4503599628419071 := rfl
      simp only [abs_def] at h2
      grind
    · exact g
    · exfalso
      have g' : ((4503599628419073 : Int) : Rat) ≤ (n : Rat) := Rat.intCast_le_intCast.2 (by omega)
      have z : ((4503599628419073 : Int) : Rat) = 4503599628419073 := rfl
      simp only [abs_def] at h2
      grind
  subst k1
  decide +kernel

/-- The double which zt_random_float makes of an output. -/
def closed (rnd : Rat → Rat) (u : Word) : Rat := rnd (rnd u.toNat * rnd (rnd 1 / rnd 4294967295))

theorem float_eq {s s' : State} {now u : Word} (e : uint32 now s = .ok (s', u)) : float rnd now s = .ok (s', closed rnd u) := by
  rw [float, e]; rfl

theorem word_bounds (u : Word) : (0 : Rat) ≤ u.toNat ∧ (u.toNat : Rat) ≤ 4294967295 := by
  have c : ((4294967295 : Nat) : Rat) = 4294967295 := rfl
  refine ⟨by exact Rat.natCast_nonneg, ?_⟩
  rw [← c]
  exact Rat.natCast_le_natCast.2 (by have := u.isLt; omega)

theorem closed_near (hr : Rounds double rnd) (u : Word) : Near double ((u.toNat : Rat) * (4294967297 / 18446744073709551616)) (closed rnd u) := by
  obtain ⟨u0, u1⟩ := word_bounds u
  have c2 : (2 : Rat) ^ 64 = 18446744073709551616 := by decide +kernel
  rw [closed, constant hr, rnd_word hr]
  exact hr _ (small (by grind) (by rw [c2]; grind))

theorem closed_error (hr : Rounds double rnd) (u : Word) : (closed rnd u - (u.toNat : Rat) * (4294967297 / 18446744073709551616)).abs ≤ 1 / 2 ^ 54 := by
  obtain ⟨u0, u1⟩ := word_bounds u
  have := (closed_near hr u).error (j := -53) (by grind) (by
    have : (2 : Rat) ^ (((double.p : Nat) : Int) + (-53)) = 1 := by decide +kernel
    rw [this]; grind) (by decide) (by decide) (by decide)
  have c : (2 : Rat) ^ (-53 : Int) = 1 / 9007199254740992 := by decide +kernel
  have c2 : (2 : Rat) ^ 54 = 18014398509481984 := by decide +kernel
  rw [c] at this; rw [c2]
  grind

theorem closed_lt (hr : Rounds double rnd) {u v : Word} (h : u.toNat < v.toNat) : closed rnd u < closed rnd v := by
  have hu := closed_error hr u
  have hv := closed_error hr v
  have c2 : (2 : Rat) ^ 54 = 18014398509481984 := by decide +kernel
  have g : ((u.toNat + 1 : Nat) : Rat) ≤ (v.toNat : Rat) := Rat.natCast_le_natCast.2 h
  have o : ((1 : Nat) : Rat) = 1 := rfl
  rw [Rat.natCast_add, o] at g
  rw [c2] at hu hv
  simp only [abs_def] at hu hv
  grind

theorem closed_zero (hr : Rounds double rnd) : closed rnd 0#32 = 0 := by
  refine (closed_near hr 0#32).exact ?_ |>.trans (by decide +kernel)
  have := num_scaled (n := 0) (e := 0) (by decide) (by decide) (by decide)
  have e : ((0 : Nat) : Rat) * 2 ^ (0 : Int) = ((0#32).toNat : Rat) * (4294967297 / 18446744073709551616) := by decide +kernel
  rwa [e] at this

theorem closed_one (hr : Rounds double rnd) : closed rnd 4294967295#32 = 1 := by
  have hn := closed_near hr 4294967295#32
  have n1 : Num double 1 := by
    have := num_scaled (n := 1) (e := 0) (by decide) (by decide) (by decide)
    have e : ((1 : Nat) : Rat) * 2 ^ (0 : Int) = 1 := by decide +kernel
    rwa [e] at this
  have x : ((4294967295#32).toNat : Rat) * (4294967297 / 18446744073709551616) = 1 - 1 / 18446744073709551616 := by decide +kernel
  rw [x] at hn
  have h1 := hn.2 _ n1
  have h2 := hn.le_num n1 (by decide +kernel)
  obtain ⟨n, e⟩ := hn.1.multiple (j := -54) (by
    have : (2 : Rat) ^ (((double.p : Nat) : Int) + (-54)) = 1 / 2 := by decide +kernel
    rw [this]
    simp only [abs_def] at h1
    grind)
  have c : (2 : Rat) ^ (-54 : Int) = 1 / 18014398509481984 := by decide +kernel
  rw [c] at e
  rw [e] at h1 h2 ⊢
  have k1 : n = 18014398509481984 := by
    rcases Int.lt_trichotomy n 18014398509481984 with g | g | g
    · exfalso
      have g' : (n : Rat) ≤ ((18014398509481983 : Int) : Rat) := Rat.intCast_le_intCast.2 (by omega)
      have z : ((18014398509481983 : Int) : Rat) = 18014398509481983 := rfl
      simp only [abs_def] at h1
      grind
    · exact g
    · exfalso
      have g' : ((18014398509481985 : Int) : Rat) ≤ (n : Rat) := Rat.intCast_le_intCast.2 (by omega)
      have z : ((18014398509481985 : Int) : Rat) = 18014398509481985 := rfl
      grind
  subst k1
  decide +kernel

/-- C123: zt_random_float gives u / (2^32 - 1) but for less than 2^-53: a number from 0 to 1, 0 only for the output 0 and 1 only for the output 2^32 - 1. -/
theorem c123_closed (hr : Rounds double rnd) {s : State} (h : s.mt.length = 624) (now : Word) :
    ∃ s' u v, uint32 now s = .ok (s', u) ∧ float rnd now s = .ok (s', v) ∧ (v - (u.toNat : Rat) / ((2 : Rat) ^ 32 - 1)).abs < 1 / (2 : Rat) ^ 53
      ∧ 0 ≤ v ∧ v ≤ 1 ∧ (v = 0 ↔ u = 0#32) ∧ (v = 1 ↔ u = 0xffffffff#32) := by
  obtain ⟨s', u, e, _⟩ := c49_safe h now
  have top : (4294967295#32).toNat = 4294967295 := rfl
  have z0 : (0#32).toNat = 0 := rfl
  have lo : u = 0#32 ∨ 0 < closed rnd u := by
    by_cases g : u = 0#32
    · exact Or.inl g
    · refine Or.inr ?_
      rw [← closed_zero hr]
      refine closed_lt hr ?_
      have : u.toNat ≠ 0 := fun k => g (BitVec.eq_of_toNat_eq (by rw [k]; rfl))
      omega
  have up : u = 0xffffffff#32 ∨ closed rnd u < 1 := by
    by_cases g : u = 0xffffffff#32
    · exact Or.inl g
    · refine Or.inr ?_
      rw [← closed_one hr]
      refine closed_lt hr ?_
      have : u.toNat ≠ 4294967295 := fun k => g (BitVec.eq_of_toNat_eq (by rw [k]; rfl))
      have := u.isLt
      omega
  have d : (0 : Rat) < 1 := by decide
  refine ⟨s', u, _, e, float_eq e, ?_, ?_, ?_, ?_, ?_⟩
  · have := closed_error hr u
    obtain ⟨u0, u1⟩ := word_bounds u
    have c3 : (2 : Rat) ^ 32 = 4294967296 := by decide +kernel
    have c2 : (2 : Rat) ^ 54 = 18014398509481984 := by decide +kernel
    have c4 : (2 : Rat) ^ 53 = 9007199254740992 := by decide +kernel
    have q : (u.toNat : Rat) / (4294967296 - 1) = (u.toNat : Rat) * (1 / 4294967295) := by grind
    rw [c2] at this
    rw [c3, c4, q]
    simp only [abs_def] at this ⊢
    generalize (u.toNat : Rat) = w at *
    grind
  · rcases lo with rfl | g
    · rw [closed_zero hr]; exact Rat.le_refl
    · exact Rat.le_of_lt g
  · rcases up with rfl | g
    · rw [closed_one hr]; exact Rat.le_refl
    · exact Rat.le_of_lt g
  · refine ⟨fun g => ?_, fun g => by rw [g]; exact closed_zero hr⟩
    rcases lo with k | k
    · exact k
    · grind
  · refine ⟨fun g => ?_, fun g => by rw [g]; exact closed_one hr⟩
    rcases up with k | k
    · exact k
    · grind

/-- C123: zt_random_float keeps the order of the outputs, and distinct outputs give distinct numbers. -/
theorem c123_order (hr : Rounds double rnd) {s t s' t' : State} {now now' u v : Word} {x y : Rat} (hu : uint32 now s = .ok (s', u)) (hv : uint32 now' t = .ok (t', v))
    (hx : float rnd now s = .ok (s', x)) (hy : float rnd now' t = .ok (t', y)) : (u < v ↔ x < y) ∧ (u = v ↔ x = y) := by
  rw [float_eq hu] at hx
  rw [float_eq hv] at hy
  cases hx; cases hy
  rcases Nat.lt_trichotomy u.toNat v.toNat with g | g | g
  · have k := closed_lt hr g
    have : u ≠ v := fun k => by rw [k] at g; omega
    refine ⟨⟨fun _ => k, fun _ => BitVec.lt_def.2 g⟩, ⟨fun k => absurd k this, fun l => by grind⟩⟩
  · have g := BitVec.eq_of_toNat_eq g
    subst g
    refine ⟨⟨fun k => absurd (BitVec.lt_def.1 k) (Nat.lt_irrefl _), fun k => by grind⟩, ⟨fun _ => rfl, fun _ => rfl⟩⟩
  · have k := closed_lt hr g
    have : u ≠ v := fun k => by rw [k] at g; omega
    refine ⟨⟨fun l => ?_, fun l => by grind⟩, ⟨fun k => absurd k this, fun l => by grind⟩⟩
    have := BitVec.lt_def.1 l
    omega

/-- `n` calls of zt_random_float10 and their values. -/
def reals (rnd : Rat → Rat) (now : Nat → Word) : Nat → State → Outcome (State × List Rat)
  | 0, s => .ok (s, [])
  | n + 1, s => do
    let r ← reals rnd now n s
    let q ← float10 rnd (now n) r.1
    pure (q.1, r.2 ++ [q.2])

theorem reals_eq (hr : Rounds double rnd) {now : Nat → Word} : ∀ {n : Nat} {s s' : State} {l : List Word}, s.mt.length = 624 → outputs now n s = .ok (s', l) →
    s'.mt.length = 624 ∧ reals rnd now n s = .ok (s', l.map fun u => (u.toNat : Rat) / 2 ^ 32)
  | 0, s, s', l, h, e => by cases e; exact ⟨h, rfl⟩
  | n + 1, s, s', l, h, e => by
    rw [outputs] at e
    obtain ⟨⟨s1, l1⟩, e1, e⟩ := Outcome.bind_eq_ok.1 e
    obtain ⟨h1, e1'⟩ := reals_eq hr h e1
    obtain ⟨s2, u, v, g1, g2, g3, _⟩ := c123_half_open hr h1 (now n)
    obtain ⟨s3, _, k, hk⟩ := c49_safe h1 (now n)
    rw [g1] at k; cases k
    rw [g1] at e
    cases e
    refine ⟨hk, ?_⟩
    rw [reals, e1', Outcome.ok_bind, g2, Outcome.ok_bind, g3, List.map_append]
    rfl

/-- C123: after zt_random_srandom the numbers of zt_random_float10 are those of MT19937 for the seed, divided by 2^32. -/
theorem c123_seeded (hr : Rounds double rnd) {s : State} (h : s.mt.length = 624) (seed : Word) (now : Nat → Word) (n : Nat) :
    ∃ s1 s2, srandom s seed = .ok s1 ∧ reals rnd now n s1 = .ok (s2, (List.range n).map fun k => ((Spec.temper (Spec.mt (Spec.fromSeed seed) (624 + k))).toNat : Rat) / 2 ^ 32) := by
  obtain ⟨mt, e, hm⟩ := srandom_ok h seed
  obtain ⟨s2, e2, _⟩ := (after_init hm).outputs now n
  obtain ⟨_, g⟩ := reals_eq hr hm.1 e2
  rw [List.map_map] at g
  exact ⟨_, s2, e, g⟩

/-- A rounding of binary64 exists, and a state: the theorems say something. -/
theorem float_case : ∃ rnd, Rounds double rnd ∧ ∃ s u x, uint32 0#32 ⟨List.replicate 624 0#32, 0#32, 0#32⟩ = .ok (s, u) ∧ float rnd 0#32 ⟨List.replicate 624 0#32, 0#32, 0#32⟩ = .ok (s, x) ∧ 0 ≤ x ∧ x ≤ 1 := by
  obtain ⟨rnd, hr⟩ := exists_rounds (F := double) (by decide) (by decide)
  obtain ⟨s, u, x, a, b, c, d, e, _⟩ := c123_closed hr (s := ⟨List.replicate 624 0#32, 0#32, 0#32⟩) (List.length_replicate ..) 0#32
  exact ⟨rnd, hr, s, u, x, a, b, d, e⟩

end ZT.Random
