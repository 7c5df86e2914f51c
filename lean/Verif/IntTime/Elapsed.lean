import Verif.Ieee
import Verif.Numeral
import Verif.IntTime.Measure

/-!
# C124: elapsed times

zt_time_result_to_elapsed and zt_time_print_result, with IEEE 754 arithmetic: `rd` is the rounding of `double`, `rf` that of `float`. The pointers are not NULL.
-/

namespace ZT.Time

open Ieee

/-- zt_time.c 93 and 94: `(float) (tv_sec + tv_usec / 1000000.0)`. -/
def toFloat (rd rf : Rat → Rat) (t : Timeval) : Rat := rf (rd (rd t.sec + rd (rd t.usec / rd 1000000)))

/-- zt_time.c 86-96 `zt_time_result_to_elapsed`: what is stored in usr, sys and total. -/
def elapsed (rd rf : Rat → Rat) (r : Result) : Rat × Rat × Rat :=
  let usr := toFloat rd rf r.usr
  let sys := toFloat rd rf r.sys
  (usr, sys, rf (usr + sys))

/-- Bytes of a literal. -/
def lit (s : String) : List Byte := s.toList.map Num.byte

/-- zt_time.c 149-167 `zt_time_print_result`: the text handed to zt_log_printf (at zt_log_info). `f2` is what %4.2f prints, `n` is an int. -/
def report (rd rf : Rat → Rat) (f2 : Rat → List Byte) (tr : Result) (name : List Byte) (n : Int) : List Byte :=
  let e := elapsed rd rf tr
  if n ≤ 1 then name ++ lit " took: " ++ f2 e.1 ++ lit "s user " ++ f2 e.2.1 ++ lit "s system " ++ f2 e.2.2 ++ lit "s total"
  else Num.signed n ++ lit " calls of " ++ name ++ lit " took: " ++ f2 e.1 ++ lit "s user " ++ f2 e.2.1 ++ lit "s system " ++ f2 e.2.2 ++ lit "s total"

/-! ## Specification -/

/-- The time, in seconds. -/
def secs (t : Timeval) : Rat := (t.sec : Rat) + (t.usec : Rat) / 1000000

/-- A time as zt_time leaves it, below 2^k seconds. -/
structure Below (k : Nat) (t : Timeval) : Prop where
  sec0 : 0 ≤ t.sec
  sec1 : t.sec < 2 ^ k
  usec0 : 0 ≤ t.usec
  usec1 : t.usec < 1000000

/-- The text of so many hundredths: at least one digit, a point and two digits. -/
def hundredths (n : Nat) : List Byte := Num.digits 10 (n / 100) ++ [46, UInt8.ofNat (48 + n / 10 % 10), UInt8.ofNat (48 + n % 10)]

/-- C17 7.21.6.1 for %4.2f of a number that is not negative: a nearest number of hundredths. (The text is never shorter than four characters.) -/
def Prints (f2 : Rat → List Byte) : Prop := ∀ v, 0 ≤ v → ∃ n : Nat, 2 * ((n : Rat) - 100 * v).abs ≤ 1 ∧ f2 v = hundredths n

/-! ## Proofs -/

variable {rd rf : Rat → Rat}

theorem small1 {x : Rat} (h0 : 0 ≤ x) (h : x ≤ 2 ^ 64) : x.abs ≤ (2 : Rat) ^ (((single.p : Nat) : Int) + (single.hi - 1)) := by
  rw [Rat.abs_of_nonneg h0]
  have : (2 : Rat) ^ (64 : Int) ≤ (2 : Rat) ^ (((single.p : Nat) : Int) + (single.hi - 1)) := two_mono (by decide)
  exact Rat.le_trans h this

/-- 2^k as a rational number -/
theorem pow_bounds {k : Nat} (hk : k ≤ 53) : (1 : Rat) ≤ 2 ^ (k : Int) ∧ (2 : Rat) ^ (k : Int) ≤ 9007199254740992 := by
  refine ⟨one_le_two k, ?_⟩
  have := two_mono (show (k : Int) ≤ 53 by omega)
  have c : (2 : Rat) ^ (53 : Int) = 9007199254740992 := by decide +kernel
  rwa [c] at this

theorem num_pow {F : Format} {k : Nat} (hp : 1 ≤ F.p) (h : F.lo ≤ 0) (h2 : (k : Int) ≤ F.hi) : Num F ((2 : Rat) ^ (k : Int)) := by
  refine ⟨1, k, ?_, ?_, by omega, h2, ?_⟩
  · have : (0 : Int) < 2 ^ F.p := Int.pow_pos (by decide)
    omega
  · obtain ⟨q, hq⟩ : ∃ q, F.p = q + 1 := ⟨F.p - 1, by omega⟩
    have : (0 : Int) < 2 ^ q := Int.pow_pos (by decide)
    rw [hq, Int.pow_succ]; omega
  · have : ((1 : Int) : Rat) = 1 := rfl
    rw [this, Rat.one_mul]

theorem num_zero {F : Format} (h : F.lo ≤ 0) (h2 : 0 ≤ F.hi) : Num F 0 := by
  have : (0 : Int) < 2 ^ F.p := Int.pow_pos (by decide)
  exact ⟨0, 0, by omega, by omega, h, h2, by decide +kernel⟩

theorem exact_int (hd : Rounds double rd) {m : Int} (h0 : 0 ≤ m) (h1 : m < 2 ^ 53) : rd m = m := by
  obtain ⟨n, rfl⟩ := Int.eq_ofNat_of_zero_le h0
  exact rnd_exact hd (n := n) (e := 0) (by omega) (by decide) (by decide) (by rw [Rat.zpow_zero, Rat.mul_one, Rat.intCast_natCast])

/-- The fraction of the second. -/
theorem fraction (hd : Rounds double rd) {u : Int} (h0 : 0 ≤ u) (h1 : u < 1000000) :
    Near double ((u : Rat) / 1000000) (rd (rd u / rd 1000000)) ∧ (0 : Rat) ≤ (u : Rat) / 1000000 ∧ (u : Rat) / 1000000 < 1 := by
  have u0 : ((0 : Int) : Rat) ≤ (u : Rat) := Rat.intCast_le_intCast.2 h0
  have u1 : (u : Rat) < ((1000000 : Int) : Rat) := Rat.intCast_lt_intCast.2 h1
  have z : ((0 : Int) : Rat) = 0 := rfl
  have c : ((1000000 : Int) : Rat) = 1000000 := rfl
  rw [z] at u0; rw [c] at u1
  have m := exact_int hd (m := 1000000) (by decide) (by decide)
  rw [c] at m
  rw [exact_int hd h0 (by omega), m]
  have q0 : (0 : Rat) ≤ (u : Rat) / 1000000 := by grind
  have q1 : (u : Rat) / 1000000 < 1 := by grind
  refine ⟨hd _ (small q0 ?_), q0, q1⟩
  have c2 : (2 : Rat) ^ 64 = 18446744073709551616 := by decide +kernel
  rw [c2]; grind

/-- The steps of the conversion: the fraction `q`, the double `x` and the float. -/
structure Steps (rd rf : Rat → Rat) (k : Nat) (t : Timeval) (q x : Rat) : Prop where
  q0 : 0 ≤ q
  q1 : q ≤ 1
  qe : 2 * (q - (t.usec : Rat) / 1000000).abs ≤ 1 / 9007199254740992
  nx : Near double ((t.sec : Rat) + q) x
  x0 : 0 ≤ x
  x1 : x ≤ 2 ^ (k : Int)
  xe : 2 * (x - ((t.sec : Rat) + q)).abs ≤ 2 ^ (k : Int) * (1 / 9007199254740992)
  nv : Near single x (toFloat rd rf t)
  v0 : 0 ≤ toFloat rd rf t
  v1 : toFloat rd rf t ≤ 2 ^ (k : Int)
  ve : 2 * (toFloat rd rf t - x).abs ≤ 2 ^ (k : Int) * (1 / 16777216)
  isq : q = rd (rd t.usec / rd 1000000)
  isx : x = rd ((t.sec : Rat) + q)
  isv : toFloat rd rf t = rf x

theorem steps (hd : Rounds double rd) (hf : Rounds single rf) {k : Nat} (hk : k ≤ 53) {t : Timeval} (ht : Below k t) : ∃ q x, Steps rd rf k t q x := by
  obtain ⟨nq, f0, f1⟩ := fraction hd ht.usec0 ht.usec1
  obtain ⟨p1, p2⟩ := pow_bounds hk
  have c2 : (2 : Rat) ^ 64 = 18446744073709551616 := by decide +kernel
  have n1 : Num double 1 := by
    have := num_pow (F := double) (k := 0) (by decide) (by decide) (by decide)
    exact this
  have q0 := nq.num_le (num_zero (by decide) (by decide)) f0
  have q1 := nq.le_num n1 (Rat.le_of_lt f1)
  have qe := nq.error (j := -53) f0 (by
    have : (2 : Rat) ^ (((double.p : Nat) : Int) + (-53)) = 1 := by decide +kernel
    rw [this]; exact Rat.le_of_lt f1) (by decide) (by decide) (by decide)
  have c : (2 : Rat) ^ (-53 : Int) = 1 / 9007199254740992 := by decide +kernel
  rw [c] at qe
  have s0 : ((0 : Int) : Rat) ≤ (t.sec : Rat) := Rat.intCast_le_intCast.2 ht.sec0
  have s1 : ((t.sec + 1 : Int) : Rat) ≤ ((2 ^ k : Int) : Rat) := Rat.intCast_le_intCast.2 (by have := ht.sec1; omega)
  have z : ((0 : Int) : Rat) = 0 := rfl
  have o : ((1 : Int) : Rat) = 1 := rfl
  rw [z] at s0
  rw [Rat.intCast_add, o, ← two_nat] at s1
  have s53 : t.sec < 2 ^ 53 := by
    have a := ht.sec1
    have : (2 : Int) ^ k ≤ 2 ^ 53 := by
      exact_mod_cast Nat.pow_le_pow_right (by decide : 0 < 2) hk
    omega
  have es := exact_int hd ht.sec0 s53
  generalize hq : rd (rd t.usec / rd 1000000) = q at *
  have w0 : (0 : Rat) ≤ (t.sec : Rat) + q := by grind
  have w1 : (t.sec : Rat) + q ≤ 2 ^ (k : Int) := by
    generalize (2 : Rat) ^ (k : Int) = P at *
    grind
  have nx := hd ((t.sec : Rat) + q) (small w0 (by rw [c2]; generalize (2 : Rat) ^ (k : Int) = P at *; grind))
  have x0 := nx.num_le (num_zero (by decide) (by decide)) w0
  have x1 := nx.le_num (num_pow (by decide) (by decide) (by have : double.hi = 971 := rfl; omega)) w1
  have lo1 : double.lo = -1074 := rfl
  have hi1 : double.hi = 971 := rfl
  have lo2 : single.lo = -149 := rfl
  have hi2 : single.hi = 104 := rfl
  have xe := nx.error (j := (k : Int) + -53) w0 (by
    have : ((double.p : Nat) : Int) + ((k : Int) + -53) = k := by have : double.p = 53 := rfl; omega
    rw [this]; exact w1) (by decide) (by omega) (by omega)
  rw [two_add, c] at xe
  have nv := hf _ (small1 x0 (by rw [c2]; generalize (2 : Rat) ^ (k : Int) = P at *; grind))
  have v0 := nv.num_le (num_zero (by decide) (by decide)) x0
  have v1 := nv.le_num (num_pow (by decide) (by decide) (by omega)) x1
  have ve := nv.error (j := (k : Int) + -24) x0 (by
    have : ((single.p : Nat) : Int) + ((k : Int) + -24) = k := by have : single.p = 24 := rfl; omega
    rw [this]; exact x1) (by decide) (by omega) (by omega)
  have c3 : (2 : Rat) ^ (-24 : Int) = 1 / 16777216 := by decide +kernel
  rw [two_add, c3] at ve
  have ef : toFloat rd rf t = rf (rd ((t.sec : Rat) + q)) := by rw [toFloat, es, hq]
  rw [← ef] at nv v0 v1 ve
  exact ⟨q, _, q0, q1, qe, nx, x0, x1, xe, nv, v0, v1, ve, hq.symm, rfl, ef⟩

/-- C124: for a time below 2^k seconds the float differs from it by at most 2^k (2^-25 + 2^-53) seconds. -/
theorem c124_accuracy (hd : Rounds double rd) (hf : Rounds single rf) {k : Nat} (hk : k ≤ 53) {r : Result} (hu : Below k r.usr) (hs : Below k r.sys) :
    ((elapsed rd rf r).1 - secs r.usr).abs ≤ (2 : Rat) ^ k * (1 / 2 ^ 25 + 1 / 2 ^ 53) ∧ ((elapsed rd rf r).2.1 - secs r.sys).abs ≤ (2 : Rat) ^ k * (1 / 2 ^ 25 + 1 / 2 ^ 53) := by
  have one : ∀ t, Below k t → (toFloat rd rf t - secs t).abs ≤ (2 : Rat) ^ k * (1 / 2 ^ 25 + 1 / 2 ^ 53) := by
    intro t ht
    obtain ⟨q, x, h⟩ := steps hd hf hk ht
    obtain ⟨p1, p2⟩ := pow_bounds hk
    have a := h.qe
    have b := h.xe
    have c := h.ve
    have e1 : (2 : Rat) ^ 25 = 33554432 := by decide +kernel
    have e2 : (2 : Rat) ^ 53 = 9007199254740992 := by decide +kernel
    have e3 : (2 : Rat) ^ k = 2 ^ (k : Int) := (Rat.zpow_natCast 2 k).symm
    rw [e1, e2, e3, secs]
    generalize toFloat rd rf t = v at *
    generalize (2 : Rat) ^ (k : Int) = P at *
    clear h
    generalize (t.sec : Rat) = s at *
    generalize (t.usec : Rat) / 1000000 = u at *
    simp only [abs_def] at *
    grind
  exact ⟨one _ hu, one _ hs⟩

/-- C124: the total is at least each part, and for parts below 2^k seconds it differs from their true sum by at most 2^k (2^-23 + 2^-52) seconds. -/
theorem c124_total (hd : Rounds double rd) (hf : Rounds single rf) {k : Nat} (hk : k ≤ 53) {r : Result} (hu : Below k r.usr) (hs : Below k r.sys) :
    (elapsed rd rf r).1 ≤ (elapsed rd rf r).2.2 ∧ (elapsed rd rf r).2.1 ≤ (elapsed rd rf r).2.2
      ∧ ((elapsed rd rf r).2.2 - (secs r.usr + secs r.sys)).abs ≤ (2 : Rat) ^ k * (1 / 2 ^ 23 + 1 / 2 ^ 52) := by
  obtain ⟨a, b⟩ := c124_accuracy hd hf hk hu hs
  obtain ⟨qu, xu, gu⟩ := steps hd hf hk hu
  obtain ⟨qs, xs, gs⟩ := steps hd hf hk hs
  obtain ⟨p1, p2⟩ := pow_bounds hk
  have u0 := gu.v0
  have u1 := gu.v1
  have s0 := gs.v0
  have s1 := gs.v1
  have mu := gu.nv.1
  have ms := gs.nv.1
  have e3 : (2 : Rat) ^ k = 2 ^ (k : Int) := (Rat.zpow_natCast 2 k).symm
  simp only [elapsed] at a b ⊢
  rw [e3] at a b ⊢
  clear gu gs
  generalize toFloat rd rf r.usr = u at *
  generalize toFloat rd rf r.sys = v at *
  have c2 : (2 : Rat) ^ 64 = 18446744073709551616 := by decide +kernel
  have w0 : 0 ≤ u + v := by grind
  have n := hf (u + v) (small1 w0 (by rw [c2]; generalize (2 : Rat) ^ (k : Int) = P at *; grind))
  have lo2 : single.lo = -149 := rfl
  have hi2 : single.hi = 104 := rfl
  have e := n.error (j := (k : Int) + -23) w0 (by
    have : ((single.p : Nat) : Int) + ((k : Int) + -23) = (k : Int) + 1 := by have : single.p = 24 := rfl; omega
    rw [this, two_succ]
    generalize (2 : Rat) ^ (k : Int) = P at *; grind) (by decide) (by omega) (by omega)
  have c3 : (2 : Rat) ^ (-23 : Int) = 1 / 8388608 := by decide +kernel
  rw [two_add, c3] at e
  refine ⟨n.num_le mu (by grind), n.num_le ms (by grind), ?_⟩
  have e1 : (2 : Rat) ^ 25 = 33554432 := by decide +kernel
  have e2 : (2 : Rat) ^ 53 = 9007199254740992 := by decide +kernel
  have e4 : (2 : Rat) ^ 23 = 8388608 := by decide +kernel
  have e5 : (2 : Rat) ^ 52 = 4503599627370496 := by decide +kernel
  rw [e1, e2] at a b
  rw [e4, e5]
  generalize rf (u + v) = w at *
  generalize (2 : Rat) ^ (k : Int) = P at *
  generalize secs r.usr = A at *
  generalize secs r.sys = B at *
  clear n mu ms hf hd
  simp only [abs_def] at *
  grind

theorem toFloat_mono (hd : Rounds double rd) (hf : Rounds single rf) {k : Nat} (hk : k ≤ 53) {t t' : Timeval} (ht : Below k t) (ht' : Below k t') (h : secs t ≤ secs t') : toFloat rd rf t ≤ toFloat rd rf t' := by
  obtain ⟨q, x, g⟩ := steps hd hf hk ht
  obtain ⟨q', x', g'⟩ := steps hd hf hk ht'
  obtain ⟨p1, p2⟩ := pow_bounds hk
  obtain ⟨_, f0, f1⟩ := fraction hd ht.usec0 ht.usec1
  obtain ⟨_, f0', f1'⟩ := fraction hd ht'.usec0 ht'.usec1
  have c2 : (2 : Rat) ^ 64 = 18446744073709551616 := by decide +kernel
  have key : (t.sec : Rat) + q ≤ (t'.sec : Rat) + q' := by
    rw [secs, secs] at h
    rcases Int.lt_trichotomy t.sec t'.sec with l | l | l
    · have l : ((t.sec + 1 : Int) : Rat) ≤ t'.sec := Rat.intCast_le_intCast.2 l
      have o : ((1 : Int) : Rat) = 1 := rfl
      rw [Rat.intCast_add, o] at l
      have a := g.q1
      have b := g'.q0
      grind
    · rw [l] at h ⊢
      have h : (t.usec : Rat) / 1000000 ≤ (t'.usec : Rat) / 1000000 := by grind
      have : q ≤ q' := by
        obtain ⟨n, _⟩ := fraction hd ht.usec0 ht.usec1
        obtain ⟨n', _⟩ := fraction hd ht'.usec0 ht'.usec1
        rw [← g.isq] at n
        rw [← g'.isq] at n'
        by_cases e : (t.usec : Rat) / 1000000 = (t'.usec : Rat) / 1000000
        · have e' : (t.usec : Rat) = t'.usec := by grind
          rw [g.isq, g'.isq, e']
          exact Rat.le_refl
        · exact n.mono n' (by grind)
      grind
    · have l : ((t'.sec + 1 : Int) : Rat) ≤ t.sec := Rat.intCast_le_intCast.2 l
      have o : ((1 : Int) : Rat) = 1 := rfl
      rw [Rat.intCast_add, o] at l
      grind
  have : x ≤ x' := by
    by_cases e : (t.sec : Rat) + q = (t'.sec : Rat) + q'
    · rw [g.isx, g'.isx, e]; exact Rat.le_refl
    · exact g.nx.mono g'.nx (by grind)
  by_cases e : x = x'
  · rw [g.isv, g'.isv, e]; exact Rat.le_refl
  · exact g.nv.mono g'.nv (by grind)

/-- C124: longer times never give smaller figures. -/
theorem c124_order (hd : Rounds double rd) (hf : Rounds single rf) {r r' : Result} (hu : Below 53 r.usr) (hs : Below 53 r.sys) (hu' : Below 53 r'.usr) (hs' : Below 53 r'.sys)
    (h1 : secs r.usr ≤ secs r'.usr) (h2 : secs r.sys ≤ secs r'.sys) :
    (elapsed rd rf r).1 ≤ (elapsed rd rf r').1 ∧ (elapsed rd rf r).2.1 ≤ (elapsed rd rf r').2.1 ∧ (elapsed rd rf r).2.2 ≤ (elapsed rd rf r').2.2 := by
  have a := toFloat_mono hd hf (Nat.le_refl 53) hu hu' h1
  have b := toFloat_mono hd hf (Nat.le_refl 53) hs hs' h2
  refine ⟨a, b, ?_⟩
  obtain ⟨_, _, g1⟩ := steps hd hf (Nat.le_refl 53) hu
  obtain ⟨_, _, g2⟩ := steps hd hf (Nat.le_refl 53) hs
  obtain ⟨_, _, g3⟩ := steps hd hf (Nat.le_refl 53) hu'
  obtain ⟨_, _, g4⟩ := steps hd hf (Nat.le_refl 53) hs'
  have c2 : (2 : Rat) ^ 64 = 18446744073709551616 := by decide +kernel
  have c53 : (2 : Rat) ^ ((53 : Nat) : Int) = 9007199254740992 := by decide +kernel
  have i1 := g1.v0; have j1 := g1.v1
  have i2 := g2.v0; have j2 := g2.v1
  have i3 := g3.v0; have j3 := g3.v1
  have i4 := g4.v0; have j4 := g4.v1
  rw [c53] at j1 j2 j3 j4
  clear g1 g2 g3 g4
  simp only [elapsed]
  generalize toFloat rd rf r.usr = u at *
  generalize toFloat rd rf r.sys = v at *
  generalize toFloat rd rf r'.usr = u' at *
  generalize toFloat rd rf r'.sys = v' at *
  exact hf.mono (small1 (by grind) (by rw [c2]; grind)) (small1 (by grind) (by rw [c2]; grind)) (by grind)

/-- C124: times of whole seconds below 2^24 (194 days) are exact. -/
theorem c124_whole (hd : Rounds double rd) (hf : Rounds single rf) {t : Timeval} (h0 : 0 ≤ t.sec) (h1 : t.sec < 2 ^ 24) (hu : t.usec = 0) : toFloat rd rf t = secs t := by
  obtain ⟨q, x, g⟩ := steps hd hf (show 24 ≤ 53 by decide) (t := t) ⟨h0, h1, by omega, by omega⟩
  obtain ⟨n, _⟩ := fraction hd (u := t.usec) (by omega) (by omega)
  rw [← g.isq, hu] at n
  have z : ((0 : Int) : Rat) / 1000000 = 0 := by decide +kernel
  rw [z] at n
  have q0 : q = 0 := n.exact (num_zero (by decide) (by decide))
  have nx := g.nx
  have nv := g.nv
  have s53 : t.sec < 2 ^ 53 := by omega
  rw [q0, Rat.add_zero] at nx
  have x0 : x = t.sec := nx.exact ⟨t.sec, 0, by have : double.p = 53 := rfl; rw [this]; omega, by have : double.p = 53 := rfl; rw [this]; omega, by decide, by decide, by rw [Rat.zpow_zero, Rat.mul_one]⟩
  rw [x0] at nv
  have v0 := nv.exact ⟨t.sec, 0, by have : single.p = 24 := rfl; rw [this]; omega, by have : single.p = 24 := rfl; rw [this]; omega, by decide, by decide, by rw [Rat.zpow_zero, Rat.mul_one]⟩
  rw [v0, secs, hu, z, Rat.add_zero]

/-- C124: a figure is 0 only if no time was used. -/
theorem c124_zero (hd : Rounds double rd) (hf : Rounds single rf) {t : Timeval} (ht : Below 53 t) : toFloat rd rf t = 0 ↔ secs t = 0 := by
  obtain ⟨_, f0, f1⟩ := fraction hd ht.usec0 ht.usec1
  have s0 : ((0 : Int) : Rat) ≤ (t.sec : Rat) := Rat.intCast_le_intCast.2 ht.sec0
  have z : ((0 : Int) : Rat) = 0 := rfl
  rw [z] at s0
  constructor
  · intro h
    obtain ⟨q, x, g⟩ := steps hd hf (Nat.le_refl 53) ht
    obtain ⟨n, _⟩ := fraction hd ht.usec0 ht.usec1
    rw [← g.isq] at n
    have n20 : Num double (1 / 1048576) := by
      have := num_scaled (n := 1) (e := -20) (by decide) (by decide) (by decide)
      have e : ((1 : Nat) : Rat) * 2 ^ (-20 : Int) = 1 / 1048576 := by decide +kernel
      rwa [e] at this
    have m20 : Num single (1 / 1048576) := ⟨1, -20, by decide, by decide, by decide, by decide, by decide +kernel⟩
    have nv := g.nv
    rw [h] at nv
    have x20 : x < 1 / 1048576 := by
      by_cases l : 1 / 1048576 ≤ x
      · have := nv.num_le m20 l
        have := show ¬ (1 / 1048576 : Rat) ≤ 0 by decide +kernel
        contradiction
      · exact Rat.not_le.1 l
    have w20 : (t.sec : Rat) + q < 1 / 1048576 := by
      by_cases l : 1 / 1048576 ≤ (t.sec : Rat) + q
      · have := g.nx.num_le n20 l
        grind
      · exact Rat.not_le.1 l
    have q0 := g.q0
    have u20 : (t.usec : Rat) / 1000000 < 1 / 1048576 := by
      by_cases l : 1 / 1048576 ≤ (t.usec : Rat) / 1000000
      · have := n.num_le n20 l
        grind
      · exact Rat.not_le.1 l
    have us : t.usec < 1 := Rat.intCast_lt_intCast.1 (by have o : ((1 : Int) : Rat) = 1 := rfl; rw [o]; grind)
    have ss : t.sec < 1 := Rat.intCast_lt_intCast.1 (by have o : ((1 : Int) : Rat) = 1 := rfl; rw [o]; grind)
    have h1 : t.usec = 0 := by have := ht.usec0; omega
    have h2 : t.sec = 0 := by have := ht.sec0; omega
    rw [secs, h1, h2]; decide +kernel
  · intro h
    have hs : (t.sec : Rat) < 1 := by rw [secs] at h; grind
    have hu : (t.usec : Rat) < 1 := by rw [secs] at h; grind
    have o : ((1 : Int) : Rat) = 1 := rfl
    have us : t.usec < 1 := Rat.intCast_lt_intCast.1 (by rw [o]; exact hu)
    have ss : t.sec < 1 := Rat.intCast_lt_intCast.1 (by rw [o]; exact hs)
    have a := ht.usec0
    have b := ht.sec0
    rw [c124_whole hd hf b (by omega) (by omega), h]

/-- C124: the report. For times below 2^15 seconds (9 hours) the three numbers printed are those of the user time, the system time and their sum, each less than a hundredth of a second off. -/
theorem c124_report (hd : Rounds double rd) (hf : Rounds single rf) {f2 : Rat → List Byte} (hp : Prints f2) {r : Result} (hu : Below 15 r.usr) (hs : Below 15 r.sys) (name : List Byte) (n : Int) :
    ∃ a b c : Nat, ((a : Rat) / 100 - secs r.usr).abs < 1 / 100 ∧ ((b : Rat) / 100 - secs r.sys).abs < 1 / 100 ∧ ((c : Rat) / 100 - (secs r.usr + secs r.sys)).abs < 1 / 100
      ∧ report rd rf f2 r name n = (if 1 < n then Num.signed n ++ lit " calls of " else []) ++ name ++ lit " took: " ++ hundredths a ++ lit "s user " ++ hundredths b ++ lit "s system " ++ hundredths c ++ lit "s total" := by
  obtain ⟨p, q⟩ := c124_accuracy hd hf (by decide) hu hs
  obtain ⟨t1, t2, t⟩ := c124_total hd hf (by decide) hu hs
  obtain ⟨_, _, g1⟩ := steps hd hf (by decide) hu
  obtain ⟨_, _, g2⟩ := steps hd hf (by decide) hs
  have u0 : 0 ≤ (elapsed rd rf r).1 := g1.v0
  have s0 : 0 ≤ (elapsed rd rf r).2.1 := g2.v0
  have w0 : 0 ≤ (elapsed rd rf r).2.2 := by grind
  obtain ⟨a, ea, fa⟩ := hp _ u0
  obtain ⟨b, eb, fb⟩ := hp _ s0
  obtain ⟨c, ec, fc⟩ := hp _ w0
  have e0 : (2 : Rat) ^ 15 = 32768 := by decide +kernel
  have e1 : (2 : Rat) ^ 25 = 33554432 := by decide +kernel
  have e2 : (2 : Rat) ^ 53 = 9007199254740992 := by decide +kernel
  have e4 : (2 : Rat) ^ 23 = 8388608 := by decide +kernel
  have e5 : (2 : Rat) ^ 52 = 4503599627370496 := by decide +kernel
  rw [e0, e1, e2] at p q
  rw [e0, e4, e5] at t
  refine ⟨a, b, c, ?_, ?_, ?_, ?_⟩
  · clear q t eb ec
    simp only [abs_def] at *
    grind
  · clear p t ea ec
    simp only [abs_def] at *
    grind
  · clear p q ea eb
    simp only [abs_def] at *
    grind
  · simp only [report]
    rw [fa, fb, fc]
    by_cases h : n ≤ 1
    · rw [if_pos h, if_neg (by omega), List.nil_append]
    · rw [if_neg h, if_pos (by omega)]

/-- C124: from 2^24 seconds on whole seconds are lost: no rounding represents 2^24 + 1 seconds. -/
theorem c124_seconds_violation (hd : Rounds double rd) (hf : Rounds single rf) : toFloat rd rf ⟨16777217, 0⟩ ≠ secs ⟨16777217, 0⟩ := by
  obtain ⟨q, x, g⟩ := steps hd hf (show 25 ≤ 53 by decide) (t := ⟨16777217, 0⟩) ⟨by decide, by decide, by decide, by decide⟩
  intro h
  have e : secs ⟨16777217, 0⟩ = 16777217 := by decide +kernel
  rw [e] at h
  obtain ⟨n, hn⟩ := g.nv.1.multiple (j := 1) (by rw [h]; decide +kernel)
  rw [h, Rat.zpow_one] at hn
  have : ((16777217 : Int) : Rat) = ((n * 2 : Int) : Rat) := by rw [Rat.intCast_mul]; exact hn
  have := Rat.intCast_inj.1 this
  omega

/-- C124: the hundredths are wrong much earlier: 131072.01 seconds (36 hours) are printed as 131072.02. -/
theorem c124_hundredths_violation (hd : Rounds double rd) (hf : Rounds single rf) {f2 : Rat → List Byte} (hp : Prints f2) : f2 (elapsed rd rf ⟨⟨0, 0⟩, ⟨131072, 10000⟩⟩).1 = hundredths 13107202 := by
  obtain ⟨q, x, g⟩ := steps hd hf (show 18 ≤ 53 by decide) (t := ⟨131072, 10000⟩) ⟨by decide, by decide, by decide, by decide⟩
  have c18 : (2 : Rat) ^ ((18 : Nat) : Int) = 262144 := by decide +kernel
  have a := g.qe
  have b := g.xe
  have nv := g.nv
  have v0 := g.v0
  rw [c18] at b
  have t1 : ((10000 : Int) : Rat) = 10000 := rfl
  have t2 : ((131072 : Int) : Rat) = 131072 := rfl
  dsimp only at a b
  rw [t1] at a
  rw [t2] at b
  show f2 (toFloat rd rf ⟨131072, 10000⟩) = _
  generalize toFloat rd rf ⟨131072, 10000⟩ = v at *
  have m17 : Num single 131072 := ⟨1, 17, by decide, by decide, by decide, by decide, by decide +kernel⟩
  have m2 : Num single (131072 + 1 / 64) := ⟨8388609, -6, by decide, by decide, by decide, by decide, by decide +kernel⟩
  have w := nv.num_le m17 (by clear g nv; simp only [abs_def] at *; grind)
  obtain ⟨n, hn⟩ := nv.1.multiple (j := -6) (by
    have : (2 : Rat) ^ (((single.p : Nat) : Int) + (-6)) = 262144 := by decide +kernel
    rw [this]; grind)
  have c6 : (2 : Rat) ^ (-6 : Int) = 1 / 64 := by decide +kernel
  rw [c6] at hn
  have near := nv.2 _ m2
  have k1 : n = 8388609 := by
    rcases Int.lt_trichotomy n 8388609 with l | l | l
    · exfalso
      have l' : (n : Rat) ≤ ((8388608 : Int) : Rat) := Rat.intCast_le_intCast.2 (by omega)
      have z : ((8388608 : Int) : Rat) = 8388608 := rfl
      clear nv g
      simp only [abs_def] at *
      grind
    · exact l
    · exfalso
      have l' : ((8388610 : Int) : Rat) ≤ (n : Rat) := Rat.intCast_le_intCast.2 (by omega)
      have z : ((8388610 : Int) : Rat) = 8388610 := rfl
      clear nv g
      simp only [abs_def] at *
      grind
  have k2 : ((8388609 : Int) : Rat) = 8388609 := rfl
  rw [k1, k2] at hn
  obtain ⟨i, ei, fi⟩ := hp v v0
  rw [hn] at ei
  have lo : ((13107201 : Nat) : Rat) < i := by
    have z : ((13107201 : Nat) : Rat) = 13107201 := rfl
    clear nv g
    simp only [abs_def] at ei
    grind
  have up : (i : Rat) < ((13107203 : Nat) : Rat) := by
    have z : ((13107203 : Nat) : Rat) = 13107203 := rfl
    clear nv g
    simp only [abs_def] at ei
    grind
  have lo := Rat.natCast_lt_natCast.1 lo
  have up := Rat.natCast_lt_natCast.1 up
  have : i = 13107202 := by omega
  rw [fi, this]

/-- Roundings and a printing function exist, and a measured time. -/
theorem elapsed_case : (∃ rd, Rounds double rd) ∧ (∃ rf, Rounds single rf) ∧ (∃ f2, Prints f2) ∧ Below 15 ⟨3, 141592⟩ ∧ hundredths 314 = [51, 46, 49, 52] := by
  refine ⟨exists_rounds (by decide) (by decide), exists_rounds (by decide) (by decide), ?_, ⟨by decide, by decide, by decide, by decide⟩, by decide +kernel⟩
  have : ∀ v : Rat, ∃ n : Nat, 0 ≤ v → 2 * ((n : Rat) - 100 * v).abs ≤ 1 := by
    intro v
    refine ⟨(100 * v + 1 / 2).floor.toNat, fun h => ?_⟩
    have f1 := Rat.floor_le (a := 100 * v + 1 / 2)
    have f2 := Rat.lt_floor_add_one (a := 100 * v + 1 / 2)
    have f0 : 0 ≤ (100 * v + 1 / 2).floor := Rat.le_floor_iff.2 (by have z : ((0 : Int) : Rat) = 0 := rfl; rw [z]; grind)
    rw [Rat.intCast_add] at f2
    have i1 : ((1 : Int) : Rat) = 1 := rfl
    rw [i1] at f2
    obtain ⟨n, hn⟩ := Int.eq_ofNat_of_zero_le f0
    rw [hn] at f1 f2 ⊢
    rw [Rat.intCast_natCast] at f1 f2
    rw [Int.toNat_natCast]
    simp only [abs_def]
    grind
  classical
  exact ⟨fun v => hundredths (this v).choose, fun v hv => ⟨_, (this v).choose_spec hv, rfl⟩⟩

end ZT.Time
