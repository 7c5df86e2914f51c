import Verif.Ieee
import Verif.Cfg.Props

/-!
# C127: floating point values in configurations

zt_cfg_set stores a double as the text of "%f" (cfg_private.c 224), and zt_cfg_get returns what strtod made of it (cfg_private.c 141, 283). The rest of the model
takes these two functions of the C library as parameters (`Floats`); here they are specified: a finite double is a rational number (-0 is 0).
-/

namespace ZT.Cfg

open Spec Ieee

/-! ## Specification of the C library -/

/-- The value of decimal digits. -/
def natOf (s : Str) : Nat := s.foldl (fun a c => 10 * a + (c.toNat - 48)) 0

def isDec (c : Byte) : Bool := 0x30 ≤ c && c ≤ 0x39

/-- The value of digits, a point and digits. -/
def unsigned (s : Str) : Option Rat :=
  match s.dropWhile isDec with
  | 0x2E :: fp => if s.takeWhile isDec ≠ [] ∧ fp ≠ [] ∧ fp.all isDec then some ((natOf (s.takeWhile isDec) : Rat) + (natOf fp : Rat) / (10 ^ fp.length : Nat)) else none
  | _ => none

/-- With a sign in front. -/
def decimal : Str → Option Rat
  | 0x2D :: s => (unsigned s).map fun v => -v
  | s => unsigned s

/-- So many millionths: digits, a point, six digits. -/
def millionths (neg : Bool) (n : Nat) : Str :=
  (if neg then [0x2D] else []) ++ Num.digits 10 (n / 1000000) ++ 0x2E ::
    [UInt8.ofNat (48 + n / 100000 % 10), UInt8.ofNat (48 + n / 10000 % 10), UInt8.ofNat (48 + n / 1000 % 10), UInt8.ofNat (48 + n / 100 % 10), UInt8.ofNat (48 + n / 10 % 10), UInt8.ofNat (48 + n % 10)]

/-- printf and strtod of ISO C for finite doubles, on a machine with IEEE 754: "%f" prints a nearest number of millionths (C17 7.21.6.1), strtod gives a nearest double
(C17 7.22.1.3 and F.5). Which one in a tie is left open. The range of strtod is that of the doubles. -/
structure Clib (fl : Floats Rat) : Prop where
  print : ∀ x, Ieee.Num double x → ∃ neg n, fl.print x = millionths neg n ∧ (if neg then x ≤ 0 else 0 ≤ x) ∧ 2 * (1000000 * x.abs - (n : Rat)).abs ≤ 1
  read : ∀ s v, decimal s = some v → v.abs ≤ (2 : Rat) ^ (1023 : Int) ∨ Ieee.Num double v → ∃ r, fl.read s = some r ∧ Near double v r

/-- What zt_cfg_get gives after zt_cfg_set of `x`, whatever was written before, in any variable of any block. -/
def Comes (fl : Floats Rat) (x y : Rat) : Prop :=
  ∀ (h : List (Str × Str × Str)) (cfg : Cfg Rat), run fl h new = .ok cfg → ∀ b n : Str,
    ∃ cfg', set fl cfg b n (.float x) = .ok (cfg', 1) ∧ Runs (fun fuel => get fuel cfg' b n .float) (2, some (.float y))

/-! ## Texts -/

theorem isDec_iff {c : Byte} : isDec c = true ↔ IsDec c := by simp [isDec, IsDec]

theorem isDec_digit (d : Nat) : isDec (UInt8.ofNat (48 + d % 10)) = true := by
  rw [isDec_iff]
  simp only [IsDec, UInt8.le_iff_toNat_le, UInt8.toNat_ofNat']
  show 48 ≤ _ ∧ _ ≤ 57
  omega

theorem digit_val (d : Nat) : (UInt8.ofNat (48 + d % 10)).toNat - 48 = d % 10 := by
  simp only [UInt8.toNat_ofNat']; omega

theorem span_digits (m : Nat) (t : Str) : (Num.digits 10 m ++ 0x2E :: t).takeWhile isDec = Num.digits 10 m ∧ (Num.digits 10 m ++ 0x2E :: t).dropWhile isDec = 0x2E :: t := by
  have h : ∀ c ∈ Num.digits 10 m, isDec c = true := fun c hc => isDec_iff.2 (digits_dec m c hc)
  have hd : isDec 0x2E = false := by decide
  constructor
  · rw [List.takeWhile_append_of_pos h, List.takeWhile_cons, hd]; simp
  · rw [List.dropWhile_append_of_pos h, List.dropWhile_cons, hd]; simp

theorem six_val (n : Nat) : natOf [UInt8.ofNat (48 + n / 100000 % 10), UInt8.ofNat (48 + n / 10000 % 10), UInt8.ofNat (48 + n / 1000 % 10), UInt8.ofNat (48 + n / 100 % 10), UInt8.ofNat (48 + n / 10 % 10), UInt8.ofNat (48 + n % 10)] = n % 1000000 := by
  simp only [natOf, List.foldl_cons, List.foldl_nil, digit_val]
  omega

theorem quot_rat (n : Nat) : ((n / 1000000 : Nat) : Rat) + ((n % 1000000 : Nat) : Rat) / ((1000000 : Nat) : Rat) = (n : Rat) / 1000000 := by
  have h : ((n : Nat) : Rat) = ((1000000 * (n / 1000000) + n % 1000000 : Nat) : Rat) := by rw [Nat.div_add_mod]
  have c : ((1000000 : Nat) : Rat) = 1000000 := rfl
  rw [Rat.natCast_add, Rat.natCast_mul, c] at h
  rw [c]
  grind

theorem unsigned_millionths (n : Nat) : unsigned (millionths false n) = some ((n : Rat) / 1000000) := by
  obtain ⟨h1, h2⟩ := span_digits (n / 1000000) [UInt8.ofNat (48 + n / 100000 % 10), UInt8.ofNat (48 + n / 10000 % 10), UInt8.ofNat (48 + n / 1000 % 10), UInt8.ofNat (48 + n / 100 % 10), UInt8.ofNat (48 + n / 10 % 10), UInt8.ofNat (48 + n % 10)]
  unfold unsigned millionths
  simp only [Bool.false_eq_true, if_false, List.nil_append, h1, h2]
  have hv : natOf (Num.digits 10 (n / 1000000)) = n / 1000000 := Num.value_digits (by decide) (by decide)
  rw [if_pos ⟨Num.digits_ne_nil _ _, by simp, by simp only [List.all_cons, List.all_nil, isDec_digit, Bool.and_self]⟩, six_val, hv]
  have hp : ((10 ^ (List.length [UInt8.ofNat (48 + n / 100000 % 10), UInt8.ofNat (48 + n / 10000 % 10), UInt8.ofNat (48 + n / 1000 % 10), UInt8.ofNat (48 + n / 100 % 10), UInt8.ofNat (48 + n / 10 % 10), UInt8.ofNat (48 + n % 10)]) : Nat)) = 1000000 := by
    simp only [List.length_cons, List.length_nil]
  rw [hp, quot_rat]

theorem millionths_head (n : Nat) : ∃ c t, millionths false n = c :: t ∧ isDec c = true := by
  unfold millionths
  cases h : Num.digits 10 (n / 1000000) with
  | nil => exact absurd h (Num.digits_ne_nil _ _)
  | cons c t => exact ⟨c, _, rfl, isDec_iff.2 (digits_dec (n / 1000000) c (by rw [h]; simp))⟩

theorem millionths_neg (n : Nat) : millionths true n = 0x2D :: millionths false n := rfl

/-- A sign as a number. -/
def sg (neg : Bool) : Rat := if neg then -1 else 1

theorem decimal_millionths (neg : Bool) (n : Nat) : decimal (millionths neg n) = some (sg neg * ((n : Rat) / 1000000)) := by
  cases neg with
  | true =>
      rw [millionths_neg]
      show (unsigned (millionths false n)).map _ = _
      rw [unsigned_millionths]
      simp only [Option.map_some, sg]
      congr 1; grind
  | false =>
      obtain ⟨c, t, e, hc⟩ := millionths_head n
      have : decimal (millionths false n) = unsigned (millionths false n) := by
        rw [e]; unfold decimal
        split
        · next h => cases h; exact absurd hc (by decide)
        · rfl
      rw [this, unsigned_millionths]
      congr 1; simp only [sg]; grind

theorem mem_point (neg : Bool) (n : Nat) : 0x2E ∈ millionths neg n := by simp [millionths]

theorem const_no_point {c : Str} {k : Nat} (h : Constant c k) : 0x2E ∉ c := by
  have nd : ¬ IsDec 0x2E := by simp [IsDec]
  have no : ¬ IsOct 0x2E := by simp [IsOct]
  have nh : ¬ IsHex 0x2E := by simp [IsHex]
  cases h with
  | dec _ _ h _ => exact fun m => nd (h _ m)
  | oct ds h => intro m; rcases List.mem_cons.1 m with m | m; exact absurd m (by decide); exact no (h _ m)
  | hex x ds hx _ h =>
      intro m
      rcases List.mem_cons.1 m with m | m
      · exact absurd m (by decide)
      · rcases List.mem_cons.1 m with m | m
        · rcases hx with rfl | rfl <;> exact absurd m (by decide)
        · exact nh (h _ m)

theorem int_no_point {s : Str} {k : Int} (h : IntText s k) : 0x2E ∉ s := by
  have ns : ¬ IsSpace 0x2E := by simp [IsSpace]
  cases h with
  | plain ws c n h1 h2 => intro m; rcases List.mem_append.1 m with m | m; exact ns (h1 _ m); exact const_no_point h2 m
  | plus ws c n h1 h2 =>
      intro m
      rcases List.mem_append.1 m with m | m
      · exact ns (h1 _ m)
      · rcases List.mem_cons.1 m with m | m; exact absurd m (by decide); exact const_no_point h2 m
  | minus ws c n h1 h2 =>
      intro m
      rcases List.mem_append.1 m with m | m
      · exact ns (h1 _ m)
      · rcases List.mem_cons.1 m with m | m; exact absurd m (by decide); exact const_no_point h2 m

/-! ## Numbers -/

theorem num_nat {k : Nat} (hk : k ≤ 52) : Ieee.Num double ((2 : Rat) ^ (k : Int)) := by
  have := num_scaled (n := 1) (e := k) (by decide) (by omega) (by omega)
  have c : ((1 : Nat) : Rat) = 1 := rfl
  rwa [c, Rat.one_mul] at this

theorem num_abs {x : Rat} (h : Ieee.Num double x) : Ieee.Num double x.abs := by
  rw [abs_def]; split
  · exact h.neg
  · exact h

theorem abs_nonneg (x : Rat) : 0 ≤ x.abs := by rw [abs_def]; split <;> grind

/-- A rational number at a distance below one from a natural number. -/
theorem nat_eq {a b : Nat} (h : ((a : Rat) - b).abs < 1) : a = b := by
  simp only [abs_def] at h
  rcases Nat.lt_trichotomy a b with g | g | g
  · have : ((a + 1 : Nat) : Rat) ≤ (b : Rat) := Rat.natCast_le_natCast.2 g
    have c : ((1 : Nat) : Rat) = 1 := rfl
    rw [Rat.natCast_add, c] at this
    grind
  · exact g
  · have : ((b + 1 : Nat) : Rat) ≤ (a : Rat) := Rat.natCast_le_natCast.2 g
    have c : ((1 : Nat) : Rat) = 1 := rfl
    rw [Rat.natCast_add, c] at this
    grind

theorem nat_le {a b : Nat} (h : (a : Rat) < (b : Rat) + 1) : a ≤ b := by
  have c : ((1 : Nat) : Rat) = 1 := rfl
  rw [← c, ← Rat.natCast_add] at h
  have := Rat.natCast_lt_natCast.1 h
  omega

theorem int_eq {a b : Int} (h : ((a : Rat) - b).abs < 1) : a = b := by
  simp only [abs_def] at h
  rcases Int.lt_trichotomy a b with g | g | g
  · have : ((a + 1 : Int) : Rat) ≤ (b : Rat) := Rat.intCast_le_intCast.2 g
    have c : ((1 : Int) : Rat) = 1 := rfl
    rw [Rat.intCast_add, c] at this
    grind
  · exact g
  · have : ((b + 1 : Int) : Rat) ≤ (a : Rat) := Rat.intCast_le_intCast.2 g
    have c : ((1 : Int) : Rat) = 1 := rfl
    rw [Rat.intCast_add, c] at this
    grind

/-- `n` is a nearest number of millionths to `a`. -/
def Mil (a : Rat) (n : Nat) : Prop := 2 * (1000000 * a - (n : Rat)).abs ≤ 1

/-- Large doubles are whole: they are a number of millionths. -/
theorem mil_large {a : Rat} (ha : Ieee.Num double a) (h : (2 : Rat) ^ (52 : Int) ≤ a) {n : Nat} (hn : Mil a n) : (n : Rat) / 1000000 = a := by
  obtain ⟨k, hk⟩ := ha.multiple (j := 0) (by
    have : (2 : Rat) ^ (((double.p : Nat) : Int) + 0) = 2 * 2 ^ (52 : Int) := by decide +kernel
    rw [this]; generalize (2 : Rat) ^ (52 : Int) = P at *; grind)
  have z : (2 : Rat) ^ (0 : Int) = 1 := rfl
  rw [z, Rat.mul_one] at hk
  have e : (1000000 * k : Int) = n := by
    apply int_eq
    have c : ((1000000 : Int) : Rat) = 1000000 := rfl
    rw [Rat.intCast_mul, c, Rat.intCast_natCast, ← hk]
    simp only [Mil, abs_def] at hn ⊢
    generalize (n : Rat) = m at *
    grind
  have e2 : ((1000000 * k : Int) : Rat) = (n : Rat) := by rw [e, Rat.intCast_natCast]
  have c : ((1000000 : Int) : Rat) = 1000000 := rfl
  rw [Rat.intCast_mul, c, ← hk] at e2
  grind

/-- Everything about one value that is not negative. -/
theorem core {a r : Rat} {n : Nat} (ha : Ieee.Num double a) (hn : Mil a n) (hr : Near double ((n : Rat) / 1000000) r) :
    0 ≤ r ∧ (r - a).abs < 1 / 1000000 ∧ ((2 : Rat) ^ (33 : Int) ≤ a → r = a) ∧ (a ≤ (2 : Rat) ^ (33 : Int) → Mil r n ∧ (0 < n → 0 < r)) := by
  have n0 : (0 : Rat) ≤ (n : Rat) := Rat.natCast_nonneg
  have c33 : (2 : Rat) ^ (33 : Int) = 8589934592 := by decide +kernel
  have z0 : (0 : Rat) ≤ (n : Rat) / 1000000 := by generalize (n : Rat) = m at *; grind
  have num0 : Ieee.Num double 0 := ⟨0, 0, by decide, by decide, by decide, by decide, by decide +kernel⟩
  have r0 : 0 ≤ r := hr.num_le num0 z0
  have num33 : Ieee.Num double ((2 : Rat) ^ (33 : Int)) := num_nat (k := 33) (by decide)
  have hbig : (2 : Rat) ^ (33 : Int) ≤ a → r = a := by
    intro h
    have zb : (2 : Rat) ^ (33 : Int) ≤ (n : Rat) / 1000000 := by
      have : (8589934592000000 : Nat) ≤ n := nat_le (by
        have c : ((8589934592000000 : Nat) : Rat) = 8589934592000000 := rfl
        rw [c]; rw [c33] at h
        simp only [Mil, abs_def] at hn
        generalize (n : Rat) = m at *
        grind)
      have k : ((8589934592000000 : Nat) : Rat) ≤ (n : Rat) := Rat.natCast_le_natCast.2 this
      have c : ((8589934592000000 : Nat) : Rat) = 8589934592000000 := rfl
      rw [c] at k; rw [c33]
      generalize (n : Rat) = m at *
      grind
    have rb := hr.num_le num33 zb
    have p34 : (2 : Rat) ^ (((double.p : Nat) : Int) + (-19)) = 17179869184 := by decide +kernel
    obtain ⟨k1, e1⟩ := ha.multiple (j := -19) (by rw [p34]; rw [c33] at h; grind)
    obtain ⟨k2, e2⟩ := hr.1.multiple (j := -19) (by rw [p34]; rw [c33] at rb; grind)
    have c19 : (2 : Rat) ^ (-19 : Int) = 1 / 524288 := by decide +kernel
    rw [c19] at e1 e2
    have := hr.2 a ha
    have e : k2 = k1 := by
      apply int_eq
      simp only [Mil, abs_def] at hn this ⊢
      generalize (n : Rat) = m at *
      generalize (k1 : Rat) = i1 at *
      generalize (k2 : Rat) = i2 at *
      clear ha h hr rb zb num33 c33 num0 p34 c19
      grind
    rw [e1, e2, e]
  have hsmall : a ≤ (2 : Rat) ^ (33 : Int) → 2 * (r - (n : Rat) / 1000000).abs ≤ 1 / 1048576 := by
    intro h
    have zb : (n : Rat) / 1000000 ≤ (2 : Rat) ^ (33 : Int) := by
      have : n ≤ (8589934592000000 : Nat) := nat_le (by
        have c : ((8589934592000000 : Nat) : Rat) = 8589934592000000 := rfl
        rw [c]; rw [c33] at h
        simp only [Mil, abs_def] at hn
        generalize (n : Rat) = m at *
        grind)
      have k : (n : Rat) ≤ ((8589934592000000 : Nat) : Rat) := Rat.natCast_le_natCast.2 this
      have c : ((8589934592000000 : Nat) : Rat) = 8589934592000000 := rfl
      rw [c] at k; rw [c33]
      generalize (n : Rat) = m at *
      grind
    have e := hr.error (j := -20) z0 (by
      have : (2 : Rat) ^ (((double.p : Nat) : Int) + (-20)) = (2 : Rat) ^ (33 : Int) := rfl
      rw [this]; exact zb) (by decide) (by decide) (by decide)
    have c20 : (2 : Rat) ^ (-20 : Int) = 1 / 1048576 := by decide +kernel
    rwa [c20] at e
  refine ⟨r0, ?_, hbig, fun h => ⟨?_, fun hpos => ?_⟩⟩
  · rcases Rat.le_total (a := (2 : Rat) ^ (33 : Int)) (b := a) with h | h
    · rw [hbig h, abs_def]; grind
    · have e := hsmall h
      simp only [Mil, abs_def] at hn e ⊢
      generalize (n : Rat) = m at *
      clear hr hbig hsmall num33 num0 ha c33 h
      grind
  · have e := hsmall h
    simp only [Mil, abs_def] at e ⊢
    generalize (n : Rat) = m at *
    clear hr hbig hsmall num33 num0 ha c33 h hn
    grind
  · have e := hsmall h
    have k : ((1 : Nat) : Rat) ≤ (n : Rat) := Rat.natCast_le_natCast.2 hpos
    have c : ((1 : Nat) : Rat) = 1 := rfl
    rw [c] at k
    simp only [abs_def] at e
    generalize (n : Rat) = m at *
    clear hr hbig hsmall num33 num0 ha c33 h hn
    grind

/-! ## Writing and reading -/

/-- A nonzero number has one sign. -/
theorem sg_abs {neg : Bool} {x : Rat} (h : if neg then x ≤ 0 else 0 ≤ x) : x = sg neg * x.abs := by
  cases neg
  · simp only [Bool.false_eq_true, if_false] at h; rw [Rat.abs_of_nonneg h]; simp only [sg]; grind
  · simp only [if_true] at h; rw [Rat.abs_of_nonpos h]; simp only [sg]; grind

theorem near_sg {neg : Bool} {u y : Rat} (h : Near double (sg neg * u) y) : Near double u (sg neg * y) := by
  cases neg
  · have e1 : sg false * u = u := by simp only [sg]; grind
    have e2 : sg false * y = y := by simp only [sg]; grind
    rw [e1] at h; rw [e2]; exact h
  · have e1 : sg true * u = -u := by simp only [sg]; grind
    have e2 : sg true * y = -y := by simp only [sg]; grind
    rw [e1] at h; rw [e2]
    have := h.neg
    rwa [Rat.neg_neg] at this

theorem sg_sg (neg : Bool) (x : Rat) : sg neg * (sg neg * x) = x := by cases neg <;> simp only [sg] <;> grind

theorem abs_sg (neg : Bool) (x : Rat) : (sg neg * x).abs = x.abs := by
  cases neg
  · simp only [sg]; congr 1; grind
  · have : sg true * x = -x := by simp only [sg]; grind
    rw [this]; simp only [abs_def]; grind

/-- All doubles are below 2^1024. -/
theorem num_le {a : Rat} (h : Ieee.Num double a) : a ≤ ((2 ^ 1024 : Nat) : Rat) := by
  obtain ⟨m, e, h1, h2, h3, h4, rfl⟩ := h
  have e0 := two_pos e
  have e1 : (2 : Rat) ^ e ≤ 2 ^ (971 : Int) := two_mono h4
  have m1 : (m : Rat) ≤ ((2 ^ 53 : Int) : Rat) := Rat.intCast_le_intCast.2 (by have : m < 2 ^ 53 := h2; omega)
  have c : ((2 ^ 1024 : Nat) : Rat) = ((2 ^ 53 : Int) : Rat) * 2 ^ (971 : Int) := by decide +kernel
  rw [c]
  have q1 := Rat.mul_le_mul_of_nonneg_right m1 (Rat.le_of_lt e0)
  have q2 := Rat.mul_le_mul_of_nonneg_left e1 (show (0 : Rat) ≤ ((2 ^ 53 : Int) : Rat) by decide +kernel)
  exact Rat.le_trans q1 q2

/-- The steps of storing and reading a double. -/
theorem stored {fl : Floats Rat} (C : Clib fl) {x : Rat} (hx : Ieee.Num double x) : ∃ neg n y, fl.print x = millionths neg n ∧ x = sg neg * x.abs ∧ Mil x.abs n ∧
    fl.read (millionths neg n) = some y ∧ Near double ((n : Rat) / 1000000) (sg neg * y) ∧ Comes fl x y := by
  obtain ⟨neg, n, e, hs, hm⟩ := C.print x hx
  have hm' : Mil x.abs n := hm
  have n0 : (0 : Rat) ≤ (n : Rat) := Rat.natCast_nonneg
  have hrange : (sg neg * ((n : Rat) / 1000000)).abs ≤ (2 : Rat) ^ (1023 : Int) ∨ Ieee.Num double (sg neg * ((n : Rat) / 1000000)) := by
    rcases Rat.le_total (a := (2 : Rat) ^ (52 : Int)) (b := x.abs) with h | h
    · right
      rw [mil_large (num_abs hx) h hm', ← sg_abs hs]; exact hx
    · left
      have c52 : (2 : Rat) ^ (52 : Int) = 4503599627370496 := by decide +kernel
      have c53 : (2 : Rat) ^ (53 : Int) = 9007199254740992 := by decide +kernel
      have p : (2 : Rat) ^ (53 : Int) ≤ (2 : Rat) ^ (1023 : Int) := two_mono (by decide)
      refine Rat.le_trans ?_ p
      rw [abs_sg, Rat.abs_of_nonneg (by generalize (n : Rat) = m at *; grind), c53]
      rw [c52] at h
      simp only [Mil] at hm'
      generalize x.abs = a at *
      simp only [abs_def] at hm'
      generalize (n : Rat) = m at *
      clear p c52 c53 hm C hx hs
      grind
  obtain ⟨y, hr, hn⟩ := C.read _ _ (decimal_millionths neg n) hrange
  refine ⟨neg, n, y, e, sg_abs hs, hm', hr, near_sg hn, ?_⟩
  intro h cfg hc b v
  have hlen : n / 1000000 < 10 ^ 309 := by
    have : n ≤ 1000000 * 2 ^ 1024 := nat_le (by
      have b1 := num_le (num_abs hx)
      rw [Rat.natCast_mul]
      have c : ((1000000 : Nat) : Rat) = 1000000 := rfl
      rw [c]
      simp only [Mil] at hm'
      generalize x.abs = a at *
      simp only [abs_def] at hm'
      generalize ((2 ^ 1024 : Nat) : Rat) = B at *
      generalize (n : Rat) = m at *
      clear hm C hx hs hrange hn hr
      grind)
    have h2 : n / 1000000 ≤ 2 ^ 1024 := by
      have := Nat.div_le_div_right (c := 1000000) this
      rwa [Nat.mul_div_cancel_left _ (by decide)] at this
    exact Nat.lt_of_le_of_lt h2 (by decide +kernel)
  have hl : (fl.print x).length ≤ 1023 := by
    rw [e]
    have := (Num.digits_length_le (b := 10) (n := n / 1000000) (k := 309) (by decide) (by decide)).2 hlen
    unfold millionths
    simp only [List.length_append, List.length_cons, List.length_nil]
    split <;> simp <;> omega
  refine c46_set_float_partial fl hc b v hl (fun k hk => ?_) (by rw [e]; exact hr)
  rw [e] at hk
  exact int_no_point hk (mem_point neg n)

theorem num_sg {neg : Bool} {y : Rat} (h : Ieee.Num double (sg neg * y)) : Ieee.Num double y := by
  cases neg
  · have : sg false * y = y := by simp only [sg]; grind
    rwa [this] at h
  · have : sg true * y = -y := by simp only [sg]; grind
    rw [this] at h
    have := h.neg
    rwa [Rat.neg_neg] at this

/-- **C127.** Every finite double, any configuration, any variable: writing succeeds and reading gives a double less than a millionth away, and the very same one
if it is 2^33 (8.6e9) or more in absolute value. -/
theorem c127_close {fl : Floats Rat} (C : Clib fl) {x : Rat} (hx : Ieee.Num double x) :
    ∃ y, Comes fl x y ∧ Ieee.Num double y ∧ (y - x).abs < 1 / 1000000 ∧ ((2 : Rat) ^ (33 : Int) ≤ x.abs → y = x) := by
  obtain ⟨neg, n, y, _, hs, hm, _, hn, hc⟩ := stored C hx
  obtain ⟨_, k2, k3, _⟩ := core (num_abs hx) hm hn
  refine ⟨y, hc, num_sg hn.1, ?_, fun h => ?_⟩
  · have : (y - x).abs = (sg neg * y - x.abs).abs := by
      rw [← abs_sg neg (y - x)]
      congr 1
      have : sg neg * x = x.abs := by rw [hs, sg_sg, ← hs]
      rw [← this]; grind
    rw [this]; exact k2
  · have := k3 h
    rw [hs, ← this, sg_sg]

/-- **C127 (numbers with at most six decimals).** What strtod makes of a text with at most six decimals, below 2^33, is kept exactly: prices, percentages, version numbers. -/
theorem c127_decimal {fl : Floats Rat} (C : Clib fl) (neg : Bool) {n : Nat} (hn : n ≤ 8589934592000000) : ∃ x, fl.read (millionths neg n) = some x ∧ Near double (sg neg * ((n : Rat) / 1000000)) x ∧ Comes fl x x := by
  have n0 : (0 : Rat) ≤ (n : Rat) := Rat.natCast_nonneg
  have k : (n : Rat) ≤ ((8589934592000000 : Nat) : Rat) := Rat.natCast_le_natCast.2 hn
  have c : ((8589934592000000 : Nat) : Rat) = 8589934592000000 := rfl
  rw [c] at k
  have c33 : (2 : Rat) ^ (33 : Int) = 8589934592 := by decide +kernel
  have zb : (n : Rat) / 1000000 ≤ (2 : Rat) ^ (33 : Int) := by rw [c33]; generalize (n : Rat) = m at *; grind
  have z0 : (0 : Rat) ≤ (n : Rat) / 1000000 := by generalize (n : Rat) = m at *; grind
  obtain ⟨x, hr, hx⟩ := C.read _ _ (decimal_millionths neg n) (.inl (by
    rw [abs_sg, Rat.abs_of_nonneg z0]
    exact Rat.le_trans zb (two_mono (by decide))))
  refine ⟨x, hr, hx, ?_⟩
  obtain ⟨neg', n', y, _, hs, hm, hr', hn', hc⟩ := stored C hx.1
  have h1 := near_sg hx
  have e := h1.error (j := -20) z0 (by
    have : (2 : Rat) ^ (((double.p : Nat) : Int) + (-20)) = (2 : Rat) ^ (33 : Int) := rfl
    rw [this]; exact zb) (by decide) (by decide) (by decide)
  have c20 : (2 : Rat) ^ (-20 : Int) = 1 / 1048576 := by decide +kernel
  rw [c20] at e
  have num0 : Ieee.Num double 0 := ⟨0, 0, by decide, by decide, by decide, by decide, by decide +kernel⟩
  have x0 : 0 ≤ sg neg * x := h1.num_le num0 z0
  have ex : x.abs = sg neg * x := by rw [← abs_sg neg x, Rat.abs_of_nonneg x0]
  have en : n' = n := by
    apply nat_eq
    simp only [Mil, ex] at hm
    simp only [abs_def] at e hm ⊢
    generalize sg neg * x = w at *
    generalize (n : Rat) = m at *
    generalize (n' : Rat) = m' at *
    clear hc hr' hn' h1 hs hx hr zb k c33 C num0 ex
    grind
  subst en
  by_cases h0 : n' = 0
  · subst h0
    have z : ((0 : Nat) : Rat) / 1000000 = 0 := by decide +kernel
    rw [z] at hn' h1
    have y0 := hn'.exact num0
    have x0 := h1.exact num0
    have ey : y = 0 := by have := sg_sg neg' y; rw [y0] at this; rw [← this]; grind
    have ex : x = 0 := by have := sg_sg neg x; rw [x0] at this; rw [← this]; grind
    rw [ey, ← ex] at hc; exact hc
  · have en : neg' = neg := by
      have k : ((1 : Nat) : Rat) ≤ (n' : Rat) := Rat.natCast_le_natCast.2 (by omega)
      have c : ((1 : Nat) : Rat) = 1 := rfl
      rw [c] at k
      have w : 0 < sg neg * x := by
        simp only [abs_def] at e
        generalize sg neg * x = w at *
        generalize (n' : Rat) = m at *
        clear hc hr' hn' h1 hs hx hr zb c33 C num0 ex hm
        grind
      have w' : 0 < sg neg' * x := by
        have : sg neg' * x = x.abs := by
          have t := sg_sg neg' x.abs
          rwa [← hs] at t
        rw [this, ex]; exact w
      cases neg <;> cases neg' <;> simp only [sg] at w w' ⊢ <;> grind
    subst en
    rw [hr] at hr'
    cases hr'
    exact hc

/-- **C127 (no drift).** Writing what was read changes nothing any more, however often. -/
theorem c127_settles {fl : Floats Rat} (C : Clib fl) {x : Rat} (hx : Ieee.Num double x) : ∃ y, Comes fl x y ∧ Comes fl y y := by
  obtain ⟨neg, n, y, _, hs, hm, hr, hn, hc⟩ := stored C hx
  obtain ⟨_, _, k3, _⟩ := core (num_abs hx) hm hn
  rcases Rat.le_total (a := (2 : Rat) ^ (33 : Int)) (b := x.abs) with h | h
  · have := k3 h
    have e : y = x := by rw [hs, ← this, sg_sg]
    exact ⟨y, hc, by rw [← e] at hc; exact hc⟩
  · have c33 : (2 : Rat) ^ (33 : Int) = 8589934592 := by decide +kernel
    obtain ⟨x', e1, _, e3⟩ := c127_decimal C neg (n := n) (nat_le (by
      have c : ((8589934592000000 : Nat) : Rat) = 8589934592000000 := rfl
      rw [c]; rw [c33] at h
      simp only [Mil] at hm
      generalize x.abs = a at *
      simp only [abs_def] at hm
      generalize (n : Rat) = m at *
      clear hs hn hr k3 hc
      grind))
    rw [hr] at e1
    cases e1
    exact ⟨y, hc, e3⟩

/-- **C127 (order).** Reading keeps the order of what was written. -/
theorem c127_order {fl : Floats Rat} (C : Clib fl) {x x' : Rat} (hx : Ieee.Num double x) (hx' : Ieee.Num double x') (h : x ≤ x') : ∃ y y', Comes fl x y ∧ Comes fl x' y' ∧ y ≤ y' := by
  obtain ⟨neg, n, y, p1, hs, hm, hr, hn, hc⟩ := stored C hx
  obtain ⟨neg', n', y', p2, hs', hm', hr', hn', hc'⟩ := stored C hx'
  refine ⟨y, y', hc, hc', ?_⟩
  by_cases hxx : x = x'
  · subst hxx
    rw [p1] at p2
    rw [p2] at hr; rw [hr] at hr'; cases hr'; exact Rat.le_refl
  · -- the values of the texts
    have v : Near double (sg neg * ((n : Rat) / 1000000)) y := by
      have := near_sg (neg := neg) (u := sg neg * ((n : Rat) / 1000000)) (y := sg neg * y) (by rw [sg_sg]; exact hn)
      rwa [sg_sg] at this
    have v' : Near double (sg neg' * ((n' : Rat) / 1000000)) y' := by
      have := near_sg (neg := neg') (u := sg neg' * ((n' : Rat) / 1000000)) (y := sg neg' * y') (by rw [sg_sg]; exact hn')
      rwa [sg_sg] at this
    -- whole numbers of millionths
    have hz : ∀ {neg : Bool} {n : Nat}, ∃ i : Int, sg neg * ((n : Rat) / 1000000) = (i : Rat) / 1000000 := by
      intro neg n
      cases neg
      · exact ⟨n, by rw [Rat.intCast_natCast]; simp only [sg]; grind⟩
      · exact ⟨-n, by rw [Rat.intCast_neg, Rat.intCast_natCast]; simp only [sg]; grind⟩
    obtain ⟨i, ei⟩ := hz (neg := neg) (n := n)
    obtain ⟨i', ei'⟩ := hz (neg := neg') (n := n')
    have d : 2 * ((i : Rat) - 1000000 * x).abs ≤ 1 := by
      have e : (i : Rat) - 1000000 * x = sg neg * -(1000000 * x.abs - n) := by
        have : (i : Rat) = sg neg * n := by grind
        rw [this, hs, abs_sg]
        have : x.abs.abs = x.abs := Rat.abs_of_nonneg (abs_nonneg x)
        rw [this]; grind
      rw [e, abs_sg]
      simp only [Mil] at hm
      simp only [abs_def] at hm ⊢
      generalize (n : Rat) = m at *
      clear v v' hn hn' hm' hz ei ei' hr hr' e hs hs'
      grind
    have d' : 2 * ((i' : Rat) - 1000000 * x').abs ≤ 1 := by
      have e : (i' : Rat) - 1000000 * x' = sg neg' * -(1000000 * x'.abs - n') := by
        have : (i' : Rat) = sg neg' * n' := by grind
        rw [this, hs', abs_sg]
        have : x'.abs.abs = x'.abs := Rat.abs_of_nonneg (abs_nonneg x')
        rw [this]; grind
      rw [e, abs_sg]
      simp only [Mil] at hm'
      simp only [abs_def] at hm' ⊢
      generalize (n' : Rat) = m at *
      clear v v' hn hn' hm hz ei ei' hr hr' e hs hs'
      grind
    rw [ei] at v; rw [ei'] at v'
    rcases Int.lt_trichotomy i i' with g | g | g
    · refine v.mono v' ?_
      have : (i : Rat) < (i' : Rat) := Rat.intCast_lt_intCast.2 g
      generalize (i : Rat) = a at *
      generalize (i' : Rat) = b at *
      grind
    · subst g
      have num0 : Ieee.Num double 0 := ⟨0, 0, by decide, by decide, by decide, by decide, by decide +kernel⟩
      by_cases hneg : neg = neg'
      · subst hneg
        have : (n : Rat) = (n' : Rat) := by
          have e := ei.trans ei'.symm
          cases neg <;> simp only [sg] at e <;> grind
        have e : n = n' := by
          apply nat_eq
          rw [this, abs_def]; grind
        subst e
        rw [hr] at hr'; cases hr'; exact Rat.le_refl
      · have i0 : (i : Rat) / 1000000 = 0 := by
          have n0 : (0 : Rat) ≤ (n : Rat) := Rat.natCast_nonneg
          have n0' : (0 : Rat) ≤ (n' : Rat) := Rat.natCast_nonneg
          generalize (i : Rat) = a at *
          clear v v' hn hn' hm hm' hz hr hr' hs hs' d d'
          cases neg <;> cases neg' <;> simp only [sg] at ei ei' hneg <;> grind
        rw [i0] at v v'
        rw [v.exact num0, v'.exact num0]; exact Rat.le_refl
    · exfalso
      have : ((i' + 1 : Int) : Rat) ≤ (i : Rat) := Rat.intCast_le_intCast.2 g
      have c : ((1 : Int) : Rat) = 1 := rfl
      rw [Rat.intCast_add, c] at this
      simp only [abs_def] at d d'
      generalize (i : Rat) = a at *
      generalize (i' : Rat) = b at *
      clear v v' hn hn' hm hm' hz ei ei' hr hr' hs hs'
      grind

theorem unsigned_point {s : Str} {v : Rat} (h : unsigned s = some v) : 0x2E ∈ s := by
  unfold unsigned at h
  split at h
  · next fp e =>
      have : 0x2E ∈ s.dropWhile isDec := by rw [e]; simp
      exact (List.dropWhile_sublist _).subset this
  · cases h

theorem decimal_point {s : Str} {v : Rat} (h : decimal s = some v) : 0x2E ∈ s := by
  unfold decimal at h
  split at h
  · next t =>
      cases hu : unsigned t with
      | none => rw [hu] at h; cases h
      | some w => exact List.mem_cons_of_mem _ (unsigned_point hu)
  · exact unsigned_point h

/-- **C127 (numbers in files and strings).** A variable that was last given a text of digits, a point and digits, with or without a minus sign, is a float: a nearest double. -/
theorem c127_text {fl : Floats Rat} (C : Clib fl) {s : Str} {v : Rat} (hs : decimal s = some v) (hv : v.abs ≤ (2 : Rat) ^ (1023 : Int)) {h h' : List (Str × Str × Str)} {b n : Str} (hn : ∀ e ∈ h', ¬ (e.1 = b ∧ e.2.1 = n)) :
    ∃ cfg y, run fl (h ++ (b, n, s) :: h') new = .ok cfg ∧ Near double v y ∧ Runs (fun fuel => get fuel cfg b n .float) (2, some (.float y)) := by
  obtain ⟨y, hr, hy⟩ := C.read s v hs (.inl hv)
  obtain ⟨cfg, e, k⟩ := c46_last fl (h := h) (h' := h') (b := b) (n := n) (.float s y (fun k hk => int_no_point hk (decimal_point hs)) hr) (by simp) hn
  exact ⟨cfg, y, e, hy, k⟩

/-- "-12.5" is -25/2. -/
example : decimal [0x2D, 0x31, 0x32, 0x2E, 0x35] = some (-25 / 2) := by decide +kernel

/-- **C127** is violated by small numbers: below half a millionth everything is read back as zero. -/
theorem c127_small_violation {fl : Floats Rat} (C : Clib fl) {x : Rat} (hx : Ieee.Num double x) (h : 2000000 * x.abs < 1) : Comes fl x 0 := by
  obtain ⟨neg, n, y, _, hs, hm, _, hn, hc⟩ := stored C hx
  have num0 : Ieee.Num double 0 := ⟨0, 0, by decide, by decide, by decide, by decide, by decide +kernel⟩
  have e : n = 0 := by
    apply nat_eq
    have z : ((0 : Nat) : Rat) = 0 := rfl
    rw [z]
    have n0 : (0 : Rat) ≤ (n : Rat) := Rat.natCast_nonneg
    simp only [Mil] at hm
    have a0 := abs_nonneg x
    generalize x.abs = a at *
    simp only [abs_def] at hm ⊢
    generalize (n : Rat) = m at *
    clear hs hn hc C hx
    grind
  subst e
  have z : ((0 : Nat) : Rat) / 1000000 = 0 := by decide +kernel
  rw [z] at hn
  have y0 := hn.exact num0
  have ey : y = 0 := by have := sg_sg neg y; rw [y0] at this; rw [← this]; grind
  rwa [ey] at hc

/-- For example 2^-22, about 2.4e-7: not zero, but read back as zero. -/
example {fl : Floats Rat} (C : Clib fl) : Comes fl ((1 : Nat) * 2 ^ (-22 : Int)) 0 := c127_small_violation C (num_scaled (by decide) (by decide) (by decide)) (by decide +kernel)

/-! ## There are such libraries -/

theorem exists_mil {a : Rat} (h : 0 ≤ a) : ∃ n : Nat, Mil a n := by
  have f1 : ((1000000 * a + 1 / 2).floor : Rat) ≤ 1000000 * a + 1 / 2 := Rat.floor_le _
  have f2 : 1000000 * a + 1 / 2 < ((1000000 * a + 1 / 2).floor : Rat) + 1 := by
    have := Rat.lt_floor (x := 1000000 * a + 1 / 2)
    grind
  have f0 : 0 ≤ (1000000 * a + 1 / 2).floor := by
    rw [Rat.le_floor_iff]
    have c : ((0 : Int) : Rat) = 0 := rfl
    rw [c]; grind
  obtain ⟨n, hn⟩ := Int.eq_ofNat_of_zero_le f0
  refine ⟨n, ?_⟩
  have e : ((1000000 * a + 1 / 2).floor : Rat) = (n : Rat) := by rw [hn, Rat.intCast_natCast]
  rw [e] at f1 f2
  simp only [Mil, abs_def]
  generalize (n : Rat) = m at *
  grind

/-- The theorems say something: the specification of the C library can be met. -/
theorem exists_clib : ∃ fl, Clib fl := by
  classical
  refine ⟨⟨fun s => if h : ∃ r v, decimal s = some v ∧ Near double v r then some h.choose else none,
    fun x => millionths (x < 0) (if h : ∃ n, Mil x.abs n then h.choose else 0)⟩, ?_, ?_⟩
  · intro x _
    refine ⟨_, _, rfl, ?_, ?_⟩
    · by_cases h : x < 0
      · simp only [h, decide_true, if_true]; grind
      · simp only [h, decide_false, Bool.false_eq_true, if_false]; grind
    · have h := exists_mil (abs_nonneg x)
      rw [dif_pos h]; exact h.choose_spec
  · intro s v hv hr
    have h : ∃ r v, decimal s = some v ∧ Near double v r := by
      rcases hr with hr | hr
      · obtain ⟨r, hr⟩ := exists_near (F := double) (by decide) (by decide) (x := v) hr
        exact ⟨r, v, hv, hr⟩
      · refine ⟨v, v, hv, hr, fun d hd => ?_⟩
        simp only [abs_def]; grind
    refine ⟨h.choose, dif_pos h, ?_⟩
    obtain ⟨v', e, k⟩ := h.choose_spec
    rw [hv] at e; cases e; exact k

/-- 0.1 and a configuration with a value in it. -/
example : ∃ fl, Clib fl ∧ ∃ x, fl.read (millionths false 100000) = some x ∧ Comes fl x x := by
  obtain ⟨fl, C⟩ := exists_clib
  obtain ⟨x, h1, _, h2⟩ := c127_decimal C false (n := 100000) (by decide)
  exact ⟨fl, C, x, h1, h2⟩

end ZT.Cfg
