import Verif.Common

/-!
# C99: the macros of zt_macros.h

The arguments of a macro are expressions, not values: they are pasted and evaluated each time they occur. An expression of type `int` is modelled as a function from the state of
the program to a value and a new state. `w` is the width of the type.
-/

namespace ZT.Macros

/-- An expression of a signed integer type: evaluating it can be undefined and can change the state. -/
abbrev Expr (σ : Type) := σ → Outcome (Int × σ)

/-- A value of a signed type of `w` bits. -/
def Fits (w : Nat) (x : Int) : Prop := -(2 ^ (w - 1) : Int) ≤ x ∧ x < 2 ^ (w - 1)

instance (w : Nat) (x : Int) : Decidable (Fits w x) := by unfold Fits; infer_instance

/-- A signed operation with result `x`: undefined when it overflows. -/
def signed (w : Nat) (x : Int) : Outcome Int := if Fits w x then .ok x else .ub

/-- Unary minus. -/
def neg (w : Nat) (a : Expr σ) : Expr σ := fun s => do
  let (x, s) ← a s
  let y ← signed w (-x)
  pure (y, s)

/-- `(a < b) ? c : d` -/
def ifLt (a b c d : Expr σ) : Expr σ := fun s => do
  let (x, s) ← a s
  let (y, s) ← b s
  if x < y then c s else d s

/-- A constant. -/
def const (x : Int) : Expr σ := fun s => .ok (x, s)

/-- zt_macros.h 26 `ABS(a)`: `(((a) < 0) ? -(a) : (a))` -/
def ABS (w : Nat) (a : Expr σ) : Expr σ := ifLt a (const 0) (neg w a) a

/-- zt_macros.h 54 `MAX(a, b)`: `(((a) > (b)) ? (a) : (b))`; the operands are evaluated from left to right. -/
def MAX (a b : Expr σ) : Expr σ := fun s => do
  let (x, s) ← a s
  let (y, s) ← b s
  if x > y then a s else b s

/-- zt_macros.h 61 `MIN(a, b)`: `(((a) < (b)) ? (a) : (b))` -/
def MIN (a b : Expr σ) : Expr σ := ifLt a b a b

/-- zt_macros.h 33 `CLAMP(x, low, high)`: `(((x) > (high)) ? (high) : (((x) < (low)) ? (low) : (x)))` -/
def CLAMP (x low high : Expr σ) : Expr σ := fun s => do
  let (v, s) ← x s
  let (h, s) ← high s
  if v > h then high s else ifLt x low low x s

/-- zt_macros.h 40 `CEILING(x, ceil)`: `(((x) > (ceil)) ? (ceil) : (x))` -/
def CEILING (x c : Expr σ) : Expr σ := fun s => do
  let (v, s) ← x s
  let (h, s) ← c s
  if v > h then c s else x s

/-- zt_macros.h 47 `FLOOR(x, floor)`: `(((x) < (floor)) ? (floor) : (x))` -/
def FLOOR (x f : Expr σ) : Expr σ := ifLt x f f x

/-- The expression has the value `x` and no side effect. -/
def Still (a : Expr σ) (s : σ) (x : Int) : Prop := a s = .ok (x, s)

variable {σ : Type} {s : σ} {a b c : Expr σ} {x y z : Int}

/-- **C99 (ABS).** For every value but the least one of its type the result is the absolute value. -/
theorem c99_abs_partial {w : Nat} (hw : 0 < w) (h : Still a s x) (hx : Fits w x) (hm : x ≠ -(2 ^ (w - 1))) : ABS w a s = .ok ((x.natAbs : Int), s) := by
  unfold Still at h
  simp only [ABS, ifLt, const, h, Outcome.ok_bind, neg, signed]
  obtain ⟨h1, h2⟩ := hx
  by_cases c : x < 0
  · rw [if_pos c, if_pos (show Fits w (-x) from ⟨by omega, by omega⟩), Outcome.ok_bind, Outcome.pure_eq]
    congr 2; omega
  · rw [if_neg c]; congr 2; omega

/-- **C99 (MAX).** -/
theorem c99_max (ha : Still a s x) (hb : Still b s y) : ∃ r, MAX a b s = .ok (r, s) ∧ x ≤ r ∧ y ≤ r ∧ (r = x ∨ r = y) := by
  unfold Still at ha hb
  simp only [MAX, ha, hb, Outcome.ok_bind]
  by_cases c : x > y
  · exact ⟨x, by rw [if_pos c], by omega, by omega, .inl rfl⟩
  · exact ⟨y, by rw [if_neg c], by omega, by omega, .inr rfl⟩

/-- **C99 (MIN).** -/
theorem c99_min (ha : Still a s x) (hb : Still b s y) : ∃ r, MIN a b s = .ok (r, s) ∧ r ≤ x ∧ r ≤ y ∧ (r = x ∨ r = y) := by
  unfold Still at ha hb
  simp only [MIN, ifLt, ha, hb, Outcome.ok_bind]
  by_cases c : x < y
  · exact ⟨x, by rw [if_pos c], by omega, by omega, .inl rfl⟩
  · exact ⟨y, by rw [if_neg c], by omega, by omega, .inr rfl⟩

/-- **C99 (CLAMP).** The result is in the interval, and no number of the interval is nearer to the value. -/
theorem c99_clamp (ha : Still a s x) (hb : Still b s y) (hc : Still c s z) (h : y ≤ z) :
    ∃ r, CLAMP a b c s = .ok (r, s) ∧ y ≤ r ∧ r ≤ z ∧ ∀ q, y ≤ q → q ≤ z → (x - r).natAbs ≤ (x - q).natAbs := by
  unfold Still at ha hb hc
  simp only [CLAMP, ifLt, ha, hb, hc, Outcome.ok_bind]
  by_cases c1 : x > z
  · exact ⟨z, by rw [if_pos c1], by omega, by omega, by omega⟩
  · by_cases c2 : x < y
    · exact ⟨y, by rw [if_neg c1, if_pos c2], by omega, by omega, by omega⟩
    · exact ⟨x, by rw [if_neg c1, if_neg c2], by omega, by omega, by omega⟩

/-- **C99 (CEILING and FLOOR).** -/
theorem c99_ceiling_floor (ha : Still a s x) (hb : Still b s y) : CEILING a b s = .ok (min x y, s) ∧ FLOOR a b s = .ok (max x y, s) := by
  unfold Still at ha hb
  simp only [CEILING, FLOOR, ifLt, ha, hb, Outcome.ok_bind]
  constructor
  · by_cases c : x > y
    · rw [if_pos c]; congr 2; omega
    · rw [if_neg c]; congr 2; omega
  · by_cases c : x < y
    · rw [if_pos c]; congr 2; omega
    · rw [if_neg c]; congr 2; omega

/-- Violation of C99: the absolute value of the least value of any type is undefined. -/
theorem c99_abs_violation {w : Nat} (hw : 0 < w) (h : Still a s (-(2 ^ (w - 1)))) : Fits w (-(2 ^ (w - 1))) ∧ ABS w a s = .ub := by
  unfold Still at h
  have hp : (0 : Int) < 2 ^ (w - 1) := Int.pow_pos (by omega)
  refine ⟨⟨by omega, by omega⟩, ?_⟩
  simp only [ABS, ifLt, const, h, Outcome.ok_bind, neg, signed]
  rw [if_pos (by omega), if_neg (fun h => by have := h.2; omega)]
  rfl

/-- `i++` for the state `i`. -/
def postInc : Expr Int := fun i => .ok (i, i + 1)

/-- Violation of C99: an argument with a side effect is evaluated twice, so MAX(i++, 0) is not the greater of the two values: from i = 5 it is 6, and i becomes 7. -/
theorem c99_twice_violation : postInc 5 = .ok (5, 6) ∧ MAX postInc (const 0) 5 = .ok (6, 7) := ⟨rfl, rfl⟩

/-- zt_macros.h 54 `MAX(a, b)` for an int and an unsigned int: both are converted to unsigned int. -/
def MAXmixed (a b : BitVec 32) : BitVec 32 := if a.toNat > b.toNat then a else b

/-- Violation of C99: the greater of the int -1 and the unsigned int 1 is 4294967295. -/
theorem c99_mixed_violation : (-1#32).toInt = -1 ∧ (1#32).toNat = 1 ∧ (MAXmixed (-1#32) 1#32).toNat = 4294967295 := by decide

/-! ## Bits -/

/-- zt_macros.h 158 `ZT_BIT_SET(target, bit)` -/
def BIT_SET (t m : BitVec n) : BitVec n := t ||| m

/-- zt_macros.h 165 `ZT_BIT_UNSET(target, bit)` -/
def BIT_UNSET (t m : BitVec n) : BitVec n := t &&& ~~~m

/-- zt_macros.h 172 `ZT_BIT_ISSET(target, bit)` -/
def BIT_ISSET (t m : BitVec n) : Bool := if t &&& m ≠ 0 then true else false

/-- zt_macros.h 179 `ZT_BIT_ISUNSET(target, bit)` -/
def BIT_ISUNSET (t m : BitVec n) : Bool := if BIT_ISSET t m then false else true

/-- An operation on a set of flags. -/
inductive FlagOp (n : Nat) where
  | set (m : BitVec n)
  | unset (m : BitVec n)

def FlagOp.mask : FlagOp n → BitVec n
  | .set m => m
  | .unset m => m

def FlagOp.sets : FlagOp n → Bool
  | .set _ => true
  | .unset _ => false

/-- A history of operations. -/
def flagsRun (t : BitVec n) : List (FlagOp n) → BitVec n
  | [] => t
  | .set m :: ops => flagsRun (BIT_SET t m) ops
  | .unset m :: ops => flagsRun (BIT_UNSET t m) ops

/-- A mask with one bit. -/
def one (n i : Nat) : BitVec n := BitVec.twoPow n i

theorem isset_iff (t m : BitVec n) : BIT_ISSET t m = true ↔ ∃ i, t.getLsbD i = true ∧ m.getLsbD i = true := by
  unfold BIT_ISSET
  constructor
  · intro h
    have h : t &&& m ≠ 0 := by
      by_cases c : t &&& m ≠ 0
      · exact c
      · rw [if_neg c] at h; cases h
    refine Classical.byContradiction fun hn => h (BitVec.eq_of_getLsbD_eq fun i hi => ?_)
    simp only [BitVec.getLsbD_and, BitVec.ofNat_eq_ofNat, BitVec.getLsbD_zero, Bool.and_eq_false_iff]
    by_cases c : t.getLsbD i = true
    · exact .inr (by simpa using fun hm => hn ⟨i, c, hm⟩)
    · exact .inl (by simpa using c)
  · rintro ⟨i, h1, h2⟩
    rw [if_pos]
    intro h
    have := congrArg (fun v => v.getLsbD i) h
    simp [h1, h2] at this

/-- **C99 (one bit).** A mask of one bit is set exactly when the bit of the value is. -/
theorem c99_isset (t : BitVec n) (i : Nat) (hi : i < n) : (BIT_ISSET t (one n i) = true ↔ t.getLsbD i = true) ∧ (BIT_ISUNSET t (one n i) = !BIT_ISSET t (one n i)) := by
  constructor
  · rw [isset_iff]
    constructor
    · rintro ⟨j, h1, h2⟩
      simp only [one, BitVec.getLsbD_twoPow] at h2
      have : i = j := by simpa [hi] using h2
      exact this ▸ h1
    · intro h
      exact ⟨i, h, by simp [one, BitVec.getLsbD_twoPow, hi]⟩
  · unfold BIT_ISUNSET; cases BIT_ISSET t (one n i) <;> rfl

/-- **C99 (flags).** After any history of setting and unsetting masks, every flag has the value given by the last operation whose mask contains it, or its first value. -/
theorem c99_flags (t : BitVec n) (ops : List (FlagOp n)) (i : Nat) (hi : i < n) :
    (flagsRun t ops).getLsbD i = match ops.reverse.find? fun o => o.mask.getLsbD i with
      | some o => o.sets
      | none => t.getLsbD i := by
  induction ops generalizing t with
  | nil => rfl
  | cons o ops ih =>
      rw [List.reverse_cons, List.find?_append]
      cases o with
      | set m =>
          rw [flagsRun, ih]
          cases e : ops.reverse.find? fun o => o.mask.getLsbD i with
          | some o => rfl
          | none =>
              by_cases c : m.getLsbD i = true
              · simp [FlagOp.mask, FlagOp.sets, BIT_SET, c]
              · simp [FlagOp.mask, BIT_SET, c]
      | unset m =>
          rw [flagsRun, ih]
          cases e : ops.reverse.find? fun o => o.mask.getLsbD i with
          | some o => rfl
          | none =>
              by_cases c : m.getLsbD i = true
              · simp [FlagOp.mask, FlagOp.sets, BIT_UNSET, c]
              · have c' : m.getLsbD i = false := by simpa using c
                simp only [FlagOp.mask, BIT_UNSET, BitVec.getLsbD_and, BitVec.getLsbD_not, c', hi, List.find?, Option.or]
                simp

/-- zt_macros.h 165 `ZT_BIT_UNSET(target, bit)` for a 64 bit target and a mask of type unsigned int: the complement is taken in 32 bits and extended with zeros. -/
def BIT_UNSET_unsigned (t : BitVec 64) (m : BitVec 32) : BitVec 64 := t &&& (~~~m).setWidth 64

/-- zt_macros.h 165 for a 64 bit target and a mask of type int: the complement is extended with its sign. -/
def BIT_UNSET_int (t : BitVec 64) (m : BitVec 32) : BitVec 64 := t &&& (~~~m).signExtend 64

/-- **C99 (narrow masks, proved for int).** A mask of type int that is not negative unsets the same flags as one of the target's type. -/
theorem c99_narrow_partial (t : BitVec 64) (m : BitVec 32) (hm : m.msb = false) : BIT_UNSET_int t m = BIT_UNSET t (m.setWidth 64) := by
  unfold BIT_UNSET_int BIT_UNSET
  congr 1
  refine BitVec.eq_of_getLsbD_eq fun i hi => ?_
  rw [BitVec.getLsbD_signExtend, BitVec.getLsbD_not, BitVec.getLsbD_not, BitVec.getLsbD_setWidth, BitVec.msb_not]
  by_cases c : i < 32
  · simp [c, hi]
  · have : m.getLsbD i = false := BitVec.getLsbD_of_ge _ _ (by omega)
    simp [c, hi, hm, this]

/-- Violation of C99: with a mask of type unsigned int all flags above the 32nd are lost, although the mask does not contain them. -/
theorem c99_narrow_violation (t : BitVec 64) (m : BitVec 32) (i : Nat) (hi : 32 ≤ i) : (m.setWidth 64).getLsbD i = false ∧ (BIT_UNSET_unsigned t m).getLsbD i = false := by
  have h : ∀ v : BitVec 32, v.getLsbD i = false := fun v => BitVec.getLsbD_of_ge _ _ hi
  constructor
  · rw [BitVec.getLsbD_setWidth, h]; simp
  · rw [BIT_UNSET_unsigned, BitVec.getLsbD_and, BitVec.getLsbD_setWidth, h]; simp

/-! ## Indentation -/

/-- zt_macros.h 137 `INDENT_PAD(lvl, step, pad)`: `((int)(((lvl) * step) + (pad)))`, for a step that is one operand. -/
def INDENT_PAD (w : Nat) (lvl step pad : Int) : Outcome Int := do
  let p ← signed w (lvl * step)
  signed w (p + pad)

/-- zt_macros.h 137 for a step that is a sum `s1 + s2`: it is not put in parentheses. -/
def INDENT_PAD_sum (w : Nat) (lvl s1 s2 pad : Int) : Outcome Int := do
  let p ← signed w (lvl * s1)
  let q ← signed w (p + s2)
  signed w (q + pad)

/-- Division and remainder of C: undefined for 0, truncated towards 0. -/
def divC (w : Nat) (x y : Int) : Outcome Int := if y = 0 then .ub else signed w (x.tdiv y)
def modC (w : Nat) (x y : Int) : Outcome Int := if y = 0 then .ub else do
  let _ ← signed w (x.tdiv y)
  .ok (x.tmod y)

/-- zt_macros.h 127-130 `INDENT_TO(tgt, step, start)` -/
def INDENT_TO (w : Nat) (tgt step start : Int) : Outcome Int := do
  let d ← signed w (tgt - start)
  let l ← divC w d step
  let p ← modC w d step
  INDENT_PAD w l step p

/-- zt_macros.h 120 `INDENT(lvl)` -/
def INDENT (w : Nat) (lvl : Int) : Outcome Int := INDENT_PAD w lvl 5 0

/-- printf(BLANK, n, ""): the conversion `%*s` of the empty string; a negative width means that the text is put at the left of a field of the opposite width. -/
def blank (n : Int) : List Byte := List.replicate n.natAbs 32

/-- **C99 (INDENT_TO).** With the cursor in column `start`, the blanks end in column `tgt`, for every step above 0. -/
theorem c99_indent_to {w : Nat} {tgt step start : Int} (h1 : Fits w tgt) (h0 : 0 ≤ start) (h : start ≤ tgt) (hs : 0 < step) :
    ∃ n, INDENT_TO w tgt step start = .ok n ∧ start + (blank n).length = tgt ∧ blank n = List.replicate (tgt - start).toNat 32 := by
  obtain ⟨h2, h3⟩ := h1
  have hd : 0 ≤ tgt - start := by omega
  have hq : 0 ≤ (tgt - start).tdiv step := Int.tdiv_nonneg hd (by omega)
  have hr : 0 ≤ (tgt - start).tmod step := Int.tmod_nonneg _ hd
  have he := Int.mul_tdiv_add_tmod (tgt - start) step
  have hm : 0 ≤ step * (tgt - start).tdiv step := Int.mul_nonneg (by omega) hq
  have hle : (tgt - start).tdiv step ≤ step * (tgt - start).tdiv step := by
    have := Int.mul_le_mul_of_nonneg_right (show 1 ≤ step by omega) hq
    rwa [Int.one_mul] at this
  have hc := Int.mul_comm step ((tgt - start).tdiv step)
  refine ⟨tgt - start, ?_, ?_, ?_⟩
  · unfold INDENT_TO
    refine Outcome.bind_eq_ok.2 ⟨_, if_pos ⟨by omega, by omega⟩, ?_⟩
    refine Outcome.bind_eq_ok.2 ⟨_, (if_neg (by omega)).trans (if_pos ⟨by omega, by omega⟩), ?_⟩
    refine Outcome.bind_eq_ok.2 ⟨_, (if_neg (by omega)).trans (Outcome.bind_eq_ok.2 ⟨_, if_pos ⟨by omega, by omega⟩, rfl⟩), ?_⟩
    unfold INDENT_PAD
    refine Outcome.bind_eq_ok.2 ⟨_, if_pos ⟨by omega, by omega⟩, ?_⟩
    have hx : (tgt - start).tdiv step * step + (tgt - start).tmod step = tgt - start := by omega
    rw [hx]
    exact if_pos ⟨by omega, by omega⟩
  · rw [blank, List.length_replicate]; omega
  · rw [blank]; congr 1; omega

/-- **C99 (INDENT).** -/
theorem c99_indent {w : Nat} {lvl : Int} (h0 : 0 ≤ lvl) (h : Fits w (lvl * 5)) : ∃ n, INDENT w lvl = .ok n ∧ blank n = List.replicate (5 * lvl.toNat) 32 := by
  refine ⟨lvl * 5, ?_, by rw [blank]; congr 1; omega⟩
  unfold INDENT INDENT_PAD
  refine Outcome.bind_eq_ok.2 ⟨_, if_pos h, ?_⟩
  rw [Int.add_zero]
  exact if_pos h

/-- Violation of C99: when the cursor is already past the column, INDENT_TO moves it further. -/
theorem c99_past_violation : INDENT_TO 32 3 1 5 = .ok (-2) ∧ (blank (-2)).length = 2 := ⟨rfl, rfl⟩

/-- Violation of C99: INDENT_PAD(2, 1 + 1, 0) is 3, not 4. -/
theorem c99_parentheses_violation : INDENT_PAD 32 2 (1 + 1) 0 = .ok 4 ∧ INDENT_PAD_sum 32 2 1 1 0 = .ok 3 := ⟨rfl, rfl⟩

/-! ## Structures and arrays -/

/-- zt_macros.h 91 `zt_containerof(ptr, type, member)` for a member at the offset `off`. -/
def containerof (p : BitVec 64) (off : Nat) : BitVec 64 := p - BitVec.ofNat 64 off

/-- zt_macros.h 67 `sizeof_array(a)` for an object of `total` bytes with elements of `elt` bytes. -/
def sizeof_array (total elt : Nat) : Nat := total / elt

/-- **C99 (containerof).** The structure of a member is found, wherever the structure is. -/
theorem c99_containerof (p : BitVec 64) (off : Nat) : containerof (p + BitVec.ofNat 64 off) off = p := by
  unfold containerof
  bv_omega

/-- **C99 (sizeof_array).** The number of elements of an array. -/
theorem c99_sizeof_array (n elt : Nat) (h : 0 < elt) : sizeof_array (n * elt) elt = n := Nat.mul_div_cancel n h

/-- The hypotheses are met: 8 bit values with a state. -/
example : Fits 8 (-127) ∧ Still (const (-127)) (3 : Nat) (-127) ∧ ABS 8 (const (-127)) (3 : Nat) = .ok (127, 3) := ⟨by decide, rfl, rfl⟩

/-- Three flags. -/
example : flagsRun (0 : BitVec 8) [.set 5#8, .unset 1#8, .set 2#8] = 6#8 := by decide

end ZT.Macros
