import Verif.Mem
import Verif.Numeral

/-!
# What the C library prints for a double

zt_format.c hands doubles to the C library's `sprintf` (line 528) with the formats "%.PPe", "%.PPf" and "%.PPg". This file says what the standard (C11 7.21.6.1, 8 and 13, Annex F for infinities, NaNs and the
correct rounding of `e`, `f`, `g`, rounding to nearest) requires `sprintf` to print for them. No code of the repository is modelled here.
-/

namespace ZT.Format

/-- A double: `m · 2 ^ e` with a sign, an infinity or a NaN. -/
inductive Dbl where
  | fin (neg : Bool) (m : Nat) (e : Int)
  | inf (neg : Bool)
  | nan (neg : Bool)
  deriving Repr, DecidableEq

/-- Every value of binary64 is of this kind. -/
def Dbl.Valid : Dbl → Prop
  | .fin _ m e => m < 2 ^ 53 ∧ -1074 ≤ e ∧ e ≤ 971
  | _ => True

namespace Clib

/-- Numerator and denominator of `m · 2 ^ e`. -/
def num (m : Nat) (e : Int) : Nat := m * 2 ^ e.toNat
def den (e : Int) : Nat := 2 ^ (-e).toNat

/-- `a / b` rounded to the nearest number, ties to even. -/
def round (a b : Nat) : Nat := if 2 * (a % b) < b ∨ (2 * (a % b) = b ∧ a / b % 2 = 0) then a / b else a / b + 1

/-- `a / b · 10 ^ k` rounded. -/
def scale (a b : Nat) (k : Int) : Nat := round (a * 10 ^ k.toNat) (b * 10 ^ (-k).toNat)

/-- A numeral with at least `p` digits. -/
def padded (p n : Nat) : List Byte := List.replicate (p - (Num.digits 10 n).length) 48 ++ Num.digits 10 n

/-- The number `n / 10 ^ p` with `p` digits after the point. -/
def decimal (p n : Nat) : List Byte := Num.digits 10 (n / 10 ^ p) ++ (if p = 0 then [] else 46 :: padded p (n % 10 ^ p))

/-- `%.Pf` of `a / b`. -/
def fixed (p a b : Nat) : List Byte := decimal p (scale a b p)

/-- The exponent of the first significant digit of `a / b`, for `a ≠ 0`. -/
def lead (a b : Nat) : Int := if b ≤ a then ((Num.digits 10 (a / b)).length : Int) - 1 else -((Num.digits 10 ((b - 1) / a)).length : Int)

/-- The significand (as a number of `p + 1` digits) and the exponent of `%.Pe`: rounding may add a digit. -/
def sci (p a b : Nat) : Nat × Int :=
  if a = 0 then (0, 0)
  else if scale a b (p - lead a b) < 10 ^ (p + 1) then (scale a b (p - lead a b), lead a b)
  else (10 ^ p, lead a b + 1)

/-- `e`, a sign and at least two digits. -/
def expPart (x : Int) : List Byte := [101, if x < 0 then 45 else 43] ++ padded 2 x.natAbs

/-- `%.Pe`. -/
def expo (p a b : Nat) : List Byte := decimal p (sci p a b).1 ++ expPart (sci p a b).2

/-- Trailing zeros of the fraction, and then a trailing point, are removed. -/
def strip (s : List Byte) : List Byte :=
  if 46 ∈ s then
    match s.reverse.dropWhile (· = 48) with
    | 46 :: r => r.reverse
    | r => r.reverse
  else s

/-- `%.Pg`, P > 0. -/
def general (p a b : Nat) : List Byte :=
  if -4 ≤ (sci (p - 1) a b).2 ∧ (sci (p - 1) a b).2 < p then strip (fixed (p - 1 - (sci (p - 1) a b).2).toNat a b)
  else strip (decimal (p - 1) (sci (p - 1) a b).1) ++ expPart (sci (p - 1) a b).2

/-- The text behind the sign; the conversion is 'e' = 101, 'f' = 102 or 'g' = 103. For 'g' a precision of zero is taken as one. -/
def body (c : Byte) (p : Nat) : Dbl → List Byte
  | .fin _ m e => if c = 101 then expo p (num m e) (den e) else if c = 102 then fixed p (num m e) (den e) else general (if p = 0 then 1 else p) (num m e) (den e)
  | .inf _ => [105, 110, 102]
  | .nan _ => [110, 97, 110]

def neg : Dbl → Bool
  | .fin n _ _ => n
  | .inf n => n
  | .nan n => n

/-- The characters `sprintf` stores before the terminator for "%.Pc". -/
def text (c : Byte) (p : Nat) (x : Dbl) : List Byte := (if neg x then [45] else []) ++ body c p x

end Clib

end ZT.Format
