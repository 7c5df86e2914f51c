import Verif.Common

/-! # C integer types: ranges and checked evaluation -/

namespace ZT.CInt

/-- Smallest value of a signed type of `w` bits (two's complement). -/
def smin (w : Nat) : Int := -(2 ^ (w - 1) : Nat)
/-- Largest value of a signed type of `w` bits. -/
def smax (w : Nat) : Int := (2 ^ (w - 1) : Nat) - 1
/-- Largest value of an unsigned type of `w` bits. -/
def umax (w : Nat) : Nat := 2 ^ w - 1

/-- `x` is representable in a signed type of `w` bits. -/
def InS (w : Nat) (x : Int) : Prop := smin w ≤ x ∧ x ≤ smax w
instance (w : Nat) (x : Int) : Decidable (InS w x) := inferInstanceAs (Decidable (_ ∧ _))

/-- `x` is representable in an unsigned type of `w` bits. -/
def InU (w : Nat) (x : Nat) : Prop := x ≤ umax w
instance (w : Nat) (x : Nat) : Decidable (InU w x) := inferInstanceAs (Decidable (_ ≤ _))

/-- Result of a signed arithmetic operator evaluated in `w` bits: overflow is undefined behaviour. -/
def arith (w : Nat) (x : Int) : Outcome Int := if InS w x then .ok x else .ub

/-- Integer promotion: types narrower than `int` are computed in 32 bits. -/
def promote (w : Nat) : Nat := if w < 32 then 32 else w

/-- Conversion of a value to a signed type of `w` bits (wraps on the platforms considered). -/
def toS (w : Nat) (x : Int) : Int := Int.bmod x (2 ^ w)

/-- Conversion of a value to an unsigned type of `w` bits. -/
def toU (w : Nat) (x : Nat) : Nat := x % 2 ^ w

/-- The integer widths libzt instantiates: char, short, int, long (LP64). -/
def Width (w : Nat) : Prop := w = 8 ∨ w = 16 ∨ w = 32 ∨ w = 64
instance (w : Nat) : Decidable (Width w) := inferInstanceAs (Decidable (_ ∨ _))

end ZT.CInt
