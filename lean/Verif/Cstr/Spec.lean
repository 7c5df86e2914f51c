import Verif.Cstr.Model

/-!
# What strings, positions and slices mean

Independent of the code of zt_cstr.c.
-/

namespace ZT.Cstr

/-- The block `m` holds the string `s`: its characters, none of them NUL, and a terminator. -/
def IsStr (m s : List Byte) : Prop := (∀ b ∈ s, b ≠ 0) ∧ ∃ rest, m = s ++ 0 :: rest

/-- The rule for a position `k` in a string of length `n`: counted from the start, everything beyond the end meaning the last character; negative positions count from the end, and before the start there is
none. -/
def position (n : Nat) (k : Int) : Option Nat := if 0 ≤ k then some (min k.toNat (n - 1)) else if -k ≤ n then some (n - (-k).toNat) else none

/-- First and last position of the slice; the two may be given in either order. -/
def bounds (n : Nat) (i j : Int) : Option (Nat × Nat) :=
  match position n i, position n j with
  | some a, some b => some (min a b, max a b)
  | _, _ => none

/-- The characters from position `a` to position `b`. -/
def chars (s : List Byte) (a b : Nat) : List Byte := (s.take (b + 1)).drop a

/-- The slice `s[i:j]` of a string that is not empty. -/
def slice (s : List Byte) (i j : Int) : Option (List Byte) := (bounds s.length i j).map fun x => chars s x.1 x.2

/-- A result, or the end of the program by a failed assertion. -/
def orAbort {α : Type} : Option α → Outcome α
  | some a => .ok a
  | none => .abort

/-- `k` is the first position from `a` to `b` with property `P`. -/
def IsFirst (P : Nat → Prop) (a b k : Nat) : Prop := a ≤ k ∧ k ≤ b ∧ P k ∧ ∀ k', a ≤ k' → k' < k → ¬ P k'

/-- `k` is the last position from `a` to `b` with property `P`. -/
def IsLast (P : Nat → Prop) (a b k : Nat) : Prop := a ≤ k ∧ k ≤ b ∧ P k ∧ ∀ k', k < k' → k' ≤ b → ¬ P k'

/-- `str` occurs in `s` at position `k`, within the positions up to `b`. -/
def Occurs (s str : List Byte) (b k : Nat) : Prop := k + str.length ≤ b + 1 ∧ (s.drop k).take str.length = str

/-- Lexicographic order on strings of unsigned characters: -1, 0 or 1. -/
def lex : List Byte → List Byte → Int
  | [], [] => 0
  | [], _ :: _ => -1
  | _ :: _, [] => 1
  | a :: as, b :: bs => if a < b then -1 else if b < a then 1 else lex as bs

/-! Examples: "Interface" -/

def iface : List Byte := [73, 110, 116, 101, 114, 102, 97, 99, 101]

example : slice iface (-4) (-1) = some [102, 97, 99, 101] := by decide
example : slice iface 8 5 = some [102, 97, 99, 101] := by decide
example : slice iface 5 100 = some [102, 97, 99, 101] := by decide
example : slice iface (-10) 2 = none := by decide
example : IsStr (iface ++ [0, 7]) iface := ⟨by decide, [7], rfl⟩

end ZT.Cstr
