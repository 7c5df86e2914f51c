import Verif.Common

/-!
# MT19937

As a recurrence on sequences of 32-bit words (Matsumoto and Nishimura 1998, initialisations of 2002): no state array, no indices to wrap.
-/

namespace ZT.Random.Spec

abbrev Word := BitVec 32

/-- The upper bit of `u` and the lower 31 bits of `v`. -/
def concat (u v : Word) : Word := BitVec.cons (u.getLsbD 31) (v.setWidth 31)

/-- Multiplication by the matrix A. -/
def timesA (x : Word) : Word := if x.getLsbD 0 then (x >>> 1) ^^^ 0x9908b0df#32 else x >>> 1

/-- The sequence x: its first 624 elements are given, the others are x(k + 624) = x(k + 397) xor concat(x(k), x(k + 1)) A. -/
def mt (first : Nat → Word) (n : Nat) : Word :=
  if n < 624 then first n else mt first (n - 624 + 397) ^^^ timesA (concat (mt first (n - 624)) (mt first (n - 624 + 1)))
  termination_by n

/-- Multiplication by the matrix T. -/
def temper (x : Word) : Word :=
  let y := x ^^^ (x >>> 11)
  let y := y ^^^ ((y <<< 7) &&& 0x9d2c5680#32)
  let y := y ^^^ ((y <<< 15) &&& 0xefc60000#32)
  y ^^^ (y >>> 18)

def fold (x : Word) : Word := x ^^^ (x >>> 30)

/-- The first elements, from one word. -/
def fromSeed (seed : Word) : Nat → Word
  | 0 => seed
  | n + 1 => 1812433253#32 * fold (fromSeed seed n) + BitVec.ofNat 32 (n + 1)

/-- The place among 1 to 623 that is written for the `n`-th time. -/
def place (n : Nat) : Nat := (n - 1) % 623 + 1

/-- Initialisation by a key, first pass: element `n` (from 624 on) replaces element `n - 623`. -/
def pass1 (key : List Word) (n : Nat) : Word :=
  if n < 624 then fromSeed 19650218#32 n
  else (pass1 key (n - 623) ^^^ (fold (if n = 624 then fromSeed 19650218#32 0 else pass1 key (n - 1)) * 1664525#32)) + key.getD ((n - 624) % key.length) 0#32 + BitVec.ofNat 32 ((n - 624) % key.length)
  termination_by n

/-- The number of elements of the first pass. -/
def len1 (key : List Word) : Nat := 624 + max 624 key.length

/-- Second pass: continues the first. -/
def pass2 (key : List Word) (n : Nat) : Word :=
  if n < len1 key then pass1 key n
  else if n = 0 then 0#32
  else (pass2 key (n - 623) ^^^ (fold (pass2 key (n - 1)) * 1566083941#32)) - BitVec.ofNat 32 (place n)
  termination_by n

/-- The first elements, from a key: the last 623 elements of the second pass, each at its place. -/
def fromKey (key : List Word) (i : Nat) : Word :=
  if i = 0 then 0x80000000#32
  else (((List.range 623).map (· + len1 key)).find? fun n => place n = i).elim 0#32 (pass2 key)

end ZT.Random.Spec
