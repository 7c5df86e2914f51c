import Verif.IntTime.CInt

/-! # zt_int.h (checked arithmetic) and zt_time.c (time values) -/

namespace ZT.IntOps

open CInt

/-- `zt_assert(c)` (zt_assert.h 49) followed by the rest of the function. -/
def assert {α : Type} (c : Prop) [Decidable c] (k : Outcome α) : Outcome α := if c then k else .abort

/-- zt_int.h 33 `ZT_INT_SAME_SIGN(u, v)`: `!((u ^ v) < 0)`, the xor taken on two's complement words
(64 bits: sign extension does not change the sign of the xor). -/
def sameSign (u v : Int) : Bool := !((BitVec.ofInt 64 u ^^^ BitVec.ofInt 64 v).toInt < 0)

/-- zt_int.h 35-46 `zt_uchar_add`, `zt_ushort_add`, `zt_uint_add`, `zt_ulong_add`.
`MAX - lhs` cannot underflow. The sum is converted back to the type. -/
def uadd (w : Nat) (lhs rhs : Nat) : Outcome Nat :=
  assert (rhs ≤ umax w - lhs) (.ok (toU w (lhs + rhs)))

/-- zt_int.h 48-68 `zt_char_add`, `zt_short_add`, `zt_int_add`, `zt_long_add`. -/
def sadd (w : Nat) (lhs rhs : Int) : Outcome Int := do
  let pw := promote w
  let ret : Outcome Int := do
    let s ← arith pw (lhs + rhs)
    pure (toS w s)
  if sameSign lhs rhs then
    if rhs < 0 then do
      let b ← arith pw (smin w - rhs)
      assert (lhs ≥ b) ret
    else do
      let b ← arith pw (smax w - lhs)
      assert (rhs ≤ b) ret
  else ret

/-- zt_int.h 73-84 `zt_*_sub` for unsigned types. -/
def usub (w : Nat) (lhs rhs : Nat) : Outcome Nat :=
  assert (lhs > rhs) (.ok (toU w (lhs - rhs)))

/-- zt_int.h 86-105 `zt_*_sub` for signed types. -/
def ssub (w : Nat) (lhs rhs : Int) : Outcome Int := do
  let pw := promote w
  let ret : Outcome Int := do
    let s ← arith pw (lhs - rhs)
    pure (toS w s)
  if !sameSign lhs rhs then
    if lhs ≥ 0 then do
      let b ← arith pw (smax w + rhs)
      assert (lhs ≤ b) ret
    else do
      let b ← arith pw (smin w + rhs)
      assert (lhs ≥ b) ret
  else ret

/-- Width of the `cvtype` used for each type (zt_int.h 120-126, 148-155): `unsigned int` for char and short,
`unsigned long long` for int. The `long` instances do not exist on x86_64. -/
def cvWidth (w : Nat) : Nat := if w < 32 then 32 else 64

/-- zt_int.h 111-128 `zt_uchar_mul`, `zt_ushort_mul`, `zt_uint_mul`. -/
def umul (w : Nat) (lhs rhs : Nat) : Outcome Nat :=
  let tmp := toU (cvWidth w) (lhs * rhs)
  assert (tmp >>> w ≤ 0) (.ok (toU w tmp))

/-- zt_int.h 130-156 `zt_char_mul`, `zt_short_mul`, `zt_int_mul`. -/
def smul (w : Nat) (lhs rhs : Int) : Outcome Int :=
  if rhs = 0 ∨ lhs = 0 then .ok 0
  else if rhs = 1 ∨ lhs = 1 then do
    let p ← arith (promote w) (rhs * lhs)
    pure (toS w p)
  else do
    let tmp ← arith (cvWidth w) (lhs * rhs)
    assert (tmp ≥ smin w ∧ tmp ≤ smax w) (do
      let p ← arith (promote w) (lhs * rhs)
      pure (toS w p))

/-- zt_int.h 161-178 `zt_*_div` for unsigned types. -/
def udiv (w : Nat) (lhs rhs : Nat) : Outcome Nat :=
  assert (rhs ≠ 0) (.ok (toU w (lhs / rhs)))

/-- C's `/` on signed operands evaluated in `w` bits. -/
def cdiv (w : Nat) (lhs rhs : Int) : Outcome Int :=
  if rhs = 0 then .ub else arith w (lhs.tdiv rhs)

/-- zt_int.h 180-205 `zt_char_div`, `zt_short_div`, `zt_int_div`. -/
def sdiv (w : Nat) (lhs rhs : Int) : Outcome Int :=
  let rest : Outcome Int :=
    if sameSign lhs rhs then do
      let q ← cdiv (promote w) lhs rhs
      pure (toS w q)
    else do
      let tmp ← cdiv (cvWidth w) lhs rhs
      assert (tmp ≥ smin w) (.ok (toS w tmp))
  assert (rhs ≠ 0) (
    if lhs < 0 ∧ rhs < 0 then assert (lhs ≠ smin w ∧ rhs = -1) rest
    else rest)

end ZT.IntOps

namespace ZT.Time

open CInt

/-- `struct timeval` (both members 64-bit signed). -/
structure Timeval where
  sec : Int
  usec : Int
  deriving Repr, DecidableEq

/-- The carry loop of `zt_add_time`, zt_time.c 28-31. -/
def carryLoop (sec usec : Int) : Outcome Timeval :=
  if usec ≥ 1000000 then do
    let sec ← arith 64 (sec + 1)
    carryLoop sec (usec - 1000000)
  else .ok ⟨sec, usec⟩
termination_by usec.toNat
decreasing_by omega

/-- zt_time.c 22-34 `zt_add_time`. The destination may alias an argument: each field is read before it is
written and the two fields are independent, so the pure reading is exact. -/
def add (t1 t2 : Timeval) : Outcome Timeval := do
  let s ← arith 64 (t1.sec + t2.sec)
  let u ← arith 64 (t1.usec + t2.usec)
  carryLoop s u

/-- The borrow loop of `zt_sub_time` / `zt_diff_time`, zt_time.c 43-46 and 58-61. -/
def borrowLoop (sec usec : Int) : Outcome Timeval :=
  if usec < 0 then do
    let sec ← arith 64 (sec - 1)
    borrowLoop sec (usec + 1000000)
  else .ok ⟨sec, usec⟩
termination_by (-usec).toNat
decreasing_by omega

/-- zt_time.c 37-49 `zt_sub_time`. -/
def sub (t1 t2 : Timeval) : Outcome Timeval := do
  let s ← arith 64 (t1.sec - t2.sec)
  let u ← arith 64 (t1.usec - t2.usec)
  borrowLoop s u

/-- zt_time.c 52-63 `zt_diff_time` (`t2 - t1`). -/
def diff (t1 t2 : Timeval) : Outcome Timeval := do
  let s ← arith 64 (t2.sec - t1.sec)
  let u ← arith 64 (t2.usec - t1.usec)
  borrowLoop s u

/-- zt_time.c 68-78 `zt_cmp_time`. -/
def cmp (t1 t2 : Timeval) : Outcome Int := do
  let t ← arith 64 (t1.sec - t2.sec)
  if t ≠ 0 then pure t else arith 64 (t1.usec - t2.usec)

end ZT.Time
