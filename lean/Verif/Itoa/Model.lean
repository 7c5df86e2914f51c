import Verif.Mem

/-!
# zt_cstr_itoa and zt_cstr_int_display_len (zt_cstr.c)

`int` is 32 bits, `size_t` 64 bits. The destination block is a list of bytes; a store outside it is undefined.
-/

namespace ZT.Itoa

/-- zt_cstr.c 1007 `_itoa_integers`. -/
def integers : List Byte := "9876543210123456789".toList.map fun c => UInt8.ofNat c.toNat

/-- zt_cstr.c 1041-1044: the loop of `zt_cstr_int_display_len`. -/
def lenLoop : (fuel : Nat) → (value result : Int) → Outcome (Int × Int)
  | 0, _, _ => .ub
  | fuel + 1, value, result =>
      if value ≥ 1000 ∨ value ≤ -1000 then lenLoop fuel (value.tdiv 1000) (result + 3)
      else .ok (value, result)

/-- zt_cstr.c 1036-1055 `zt_cstr_int_display_len`. -/
def displayLen (fuel : Nat) (value : Int) : Outcome Int := do
  let result : Int := if value ≥ 0 then 1 else 2
  let (value, result) ← lenLoop fuel value result
  if value ≥ 100 ∨ value ≤ -100 then pure (result + 2)
  else if value ≥ 10 ∨ value ≤ -10 then pure (result + 1)
  else pure result

/-- `loc--` on a `size_t`. -/
def dec (loc : Nat) : Nat := (loc + (2 ^ 64 - 1)) % 2 ^ 64

/-- zt_cstr.c 1027-1031: the do-while loop of `zt_cstr_itoa`. -/
def digitLoop : (fuel : Nat) → (s : List Byte) → (value : Int) → (loc : Nat) → Outcome (List Byte)
  | 0, _, _, _ => .ub
  | fuel + 1, s, value, loc => do
      let c ← rd integers (9 + value.tmod 10).toNat
      let s ← wr s loc c
      if value.tdiv 10 ≠ 0 then digitLoop fuel s (value.tdiv 10) (dec loc)
      else pure s

/-- zt_cstr.c 1009-1034 `zt_cstr_itoa`; `none` is a null destination. The result is the return value and the destination afterwards. -/
def itoa (fuel : Nat) (s : Option (List Byte)) (value : Int) (offset bufsiz : Nat) : Outcome (Int × Option (List Byte)) := do
  let len ← displayLen fuel value
  let loc := (offset + len.toNat) % 2 ^ 64
  match s with
  | none => pure (-1, none)
  | some b =>
      if loc > bufsiz then pure (-1, some b)
      else do
        let b ← (if value < 0 then wr b offset 45 else pure b)
        let b ← wr b loc 0
        let b ← digitLoop fuel b value (dec loc)
        pure (loc, some b)

end ZT.Itoa
