import Verif.Mem

/-!
# zt_cstr.c 801-883: hex conversion

Text and data are byte blocks; `none` is the NULL pointer. Lengths are `Nat`: an object's size is below 2^63, so
`n * 2` cannot wrap in a `size_t`.
-/

namespace ZT.Hex

/-- zt_internal.h 82 `HEX_DIGITS` = "0123456789abcdef". -/
def HEX_DIGITS : List Byte := [48, 49, 50, 51, 52, 53, 54, 55, 56, 57, 97, 98, 99, 100, 101, 102]

/-- The loop of zt_cstr.c 810-816, at iteration `n` (so `dptr = hex + 2 * n`).
With `hex == NULL` only the count advances (the pointer arithmetic on NULL is not modelled). -/
def toHexLoop (data : List Byte) (dlen hlen : Nat) (hex : Option (List Byte)) (n : Nat) :
    Outcome (Nat × Option (List Byte)) :=
  if n < dlen ∧ n * 2 < hlen then do
    let c ← rd data n
    match hex with
    | some h => do
        let d0 ← rd HEX_DIGITS ((c.toNat >>> 4) &&& 0xF)
        let h ← wr h (2 * n) d0
        let d1 ← rd HEX_DIGITS (c.toNat &&& 0xF)
        let h ← wr h (2 * n + 1) d1
        toHexLoop data dlen hlen (some h) (n + 1)
    | none => toHexLoop data dlen hlen none (n + 1)
  else .ok (n * 2, hex)
termination_by dlen - n

/-- zt_cstr.c 805-818 `zt_binary_to_hex(data, dlen, hex, hlen)`: the return value and the new contents of `hex`. -/
def binaryToHex (data : List Byte) (dlen : Nat) (hex : Option (List Byte)) (hlen : Nat) :
    Outcome (Nat × Option (List Byte)) :=
  toHexLoop data dlen hlen hex 0

/-- zt_cstr.c 820-834 `hex_to_char`; `none` is -1. -/
def hexToChar (c : Byte) : Option Nat :=
  if c ≥ 48 ∧ c ≤ 57 then some (c - 48).toNat
  else if c ≥ 65 ∧ c ≤ 70 then some (c - 55).toNat
  else if c ≥ 97 ∧ c ≤ 102 then some (c - 87).toNat
  else none

/-- The loop of zt_cstr.c 859-881. `hex` is what remains of the text block (the pointer only advances), `n` and `y`
are the C variables. -/
def fromHexLoop (hlen dlen : Nat) : (hex : List Byte) → (n y : Nat) → (data : Option (List Byte)) →
    Outcome (Nat × Option (List Byte))
  | [], n, y, data => if n < hlen then .ub else .ok (y, data)
  | [c0], n, y, data =>
      if n < hlen ∧ c0 ≠ 0 ∧ y < dlen then
        match hexToChar c0 with
        | none => .ok (0, data)
        | some _ => .ub
      else .ok (y, data)
  | c0 :: c1 :: rest, n, y, data =>
      if n < hlen ∧ c0 ≠ 0 ∧ y < dlen then
        match hexToChar c0 with
        | none => .ok (0, data)
        | some c =>
          match hexToChar c1 with
          | none => .ok (0, data)
          | some c2 =>
            match data with
            | some d => do
                let d ← wr d y (UInt8.ofNat ((c <<< 4) ||| (c2 &&& 0xF)))
                fromHexLoop hlen dlen rest (n + 2) (y + 1) (some d)
            | none => fromHexLoop hlen dlen rest (n + 2) (y + 1) none
      else .ok (y, data)

/-- zt_cstr.c 849-883 `zt_hex_to_binary(hex, hlen, data, dlen)`; with NULL data `dlen` becomes SIZE_MAX. -/
def hexToBinary (hex : List Byte) (hlen : Nat) (data : Option (List Byte)) (dlen : Nat) :
    Outcome (Nat × Option (List Byte)) :=
  fromHexLoop hlen (match data with | none => 2 ^ 64 - 1 | some _ => dlen) hex 0 0 data

/-- zt_sha1.c 178-183 `zt_sha1_tostr(digest, sha1)`: contents of `sha1` afterwards. -/
def sha1ToStr (digest : List Byte) (sha1 : List Byte) : Outcome (List Byte) := do
  let r ← binaryToHex digest 20 (some sha1) 41
  match r.2 with
  | some t => .ok t
  | none => .ub

/-- zt_sha1.c 185-190 `zt_str_tosha1(sha1, digest)`: contents of `digest` afterwards. -/
def strToSha1 (sha1 : List Byte) (digest : List Byte) : Outcome (List Byte) := do
  let r ← hexToBinary sha1 40 (some digest) 20
  match r.2 with
  | some t => .ok t
  | none => .ub

end ZT.Hex
