import Verif.Mem

/-!
# zt_hash.c / zt_hash.h: FNV-1a

The 32-bit and the 64-bit versions are the same text up to type and constants, so one definition takes the
width, the initial value and the prime (the 64-bit versions exist only for C99 compilers, zt_hash.c 64).
-/

namespace ZT.Hash

/-- One loop body; zt_hash.c 34-38, 53-56, 77-81, 96-100: `hval ^= byte; hval *= PRIME;` -/
def step {w : Nat} (prime : BitVec w) (h : BitVec w) (b : Byte) : BitVec w :=
  (h ^^^ BitVec.ofNat w b.toNat) * prime

/-- The loop `while (bp < be)` of zt_hash.c 32-39 and 75-82: `left` bytes remain; running past the block is `ub`. -/
def buffLoop {w : Nat} (prime : BitVec w) : (left : Nat) → (bp : List Byte) → BitVec w → Outcome (BitVec w)
  | 0, _, h => .ok h
  | _ + 1, [], _ => .ub
  | n + 1, b :: bs, h => buffLoop prime n bs (step prime h b)

/-- zt_hash.c 23-42 / 66-85. -/
def buff {w : Nat} (init prime : BitVec w) (buf : List Byte) (len : Nat) (hval : BitVec w) : Outcome (BitVec w) :=
  buffLoop prime len buf (if hval = 0 then init else hval)

/-- The loop `while (*s)` of zt_hash.c 52-57 and 95-101. A block without NUL is read past its end: `ub`. -/
def cstrLoop {w : Nat} (prime : BitVec w) : (s : List Byte) → BitVec w → Outcome (BitVec w)
  | [], _ => .ub
  | b :: bs, h => if b = 0 then .ok h else cstrLoop prime bs (step prime h b)

/-- zt_hash.c 44-60 / 87-104. -/
def cstr {w : Nat} (init prime : BitVec w) (s : List Byte) (hval : BitVec w) : Outcome (BitVec w) :=
  cstrLoop prime s (if hval = 0 then init else hval)

/-- zt_hash.h 34. -/
def INIT32 : BitVec 32 := 0x811c9dc5#32
/-- zt_hash.h 35. -/
def PRIME32 : BitVec 32 := 0x01000193#32
/-- zt_hash.h 26. -/
def INIT64 : BitVec 64 := 0xcbf29ce484222325#64
/-- zt_hash.h 27. -/
def PRIME64 : BitVec 64 := 0x100000001b3#64

/-- zt_hash.c 23 `zt_hash32_buff`. -/
def hash32Buff := @buff 32 INIT32 PRIME32
/-- zt_hash.c 44 `zt_hash32_cstr`. -/
def hash32Cstr := @cstr 32 INIT32 PRIME32
/-- zt_hash.c 66 `zt_hash64_buff`. -/
def hash64Buff := @buff 64 INIT64 PRIME64
/-- zt_hash.c 87 `zt_hash64_cstr`. -/
def hash64Cstr := @cstr 64 INIT64 PRIME64

/-- zt_hash.h 41 `ZT_HASH_MASK(x)`: `((uint32_t)1 << x) - 1`, for `x < 32`. -/
def mask (x : Nat) : BitVec 32 := (1#32 <<< x) - 1#32

/-- zt_hash.h 43-44, 45-46. -/
def mask24 (h : BitVec 32) : BitVec 32 := (h >>> 24) ^^^ (h &&& mask 24)
def mask16 (h : BitVec 32) : BitVec 32 := (h >>> 16) ^^^ (h &&& mask 16)
/-- zt_hash.h 49-50, 52-53. -/
def mask8 (h : BitVec 32) : BitVec 32 := ((h >>> 8) ^^^ h) &&& mask 8
def mask4 (h : BitVec 32) : BitVec 32 := ((h >>> 4) ^^^ h) &&& mask 4

/-- zt_hash.h 56-63 `ZT_HASH_SUB32_MASK(hash, x)`. -/
def sub32Mask (h : BitVec 32) (x : Nat) : BitVec 32 :=
  if x < 32 then
    if x < 16 then ((h >>> x) ^^^ h) &&& mask x
    else (h >>> x) ^^^ (h &&& mask x)
  else h

end ZT.Hash
