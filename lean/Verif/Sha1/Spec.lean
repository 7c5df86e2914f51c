import Verif.Sha1.Model

/-!
# SHA-1 as specified in FIPS 180 (sections 4.1.1, 4.2.1, 5.1.1, 6.1), independent of the code
-/

namespace ZT.Sha1.Spec

/-- ROTL^n(x). -/
def rotl (x : BitVec 32) (n : Nat) : BitVec 32 := x.rotateLeft n

/-- The functions f_t: Ch, Parity, Maj, Parity. -/
def f (t : Nat) (x y z : BitVec 32) : BitVec 32 :=
  if t < 20 then (x &&& y) ^^^ (~~~x &&& z)
  else if t < 40 then x ^^^ y ^^^ z
  else if t < 60 then (x &&& y) ^^^ (x &&& z) ^^^ (y &&& z)
  else x ^^^ y ^^^ z

/-- The constants K_t. -/
def K (t : Nat) : BitVec 32 :=
  if t < 20 then 0x5a827999#32 else if t < 40 then 0x6ed9eba1#32
  else if t < 60 then 0x8f1bbcdc#32 else 0xca62c1d6#32

/-- Word `t` of a block of 64 bytes, big-endian. -/
def M (block : List Byte) (t : Nat) : BitVec 32 :=
  (block.getD (4 * t) 0).toBitVec ++ (block.getD (4 * t + 1) 0).toBitVec ++
  (block.getD (4 * t + 2) 0).toBitVec ++ (block.getD (4 * t + 3) 0).toBitVec

/-- The message schedule. -/
def W (block : List Byte) (t : Nat) : BitVec 32 :=
  if t < 16 then M block t
  else rotl (W block (t - 3) ^^^ W block (t - 8) ^^^ W block (t - 14) ^^^ W block (t - 16)) 1

/-- Five words a, b, c, d, e after `t` rounds of the main loop. -/
def rounds (h : St) (block : List Byte) : Nat → St
  | 0 => h
  | t + 1 =>
      let s := rounds h block t
      { s0 := rotl s.s0 5 + f t s.s1 s.s2 s.s3 + s.s4 + K t + W block t
        s1 := s.s0
        s2 := rotl s.s1 30
        s3 := s.s2
        s4 := s.s3 }

/-- One block: the 80 rounds added to the chaining value. -/
def compress (h : St) (block : List Byte) : St :=
  let s := rounds h block 80
  ⟨h.s0 + s.s0, h.s1 + s.s1, h.s2 + s.s2, h.s3 + s.s3, h.s4 + s.s4⟩

/-- Process the consecutive 64-byte blocks of a message (an incomplete last block is left out). -/
def hashBlocks (h : St) (m : List Byte) : St :=
  if m.length < 64 then h else hashBlocks (compress h (m.take 64)) (m.drop 64)
termination_by m.length
decreasing_by simp; omega

/-- `n` as `k` big-endian bytes. -/
def be (k n : Nat) : List Byte := (List.range k).map fun i => UInt8.ofNat (n / 256 ^ (k - 1 - i) % 256)

/-- Padding: a 1 bit, the least number of 0 bits to reach 448 mod 512 bits, the bit length in 64 bits. -/
def pad (m : List Byte) : List Byte :=
  m ++ [0x80] ++ List.replicate ((119 - m.length % 64) % 64) 0 ++ be 8 (8 * m.length)

/-- The initial hash value. -/
def H0 : St := ⟨0x67452301#32, 0xefcdab89#32, 0x98badcfe#32, 0x10325476#32, 0xc3d2e1f0#32⟩

/-- The 20 digest bytes of a hash value. -/
def out (h : St) : List Byte :=
  be 4 h.s0.toNat ++ be 4 h.s1.toNat ++ be 4 h.s2.toNat ++ be 4 h.s3.toNat ++ be 4 h.s4.toNat

/-- SHA-1. -/
def sha1 (m : List Byte) : List Byte := out (hashBlocks H0 (pad m))

end ZT.Sha1.Spec
