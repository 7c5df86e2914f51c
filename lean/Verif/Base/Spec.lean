import Verif.Base.Model

/-!
# Specification of base-N encoding (RFC 4648), independent of the code

A group of `ig` bytes is read as one big-endian number and written with `og` digits in base `2^obits`.
-/

namespace ZT.Base

/-- The six encodings a user can choose. -/
inductive Kind where
  | b64 | b64nopad | b64uri | b32 | b32hex | b16
  deriving Repr, DecidableEq

/-- The library's definition for each encoding (zt_base.c: `zt_base64_rfc`, ...). -/
def Kind.toDef : Kind → Def
  | .b64 => base64Rfc
  | .b64nopad => base64RfcNopad
  | .b64uri => base64Uri
  | .b32 => base32Rfc
  | .b32hex => base32Hex
  | .b16 => base16Rfc

namespace Spec

/-- Characters of an ASCII string as bytes. -/
def ascii (s : String) : List Byte := s.toList.map fun c => UInt8.ofNat c.toNat

/-- The alphabets of RFC 4648. -/
def alphabet : Kind → List Byte
  | .b64 | .b64nopad => ascii "ABCDEFGHIJKLMNOPQRSTUVWXYZabcdefghijklmnopqrstuvwxyz0123456789+/"
  | .b64uri => ascii "ABCDEFGHIJKLMNOPQRSTUVWXYZabcdefghijklmnopqrstuvwxyz0123456789-_"
  | .b32 => ascii "ABCDEFGHIJKLMNOPQRSTUVWXYZ234567"
  | .b32hex => ascii "0123456789ABCDEFGHIJKLMNOPQRSTUV"
  | .b16 => ascii "0123456789ABCDEF"

/-- Bits per digit. -/
def bits : Kind → Nat
  | .b64 | .b64nopad | .b64uri => 6
  | .b32 | .b32hex => 5
  | .b16 => 4

/-- Bytes per whole group. -/
def ig : Kind → Nat
  | .b64 | .b64nopad | .b64uri => 3
  | .b32 | .b32hex => 5
  | .b16 => 1

/-- Digits per whole group. -/
def og : Kind → Nat
  | .b64 | .b64nopad | .b64uri => 4
  | .b32 | .b32hex => 8
  | .b16 => 2

/-- Whether a partial last group is completed with `=`. -/
def padded : Kind → Bool
  | .b64 | .b64uri | .b32 | .b32hex => true
  | .b64nopad | .b16 => false

/-- Value of a big-endian numeral in base `B`. -/
def num (B : Nat) (ds : List Nat) : Nat := ds.foldl (fun n d => n * B + d) 0

/-- The `k` big-endian digits of `n` in base `B`. -/
def digits (B : Nat) : (k : Nat) → (n : Nat) → List Nat
  | 0, _ => []
  | k + 1, n => digits B k (n / B) ++ [n % B]

/-- Digits that carry the bits of `r` bytes: `ceil (8 r / bits)`. -/
def needed (k : Kind) (r : Nat) : Nat := (8 * r + bits k - 1) / bits k

/-- Digits of one group `g` (at most `ig k` bytes): complete it with zero bytes, write the number in base
`2^bits`, keep the digits that carry bits of `g`. -/
def groupDigits (k : Kind) (g : List Byte) : List Nat :=
  let full := g.map (·.toNat) ++ List.replicate (ig k - g.length) 0
  (digits (2 ^ bits k) (og k) (num 256 full)).take (needed k g.length)

/-- Text of one group. -/
def encGroup (k : Kind) (g : List Byte) : List Byte :=
  (groupDigits k g).map (fun i => (alphabet k)[i]?.getD 0) ++
  (if padded k then List.replicate (og k - needed k g.length) (ascii "=")[0]! else [])

theorem ig_pos (k : Kind) : 0 < ig k := by cases k <;> decide

/-- RFC 4648 text of a byte string. -/
def encode (k : Kind) (bs : List Byte) : List Byte :=
  if h : bs = [] then [] else
  encGroup k (bs.take (ig k)) ++ encode k (bs.drop (ig k))
termination_by bs.length
decreasing_by
  have := ig_pos k
  have : 0 < bs.length := List.length_pos_iff.mpr h
  simp only [List.length_drop]; omega

/-- Standard length of the text of `n` bytes. -/
def encodedLen (k : Kind) (n : Nat) : Nat :=
  if padded k then (n + ig k - 1) / ig k * og k else n / ig k * og k + needed k (n % ig k)

/-- Characters a decoder skips: tab, newline, carriage return, space and `=`. -/
def ignorable (c : Byte) : Bool := c == 9 || c == 10 || c == 13 || c == 32 || c == 61

/-- Position of a character in the alphabet. -/
def digitOf (k : Kind) (c : Byte) : Option Nat := (alphabet k).idxOf? c

/-- A text is clean if every character is a digit or ignorable. -/
def clean (k : Kind) (t : List Byte) : Bool := t.all fun c => (digitOf k c).isSome || ignorable c

/-- The digit values of a text. -/
def digitsOf (k : Kind) (t : List Byte) : List Nat := t.filterMap (digitOf k)

/-- Bytes carried by a digit group of `r` digits. -/
def carried (k : Kind) (r : Nat) : Nat := r * bits k / 8

/-- The bytes of one group of `r` digits: complete with zero digits, read as a number, write it as `ig`
bytes, keep the bytes completely carried. -/
def decGroup (k : Kind) (ds : List Nat) : List Byte :=
  ((digits 256 (ig k) (num (2 ^ bits k) (ds ++ List.replicate (og k - ds.length) 0))).take
    (carried k ds.length)).map UInt8.ofNat

theorem og_pos (k : Kind) : 0 < og k := by cases k <;> decide

/-- Bytes denoted by a digit string. -/
def decDigits (k : Kind) (ds : List Nat) : List Byte :=
  if h : ds = [] then [] else
  decGroup k (ds.take (og k)) ++ decDigits k (ds.drop (og k))
termination_by ds.length
decreasing_by
  have := og_pos k
  have : 0 < ds.length := List.length_pos_iff.mpr h
  simp only [List.length_drop]; omega

/-- A number of left-over digits is possible if it is exactly what some number of bytes needs. -/
def tailOk (k : Kind) (r : Nat) : Bool := needed k (carried k r) == r

end Spec
end ZT.Base
