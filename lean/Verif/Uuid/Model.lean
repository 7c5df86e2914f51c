import Verif.Hex.Model
import Verif.Sha1.Model

/-!
# zt_uuid.c

A `zt_uuid_t` is its 16 bytes. The library calls used here are modelled for exactly the format strings of the code:
`snprintf` with `%N.Ns` items (232-237) and `sscanf` with `%Ns` items separated by `-` (345-350). `powl(62, k)` for
`k <= 10` is exact (62^10 has 50 significant bits, proved in Uuid/Powl.lean for every format of long double).
Uninitialised stack arrays are parameters (`junk`).
-/

namespace ZT.Uuid

/-- zt_uuid.h 15-20. -/
inductive Fmt where
  | std | short | base62 | base62hash
  deriving Repr, DecidableEq

/-- zt_uuid.c 16-19. -/
def NAMESPACE_DNS : List Byte := [0x6b, 0xa7, 0xb8, 0x10, 0x9d, 0xad, 0x11, 0xd1, 0x80, 0xb4, 0x00, 0xc0, 0x4f, 0xd4, 0x30, 0xc8]
def NAMESPACE_URL : List Byte := [0x6b, 0xa7, 0xb8, 0x11, 0x9d, 0xad, 0x11, 0xd1, 0x80, 0xb4, 0x00, 0xc0, 0x4f, 0xd4, 0x30, 0xc8]
def NAMESPACE_OID : List Byte := [0x6b, 0xa7, 0xb8, 0x12, 0x9d, 0xad, 0x11, 0xd1, 0x80, 0xb4, 0x00, 0xc0, 0x4f, 0xd4, 0x30, 0xc8]
def NAMESPACE_X500 : List Byte := [0x6b, 0xa7, 0xb8, 0x14, 0x9d, 0xad, 0x11, 0xd1, 0x80, 0xb4, 0x00, 0xc0, 0x4f, 0xd4, 0x30, 0xc8]

/-- zt_uuid.h 45-50. -/
inductive Ns where
  | dns | url | oid | x500
  deriving Repr, DecidableEq

/-- zt_uuid.c 23-26. -/
def base62Alphabet : List Byte :=
  [48, 49, 50, 51, 52, 53, 54, 55, 56, 57,
   97, 98, 99, 100, 101, 102, 103, 104, 105, 106, 107, 108, 109, 110, 111, 112, 113, 114, 115, 116, 117, 118, 119, 120, 121, 122,
   65, 66, 67, 68, 69, 70, 71, 72, 73, 74, 75, 76, 77, 78, 79, 80, 81, 82, 83, 84, 85, 86, 87, 88, 89, 90]

/-- The four bytes `memcpy(&bytes[k], &v, 4)` stores on a little-endian host. -/
def le4 (v : BitVec 32) : List Byte :=
  [UInt8.ofNat (v.toNat % 256), UInt8.ofNat (v.toNat / 256 % 256), UInt8.ofNat (v.toNat / 65536 % 256),
   UInt8.ofNat (v.toNat / 16777216 % 256)]

/-- zt_uuid.c 85-88 / 120-123: version nibble into byte 6, variant bits into byte 8. -/
def stamp (ver : Nat) (u : List Byte) : Outcome (List Byte) := do
  let b6 ← rd u 6
  let u ← wr u 6 (UInt8.ofNat ((b6.toNat &&& 0x0F) ||| (ver <<< 4)))
  let b8 ← rd u 8
  wr u 8 (UInt8.ofNat ((b8.toNat &&& 0x3F) ||| 0x80))

/-- zt_uuid.c 80-83: the four bytes `memcpy(&bytes[k], &v, 4)` stores on the machine. -/
def mem4 [Host] (v : BitVec 32) : List Byte := if Host.big then (le4 v).reverse else le4 v

/-- zt_uuid.c 65-91 `zt_uuid4`; the four numbers drawn from the generator are parameters (seeding, 73-78, is not modelled
here). -/
def uuid4 [Host] (r0 r1 r2 r3 : BitVec 32) : Outcome (List Byte) :=
  stamp 4 (mem4 r0 ++ mem4 r1 ++ mem4 r2 ++ mem4 r3)

/-- zt_uuid.c 99-111: the namespace bytes. -/
def nsBytes : Ns → List Byte
  | .dns => NAMESPACE_DNS
  | .url => NAMESPACE_URL
  | .oid => NAMESPACE_OID
  | .x500 => NAMESPACE_X500

/-- zt_uuid.c 93-126 `zt_uuid5(value, vlen, type, uuid)`: the UUID and the caller's `value` block afterwards. -/
def uuid5 [Host] (junk : List Byte) (value : List Byte) (vlen : Nat) (ns : Ns) : Outcome (List Byte × List Byte) := do
  let (ctx, _) ← Sha1.update (Sha1.init junk) (nsBytes ns) 16
  let (ctx, value) ← Sha1.update ctx value vlen
  let (digest, _) ← Sha1.finalize ctx
  let u ← Sha1.memcpy (List.replicate 16 0) 0 digest 0 16
  let u ← stamp 5 u
  pure (u, value)

/-- zt_uuid.c 135-157 `_flagToSize`. -/
def flagToSize : Fmt → Nat
  | .std => 36 + 1
  | .short => 32 + 1
  | .base62hash => 22 + 1
  | .base62 => 22 + 1

/-- The loop `while (in)` of zt_uuid.c 484-489; `out[--i]` with `i == 0` would wrap: `ub`. Indices are relative to the
start `off` of the segment in `out`. -/
def enc62Loop (out : List Byte) (off : Nat) (inp : Nat) (i : Nat) : Outcome (List Byte × Nat) :=
  if h : inp = 0 then .ok (out, i)
  else
    match i with
    | 0 => .ub
    | i + 1 => do
        let c ← rd base62Alphabet (inp % 62)
        let out ← wr out (off + i) c
        enc62Loop out off (inp / 62) i
termination_by inp
decreasing_by exact Nat.div_lt_self (by omega) (by decide)

/-- The loop `while (i > 0)` of zt_uuid.c 492-494. -/
def enc62Fill (out : List Byte) (off : Nat) : Nat → Outcome (List Byte)
  | 0 => .ok out
  | i + 1 => do
      let c ← rd base62Alphabet 0
      let out ← wr out (off + i) c
      enc62Fill out off i

/-- zt_uuid.c 475-501 `base62_encode_int64(in, out + off, 11)` (every caller passes olen = 11, so the size check and the
NUL of 496-498 do nothing). Returns the new block and the return value. -/
def enc62 (out : List Byte) (off : Nat) (inp : Nat) : Outcome (List Byte × Nat) := do
  let (out, i) ← enc62Loop out off inp 11
  let out ← enc62Fill out off i
  pure (out, i)

/-- zt_uuid.c 513-526: value of a character, `none` = return -1. (`c` is a signed char; bytes >= 128 are negative and fall
through to the error just as here.) -/
def val62 (c : Byte) : Option Nat :=
  if c ≥ 48 ∧ c ≤ 57 then some (c.toNat - 48)
  else if c ≥ 97 ∧ c ≤ 122 then some (c.toNat - (97 - 10))
  else if c ≥ 65 ∧ c ≤ 90 then some (c.toNat - (65 - 36))
  else none

/-- The loop of zt_uuid.c 513-529, `tlen - i` iterations left; `v` is a `uint64_t`. -/
def dec62Loop (tlen : Nat) : (inp : List Byte) → (i left v : Nat) → Outcome (Option Nat)
  | _, _, 0, v => .ok (some v)
  | [], _, _ + 1, _ => .ub
  | c :: cs, i, left + 1, v =>
      match val62 c with
      | none => .ok none
      | some n => dec62Loop tlen cs (i + 1) left ((v + n * 62 ^ (tlen - i - 1)) % 2 ^ 64)

/-- zt_uuid.c 503-533 `base62_decode_int64(in, ilen, out)`; `none` is -1. -/
def dec62 (inp : List Byte) (ilen : Nat) : Outcome (Option Nat) :=
  let tlen := if ilen > 11 then 11 else ilen
  dec62Loop tlen inp 0 tlen 0

/-- The loop of zt_uuid.c 195-199 from index `i` on, for the 8 bytes at `off`. -/
def gather (u : List Byte) (off : Nat) : (left i v : Nat) → Outcome Nat
  | 0, _, v => .ok v
  | left + 1, i, v => do
      let b ← rd u (off + i)
      gather u off left (i + 1) (v ||| (b.toNat <<< ((7 - i) * 8)))

/-- zt_uuid.c 207-209: copy the segment reversed, `uuids[x] = t[10 - x]`. -/
def revCopy (t : List Byte) (uuids : List Byte) : (left x : Nat) → Outcome (List Byte)
  | 0, _ => .ok uuids
  | left + 1, x => do
      let c ← rd t left
      let uuids ← wr uuids x c
      revCopy t uuids left (x + 1)

/-- The string argument of a `%N.Ns` conversion: at most `n` characters, fewer if a NUL comes first. -/
def takeStr : Nat → List Byte → Outcome (List Byte)
  | 0, _ => .ok []
  | _ + 1, [] => .ub
  | n + 1, b :: bs => if b = 0 then .ok [] else do
      let r ← takeStr n bs
      pure (b :: r)

/-- One `%N.Ns` item: at least `n` (left-padded with spaces) and at most `n` characters. -/
def item (n : Nat) (src : List Byte) : Outcome (List Byte) := do
  let s ← takeStr n src
  pure (List.replicate (n - s.length) 32 ++ s)

/-- `snprintf(dst, size, ...)` of a text without NUL: new contents of `dst`. -/
def snprintf (dst : List Byte) (size : Nat) (text : List Byte) : Outcome (List Byte) :=
  if size = 0 then .ok dst
  else
    let w := text.take (size - 1) ++ [0]
    if w.length ≤ dst.length then .ok (w ++ dst.drop w.length) else .ub

/-- zt_uuid.c 180-244 `_zt_uuid_fillstr`: return value and new contents of `uuids`. `junk` = the local array `t_uuids` or
`uuids_hex`. -/
def fillInner (junk u uuids : List Byte) (size : Nat) (f : Fmt) : Outcome (Int × List Byte) :=
  match f with
  | .base62 =>
      if size ≤ 22 + 1 then do
        let v1 ← gather u 0 8 0 0
        let v2 ← gather u 8 8 0 0
        let (uuids, _) ← enc62 uuids 0 v1
        let (uuids, _) ← enc62 uuids 11 v2
        let uuids ← wr uuids 22 0
        pure (22, uuids)
      else .abort
  | .base62hash =>
      if size ≤ 22 + 1 then do
        let v1 ← gather u 0 8 0 0
        let v2 ← gather u 8 8 0 0
        let (t, _) ← enc62 (junk.take 11) 0 v1
        let uuids ← revCopy t uuids 11 0
        let (uuids, _) ← enc62 uuids 11 v2
        let uuids ← wr uuids 22 0
        pure (22, uuids)
      else .abort
  | f => do
      let r ← Hex.binaryToHex u 16 (some (junk.take 32)) 32
      let hex ← match r.2 with
        | some h => .ok h
        | none => .ub
      let a ← item 8 hex
      let b ← item 4 (hex.drop 8)
      let c ← item 4 (hex.drop 12)
      let d ← item 4 (hex.drop 16)
      let e ← item 12 (hex.drop 20)
      let text := if f = .std then a ++ [45] ++ b ++ [45] ++ c ++ [45] ++ d ++ [45] ++ e else a ++ b ++ c ++ d ++ e
      let uuids ← snprintf uuids size text
      if (f ≠ .std ∨ text.length = 36) ∧ (f ≠ .short ∨ text.length = 32) then pure (text.length, uuids) else .abort

/-- Result of `zt_uuid_fillstr`. -/
structure FillRes where
  ret : Int
  uuids : Option (List Byte)
  size : Nat
  deriving Repr, DecidableEq

/-- zt_uuid.c 317-331 `zt_uuid_fillstr`; `none` is a NULL pointer (`uuids_size` itself is not NULL). -/
def fillstr (junk : List Byte) (u : Option (List Byte)) (uuids : Option (List Byte)) (size : Nat) (f : Fmt) : Outcome FillRes :=
  match u, uuids with
  | some u, some b =>
      if size < flagToSize f then .ok ⟨0, some b, flagToSize f⟩
      else do
        let (n, b) ← fillInner junk u b size f
        pure ⟨n, some b, size⟩
  | _, b => .ok ⟨0, b, flagToSize f⟩

/-- zt_uuid.c 265-293 `zt_uuid_tostr` (allocation succeeds): return value and the allocated, zero-filled string. -/
def tostr (junk u : List Byte) (f : Fmt) : Outcome (Int × Option (List Byte)) := do
  let sz := flagToSize f
  let (n, b) ← fillInner junk u (List.replicate sz 0) sz f
  pure (n, if n < 0 then none else some b)

/-- isspace in the C locale. -/
def isSpace (c : Byte) : Bool := c = 32 || (9 ≤ c && c ≤ 13)

/-- Characters taken by one `%Ns`: non-space, non-NUL, at most `n`; returns them and the remaining input. -/
def scanWord : Nat → List Byte → Outcome (List Byte × List Byte)
  | 0, s => .ok ([], s)
  | _ + 1, [] => .ub
  | n + 1, c :: cs => if c = 0 || isSpace c then .ok ([], c :: cs) else do
      let (w, r) ← scanWord n cs
      pure (c :: w, r)

/-- Leading white space is skipped. -/
def skipWs : List Byte → List Byte
  | [] => []
  | c :: cs => if isSpace c then skipWs cs else c :: cs

/-- Store a scanned word and its NUL. -/
def putWord (buf : List Byte) (off : Nat) : List Byte → Outcome (List Byte)
  | [] => wr buf off 0
  | c :: cs => do
      let buf ← wr buf off c
      putWord buf (off + 1) cs

/-- `sscanf(s, "%n1s-%n2s-...", &buf[o1], &buf[o2], ...)`; the contents of `buf` afterwards (the conversion count is
ignored by the code). Scanning stops at the first failing item. -/
def sscanf : List (Nat × Nat) → List Byte → List Byte → Outcome (List Byte)
  | [], _, buf => .ok buf
  | (n, off) :: items, s, buf => do
      let (w, r) ← scanWord n (skipWs s)
      if w = [] then .ok buf
      else
        let buf ← putWord buf off w
        match items, r with
        | [], _ => .ok buf
        | _ :: _, 45 :: r => sscanf items r buf
        | _ :: _, _ => .ok buf

/-- zt_uuid.c 385-389: byte `i` of a 64-bit value, most significant first. -/
def spread (v : Nat) : List Byte := (List.range 8).map fun i => UInt8.ofNat ((v >>> ((7 - i) * 8)) &&& 0xFF)

/-- zt_uuid.c 369-371: `t[x] = uuidstr[10 - x]`. -/
def revRead (s : List Byte) : (left : Nat) → Outcome (List Byte)
  | 0 => .ok []
  | left + 1 => do
      let c ← rd s left
      let r ← revRead s left
      pure (c :: r)

/-- zt_uuid.c 333-397 `zt_uuid_fromstr(uuidstr, uuid, flags)`: return value and the 16 bytes of `*uuid` afterwards.
`junk` = the 33-byte local array. -/
def fromstr (junk s u : List Byte) (f : Fmt) : Outcome (Int × List Byte) :=
  match f with
  | .std => do
      let n ← strlen s
      if n ≠ 36 then .ok (-1, u)
      else
        let hex ← sscanf [(8, 0), (4, 8), (4, 12), (4, 16), (12, 20)] s (junk.take 33)
        let r ← Hex.hexToBinary hex 32 (some u) 16
        match r.2 with
        | some u => .ok (0, u)
        | none => .ub
  | .short => do
      let n ← strlen s
      if n ≠ 32 then .ok (-1, u)
      else
        let hex ← Sha1.memcpy (junk.take 33) 0 s 0 32
        let r ← Hex.hexToBinary hex 32 (some u) 16
        match r.2 with
        | some u => .ok (0, u)
        | none => .ub
  | f => do
      let v1 ← if f = .base62hash then do
          let t ← revRead s 11
          dec62 t 11
        else dec62 s 11
      match v1 with
      | none => .ok (-1, u)
      | some v1 => do
          let v2 ← dec62 (s.drop 11) 22
          match v2 with
          | none => .ok (-1, u)
          | some v2 => .ok (0, spread v1 ++ spread v2)

/-- zt_uuid.c 404 `VALID_CHARS`. `strchr` also finds the terminating NUL, but no NUL occurs below `len`. -/
def validChars : List Byte := [97, 98, 99, 100, 101, 102, 65, 66, 67, 68, 69, 70, 48, 49, 50, 51, 52, 53, 54, 55, 56, 57]

/-- zt_uuid.c 446-468: the per-character test. -/
def goodAt (f : Fmt) (i : Nat) (c : Byte) : Bool :=
  match f with
  | .std => if i = 8 ∨ i = 13 ∨ i = 18 ∨ i = 23 then c = 45 else validChars.contains c
  | .short => validChars.contains c
  | _ => base62Alphabet.contains c

/-- The loop of zt_uuid.c 444-470. -/
def validLoop (f : Fmt) : (s : List Byte) → (i left : Nat) → Outcome Int
  | _, _, 0 => .ok 0
  | [], _, _ + 1 => .ub
  | c :: cs, i, left + 1 =>
      if goodAt f i c then validLoop f cs (i + 1) left else .ok (-1)

/-- zt_uuid.c 406-473 `zt_uuid_isvalid` (non-NULL argument). -/
def isvalid (s : List Byte) (f : Fmt) : Outcome Int := do
  let len ← strlen s
  if len + 1 ≠ flagToSize f then .ok (-1) else validLoop f s 0 len

/-- zt_uuid.c 399-402 `zt_uuid_cmp`: `memcmp` of the 16 bytes (sign of the first difference). -/
def cmp : List Byte → List Byte → Int
  | a :: as, b :: bs => if a = b then cmp as bs else (a.toNat : Int) - b.toNat
  | _, _ => 0

end ZT.Uuid
