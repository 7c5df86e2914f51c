import Verif.Mem
import Verif.Host

/-!
# zt_sha1.c

For machines of both byte orders (`Host`). `uint32_t` is `BitVec 32`. The union access of `_sha1_transform` works in
place: the 64 bytes handed to it are overwritten. The model keeps that effect (`transform` returns the new bytes).
Not modelled: alignment of `(CHAR64LONG16 *)buffer`, overlap of `ctx` and `data`.
-/

namespace ZT.Sha1

abbrev Word := BitVec 32

/-- zt_sha1.c 28 `rol(value, bits)`. -/
def rol (x : Word) (n : Nat) : Word := (x <<< n) ||| (x >>> (32 - n))

/-- The local variables of `_sha1_transform`; zt_sha1.c 54-58. -/
inductive Reg where
  | a | b | c | d | e
  deriving Repr, DecidableEq

/-- The five round macros; zt_sha1.c 43-47. -/
inductive RKind where
  | R0 | R1 | R2 | R3 | R4
  deriving Repr, DecidableEq

/-- One macro call `Rk(v, w, x, y, z, i)`. -/
structure Call where
  k : RKind
  v : Reg
  w : Reg
  x : Reg
  y : Reg
  z : Reg
  i : Nat
  deriving Repr, DecidableEq

/-- The 80 calls, literally; zt_sha1.c 72-91, one line each. -/
def calls : List Call := [
  ⟨.R0, .a, .b, .c, .d, .e, 0⟩, ⟨.R0, .e, .a, .b, .c, .d, 1⟩, ⟨.R0, .d, .e, .a, .b, .c, 2⟩, ⟨.R0, .c, .d, .e, .a, .b, 3⟩,
  ⟨.R0, .b, .c, .d, .e, .a, 4⟩, ⟨.R0, .a, .b, .c, .d, .e, 5⟩, ⟨.R0, .e, .a, .b, .c, .d, 6⟩, ⟨.R0, .d, .e, .a, .b, .c, 7⟩,
  ⟨.R0, .c, .d, .e, .a, .b, 8⟩, ⟨.R0, .b, .c, .d, .e, .a, 9⟩, ⟨.R0, .a, .b, .c, .d, .e, 10⟩, ⟨.R0, .e, .a, .b, .c, .d, 11⟩,
  ⟨.R0, .d, .e, .a, .b, .c, 12⟩, ⟨.R0, .c, .d, .e, .a, .b, 13⟩, ⟨.R0, .b, .c, .d, .e, .a, 14⟩, ⟨.R0, .a, .b, .c, .d, .e, 15⟩,
  ⟨.R1, .e, .a, .b, .c, .d, 16⟩, ⟨.R1, .d, .e, .a, .b, .c, 17⟩, ⟨.R1, .c, .d, .e, .a, .b, 18⟩, ⟨.R1, .b, .c, .d, .e, .a, 19⟩,
  ⟨.R2, .a, .b, .c, .d, .e, 20⟩, ⟨.R2, .e, .a, .b, .c, .d, 21⟩, ⟨.R2, .d, .e, .a, .b, .c, 22⟩, ⟨.R2, .c, .d, .e, .a, .b, 23⟩,
  ⟨.R2, .b, .c, .d, .e, .a, 24⟩, ⟨.R2, .a, .b, .c, .d, .e, 25⟩, ⟨.R2, .e, .a, .b, .c, .d, 26⟩, ⟨.R2, .d, .e, .a, .b, .c, 27⟩,
  ⟨.R2, .c, .d, .e, .a, .b, 28⟩, ⟨.R2, .b, .c, .d, .e, .a, 29⟩, ⟨.R2, .a, .b, .c, .d, .e, 30⟩, ⟨.R2, .e, .a, .b, .c, .d, 31⟩,
  ⟨.R2, .d, .e, .a, .b, .c, 32⟩, ⟨.R2, .c, .d, .e, .a, .b, 33⟩, ⟨.R2, .b, .c, .d, .e, .a, 34⟩, ⟨.R2, .a, .b, .c, .d, .e, 35⟩,
  ⟨.R2, .e, .a, .b, .c, .d, 36⟩, ⟨.R2, .d, .e, .a, .b, .c, 37⟩, ⟨.R2, .c, .d, .e, .a, .b, 38⟩, ⟨.R2, .b, .c, .d, .e, .a, 39⟩,
  ⟨.R3, .a, .b, .c, .d, .e, 40⟩, ⟨.R3, .e, .a, .b, .c, .d, 41⟩, ⟨.R3, .d, .e, .a, .b, .c, 42⟩, ⟨.R3, .c, .d, .e, .a, .b, 43⟩,
  ⟨.R3, .b, .c, .d, .e, .a, 44⟩, ⟨.R3, .a, .b, .c, .d, .e, 45⟩, ⟨.R3, .e, .a, .b, .c, .d, 46⟩, ⟨.R3, .d, .e, .a, .b, .c, 47⟩,
  ⟨.R3, .c, .d, .e, .a, .b, 48⟩, ⟨.R3, .b, .c, .d, .e, .a, 49⟩, ⟨.R3, .a, .b, .c, .d, .e, 50⟩, ⟨.R3, .e, .a, .b, .c, .d, 51⟩,
  ⟨.R3, .d, .e, .a, .b, .c, 52⟩, ⟨.R3, .c, .d, .e, .a, .b, 53⟩, ⟨.R3, .b, .c, .d, .e, .a, 54⟩, ⟨.R3, .a, .b, .c, .d, .e, 55⟩,
  ⟨.R3, .e, .a, .b, .c, .d, 56⟩, ⟨.R3, .d, .e, .a, .b, .c, 57⟩, ⟨.R3, .c, .d, .e, .a, .b, 58⟩, ⟨.R3, .b, .c, .d, .e, .a, 59⟩,
  ⟨.R4, .a, .b, .c, .d, .e, 60⟩, ⟨.R4, .e, .a, .b, .c, .d, 61⟩, ⟨.R4, .d, .e, .a, .b, .c, 62⟩, ⟨.R4, .c, .d, .e, .a, .b, 63⟩,
  ⟨.R4, .b, .c, .d, .e, .a, 64⟩, ⟨.R4, .a, .b, .c, .d, .e, 65⟩, ⟨.R4, .e, .a, .b, .c, .d, 66⟩, ⟨.R4, .d, .e, .a, .b, .c, 67⟩,
  ⟨.R4, .c, .d, .e, .a, .b, 68⟩, ⟨.R4, .b, .c, .d, .e, .a, 69⟩, ⟨.R4, .a, .b, .c, .d, .e, 70⟩, ⟨.R4, .e, .a, .b, .c, .d, 71⟩,
  ⟨.R4, .d, .e, .a, .b, .c, 72⟩, ⟨.R4, .c, .d, .e, .a, .b, 73⟩, ⟨.R4, .b, .c, .d, .e, .a, 74⟩, ⟨.R4, .a, .b, .c, .d, .e, 75⟩,
  ⟨.R4, .e, .a, .b, .c, .d, 76⟩, ⟨.R4, .d, .e, .a, .b, .c, 77⟩, ⟨.R4, .c, .d, .e, .a, .b, 78⟩, ⟨.R4, .b, .c, .d, .e, .a, 79⟩]

/-- Variables of the transform: the registers and the 16 words `block->l[0..15]`. -/
structure TState where
  r : Reg → Word
  l : Nat → Word

/-- Assignment to one variable. -/
def setReg (r : Reg → Word) (k : Reg) (v : Word) : Reg → Word := fun j => if j = k then v else r j

/-- Assignment `l[k] = v`. Every index used is below 16 (`i & 15`, or `i < 16` in R0). -/
def setL (l : Nat → Word) (k : Nat) (v : Word) : Nat → Word := fun j => if j = k then v else l j

variable [Host]

/-- zt_sha1.c 32-37 `blk0(i)`: the value assigned to `block->l[i]` and returned (33: left there). -/
def blk0 (l : Nat → Word) (i : Nat) : Word :=
  if Host.big then l i else (rol (l i) 24 &&& 0xFF00FF00#32) ||| (rol (l i) 8 &&& 0x00FF00FF#32)

/-- zt_sha1.c 39-40 `blk(i)`: the value assigned to `block->l[i & 15]` and returned. -/
def blk (l : Nat → Word) (i : Nat) : Word :=
  rol (l ((i + 13) &&& 15) ^^^ l ((i + 8) &&& 15) ^^^ l ((i + 2) &&& 15) ^^^ l (i &&& 15)) 1

/-- The index of the word assigned by `blk0(i)` (R0) or `blk(i)` (others). -/
def wordIdx (k : RKind) (i : Nat) : Nat :=
  match k with
  | .R0 => i
  | _ => i &&& 15

/-- The word used by the macro: `blk0(i)` in R0 (zt_sha1.c 43), `blk(i)` in the others (44-47). -/
def msgWord (k : RKind) (l : Nat → Word) (i : Nat) : Word :=
  match k with
  | .R0 => blk0 l i
  | _ => blk l i

/-- `f(w, x, y) + m + K` of each macro; zt_sha1.c 43-47. -/
def mix (k : RKind) (w x y m : Word) : Word :=
  match k with
  | .R0 => ((w &&& (x ^^^ y)) ^^^ y) + m + 0x5A827999#32
  | .R1 => ((w &&& (x ^^^ y)) ^^^ y) + m + 0x5A827999#32
  | .R2 => (w ^^^ x ^^^ y) + m + 0x6ED9EBA1#32
  | .R3 => (((w ||| x) &&& y) ||| (w &&& x)) + m + 0x8F1BBCDC#32
  | .R4 => (w ^^^ x ^^^ y) + m + 0xCA62C1D6#32

/-- One macro call, zt_sha1.c 43-47: `z += f(w,x,y) + blk + K + rol(v, 5); w = rol(w, 30);` -/
def exec (s : TState) (q : Call) : TState :=
  let m := msgWord q.k s.l q.i
  let r1 := setReg s.r q.z (s.r q.z + (mix q.k (s.r q.w) (s.r q.x) (s.r q.y) m + rol (s.r q.v) 5))
  { r := setReg r1 q.w (rol (r1 q.w) 30), l := setL s.l (wordIdx q.k q.i) m }

/-- `uint32_t state[5]`. -/
structure St where
  s0 : Word
  s1 : Word
  s2 : Word
  s3 : Word
  s4 : Word
  deriving Repr, DecidableEq

/-- Little-endian load of `block->l[k]` from the bytes. -/
def loadLE (bytes : List Byte) (k : Nat) : Word :=
  (bytes.getD (4 * k + 3) 0).toBitVec ++ (bytes.getD (4 * k + 2) 0).toBitVec ++
  (bytes.getD (4 * k + 1) 0).toBitVec ++ (bytes.getD (4 * k) 0).toBitVec

/-- Big-endian load of `block->l[k]` from the bytes. -/
def loadBE (bytes : List Byte) (k : Nat) : Word :=
  (bytes.getD (4 * k) 0).toBitVec ++ (bytes.getD (4 * k + 1) 0).toBitVec ++
  (bytes.getD (4 * k + 2) 0).toBitVec ++ (bytes.getD (4 * k + 3) 0).toBitVec

/-- `block->l[k]`, a member of the union of zt_sha1.c 23-26. -/
def load (bytes : List Byte) (k : Nat) : Word := if Host.big then loadBE bytes k else loadLE bytes k

/-- The 64 bytes of `block->l[0..15]`, little-endian. -/
def storeLE (l : Nat → Word) : List Byte :=
  (List.range 64).map fun n => UInt8.ofNat (((l (n / 4)) >>> (8 * (n % 4))).toNat % 256)

/-- The 64 bytes of `block->l[0..15]`, big-endian. -/
def storeBE (l : Nat → Word) : List Byte :=
  (List.range 64).map fun n => UInt8.ofNat (((l (n / 4)) >>> (8 * (3 - n % 4))).toNat % 256)

/-- The bytes of the union. -/
def store (l : Nat → Word) : List Byte := if Host.big then storeBE l else storeLE l

/-- zt_sha1.c 65-69: registers initialised from the state. -/
def regsOf (st : St) : Reg → Word
  | .a => st.s0
  | .b => st.s1
  | .c => st.s2
  | .d => st.s3
  | .e => st.s4

/-- zt_sha1.c 51-99 `_sha1_transform(state, buffer)` on a buffer of 64 bytes: new state and the overwritten buffer. -/
def transform (st : St) (buffer : List Byte) : St × List Byte :=
  let t := calls.foldl exec { r := regsOf st, l := load buffer }
  ({ s0 := st.s0 + t.r .a, s1 := st.s1 + t.r .b, s2 := st.s2 + t.r .c, s3 := st.s3 + t.r .d, s4 := st.s4 + t.r .e },
   store t.l)

/-- `zt_sha1_ctx`; zt_sha1.h 8-13. -/
structure Ctx where
  state : St
  count0 : Word
  count1 : Word
  buffer : List Byte

/-- zt_sha1.c 101-111; `buf` is whatever the uninitialised 64-byte buffer contains. -/
def init (buf : List Byte) : Ctx :=
  { state := ⟨0x67452301#32, 0xEFCDAB89#32, 0x98BADCFE#32, 0x10325476#32, 0xC3D2E1F0#32⟩,
    count0 := 0, count1 := 0, buffer := buf }

/-- `memcpy(&dst[off], src, n)` on blocks: undefined outside either block. -/
def memcpy (dst : List Byte) (off : Nat) (src : List Byte) (soff n : Nat) : Outcome (List Byte) :=
  if off + n ≤ dst.length ∧ soff + n ≤ src.length then
    .ok (dst.take off ++ (src.drop soff).take n ++ dst.drop (off + n))
  else .ub

/-- The loop of zt_sha1.c 132-134, `i` is the `uint32_t` loop variable: transforms `data[i..i+63]` in place.
`fuel` bounds the number of iterations; 2^32 of them are never needed (running out is reported as `ub`). -/
def blockLoop : (fuel : Nat) → St → List Byte → (i llen : Word) → Outcome (St × List Byte × Word)
  | 0, _, _, _, _ => .ub
  | fuel + 1, st, data, i, llen =>
      if (i + 63#32) < llen then
        if i.toNat + 64 ≤ data.length then
          let (st, blk) := transform st ((data.drop i.toNat).take 64)
          blockLoop fuel st (data.take i.toNat ++ blk ++ data.drop (i.toNat + 64)) (i + 64#32) llen
        else .ub
      else .ok (st, data, i)

/-- zt_sha1.c 113-138 `zt_sha1_update(ctx, data, len)`: the context and the (possibly overwritten) caller data. -/
def update (ctx : Ctx) (data : List Byte) (len : Nat) : Outcome (Ctx × List Byte) :=
  if len ≤ 2 ^ 32 - 1 - 1 then do
    let llen : Word := BitVec.ofNat 32 len
    let j : Word := (ctx.count0 >>> 3) &&& 63#32
    let count0 := ctx.count0 + (llen <<< 3)
    let count1 := if count0 < (llen <<< 3) then ctx.count1 + 1 else ctx.count1
    let count1 := count1 + (llen >>> 29)
    if (j + llen) > 63#32 then
      let i : Word := 64#32 - j
      let buffer ← memcpy ctx.buffer j.toNat data 0 i.toNat
      let (st, buffer) := transform ctx.state buffer
      let (st, data, i) ← blockLoop (2 ^ 32) st data i llen
      let buffer ← memcpy buffer 0 data i.toNat (llen - i).toNat
      pure ({ state := st, count0 := count0, count1 := count1, buffer := buffer }, data)
    else
      let buffer ← memcpy ctx.buffer j.toNat data 0 llen.toNat
      pure ({ ctx with count0 := count0, count1 := count1, buffer := buffer }, data)
  else .abort

/-- The padding loop of zt_sha1.c 152-154; at most 64 iterations are needed, running out of fuel is `ub`. -/
def padLoop : (fuel : Nat) → Ctx → Outcome Ctx
  | 0, _ => .ub
  | fuel + 1, ctx =>
      if (ctx.count0 &&& 504#32) ≠ 448#32 then do
        let (ctx, _) ← update ctx [0, 0] 1
        padLoop fuel ctx
      else .ok ctx

/-- zt_sha1.c 146-149: the 8 bytes of `finalcount`. -/
def finalcount (ctx : Ctx) : List Byte :=
  (List.range 8).map fun i =>
    UInt8.ofNat ((((if i ≥ 4 then ctx.count0 else ctx.count1) >>> ((3 - (i &&& 3)) * 8)) &&& 255#32).toNat)

/-- zt_sha1.c 157-160: the 20 bytes of the digest. -/
def digestOf (st : St) : List Byte :=
  (List.range 20).map fun i =>
    let w : Word := match i >>> 2 with
      | 0 => st.s0 | 1 => st.s1 | 2 => st.s2 | 3 => st.s3 | _ => st.s4
    UInt8.ofNat ((w >>> ((3 - (i &&& 3)) * 8)) &&& 255#32).toNat

/-- The context after zt_sha1.c 162-164. -/
def wiped : Ctx := { state := ⟨0, 0, 0, 0, 0⟩, count0 := 0, count1 := 0, buffer := List.replicate 64 0 }

/-- zt_sha1.c 140-166 `zt_sha1_finalize`: the digest and the wiped context. -/
def finalize (ctx : Ctx) : Outcome (List Byte × Ctx) := do
  let fc := finalcount ctx
  let (ctx, _) ← update ctx [0x80, 0] 1
  let ctx ← padLoop 65 ctx
  let (ctx, _) ← update ctx fc 8
  pure (digestOf ctx.state, wiped)

/-- zt_sha1.c 168-176 `zt_sha1_data`; `junk` is the uninitialised stack buffer. Returns digest and caller data. -/
def sha1Data (junk data : List Byte) (len : Nat) : Outcome (List Byte × List Byte) := do
  let (ctx, data) ← update (init junk) data len
  let (d, _) ← finalize ctx
  pure (d, data)

end ZT.Sha1
