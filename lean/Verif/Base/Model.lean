import Verif.Base.Tables

/-!
# zt_base.c: encoder and decoder

`unsigned int` arithmetic is written with `Nat` bit operations: every operand is at most 255 and no shift
exceeds 7, so nothing can exceed 32 bits. Storing into an `unsigned char` truncates (`UInt8.ofNat`).
The caller's buffer is a block of `cap` bytes; the C pointer `out` only ever advances by one after each store,
so the block is represented by the list of bytes stored so far, and a store at position `>= cap` is `ub`.
-/

namespace ZT.Base

/-- An output block of `cap` bytes with the bytes stored so far through the advancing pointer `out`
(`*out++ = x`). -/
structure OBuf where
  cap : Nat
  data : List Byte
  deriving Repr, DecidableEq

/-- `*out++ = b;` -/
def OBuf.store (o : OBuf) (b : Byte) : Outcome OBuf :=
  if o.data.length < o.cap then .ok { o with data := o.data ++ [b] } else .ub

/-- A run of `*out++ = ...;` statements. -/
def OBuf.stores (o : OBuf) : List Byte → Outcome OBuf
  | [] => .ok o
  | b :: bs => do
      let o ← o.store b
      o.stores bs

/-- `alphabet[i]`; reading past the alphabet is undefined behaviour. -/
def alphaAt (d : Def) (i : Nat) : Outcome Byte :=
  match d.alphabet[i]? with
  | some c => .ok c
  | none => .ub

/-- `*out++ = alphabet[i];` for each index in turn. -/
def OBuf.emit (d : Def) (o : OBuf) : List Nat → Outcome OBuf
  | [] => .ok o
  | i :: is => do
      let c ← alphaAt d i
      let o ← o.store c
      OBuf.emit d o is

/-- The four alphabet indices of a whole 3-byte group; zt_base.c 225-228. -/
def idx64 (b0 b1 b2 : Nat) : List Nat :=
  [ b0 >>> 2,
    ((b0 &&& 0x03) <<< 4) ||| ((b1 &&& 0xF0) >>> 4),
    ((b1 &&& 0x0F) <<< 2) ||| ((b2 &&& 0xC0) >>> 6),
    b2 &&& 0x3F ]

/-- The indices written for a partial group of `mod` bytes; zt_base.c 231-241. -/
def idx64Tail (mod b0 b1 : Nat) : List Nat :=
  let b2 := 0
  [ b0 >>> 2, ((b0 &&& 0x03) <<< 4) ||| ((b1 &&& 0xF0) >>> 4) ] ++
  (if mod > 1 then [ ((b1 &&& 0x0F) <<< 2) ||| ((b2 &&& 0xC0) >>> 6) ] else [])

/-- zt_base.c 209-251 `_encode64(def, in, lcnt, mod, out)`.
The loop over `lcnt` groups is recursion on `lcnt`; reading past the input is `ub`. -/
def encode64 (d : Def) (mod : Nat) : (lcnt : Nat) → (inp : List Byte) → OBuf → Outcome OBuf
  | n + 1, b0 :: b1 :: b2 :: rest, o => do
      let o ← o.emit d (idx64 b0.toNat b1.toNat b2.toNat)
      encode64 d mod n rest o
  | _ + 1, _, _ => .ub
  | 0, inp, o =>
      if mod > 0 then
        match inp, decide (mod > 1) with
        | b0 :: b1 :: _, true => do
            let o ← o.emit d (idx64Tail mod b0.toNat b1.toNat)
            if d.padding then o.stores (List.replicate (3 - mod) d.pad) else .ok o
        | b0 :: _, false => do
            let o ← o.emit d (idx64Tail mod b0.toNat 0)
            if d.padding then o.stores (List.replicate (3 - mod) d.pad) else .ok o
        | _, _ => .ub
      else .ok o

/-- The eight alphabet indices of a whole 5-byte group; zt_base.c 331-338. -/
def idx32 (b0 b1 b2 b3 b4 : Nat) : List Nat :=
  [ b0 >>> 3,
    ((b0 &&& 0x07) <<< 2) ||| ((b1 &&& 0xC0) >>> 6),
    (b1 &&& 0x3F) >>> 1,
    ((b1 &&& 0x01) <<< 4) ||| ((b2 &&& 0xF0) >>> 4),
    ((b2 &&& 0x0F) <<< 1) ||| ((b3 &&& 0x80) >>> 7),
    (b3 &&& 0x7C) >>> 2,
    ((b3 &&& 0x03) <<< 3) ||| ((b4 &&& 0xE0) >>> 5),
    b4 &&& 0x1F ]

/-- The indices written for a partial group of `mod` bytes; zt_base.c 349-368. -/
def idx32Tail (mod b0 b1 b2 b3 : Nat) : List Nat :=
  let b4 := 0
  [ b0 >>> 3, ((b0 &&& 0x07) <<< 2) ||| ((b1 &&& 0xC0) >>> 6) ] ++
  (if mod > 1 then [ (b1 &&& 0x3F) >>> 1, ((b1 &&& 0x01) <<< 4) ||| ((b2 &&& 0xF0) >>> 4) ] else []) ++
  (if mod > 2 then [ ((b2 &&& 0x0F) <<< 1) ||| ((b3 &&& 0x80) >>> 7) ] else []) ++
  (if mod > 3 then [ (b3 &&& 0x7C) >>> 2, ((b3 &&& 0x03) <<< 3) ||| ((b4 &&& 0xE0) >>> 5) ] else [])

/-- The number of pad characters chosen at zt_base.c 351, 356, 361, 367. -/
def pad32 (mod : Nat) : Nat :=
  if mod > 3 then 1 else if mod > 2 then 3 else if mod > 1 then 4 else 6

/-- `(mod > k) ? *in++ : 0` (zt_base.c 343-345): the k-th byte of the tail when the guard holds. -/
def tailByte (inp : List Byte) (guard : Bool) (k : Nat) : Outcome Nat :=
  if guard then
    match inp[k]? with
    | some b => .ok b.toNat
    | none => .ub
  else .ok 0

/-- zt_base.c 314-379 `_encode32`. -/
def encode32 (d : Def) (mod : Nat) : (lcnt : Nat) → (inp : List Byte) → OBuf → Outcome OBuf
  | n + 1, b0 :: b1 :: b2 :: b3 :: b4 :: rest, o => do
      let o ← o.emit d (idx32 b0.toNat b1.toNat b2.toNat b3.toNat b4.toNat)
      encode32 d mod n rest o
  | _ + 1, _, _ => .ub
  | 0, inp, o =>
      if mod > 0 then do
        let b0 ← tailByte inp true 0
        let b1 ← tailByte inp (mod > 1) 1
        let b2 ← tailByte inp (mod > 2) 2
        let b3 ← tailByte inp (mod > 3) 3
        let o ← o.emit d (idx32Tail mod b0 b1 b2 b3)
        if d.padding then o.stores (List.replicate (pad32 mod) d.pad) else .ok o
      else .ok o

/-- zt_base.c 471-493 `_encode16` (its `mod` argument is unused). -/
def encode16 (d : Def) : (lcnt : Nat) → (inp : List Byte) → OBuf → Outcome OBuf
  | n + 1, b0 :: rest, o => do
      let o ← o.emit d [b0.toNat >>> 4, b0.toNat &&& 0x0F]
      encode16 d n rest o
  | _ + 1, [], _ => .ub
  | 0, _, o => .ok o

/-- zt_base.c 191-207 `_valid_dictionary_p` (`sizeof(_bits_t)` is 8). -/
def validDictionary (d : Def) : Bool :=
  !(8 * d.igroups != d.ogroups * d.obits) && !(d.igroups > 8)

/-- The `void **out` argument: NULL, pointer to a NULL pointer, or pointer to a buffer that really has
`size` bytes. -/
inductive OutArg where
  | null
  | ptrNull
  | buf (size : Nat)
  deriving Repr, DecidableEq

/-- What a caller observes: return code, `*out_bytes` afterwards (if the pointer was given), and the bytes
stored, in order, from the start of the output buffer (`[]` if nothing was stored or there is no buffer). -/
structure Ret where
  code : Int
  outBytes : Option Nat
  out : List Byte
  deriving Repr, DecidableEq

/-- Number of characters needed; zt_base.c 561-571. -/
def encodedCount (d : Def) (inBytes : Nat) : Nat :=
  let lcount := inBytes / d.igroups
  let mod := (8 * (inBytes % d.igroups)) / d.obits
  let ocount := lcount * d.ogroups
  if mod > 0 then
    if d.padding then ocount + d.ogroups else ocount + (mod + 1)
  else ocount

/-- The dispatch on `def->base`; zt_base.c 593-607. -/
def encodeDispatch (d : Def) (inp : List Byte) (o : OBuf) : Outcome (Option OBuf) :=
  let lcount := inp.length / d.igroups
  let m := inp.length % d.igroups
  if d.base = 64 then do let o ← encode64 d m lcount inp o; pure (some o)
  else if d.base = 32 then do let o ← encode32 d m lcount inp o; pure (some o)
  else if d.base = 16 then do let o ← encode16 d lcount inp o; pure (some o)
  else pure none

/-- The tail of `zt_base_encode` once an output buffer of real size `size` is in place: zt_base.c 579-607. -/
def encodeInto (d : Def) (inp : List Byte) (size : Nat) (olen : Nat) : Outcome Ret :=
  let ocount := encodedCount d inp.length
  if olen < ocount then .ok ⟨-2, some ocount, []⟩
  else do
    let r ← encodeDispatch d inp ⟨size, []⟩
    match r with
    | some o => pure ⟨0, some ocount, o.data⟩
    | none => pure ⟨-1, some ocount, []⟩

/-- zt_base.c 536-608 `zt_base_encode`. `inp = none` is `in == NULL`; `outBytes = none` is
`out_bytes == NULL`. `zt_calloc` succeeds (it aborts otherwise). -/
def encode (d : Def) (inp : Option (List Byte)) (out : OutArg) (outBytes : Option Nat) : Outcome Ret :=
  if !validDictionary d then .ok ⟨-1, outBytes, []⟩
  else
    match outBytes with
    | none => .ok ⟨-1, none, []⟩
    | some olen =>
      match inp with
      | none => .ok ⟨0, some 0, []⟩
      | some [] => .ok ⟨0, some 0, []⟩
      | some inp =>
        let ocount := encodedCount d inp.length
        match out with
        | .null => if olen < ocount then .ok ⟨-2, some ocount, []⟩ else .ok ⟨0, some ocount, []⟩
        | .ptrNull =>
            if olen = 0 then encodeInto d inp ocount ocount   -- 573-577: calloc'd buffer of ocount bytes
            else if olen < ocount then .ok ⟨-2, some ocount, []⟩
            else .ok ⟨0, some ocount, []⟩
        | .buf size => encodeInto d inp size olen

/-! ## Decoder -/

/-- Bytes stored for a full group of 4 values; zt_base.c 281-283. -/
def full64 : List Nat → List Byte
  | [b0, b1, b2, b3] =>
      [ UInt8.ofNat (b0 <<< 2 ||| (b1 >>> 4)),
        UInt8.ofNat ((b1 &&& 0x0F) <<< 4 ||| (b2 >>> 2)),
        UInt8.ofNat ((b2 &&& 0x03) <<< 6 ||| b3) ]
  | _ => []

/-- Bytes stored for a full group of 8 values; zt_base.c 414-418. -/
def full32 : List Nat → List Byte
  | [b0, b1, b2, b3, b4, b5, b6, b7] =>
      [ UInt8.ofNat (b0 <<< 3 ||| b1 >>> 2),
        UInt8.ofNat (b1 <<< 6 ||| b2 <<< 1 ||| b3 >>> 4),
        UInt8.ofNat (b3 <<< 4 ||| b4 >>> 1),
        UInt8.ofNat (b4 <<< 7 ||| b5 <<< 2 ||| b6 >>> 3),
        UInt8.ofNat (b6 <<< 5 ||| b7) ]
  | _ => []

/-- Byte stored for a full group of 2 values; zt_base.c 521. -/
def full16 : List Nat → List Byte
  | [b0, b1] => [ UInt8.ofNat (b0 <<< 4 ||| b1) ]
  | _ => []

/-- `dictionary[c]` (zt_base.c 264, 392, 506). -/
def dictAt (d : Def) (c : Byte) : Outcome Int :=
  match d.dictionary[c.toNat]? with
  | some v => .ok v
  | none => .ub

/-- State of a decode loop: the values collected in `buf` (`cnt` is its length), the output block, and
`obytes`. -/
structure DState where
  buf : List Nat
  o : OBuf
  obytes : Nat
  deriving Repr, DecidableEq

/-- The loop shared by `_decode64` (zt_base.c 263-291), `_decode32` (391-426) and `_decode16` (505-529):
`size` is BUFSIZE_N and `full` the statements executed when the group is complete. `none` is the early
`return -1`. -/
def decodeLoop (d : Def) (size : Nat) (full : List Nat → List Byte) :
    List Byte → DState → Outcome (DState × Bool)
  | [], s => .ok (s, true)
  | c :: cs, s => do
      let v ← dictAt d c
      if v ≥ 0 then
        let buf := s.buf ++ [v.toNat]
        if buf.length = size then do
          let o ← s.o.stores (full buf)
          decodeLoop d size full cs ⟨[], o, s.obytes + (full buf).length⟩
        else decodeLoop d size full cs { s with buf := buf }
      else if v = -1 then .ok (s, false)
      else decodeLoop d size full cs s

/-- zt_base.c 253-312 `_decode64`. `ob` is `*out_bytes` on entry (left unchanged by the early return). -/
def decode64 (d : Def) (inp : List Byte) (o : OBuf) (ob : Nat) : Outcome Ret := do
  let (s, fin) ← decodeLoop d 4 full64 inp ⟨[], o, 0⟩
  if !fin then pure ⟨-1, some ob, s.o.data⟩
  else
    match s.buf with
    | [] => pure ⟨0, some s.obytes, s.o.data⟩
    | [_] => pure ⟨-1, some s.obytes, s.o.data⟩
    | [b0, b1] => do
        let o ← s.o.stores [UInt8.ofNat (b0 <<< 2 ||| (b1 >>> 4))]
        pure ⟨0, some (s.obytes + 1), o.data⟩
    | [b0, b1, b2] => do
        let o ← s.o.stores [UInt8.ofNat (b0 <<< 2 ||| (b1 >>> 4)),
                            UInt8.ofNat ((b1 &&& 0x0F) <<< 4 ||| (b2 >>> 2))]
        pure ⟨0, some (s.obytes + 2), o.data⟩
    | _ => .ub  -- `cnt` > 3 cannot happen (see `decodeLoop_buf_lt`)

/-- zt_base.c 381-469 `_decode32`. -/
def decode32 (d : Def) (inp : List Byte) (o : OBuf) (ob : Nat) : Outcome Ret := do
  let (s, fin) ← decodeLoop d 8 full32 inp ⟨[], o, 0⟩
  if !fin then pure ⟨-1, some ob, s.o.data⟩
  else
    match s.buf with
    | [] => pure ⟨0, some s.obytes, s.o.data⟩
    | [_] => pure ⟨-1, some s.obytes, s.o.data⟩
    | [b0, b1] => do
        let o ← s.o.stores [UInt8.ofNat (b0 <<< 3 ||| b1 >>> 2)]
        pure ⟨0, some (s.obytes + 1), o.data⟩
    | [_, _, _] => pure ⟨-1, some s.obytes, s.o.data⟩
    | [b0, b1, b2, b3] => do
        let o ← s.o.stores [UInt8.ofNat (b0 <<< 3 ||| b1 >>> 2),
                            UInt8.ofNat (b1 <<< 6 ||| b2 <<< 1 ||| b3 >>> 4)]
        pure ⟨0, some (s.obytes + 2), o.data⟩
    | [b0, b1, b2, b3, b4] => do
        let o ← s.o.stores [UInt8.ofNat (b0 <<< 3 ||| b1 >>> 2),
                            UInt8.ofNat (b1 <<< 6 ||| b2 <<< 1 ||| b3 >>> 4),
                            UInt8.ofNat (b3 <<< 4 ||| b4 >>> 1)]
        pure ⟨0, some (s.obytes + 3), o.data⟩
    | [_, _, _, _, _, _] => pure ⟨-1, some ob, s.o.data⟩    -- 451-453: returns before line 467
    | [b0, b1, b2, b3, b4, b5, b6] => do
        let o ← s.o.stores [UInt8.ofNat (b0 <<< 3 ||| b1 >>> 2),
                            UInt8.ofNat (b1 <<< 6 ||| b2 <<< 1 ||| b3 >>> 4),
                            UInt8.ofNat (b3 <<< 4 ||| b4 >>> 1),
                            UInt8.ofNat (b4 <<< 7 ||| b5 <<< 2 ||| b6 >>> 3)]
        pure ⟨0, some (s.obytes + 4), o.data⟩
    | _ => pure ⟨-1, some s.obytes, s.o.data⟩               -- 461-463

/-- zt_base.c 495-533 `_decode16` (a left-over single digit is silently dropped). -/
def decode16 (d : Def) (inp : List Byte) (o : OBuf) (ob : Nat) : Outcome Ret := do
  let (s, fin) ← decodeLoop d 2 full16 inp ⟨[], o, 0⟩
  if !fin then pure ⟨-1, some ob, s.o.data⟩
  else pure ⟨0, some s.obytes, s.o.data⟩

/-- The strip loop zt_base.c 640-645, run on the reversed text: `k` characters have been examined and
were pads. The loop variable stops at index 0 without examining it, leaving `i = 0`. -/
def stripLoop (pad : Byte) : List Byte → Nat → Nat
  | [], _ => 0
  | [_], _ => 0                       -- i == 0: loop ends with i = 0
  | c :: cs, k => if c != pad then k else stripLoop pad cs (k + 1)

/-- Number of output bytes the decoder insists on; zt_base.c 640-649. -/
def decodedCount (d : Def) (inp : List Byte) : Nat :=
  let i := stripLoop d.pad inp.reverse 0
  let n := inp.length - i
  let lcount := n / d.ogroups
  let mod := n % d.ogroups
  lcount * d.igroups + mod

/-- The dispatch of zt_base.c 673-687. -/
def decodeDispatch (d : Def) (inp : List Byte) (o : OBuf) (ob : Nat) : Outcome Ret :=
  if d.base = 64 then decode64 d inp o ob
  else if d.base = 32 then decode32 d inp o ob
  else if d.base = 16 then decode16 d inp o ob
  else .ok ⟨-1, some ob, o.data⟩

/-- zt_base.c 615-688 `zt_base_decode`. With `*out == NULL` and `*out_bytes != 0` the code goes on with a
NULL output pointer: a block of 0 bytes, so the first store is `ub`. -/
def decode (d : Def) (inp : Option (List Byte)) (out : OutArg) (outBytes : Option Nat) : Outcome Ret :=
  if !validDictionary d then .ok ⟨-1, outBytes, []⟩
  else
    match outBytes with
    | none => .ok ⟨-1, none, []⟩
    | some ob =>
      match inp with
      | none => .ok ⟨0, some 0, []⟩
      | some [] => .ok ⟨0, some 0, []⟩
      | some inp =>
        let ocount := decodedCount d inp
        match out with
        | .null => .ok ⟨0, some ocount, []⟩
        | .buf size =>
            if ob < ocount then .ok ⟨-2, some ocount, []⟩
            else decodeDispatch d inp ⟨size, []⟩ ob
        | .ptrNull =>
            if ob = 0 then decodeDispatch d inp ⟨ocount + 1, []⟩ ocount
            else decodeDispatch d inp ⟨0, []⟩ ob

end ZT.Base
