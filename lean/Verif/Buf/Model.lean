import Verif.Array.Props

/-!
# zt_buf.c

A buffer is `len`, `max`, the block `top` points to (`none` = NULL) and `off`, the distance `buf - top`. `size_t` arithmetic wraps (`Arr.sz`).
`realloc` is assumed to succeed (its result is not checked by the code, line 66); it must be given the start of a block, so calling it while
`buf` is an interior pointer (`off ≠ 0`) is undefined behaviour. Bytes that `realloc` adds are arbitrary (`junk`). `memcpy` of 0 bytes is a
no-op, also for a NULL pointer.
-/

namespace ZT.Buf

open ZT.Arr (sz slice blit)

/-- zt_buf.c 13-18 `struct zt_buf`. -/
structure Buf where
  len : Nat
  max : Nat
  off : Nat
  blk : Option (List Byte)
  deriving Repr, DecidableEq

/-- zt_buf.c 20-34 `zt_buf_new`. -/
def new : Buf := ⟨0, 0, 0, none⟩

/-- zt_buf.c 41-44 `zt_buf_unused_sz`. -/
def unusedSz (b : Buf) : Nat := sz (b.max + 2 ^ 64 - b.len)

/-- zt_buf.c 46-49 `zt_buf_length`. -/
def length (b : Buf) : Nat := b.len

/-- zt_buf.c 36-39 `zt_buf_get`: the bytes a caller can read through the result (`none` = NULL). -/
def get (b : Buf) : Outcome (Option (List Byte)) :=
  if b.len = 0 then .ok none
  else match b.blk with
    | none => .ub
    | some m => do
        let s ← slice m b.off b.len
        pure (some s)

/-- `realloc(p, n)` of a whole block: the common prefix is kept. -/
def realloc (junk : Nat → Byte) (m : List Byte) (n : Nat) : List Byte := m.take n ++ (List.range (n - m.length)).map fun i => junk (m.length + i)

/-- zt_buf.c 51-72 `ZT_BUF_MIN`, `zt_buf_expand`. -/
def expand (junk : Nat → Byte) (b : Buf) (len : Nat) : Outcome Buf :=
  let rlen := if len < 1024 then 1024 else len
  if b.off = 0 then .ok ⟨b.len, sz (b.len + rlen), 0, some (realloc junk (b.blk.getD []) (sz (b.len + rlen)))⟩
  else .ub

/-- zt_buf.c 74-89 `zt_buf_drain`. `(size_t)(top - buf)` is `2 ^ 64 - off`, so the subtraction from `max` adds `off`. -/
def drain (b : Buf) (len : Nat) : Buf × Nat :=
  if len = 0 then (b, 0)
  else if len < b.len then ({ b with len := b.len - len, max := sz (b.max + b.off), off := b.off + len }, b.len - len)
  else ({ b with len := 0 }, 0)

/-- `memcpy(buf + len, data, n)` (zt_buf.c 97). -/
def store (b : Buf) (data : List Byte) : Outcome (Option (List Byte)) :=
  if data = [] then .ok b.blk
  else match b.blk with
    | none => .ub
    | some m => do
        let m ← blit m (b.off + b.len) data
        pure (some m)

/-- zt_buf.c 91-101 `zt_buf_add`: `data` is a block of exactly the given length. -/
def add (junk : Nat → Byte) (b : Buf) (data : List Byte) : Outcome Buf := do
  let b ← if data.length > unusedSz b then expand junk b data.length else pure b
  let m ← store b data
  pure { b with blk := m, len := sz (b.len + data.length) }

/-- `memcpy(dst, buf, n)`: the first `n` bytes at `buf`. -/
def load (b : Buf) (n : Nat) : Outcome (List Byte) :=
  if n = 0 then .ok []
  else match b.blk with
    | none => .ub
    | some m => slice m b.off n

/-- zt_buf.c 103-108 `zt_buf_add_buf` for two different buffers; `b->buf` is read for `b->len` bytes by the memcpy in `zt_buf_add`. -/
def addBuf (junk : Nat → Byte) (a b : Buf) : Outcome (Buf × Buf) := do
  let s ← load b b.len
  let a ← add junk a s
  pure (a, (drain b b.len).1)

/-- zt_buf.c 110-120 `zt_buf_remove`: returns the bytes stored in `out`; their number is the return value. -/
def remove (b : Buf) (olen : Nat) : Outcome (Buf × List Byte) := do
  let olen := if olen > b.len then b.len else olen
  let s ← load b olen
  pure ((drain b olen).1, s)

/-- zt_buf.c 122-129 `zt_buf_reserve`. -/
def reserve (junk : Nat → Byte) (b : Buf) (len : Nat) : Outcome Buf := if len > unusedSz b then expand junk b len else pure b

/-- zt_buf.c 131-143 `zt_buf_iov_len`. -/
def iovLen : List (List Byte) → Nat → Nat
  | [], acc => acc
  | v :: vs, acc => iovLen vs (sz (acc + v.length))

/-- zt_buf.c 151-153: the loop of `zt_buf_iov_add`. -/
def iovLoop (junk : Nat → Byte) : Buf → List (List Byte) → Outcome Buf
  | b, [] => .ok b
  | b, v :: vs => do
      let b ← add junk b v
      iovLoop junk b vs

/-- zt_buf.c 145-156 `zt_buf_iov_add`. -/
def iovAdd (junk : Nat → Byte) (b : Buf) (vec : List (List Byte)) : Outcome Buf := do
  let b ← reserve junk b (iovLen vec 0)
  iovLoop junk b vec

end ZT.Buf
