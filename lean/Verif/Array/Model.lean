import Verif.Mem

/-!
# zt_array.c and zt_bstream.c

An array header holds the number of elements, the element size and the data pointer (`none` = NULL, otherwise the allocated block as a list of
bytes). `size_t` arithmetic wraps modulo `2 ^ 64` (`sz`). Allocation failure aborts (zt_malloc.c 21-52) and is not modelled further; a request
for 0 bytes gives a non-NULL pointer (glibc). Bytes that `realloc` adds are arbitrary (`junk`).
-/

namespace ZT.Arr

/-- `size_t` wrap-around. -/
def sz (n : Nat) : Nat := n % 2 ^ 64

/-- memcpy source: `n` bytes of the block `m` from `off`. -/
def slice (m : List Byte) (off n : Nat) : Outcome (List Byte) := if off + n ≤ m.length then .ok ((m.drop off).take n) else .ub

/-- memcpy destination: `bs` into the block `m` at `off`. -/
def blit (m : List Byte) (off : Nat) (bs : List Byte) : Outcome (List Byte) :=
  if off + bs.length ≤ m.length then .ok (m.take off ++ bs ++ m.drop (off + bs.length)) else .ub

/-- zt_array.h 11-15 `struct zt_array`. -/
structure Arr where
  length : Nat
  size : Nat
  data : Option (List Byte)
  deriving Repr, DecidableEq

/-- zt_array.c 6-18 `arrayrep_init`; the assertions on `ary` and `size`. -/
def repInit (len size : Nat) (ary : Option (List Byte)) : Outcome Arr :=
  if (ary.isSome && len > 0) || (len == 0 && ary.isNone) then
    if size > 0 then .ok ⟨len, size, ary⟩ else .abort
  else .abort

/-- calloc of `n` bytes. -/
def calloc (n : Nat) : List Byte := List.replicate n 0

/-- zt_array.c 21-35 `zt_array_new`. -/
def new (len size : Nat) : Outcome Arr :=
  if len > 0 then repInit len size (some (calloc (sz (len * size)))) else repInit len size none

/-- zt_array.c 45-58 `zt_array_set_data` (the old data pointer is dropped, not freed). With `copy = 0` the array adopts the caller's block. -/
def setData (data : Option (List Byte)) (len size : Nat) (copy : Bool) : Outcome Arr :=
  if copy then do
    let a ← repInit len size (some (calloc (sz (len * size))))
    match data, a.data with
    | some d, some m => do
        let src ← slice d 0 (sz (len * size))
        let m ← blit m 0 src
        pure { a with data := some m }
    | _, _ => .ub
  else repInit len size data

/-- zt_array.c 60-70 `zt_array_with`. -/
def withData (data : Option (List Byte)) (len size : Nat) (copy : Bool) : Outcome Arr := setData data len size copy

/-- zt_array.c 72-76 `zt_array_with_cstr`: `str` is a block. -/
def withCstr (str : List Byte) : Outcome Arr := do
  let n ← strlen str
  withData (some str) n 1 true

/-- realloc to `n` bytes. -/
def realloc (junk : Nat → Byte) (m : List Byte) (n : Nat) : List Byte := m.take n ++ ((List.range n).map junk).drop m.length

/-- zt_array.c 78-99 `zt_array_resize`. -/
def resize (junk : Nat → Byte) (a : Arr) (len : Nat) : Outcome Arr :=
  if len > 0 then
    if a.length == 0 then .ok { a with data := some (calloc (sz (len * a.size))), length := len }
    else
      let m := realloc junk (a.data.getD []) (sz (len * a.size))
      if len > a.length then do
        let m ← blit m (sz (a.length * a.size)) (calloc (sz (sz (len - a.length) * a.size)))
        pure { a with data := some m, length := len }
      else .ok { a with data := some m, length := len }
  else .abort

/-- zt_array.c 101-116 `zt_array_copy`. -/
def copy (a : Arr) (len : Nat) : Outcome Arr := do
  let c ← new len a.size
  if a.length > 0 && c.length > 0 then
    match a.data, c.data with
    | some s, some d => do
        let src ← slice s 0 (sz (min a.length c.length * c.size))
        let m ← blit d 0 src
        pure { c with data := some m }
    | _, _ => .ub
  else pure c

/-- zt_array.c 125-136 `zt_array_set_length`: the old length and the array. -/
def setLength (a : Arr) (len : Nat) : Nat × Arr := (a.length, { a with length := len })

/-- zt_array.c 154-163 `zt_array_elem_copy`: the bytes copied to `elem`. -/
def elemCopy (a : Arr) (offt : Nat) : Outcome (List Byte) :=
  if offt < a.length then
    match a.data with
    | some m => slice m (sz (offt * a.size)) a.size
    | none => .ub
  else .abort

/-- zt_array.c 165-177 `zt_array_get`: the offset of the element in the data block. -/
def get (a : Arr) (offt : Nat) : Outcome Nat := if offt < a.length then .ok (sz (offt * a.size)) else .abort

/-- zt_array.c 179-189 `zt_array_put`; `elem` is the memory at the element pointer. -/
def put (a : Arr) (offt : Nat) (elem : List Byte) : Outcome Arr :=
  if offt < a.length then
    match a.data with
    | some m => do
        let e ← slice elem 0 a.size
        let m ← blit m (sz (offt * a.size)) e
        pure { a with data := some m }
    | none => .ub
  else .abort

/-! ## zt_bstream.c -/

/-- zt_bstream.h 9-13 `struct zt_bstream`. -/
structure Bs where
  flip : Bool
  offt : Nat
  arr : Arr
  deriving Repr, DecidableEq

/-- zt_bstream.c 3-18 `_array_put`; `n` iterations remain. -/
def arrayPut (flip : Bool) (s : List Byte) (len : Nat) : (n : Nat) → Arr → (offt : Nat) → Outcome (Arr × Nat)
  | 0, a, offt => .ok (a, offt)
  | n + 1, a, offt => do
      let a ← put a offt (s.drop (if flip then n else len - (n + 1)))
      arrayPut flip s len n a (sz (offt + 1))

/-- zt_bstream.c 20-40 `_array_get`: the caller's buffer and the new offset; `n` iterations remain. -/
def arrayGet (flip : Bool) (a : Arr) (len : Nat) : (n : Nat) → (s : List Byte) → (offt : Nat) → Outcome (List Byte × Nat)
  | 0, s, offt => .ok (s, offt)
  | n + 1, s, offt => do
      let c ← get a offt
      match a.data with
      | none => .ub
      | some m => do
          let b ← rd m c
          let s ← wr s (if flip then n else len - (n + 1)) b
          arrayGet flip a len n s (sz (offt + 1))

/-- zt_bstream.c 84-93 `zt_bstream_new`; `flipendian` is 0 after calloc and is set directly by the user. -/
def bsNew (flip : Bool) : Outcome Bs := do
  let a ← new 0 1
  pure ⟨flip, 0, a⟩

/-- zt_bstream.c 49-54 `zt_bstream_truncate`. -/
def truncate (b : Bs) : Nat × Bs := let r := setLength b.arr 0; (r.1, { b with arr := r.2 })

/-- zt_bstream.c 42-47 `zt_bstream_is_empty`. -/
def isEmpty (b : Bs) : Bool := b.arr.length == 0

/-- zt_bstream.c 56-62 `zt_bstream_set_data`. -/
def bsSetData (b : Bs) (data : Option (List Byte)) (len : Nat) (copy : Bool) : Outcome Bs := do
  let a ← setData data len 1 copy
  pure { b with arr := a }

/-- zt_bstream.c 64-73 `zt_bstream_set_array`. -/
def bsSetArray (b : Bs) (a : Arr) (offt : Nat) : Bs := { b with arr := a, offt := offt }

/-- zt_bstream.c 75-86 `zt_bstream_rewind`. -/
def rewind (b : Bs) : Nat × Bs := (b.offt, { b with offt := 0 })

/-- zt_bstream.c 99-110 `zt_bstream_clone`: `flipendian` is left 0 by calloc. -/
def clone (b : Bs) : Outcome Bs := do
  let a ← copy b.arr b.arr.length
  pure ⟨false, b.offt, a⟩

/-- zt_bstream.c 122-131 `zt_bstream_read`: the filled buffer. `size` is a non-negative char. -/
def read (b : Bs) (buf : List Byte) (len size : Nat) : Outcome (Bs × List Byte) := do
  let (buf, offt) ← arrayGet b.flip b.arr (sz (len * size)) (sz (len * size)) buf b.offt
  pure ({ b with offt := offt }, buf)

/-- zt_bstream.c 175-194 `zt_bstream_write`. -/
def write (junk : Nat → Byte) (b : Bs) (data : List Byte) (len size : Nat) : Outcome Bs := do
  let tlen := sz (len * size)
  let alen := b.arr.length
  let arr ← if tlen > sz (alen + 2 ^ 64 - b.offt) then resize junk b.arr (sz ((alen + tlen) * 2)) else pure b.arr
  let (arr, offt) ← arrayPut b.flip data tlen tlen arr b.offt
  pure { b with arr := arr, offt := offt }

/-- The bytes of a number in memory on a little-endian machine. -/
def le : (w : Nat) → (n : Nat) → List Byte
  | 0, _ => []
  | w + 1, n => UInt8.ofNat n :: le w (n / 256)

/-- The number stored in memory. -/
def ofLe : List Byte → Nat
  | [] => 0
  | b :: bs => b.toNat + 256 * ofLe bs

/-- zt_bstream.c 196-236: the typed writers; `w` is the size of the type (1, 2, 4, 8; float and double are written as their bit patterns). -/
def writeTyped (junk : Nat → Byte) (b : Bs) (w n : Nat) : Outcome Bs := write junk b (le w n) 1 w

/-- zt_bstream.c 133-173: the typed readers, into a variable that holds `old`. -/
def readTyped (b : Bs) (w old : Nat) : Outcome (Bs × Nat) := do
  let (b, s) ← read b (le w old) 1 w
  pure (b, ofLe s)

end ZT.Arr
