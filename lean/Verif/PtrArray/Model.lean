import Verif.Mem
import Verif.Fuel

/-!
# zt_ptr_array.c

A pointer is a number, 0 is NULL. `size` and `count` are `int32_t` (never negative here, so `Nat`); an `int32_t` addition above `2 ^ 31 - 1` is
undefined behaviour. `zt_malloc` never returns NULL (it aborts, zt_malloc.c 21-31), so the NULL checks after allocations are not modelled; the
slots of a fresh block are arbitrary (`junk`). Calls of `free_cb` (or `free`) are collected as the list of pointers passed.
-/

namespace ZT.PtrArray

/-- Pointers. -/
abbrev Ptr := Nat

/-- zt_ptr_array.h 8-14 `zt_ptr_array` (`args` is not used by the code). `cb`: whether `free_cb` is set. -/
structure PA where
  size : Nat
  count : Nat
  arr : List Ptr
  cb : Bool
  deriving Repr, DecidableEq

/-- A fresh block of `n` slots. -/
def fresh (junk : Nat → Ptr) (n : Nat) : List Ptr := (List.range n).map junk

/-- zt_ptr_array.c 9-27 `zt_ptr_array_init`; ZT_PTR_ARRAY_DEFAULT_SIZE is 32 (zt_ptr_array.h 4). -/
def init (junk : Nat → Ptr) (cb : Bool) : PA := ⟨32, 0, fresh junk 32, cb⟩

/-- zt_ptr_array.c 29-42 `zt_ptr_array_copy_data`: the loop from `i`, `n` iterations left. -/
def copyData (src : List Ptr) : Nat → Nat → List Ptr → Outcome (List Ptr)
  | 0, _, dst => .ok dst
  | n + 1, i, dst => do
      let p ← rd src i
      let dst ← wr dst i p
      copyData src n (i + 1) dst

/-- zt_ptr_array.c 44-78 `zt_ptr_array_resize` (the result is the return value and the array). -/
def resize (junk : Nat → Ptr) (a : PA) (expand : Int) : Outcome (Int × PA) :=
  let size := if expand = 0 then 32 else expand
  if (a.size : Int) + size > 2 ^ 31 - 1 then .ub
  else if (a.size : Int) + size < a.size then .ok (-1, a)
  else do
    let nd ← copyData a.arr a.count 0 (fresh junk ((a.size : Int) + size).toNat)
    pure (0, { a with arr := nd, size := ((a.size : Int) + size).toNat })

/-- An `int32_t` used as an index: negative ones are outside the block. -/
def rdI (m : List Ptr) (i : Int) : Outcome Ptr := if i < 0 then .ub else rd m i.toNat
/-- Store at an `int32_t` index. -/
def wrI (m : List Ptr) (i : Int) (p : Ptr) : Outcome (List Ptr) := if i < 0 then .ub else wr m i.toNat p

/-- zt_ptr_array.c 80-93 `zt_ptr_array_move_idx_to_idx`. -/
def moveIdx (a : PA) (src dst : Int) : Outcome (Int × PA) :=
  if src > a.count then .ok (-1, a)
  else if dst > a.count then .ok (-1, a)
  else do
    let p ← rdI a.arr src
    let m ← wrI a.arr dst p
    pure (0, { a with arr := m })

/-- zt_ptr_array.c 103-112: the loop of `zt_ptr_array_del` from index `i`; `fuel` bounds the number of iterations. -/
def delLoop (data : Ptr) : Nat → PA → Nat → List Ptr → Outcome (PA × List Ptr)
  | 0, _, _, _ => .ub
  | fuel + 1, a, i, freed =>
      if i < a.count then do
        let p ← rd a.arr i
        if p = data then
          let (_, a) ← moveIdx a ((a.count : Int) - 1) i
          delLoop data fuel { a with count := a.count - 1 } (i + 1) (if a.cb then freed ++ [data] else freed)
        else delLoop data fuel a (i + 1) freed
      else .ok (a, freed)

/-- zt_ptr_array.c 95-116 `zt_ptr_array_del`: return value, array, pointers passed to `free_cb`. The loop makes at most `count` iterations. -/
def del (a : PA) (data : Ptr) : Outcome (Int × PA × List Ptr) :=
  if data = 0 then .ok (-1, a, [])
  else do
    let (a, freed) ← delLoop data (a.count + 1) a 0 []
    pure (-1, a, freed)

/-- zt_ptr_array.c 142-146: the growth step of `zt_ptr_array_add` (zt_ptr_array.h 16 `zt_ptr_array_is_full`). -/
def grow (junk : Nat → Ptr) (a : PA) : Outcome (Int × PA) := if a.count ≥ a.size then resize junk a 0 else pure (0, a)

/-- zt_ptr_array.c 136-152 `zt_ptr_array_add`. -/
def add (junk : Nat → Ptr) (a : PA) (data : Ptr) : Outcome (Int × PA) :=
  if data = 0 then .ok (0, a)
  else do
    let (r, a) ← grow junk a
    if r < 0 then .ok (-1, a)
    else
      let m ← wr a.arr a.count data
      pure (0, { a with arr := m, count := a.count + 1 })

/-- zt_ptr_array.c 184-196 `zt_ptr_array_get_idx`. -/
def getIdx (a : PA) (idx : Int) : Outcome Ptr :=
  if idx = -1 then rdI a.arr ((a.count : Int) - 1)
  else if idx ≥ a.count then .ok 0
  else rdI a.arr idx

/-- zt_ptr_array.c 126-130: the loop of `zt_ptr_array_cat` for two different arrays, `n` iterations left. -/
def catLoop (junk : Nat → Ptr) (src : PA) : Nat → Nat → PA → Outcome (Int × PA)
  | 0, _, dst => .ok (0, dst)
  | n + 1, i, dst => do
      let p ← getIdx src i
      let (r, dst) ← add junk dst p
      if r ≠ 0 then .ok (-1, dst) else catLoop junk src n (i + 1) dst

/-- zt_ptr_array.c 118-134 `zt_ptr_array_cat`, `dst` and `src` different. -/
def cat (junk : Nat → Ptr) (dst src : PA) : Outcome (Int × PA) := catLoop junk src src.count 0 dst

/-- zt_ptr_array.c 126-130 when `dst == src`: the bound `src->count` grows with every iteration. `none`: still running after `fuel` iterations. -/
def catSelf (junk : Nat → Ptr) : Nat → PA → Nat → Outcome (Option (Int × PA))
  | 0, _, _ => .ok none
  | fuel + 1, a, i =>
      if i < a.count then do
        let p ← getIdx a i
        let (r, a) ← add junk a p
        if r ≠ 0 then .ok (some (-1, a)) else catSelf junk fuel a (i + 1)
      else .ok (some (0, a))

/-- zt_ptr_array.c 163-175: the loop of `zt_ptr_array_free`, `n` iterations left (`free_cb` and `free` alike). -/
def freeLoop (m : List Ptr) : Nat → Nat → List Ptr → Outcome (List Ptr)
  | 0, _, freed => .ok freed
  | n + 1, i, freed => do
      let p ← rd m i
      freeLoop m n (i + 1) (if p = 0 then freed else freed ++ [p])

/-- zt_ptr_array.c 154-182 `zt_ptr_array_free`: the members released. -/
def free (a : PA) (freeMembers : Int) : Outcome (Int × List Ptr) := do
  let l ← if freeMembers > 0 then freeLoop a.arr a.count 0 [] else pure []
  pure (0, l)

end ZT.PtrArray
