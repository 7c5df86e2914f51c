import Verif.Fuel

/-!
# zt_ez_mempool.c

Pools and chunk records are objects at addresses (`Nat`); a pointer is `Option Nat` with `none` = NULL. Following NULL or a pointer to a released object is undefined. A new
object gets an address never used before (`brk`). Allocation failure aborts (zt_malloc.c) and is not modelled. The caller's data blocks are pointers (0 = NULL); what the model
keeps of them is `log`: the releases in order, each with the callback used (`none` = zt_free).
-/

namespace ZT.EzPool

abbrev Ptr := Option Nat

/-- zt_ez_mempool.h 11-16 `struct zt_ez_mempool_chunk` (without the size). `cb` is the release callback, `none` = NULL. -/
structure Chunk where
  data : Nat
  cb : Option Nat
  next : Ptr
  deriving Repr, DecidableEq

/-- zt_ez_mempool.h 18-23 `struct zt_ez_mempool`. -/
structure Pool where
  parent : Ptr
  subpools : Ptr
  next : Ptr
  chunks : Ptr
  deriving Repr, DecidableEq

/-- An object in memory. -/
inductive Obj where
  | pool (p : Pool)
  | chunk (c : Chunk)
  deriving Repr, DecidableEq

structure Mem where
  obj : Nat → Option Obj
  brk : Nat
  log : List (Nat × Option Nat)

/-- Store. -/
def Mem.put (M : Mem) (a : Nat) (o : Option Obj) : Mem := { M with obj := fun x => if x = a then o else M.obj x }

/-- `*p` for a pool. -/
def loadP (M : Mem) (a : Nat) : Outcome Pool :=
  match M.obj a with
  | some (.pool p) => .ok p
  | _ => .ub

/-- `*p` for a chunk. -/
def loadC (M : Mem) (a : Nat) : Outcome Chunk :=
  match M.obj a with
  | some (.chunk c) => .ok c
  | _ => .ub

/-- zt_ez_mempool.c 47-63 `zt_ez_mempool_init` with `pool_append` (35-45): the new pool is put in front of the parent's sub-pools. -/
def init (M : Mem) (parent : Ptr) : Outcome (Nat × Mem) :=
  let a := M.brk
  match parent with
  | none => .ok (a, { M.put a (some (.pool ⟨none, none, none, none⟩)) with brk := a + 1 })
  | some p => do
      let P ← loadP M p
      let M := M.put a (some (.pool ⟨some p, none, P.subpools, none⟩))
      pure (a, { M.put p (some (.pool { P with subpools := some a })) with brk := a + 1 })

/-- zt_ez_mempool.c 9-19 `chunk_append` of a new chunk record. -/
def addChunk (M : Mem) (p data : Nat) (cb : Option Nat) : Outcome Mem := do
  let P ← loadP M p
  let c := M.brk
  let M := M.put c (some (.chunk ⟨data, cb, P.chunks⟩))
  pure { M.put p (some (.pool { P with chunks := some c })) with brk := c + 1 }

/-- zt_ez_mempool.c 108-121 `zt_ez_mempool_alloc` with `zt_ez_mempool_chunk_init` (21-33); `data` is the block obtained from calloc. -/
def alloc (M : Mem) (p data : Nat) (cb : Option Nat) : Outcome Mem := addChunk M p data cb

/-- zt_ez_mempool.c 132-154 `zt_ez_mempool_add_buffer`: return value and memory. -/
def addBuffer (M : Mem) (p data size : Nat) (cb : Option Nat) : Outcome (Int × Mem) :=
  if data = 0 ∨ size = 0 then .ok (-1, M)
  else do
    let M ← addChunk M p data cb
    pure (0, M)

/-- zt_ez_mempool.c 123-130 `zt_ez_mempool_strdup` of a string of length `n`; `data` is the copy made by zt_strdup, `free` stands for the libc function. -/
def strdup (free : Nat) (M : Mem) (p data n : Nat) : Outcome (Nat × Mem) := do
  let (_, M) ← addBuffer M p data n (some free)
  pure (data, M)

/-- zt_ez_mempool.c 65-85 `free_chunks`. -/
def freeChunks : (fuel : Nat) → Mem → Ptr → Outcome Mem
  | 0, _, _ => .ub
  | _ + 1, M, none => .ok M
  | fuel + 1, M, some c => do
      let C ← loadC M c
      let M := { M with log := M.log ++ [(C.data, C.cb)] }
      let C ← loadC M c
      freeChunks fuel (M.put c none) C.next

/-- zt_ez_mempool.c 93-95: `pool->parent->subpools = NULL`. -/
def cut (M : Mem) : Ptr → Outcome Mem
  | none => .ok M
  | some q => do
      let Q ← loadP M q
      pure (M.put q (some (.pool { Q with subpools := none })))

mutual
/-- zt_ez_mempool.c 87-106 `zt_ez_mempool_destroy`. -/
def destroy : (fuel : Nat) → Mem → Nat → Outcome Mem
  | 0, _, _ => .ub
  | fuel + 1, M, a => do
      let P ← loadP M a
      let M ← cut M P.parent
      let P' ← loadP M a
      let M ← freeChunks fuel M P'.chunks
      let M ← destroyLoop fuel M P.subpools
      let _ ← loadP M a
      pure (M.put a none)

/-- zt_ez_mempool.c 99-103: the loop over the sub-pools. -/
def destroyLoop : (fuel : Nat) → Mem → Ptr → Outcome Mem
  | 0, _, _ => .ub
  | _ + 1, M, none => .ok M
  | fuel + 1, M, some a => do
      let P ← loadP M a
      let M ← destroy fuel M a
      destroyLoop fuel M P.next
end

end ZT.EzPool
