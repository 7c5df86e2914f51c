import Verif.EList.Model

/-!
# zt_mem.c (pools)

Addresses are byte addresses. The `prev`/`next` fields of all list nodes (pool_list, page_list, free_elt_list) are the heap of
Verif.EList; the other fields of elements, pages and pools are kept by address of the structure. Structure layout for LP64:
`zt_mem_elt` 24 bytes (list node at 0, parent_page at 16, data at 24), `zt_mem_page` 32 bytes (list node at 0), `zt_mem_pool` 160 bytes
(pool_list at 0, page_list at 128, free_elt_list at 144); the system page size is 4096. `blocks` is the set of blocks obtained from the
allocator and not yet released; access to a structure that is not inside a live block, and releasing an address that does not start a
live block, are undefined. The system allocator is a function `al` of the time, the live blocks and the size, hence arbitrary; `none` is
NULL. Not modelled: the separately allocated name string (its contents are kept in the pool), registration of the exit handler, and the
contents of the caller's data. The display functions are in `Verif.MemPool.Display`.
-/

namespace ZT.MemPool

open EList (Heap)

/-- Addresses are numbers. -/
scoped notation "Addr" => Nat
/-- Start and size. -/
abbrev Block := Addr × Nat

/-- The system allocator (GLOBAL_zmt.alloc, zt_mem.c 15-19). -/
abbrev Alloc := Nat → List Block → Nat → Option Addr

/-- zt_mem.c 47-65 `struct zt_mem_pool` without the list nodes. `test` is the release callback together with its data; its first
argument is the time, so that it need not be a function of the other arguments. -/
structure Pool where
  name : List Byte
  rcache : Nat
  ncache : Nat
  pcache : Nat
  nfreePages : Nat
  npages : Nat
  epp : Nat
  eltSize : Nat
  pageSize : Nat
  pageAllocs : Nat
  pageFrees : Nat
  test : Nat → Nat → Nat → Nat → Nat → Bool
  flags : Nat

/-- zt_mem.c 26-45: fields of elements (`parent`), pages (`ppool`, `nfree`) and pools. -/
structure Mem where
  H : Heap
  parent : Addr → Addr
  ppool : Addr → Addr
  nfree : Addr → Nat
  pool : Addr → Pool
  blocks : List Block
  tick : Nat

/-- zt_mem.c 21: the static list head `pools`. -/
def poolsHead : Addr := 64

/-- `&pool->page_list`. -/
def pageHead (p : Addr) : Addr := p + 128

/-- `&pool->free_elt_list`. -/
def freeHead (p : Addr) : Addr := p + 144

/-- Store in a field. -/
def upd {α : Type} (f : Addr → α) (a : Addr) (v : α) : Addr → α := fun x => if x = a then v else f x

/-- Access to `n` bytes at `a`. -/
def chk (M : Mem) (a n : Nat) : Outcome Unit := if M.blocks.any (fun b => b.1 ≤ a && a + n ≤ b.1 + b.2) then .ok () else .ub

/-- `--x` on a `size_t`. -/
def dec (x : Nat) : Nat := if x = 0 then 2 ^ 64 - 1 else x - 1

/-- GLOBAL_zmt.alloc. -/
def malloc (al : Alloc) (M : Mem) (n : Nat) : Option (Addr × Mem) :=
  match al M.tick M.blocks n with
  | none => none
  | some a => some (a, { M with blocks := (a, n) :: M.blocks, tick := M.tick + 1 })

/-- GLOBAL_zmt.dealloc. -/
def dealloc (M : Mem) (a : Addr) : Outcome Mem :=
  if M.blocks.any (fun b => b.1 = a) then .ok { M with blocks := M.blocks.filter (fun b => b.1 ≠ a) } else .ub

/-- zt_mem.c 139-174 `x_calculate_page_data`: page size, elements per page, number of pages. `elts` is a ssize_t. -/
def pageData (elts : Int) (size : Nat) : Nat × Nat × Nat :=
  let usable := 4096 - 32
  if size < usable / 2 then
    let epp := usable / (24 + size)
    (4096, epp, if elts > epp then elts.toNat / epp else 1)
  else (((elts * (24 + size) + 32) % 2 ^ 64).toNat, (elts % 2 ^ 64).toNat, 1)

/-- zt_mem.c 733-739: the loop over the remaining `n` elements of the page, `elt` being the last one done. -/
def fillLoop (p page size : Addr) : Nat → Addr → Mem → Outcome Mem
  | 0, _, M => .ok M
  | n + 1, elt, M => do
      let elt := elt + size
      chk M elt 24
      let H := EList.addTail (EList.reset M.H elt) (freeHead p) elt
      fillLoop p page size n elt { M with H := H, parent := upd M.parent elt page, nfree := upd M.nfree page (M.nfree page + 1) }

/-- zt_mem.c 702-743 `zt_mem_page_alloc`. -/
def pageAlloc (al : Alloc) (M : Mem) (p : Addr) : Outcome (Option Addr × Mem) :=
  let size := 24 + (M.pool p).eltSize
  match malloc al M (M.pool p).pageSize with
  | none => .ok (none, M)
  | some (page, M) => do
      chk M page 32
      let M := { M with nfree := upd M.nfree page 0, ppool := upd M.ppool page p, H := EList.reset M.H page }
      let head := page + 32
      chk M head 24
      let M := { M with H := EList.addTail M.H (freeHead p) head, parent := upd M.parent head page,
                        nfree := upd M.nfree page (M.nfree page + 1) }
      let M ← fillLoop p page size ((M.pool p).epp - 1) head M
      let P := M.pool p
      pure (some page, { M with pool := upd M.pool p { P with npages := P.npages + 1, nfreePages := P.nfreePages + 1 } })

/-- zt_mem.c 243-245 and 267-270: a new page for the pool (a NULL page is dereferenced). -/
def addPage (al : Alloc) (M : Mem) (p : Addr) : Outcome Mem := do
  let (r, M) ← pageAlloc al M p
  match r with
  | none => .ub
  | some page =>
      let P := M.pool p
      pure { M with H := EList.addTail M.H (pageHead p) page, pool := upd M.pool p { P with pageAllocs := P.pageAllocs + 1 } }

/-- zt_mem.c 240-247: the loop that fills the cache. -/
def addPages (al : Alloc) (p : Addr) : Nat → Mem → Outcome Mem
  | 0, M => .ok M
  | n + 1, M => do
      let M ← addPage al M p
      addPages al p n M

/-- zt_mem.c 195-208: the number of cached pages. -/
def pcacheOf (elts : Int) (epp npages : Nat) : Nat :=
  if elts > 0 then
    if elts < epp then 1
    else if elts.toNat % epp > 0 then elts.toNat / epp + 1 else elts.toNat / epp
  else npages

/-- zt_mem.c 773-780 `zt_default_release_test`. -/
def defaultTest (_ _ _ _ flags : Nat) : Bool := flags &&& 1 = 0

/-- zt_mem.c 176-251 `zt_mem_pool_init`; `none` is NULL. The release callback is given already replaced by the default (line 229). -/
def init (al : Alloc) (M : Mem) (name : List Byte) (elts : Int) (size : Nat) (test : Nat → Nat → Nat → Nat → Nat → Bool) (flags : Nat) :
    Outcome (Option Addr × Mem) :=
  let (pageSize, epp, npages) := pageData (if elts = 0 then 1 else elts) size
  let pcache := pcacheOf elts epp npages
  match malloc al M 160 with
  | none => .ok (none, M)
  | some (p, M) => do
      let P : Pool := ⟨name, (elts % 2 ^ 64).toNat, pcache * epp % 2 ^ 64, pcache, 0, 0, epp, size, pageSize, 0, 0, test, flags⟩
      let H := EList.reset (EList.reset (EList.reset M.H p) (pageHead p)) (freeHead p)
      let M ← addPages al p npages { M with H := H, pool := upd M.pool p P }
      pure (some p, { M with H := EList.addTail M.H poolsHead p })

/-- zt_mem.c 273-284: take the first free element. -/
def take (M : Mem) (p : Addr) : Outcome (Addr × Mem) := do
  let elt := M.H.next (freeHead p)
  chk M elt 24
  let page := M.parent elt
  chk M page 32
  let M := { M with H := EList.remove M.H elt, nfree := upd M.nfree page (dec (M.nfree page)) }
  let P := M.pool p
  pure (elt + 24, if M.nfree page = dec P.epp then { M with pool := upd M.pool p { P with nfreePages := dec P.nfreePages } } else M)

/-- zt_mem.c 253-285 `zt_mem_pool_alloc` on a non-NULL pool. -/
def alloc (al : Alloc) (M : Mem) (p : Addr) : Outcome (Addr × Mem) := do
  chk M p 160
  if EList.empty M.H (freeHead p) then do
    let M ← addPage al M p
    take M p
  else take M p

/-- zt_mem.c 688-693: unlink the remaining `n` elements. -/
def unlinkLoop (size : Nat) : Nat → Addr → Mem → Outcome Mem
  | 0, _, M => .ok M
  | n + 1, elt, M => do
      chk M elt 24
      let M := if EList.empty M.H elt then M else { M with H := EList.remove M.H elt }
      unlinkLoop size n (elt + size) M

/-- zt_mem.c 670-700 `zt_mem_page_destroy`. -/
def pageDestroy (M : Mem) (page : Addr) : Outcome (Nat × Mem) := do
  chk M page 32
  let p := M.ppool page
  chk M p 160
  let P := M.pool p
  if M.nfree page < P.epp then pure (1, M)
  else do
    let M := { M with pool := upd M.pool p { P with npages := dec P.npages, nfreePages := dec P.nfreePages } }
    let M ← unlinkLoop (24 + P.eltSize) (M.nfree page) (page + 32) M
    let M := if EList.empty M.H page then M else { M with H := EList.remove M.H page }
    let M ← dealloc M page
    pure (0, M)

/-- zt_mem.c 306-312: give the element back. -/
def giveBack (M : Mem) (p page elt : Addr) : Mem :=
  let M := { M with nfree := upd M.nfree page (M.nfree page + 1), H := EList.add M.H (freeHead p) elt, tick := M.tick + 1 }
  let P := M.pool p
  if M.nfree page = P.epp then { M with pool := upd M.pool p { P with nfreePages := P.nfreePages + 1 } } else M

/-- zt_mem.c 287-325 `zt_mem_pool_release`, `data` being `*data`. -/
def release (M : Mem) (data : Addr) : Outcome Mem := do
  let elt := data - 24
  chk M elt 24
  let page := M.parent elt
  if page = 0 then dealloc M data
  else do
    chk M page 32
    let p := M.ppool page
    chk M p 160
    let M := giveBack M p page elt
    let P := M.pool p
    if M.nfree page = P.epp && P.test M.tick P.rcache (P.ncache * P.nfreePages % 2 ^ 64) (P.ncache * (P.npages - P.nfreePages) % 2 ^ 64) P.flags then do
      let (_, M) ← pageDestroy M page
      let P := M.pool p
      pure { M with pool := upd M.pool p { P with pageFrees := P.pageFrees + 1 } }
    else pure M

/-- zt_mem.c 334-340: the loop body and step, `cur` and `nxt` being the loop variables. -/
def freePagesLoop (p : Addr) : (fuel : Nat) → (cur nxt : Addr) → Mem → Outcome Mem
  | 0, _, _, _ => .ub
  | fuel + 1, cur, nxt, M =>
      if cur = pageHead p then .ok M
      else do
        chk M cur 32
        if M.nfree cur = (M.pool p).epp then do
          let (_, M) ← pageDestroy M cur
          chk M nxt 16
          freePagesLoop p fuel nxt (M.H.next nxt) M
        else do
          chk M nxt 16
          freePagesLoop p fuel nxt (M.H.next nxt) M

/-- zt_mem.c 327-343 `zt_mem_pool_release_free_pages`. -/
def releaseFreePages (M : Mem) (p : Addr) (fuel : Nat) : Outcome Mem := do
  chk M p 160
  let cur := M.H.next (pageHead p)
  chk M cur 16
  freePagesLoop p fuel cur (M.H.next cur) M

/-- zt_mem.c 353-362: the loop; `true` if it ran to the end, `false` for the return of -1. -/
def destroyLoop (p : Addr) : (fuel : Nat) → (cur nxt : Addr) → Mem → Outcome (Bool × Mem)
  | 0, _, _, _ => .ub
  | fuel + 1, cur, nxt, M =>
      if cur = pageHead p then .ok (true, M)
      else do
        chk M cur 32
        if M.nfree cur < (M.pool p).epp then pure (false, M)
        else do
          let (_, M) ← pageDestroy M cur
          chk M nxt 16
          destroyLoop p fuel nxt (M.H.next nxt) M

/-- zt_mem.c 346-373 `zt_mem_pool_destroy`; `true` is the return value 0, `false` is -1. -/
def destroy (M : Mem) (p : Addr) (fuel : Nat) : Outcome (Bool × Mem) := do
  chk M p 160
  let cur := M.H.next (pageHead p)
  chk M cur 16
  let (done, M) ← destroyLoop p fuel cur (M.H.next cur) M
  if done then do
    let M := { M with H := EList.remove M.H p }
    let M ← dealloc M p
    pure (true, M)
  else pure (false, M)

/-- zt_mem.c 525-535: the loop over all pools, at node `cur`. -/
def getLoop (name : List Byte) : (fuel : Nat) → (cur : Addr) → Mem → Outcome (Option Addr)
  | 0, _, _ => .ub
  | fuel + 1, cur, M =>
      if cur = poolsHead then .ok none
      else do
        chk M cur 160
        if (M.pool cur).name = name then pure (some cur) else getLoop name fuel (M.H.next cur) M

/-- zt_mem.c 513-538 `zt_mem_pool_get`; names are compared by length and content. -/
def get (M : Mem) (name : List Byte) (fuel : Nat) : Outcome (Option Addr) := getLoop name fuel (M.H.next poolsHead) M

/-- zt_mem.h 70-82 `zt_mem_pool_stats`. -/
structure Stats where
  pages : Nat
  freePages : Nat
  pageAllocs : Nat
  pageFrees : Nat
  eltsPerPage : Nat
  eltSize : Nat
  pageSize : Nat
  requested : Nat
  actual : Nat
  cached : Nat
  flags : Nat

/-- zt_mem.c 375-395 `zt_mem_pool_get_stats` on non-NULL arguments. -/
def getStats (M : Mem) (p : Addr) : Outcome Stats := do
  chk M p 160
  let P := M.pool p
  pure ⟨P.npages, P.nfreePages, P.pageAllocs, P.pageFrees, P.epp, P.eltSize, P.pageSize, P.rcache, P.ncache, P.pcache, P.flags⟩

/-- zt_mem.c 484-495 `zt_mem_release`, the exit handler: destroy every pool, `cur` and `nxt` being the loop variables of zt_elist_for_each_safe. `fuel` bounds
this loop and `fuel2` the one in each destruction. -/
def releaseAllLoop (fuel2 : Nat) : (fuel : Nat) → (cur nxt : Addr) → Mem → Outcome Mem
  | 0, _, _, _ => .ub
  | fuel + 1, cur, nxt, M =>
      if cur = poolsHead then .ok M
      else do
        let (_, M) ← destroy M cur fuel2
        chk M nxt 16
        releaseAllLoop fuel2 fuel nxt (M.H.next nxt) M

/-- zt_mem.c 484-495 `zt_mem_release`. -/
def releaseAll (M : Mem) (fuel : Nat) : Outcome Mem := do
  let cur := M.H.next poolsHead
  chk M cur 16
  releaseAllLoop fuel fuel cur (M.H.next cur) M

end ZT.MemPool
