import Verif.Mem

/-!
# zt_llist.h

Pairs live in a heap that maps addresses (`Nat`) to live cells; `none` as a pointer is NULL. Reading, writing or freeing a dead cell is
undefined. `zt_calloc` (which aborts rather than return NULL) returns an address never used before; `brk` is the next one. `V` is
the type of the `void *` items. Loops whose trip count depends on the heap carry `fuel`; running out is `ub` (the theorems show
that enough fuel always exists, i.e. the loops terminate).
-/

namespace ZT.LList


abbrev Ptr := Option Nat

/-- zt_llist.h 14-17 `struct zt_pair`. -/
structure Pair (V : Type) where
  head : V
  tail : Ptr
  deriving Repr, DecidableEq

structure Heap (V : Type) where
  cells : Nat → Option (Pair V)
  brk : Nat

variable {V : Type}

/-- `*p` for reading. -/
def load (H : Heap V) (p : Ptr) : Outcome (Pair V) :=
  match p with
  | none => .ub
  | some a => match H.cells a with
      | some c => .ok c
      | none => .ub

def Heap.upd (H : Heap V) (a : Nat) (c : Option (Pair V)) : Heap V := { H with cells := fun x => if x = a then c else H.cells x }

/-- `p->tail = t`. -/
def setTail (H : Heap V) (p : Ptr) (t : Ptr) : Outcome (Heap V) :=
  match p with
  | none => .ub
  | some a => match H.cells a with
      | some c => .ok (H.upd a (some { c with tail := t }))
      | none => .ub

/-- `zt_free(p)`. -/
def free (H : Heap V) (p : Ptr) : Outcome (Heap V) :=
  match p with
  | none => .ok H
  | some a => match H.cells a with
      | some _ => .ok (H.upd a none)
      | none => .ub

/-- zt_llist.h 25-35 `zt_llist_free`. -/
def freeList : (fuel : Nat) → Heap V → Ptr → Outcome (Heap V)
  | 0, _, _ => .ub
  | _ + 1, H, none => .ok H
  | fuel + 1, H, some a => do
      let c ← load H (some a)
      let H ← free H (some a)
      freeList fuel H c.tail

/-- zt_llist.h 37-46 `zt_llist_cons`. -/
def cons (H : Heap V) (head : V) (tail : Ptr) : Heap V × Ptr :=
  ({ cells := fun x => if x = H.brk then some ⟨head, tail⟩ else H.cells x, brk := H.brk + 1 }, some H.brk)

/-- The loop of zt_llist.h 51-54 / 64-67. -/
def walk (H : Heap V) : Ptr → Nat → Outcome Ptr
  | p, 0 => .ok p
  | none, _ + 1 => .ok none
  | some a, n + 1 => do
      let c ← load H (some a)
      walk H c.tail n

/-- zt_llist.h 48-59 `zt_llist_nth` (a negative offset behaves as 0). -/
def nth (H : Heap V) (p : Ptr) (offt : Int) : Outcome V := do
  let p ← walk H p offt.toNat
  match p with
  | none => .abort
  | some a => do
      let c ← load H (some a)
      pure c.head

/-- zt_llist.h 61-71 `zt_llist_nthtail`. -/
def nthtail (H : Heap V) (p : Ptr) (offt : Int) : Outcome Ptr := do
  let p ← walk H p offt.toNat
  match p with
  | none => .abort
  | some a => do
      let c ← load H (some a)
      pure c.tail

/-- zt_llist.h 73-84 `zt_llist_ppop(list)`: popped pair and new `*list`. -/
def ppop (H : Heap V) (list : Ptr) : Outcome (Ptr × Ptr) :=
  match list with
  | none => .ok (none, none)
  | some a => do
      let c ← load H (some a)
      pure (some a, c.tail)

/-- zt_llist.h 86-100 `zt_llist_pop`: item (none = NULL), heap, new `*list`. -/
def pop (H : Heap V) (list : Ptr) : Outcome (Option V × Heap V × Ptr) := do
  let (z, list) ← ppop H list
  match z with
  | none => pure (none, H, list)
  | some a => do
      let c ← load H (some a)
      let H ← free H (some a)
      pure (some c.head, H, list)

/-- zt_llist.h 102-106 `zt_llist_push`. -/
def push (H : Heap V) (item : V) (list : Ptr) : Heap V × Ptr := cons H item list

/-- zt_llist.h 108-113 `zt_llist_ppush`: heap and new `*list`. -/
def ppush (H : Heap V) (p : Ptr) (list : Ptr) : Outcome (Heap V × Ptr) := do
  let H ← setTail H p list
  pure (H, p)

/-- The loop of zt_llist.h 120-122. -/
def nrevLoop : (fuel : Nat) → Heap V → (llist rlist : Ptr) → Outcome (Heap V × Ptr)
  | 0, _, _, _ => .ub
  | _ + 1, H, none, r => .ok (H, r)
  | fuel + 1, H, some a, r => do
      let (p, l) ← ppop H (some a)
      let (H, r) ← ppush H p r
      nrevLoop fuel H l r

/-- zt_llist.h 115-124 `zt_llist_nreverse`. -/
def nreverse (fuel : Nat) (H : Heap V) (llist : Ptr) : Outcome (Heap V × Ptr) := nrevLoop fuel H llist none

/-- The loop of zt_llist.h 132-136. -/
def revLoop : (fuel : Nat) → Heap V → (p rlist : Ptr) → Outcome (Heap V × Ptr)
  | 0, _, _, _ => .ub
  | _ + 1, H, none, r => .ok (H, r)
  | fuel + 1, H, some a, r => do
      let c ← load H (some a)
      let (H, r) := cons H c.head r
      let c ← load H (some a)
      revLoop fuel H c.tail r

/-- zt_llist.h 126-138 `zt_llist_reverse`. -/
def reverse (fuel : Nat) (H : Heap V) (llist : Ptr) : Outcome (Heap V × Ptr) := revLoop fuel H llist none

/-- The three loops of zt_llist.h 145-154. -/
def mergeLoop (cmp : V → V → Bool) : (fuel : Nat) → Heap V → (l1 l2 rlst : Ptr) → Outcome (Heap V × Ptr)
  | 0, _, _, _, _ => .ub
  | _ + 1, H, none, none, r => .ok (H, r)
  | fuel + 1, H, some a, none, r => do
      let (p, l1) ← ppop H (some a)
      let (H, r) ← ppush H p r
      mergeLoop cmp fuel H l1 none r
  | fuel + 1, H, none, some b, r => do
      let (p, l2) ← ppop H (some b)
      let (H, r) ← ppush H p r
      mergeLoop cmp fuel H none l2 r
  | fuel + 1, H, some a, some b, r => do
      let c2 ← load H (some b)
      let c1 ← load H (some a)
      if cmp c2.head c1.head then do
        let (p, l1) ← ppop H (some a)
        let (H, r) ← ppush H p r
        mergeLoop cmp fuel H l1 (some b) r
      else do
        let (p, l2) ← ppop H (some b)
        let (H, r) ← ppush H p r
        mergeLoop cmp fuel H (some a) l2 r

/-- zt_llist.h 140-157 `zt_llist_nmerge`; `cmp` nonzero is `true`. -/
def nmerge (cmp : V → V → Bool) (fuel : Nat) (H : Heap V) (l1 l2 : Ptr) : Outcome (Heap V × Ptr) := do
  let (H, r) ← mergeLoop cmp fuel H l1 l2 none
  nreverse fuel H r

/-- The loop of zt_llist.h 173-176; returns the final `lst`. -/
def splitLoop : (fuel : Nat) → Heap V → (lst tail : Ptr) → Outcome Ptr
  | 0, _, _, _ => .ub
  | _ + 1, _, lst, none => .ok lst
  | fuel + 1, H, lst, some t => do
      let ct ← load H (some t)
      match ct.tail with
      | none => pure lst
      | some t' => do
          let cl ← load H lst
          let ct' ← load H (some t')
          splitLoop fuel H cl.tail ct'.tail

/-- zt_llist.h 160-180 `zt_llist_split`. -/
def split (fuel : Nat) (H : Heap V) (lst : Ptr) : Outcome (Heap V × Ptr) :=
  match lst with
  | none => .ok (H, none)
  | some a => do
      let c ← load H (some a)
      match c.tail with
      | none => pure (H, some a)
      | some t => do
          let lst ← splitLoop fuel H (some a) (some t)
          let cl ← load H lst
          let H ← setTail H lst none
          pure (H, cl.tail)

/-- zt_llist.h 182-193 `zt_llist_sort`; `fuel` also bounds the recursion depth. C leaves the order of the two recursive calls
(186) open; they work on disjoint cells. -/
def sort (cmp : V → V → Bool) : (fuel : Nat) → Heap V → Ptr → Outcome (Heap V × Ptr)
  | 0, _, _ => .ub
  | _ + 1, H, none => .ok (H, none)
  | fuel + 1, H, some a => do
      let c ← load H (some a)
      match c.tail with
      | none => pure (H, some a)
      | some _ => do
          let (H, l2) ← split fuel H (some a)
          let (H, r1) ← sort cmp fuel H (some a)
          let (H, r2) ← sort cmp fuel H l2
          nmerge cmp fuel H r1 r2

end ZT.LList
