import Verif.Mem

/-!
# zt_list.h, zt_stack.h, zt_queue.h

Nodes are embedded in caller objects; a node is an address. The two pointer fields of every node form the heap. Addresses
handed in by callers are valid objects (C callers' obligation), so no access here is undefined; NULL only occurs as the
result of `zt_stack_pop`.
-/

namespace ZT.EList

abbrev Addr := Nat

/-- The `prev` and `next` fields of all nodes (zt_list.h 20-22). -/
structure Heap where
  prev : Addr → Addr
  next : Addr → Addr

/-- `a->prev = v`. -/
def Heap.setPrev (H : Heap) (a v : Addr) : Heap := { H with prev := fun x => if x = a then v else H.prev x }

/-- `a->next = v`. -/
def Heap.setNext (H : Heap) (a v : Addr) : Heap := { H with next := fun x => if x = a then v else H.next x }

/-- zt_list.h 31-34 `zt_elist_reset`. -/
def reset (H : Heap) (p : Addr) : Heap := (H.setPrev p p).setNext p p

/-- zt_list.h 52-56 `zt_elist_empty`. -/
def empty (H : Heap) (head : Addr) : Bool := H.next head = head

/-- zt_list.h 59-64 `zt_elist_remove2`. -/
def remove2 (H : Heap) (prev next : Addr) : Heap := (H.setPrev next prev).setNext prev next

/-- zt_list.h 66-70 `zt_elist_remove`. -/
def remove (H : Heap) (entry : Addr) : Heap := remove2 H (H.prev entry) (H.next entry)

/-- zt_list.h 72-79 `zt_elist_add2`. -/
def add2 (H : Heap) (nlist prev next : Addr) : Heap :=
  let H := H.setPrev next nlist
  let H := H.setNext nlist next
  let H := H.setPrev nlist prev
  H.setNext prev nlist

/-- zt_list.h 81-85 `zt_elist_add`. -/
def add (H : Heap) (head nlist : Addr) : Heap := add2 H nlist head (H.next head)

/-- zt_list.h 87-91 `zt_elist_add_tail`. -/
def addTail (H : Heap) (head nlist : Addr) : Heap := add2 H nlist (H.prev head) head

/-- zt_list.h 93-105 `zt_elist_join`. -/
def join (H : Heap) (head list : Addr) : Heap :=
  let first := H.next list
  let last := H.prev list
  let at' := H.next head
  let H := H.setPrev first head
  let H := H.setNext head first
  let H := H.setNext last at'
  H.setPrev at' last

/-- zt_list.h 43-45 `zt_elist_for_each` with a body that records the nodes and does not change the list. `fuel` bounds the number
of loop tests; `none` = not finished. -/
def forEach (H : Heap) (h : Addr) : (fuel : Nat) → (p : Addr) → Option (List Addr)
  | 0, _ => none
  | fuel + 1, p => if p ≠ h then (forEach H h fuel (H.next p)).map (p :: ·) else some []

/-- The whole loop, `p` starting at `h->next`. -/
def traverse (H : Heap) (h : Addr) (fuel : Nat) : Option (List Addr) := forEach H h fuel (H.next h)

/-- The same walk along `prev` (gc and list users walk backwards the same way). -/
def backEach (H : Heap) (h : Addr) : (fuel : Nat) → (p : Addr) → Option (List Addr)
  | 0, _ => none
  | fuel + 1, p => if p ≠ h then (backEach H h fuel (H.prev p)).map (p :: ·) else some []

/-- zt_list.h 47-49 `zt_elist_for_each_safe` with the body `if (f(p)) zt_elist_remove(p)`; returns the heap at loop exit and the
nodes visited. -/
def forEachSafe (f : Addr → Bool) (h : Addr) : (fuel : Nat) → Heap → (p n : Addr) → Option (Heap × List Addr)
  | 0, _, _, _ => none
  | fuel + 1, H, p, n =>
      if p ≠ h then
        let H' := if f p then remove H p else H
        (forEachSafe f h fuel H' n (H'.next n)).map fun r => (r.1, p :: r.2)
      else some (H, [])

/-- zt_stack.h 18 `zt_stack_push` = `zt_elist_add`. -/
def push (H : Heap) (stack x : Addr) : Heap := add H stack x

/-- zt_stack.h 20-32 `zt_stack_pop`. -/
def pop (H : Heap) (stack : Addr) : Option Addr × Heap :=
  if empty H stack then (none, H)
  else (some (H.next stack), remove H (H.next stack))

/-- zt_queue.h 18 `zt_queue_enqueue` = `zt_elist_add`. -/
def enqueue (H : Heap) (q x : Addr) : Heap := add H q x

/-- zt_queue.h 20-28 `zt_queue_dequeue` (no emptiness test). -/
def dequeue (H : Heap) (q : Addr) : Addr × Heap := (H.prev q, remove H (H.prev q))

end ZT.EList
