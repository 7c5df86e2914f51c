import Verif.Common
import Verif.EList.Model

/-!
# zt_gc.c

The links of all objects and of the three list heads are the heap of zt_list.h (`EList.Heap`). `obj` holds the objects known to the collector; reading or writing the colour of any other object is
undefined (it was never registered, has been unregistered or released). The `colour` field is an int of which bit 1 (`bit`) and bit 2 (`prot`) are used. Counters are unbounded integers. The
client's `mark_fn` is modelled as what it has to be: it calls zt_gc_mark on every object referenced (`kids`); `release_fn` frees the object (`freed` records the calls) and does not call back.
zt_gc_print_heap and zt_gc_for_each are in Verif.Gc.Visit; the `DEBUG_SCAN` code is not modelled.
-/

namespace ZT.Gc

open EList (Heap)

scoped notation "Addr" => Nat

/-- zt_gc.h 9-12 `zt_gc_collectable_t` (the links are in `EList.Heap`) and the references held by the client's object. -/
structure Obj where
  bit : Bool
  prot : Bool
  kids : List Addr
  deriving Repr, DecidableEq

/-- zt_gc.c 22-40 `struct zt_gc`. `sense = true`: the callbacks are the `one_` functions (white = bit set). -/
structure Gc where
  H : Heap
  obj : Addr → Option Obj
  black : Addr
  grey : Addr
  white : Addr
  scan : Addr
  sense : Bool
  enabled : Int
  allocs : Int
  marksPerScan : Int
  allocsBefore : Int
  freed : List Addr

/-- Reading `*mark`. -/
def load (G : Gc) (v : Addr) : Outcome Obj :=
  match G.obj v with
  | some o => .ok o
  | none => .ub

/-- Writing `*mark`. -/
def put (G : Gc) (v : Addr) (o : Option Obj) : Gc := { G with obj := fun x => if x = v then o else G.obj x }

/-- zt_gc.c 47-50, 60-63 `one_is_white`, `zero_is_white`. -/
def isWhite (G : Gc) (o : Obj) : Bool := o.bit == G.sense

/-- zt_gc.c 51-54, 64-67 `one_clear_white`, `zero_clear_white`. -/
def clearWhite (G : Gc) (v : Addr) : Outcome Gc := do
  let o ← load G v
  pure (put G v (some { o with bit := !G.sense }))

/-- zt_gc.c 159-194 `zt_gc_init`; the heads are the addresses of list_1, list_2, list_3. -/
def init (H : Heap) (l1 l2 l3 : Addr) (marks allocs : Int) : Gc :=
  { H := EList.reset (EList.reset (EList.reset H l1) l2) l3, obj := fun _ => none, black := l1, grey := l2, white := l3, scan := l2, sense := true, enabled := 0, allocs := 0,
    marksPerScan := marks, allocsBefore := allocs, freed := [] }

/-- zt_gc.c 390-404 `zt_gc_mark`: result and state. -/
def mark (G : Gc) (v : Addr) : Outcome (Bool × Gc) := do
  let o ← load G v
  if !o.prot && isWhite G o then do
    let G ← clearWhite G v
    pure (true, { G with H := EList.addTail (EList.remove G.H v) G.grey v })
  else pure (false, G)

/-- The client's mark function: zt_gc_mark on each reference in turn. -/
def markAll (G : Gc) : List Addr → Outcome Gc
  | [] => .ok G
  | k :: ks => do
      let (_, G) ← mark G k
      markAll G ks

/-- zt_gc.c 78-89 `zt_gc_protect`. -/
def protect (G : Gc) (v : Addr) : Outcome Gc := do
  let G ← clearWhite G v
  let G := { G with H := EList.remove G.H v }
  let G := { G with H := EList.add G.H G.grey v }
  let o ← load G v
  pure (put G v (some { o with prot := true }))

/-- zt_gc.c 91-98 `zt_gc_unprotect`. -/
def unprotect (G : Gc) (v : Addr) : Outcome Gc := do
  let o ← load G v
  pure (put G v (some { o with prot := false }))

/-- zt_gc.c 280-293, the loop of `zt_gc_free_white` (`zt_elist_for_each_safe`); also the loops of zt_gc_destroy (209-222). `head` is the list head. -/
def freeLoop (head : Addr) : (fuel : Nat) → Gc → (p n : Addr) → Outcome Gc
  | 0, _, _, _ => .ub
  | fuel + 1, G, p, n =>
      if p ≠ head then do
        let G := { G with H := EList.remove G.H p }
        let _ ← load G p
        let G := { put G p none with freed := G.freed ++ [p] }
        freeLoop head fuel G n (G.H.next n)
      else .ok G

/-- zt_gc.c 270-294 `zt_gc_free_white`. -/
def freeWhite (fuel : Nat) (G : Gc) : Outcome Gc :=
  if EList.empty G.H G.white then .ok G
  else freeLoop G.white fuel G (G.H.next G.white) (G.H.next (G.H.next G.white))

/-- zt_gc.c 296-315 `zt_gc_switch` with `switch_white` (100-111). -/
def switch (fuel : Nat) (G : Gc) : Outcome Gc := do
  let G := { G with enabled := G.enabled - 1 }
  let G ← freeWhite fuel G
  let G := { G with white := G.black, black := G.white, sense := !G.sense }
  pure { G with enabled := G.enabled + 1 }

/-- zt_gc.c 345-366: one round of the loop of `zt_gc_collect` up to the update of the scan pointer. -/
def scanStep (G : Gc) : Outcome Gc := do
  let elt := G.scan
  let G ← clearWhite G elt
  let o ← load G elt
  let G ← markAll G o.kids
  let next := G.H.next G.scan
  let o ← load G elt
  let G := if !o.prot then { G with H := EList.add (EList.remove G.H elt) G.black elt } else G
  pure { G with scan := next }

/-- zt_gc.c 341-387: the loop of `zt_gc_collect`, the early return, and what follows the loop. -/
def scanLoop (full : Bool) : (fuel : Nat) → (marks : Int) → Gc → Outcome Gc
  | 0, _, _ => .ub
  | fuel + 1, marks, G =>
      if G.scan = G.grey then switch fuel { G with enabled := G.enabled + 1 }
      else do
        let G ← scanStep G
        if !full && decide (marks + 1 ≥ G.marksPerScan) && decide (G.scan ≠ G.grey) then pure { G with enabled := G.enabled + 1 }
        else scanLoop full fuel (marks + 1) G

/-- zt_gc.c 336-339: `if (gc->scan == gc->grey) gc->scan = gc->scan->next`. -/
def startScan (G : Gc) : Gc := if G.scan = G.grey then { G with scan := G.H.next G.scan } else G

/-- zt_gc.c 317-388 `zt_gc_collect`. -/
def collect (fuel : Nat) (G : Gc) (full : Bool) : Outcome Gc :=
  if decide (G.enabled < 0) || (!full && decide (G.allocs < G.allocsBefore)) then .ok G
  else scanLoop full fuel 0 (startScan { G with enabled := G.enabled - 1, allocs := 0 })

/-- zt_gc.c 247-268 `zt_gc_register` of the object `v` (not known to the collector so far). -/
def register (fuel : Nat) (G : Gc) (v : Addr) (o : Obj) : Outcome Gc := do
  let G := put G v (some o)
  let G := { G with H := EList.reset G.H v }
  let G ← clearWhite G v
  let G := { G with H := EList.addTail G.H G.grey v, allocs := G.allocs + 1 }
  if G.allocs ≥ G.allocsBefore then collect fuel G false else pure G

/-- zt_gc.c 227-233 `zt_gc_prepare` followed by `zt_gc_protect` of an object not known to the collector so far: the way a root is set up. -/
def protectNew (G : Gc) (v : Addr) (o : Obj) : Outcome Gc :=
  let G := put G v (some o)
  protect { G with H := EList.reset G.H v } v

/-- zt_gc.c 235-245 `zt_gc_unregister`; afterwards the object belongs to the client again. -/
def unregister (fuel : Nat) (G : Gc) (v : Addr) : Outcome Gc := do
  let _ ← load G v
  let G := { put G v none with H := EList.remove G.H v, allocs := G.allocs + 1 }
  if G.allocs < G.allocsBefore then collect fuel G false else pure G

/-- zt_gc.c 141-150 `zt_gc_enable` (the assertion aborts). -/
def enable (fuel : Nat) (G : Gc) : Outcome Gc :=
  let G := { G with enabled := G.enabled + 1 }
  if G.enabled ≤ 0 then
    if decide (G.enabled = 0) && decide (G.allocs ≥ G.allocsBefore) then collect fuel G false else .ok G
  else .abort

/-- zt_gc.c 152-156 `zt_gc_disable`. -/
def disable (G : Gc) : Gc := { G with enabled := G.enabled - 1 }

/-- zt_gc.c 196-225 `zt_gc_destroy`. -/
def destroy (fuel : Nat) (G : Gc) : Outcome Gc := do
  let G := if G.enabled ≠ 0 then { G with enabled := 0 } else G
  let G ← collect fuel G true
  let G ← freeLoop G.white fuel G (G.H.next G.white) (G.H.next (G.H.next G.white))
  let G ← freeLoop G.grey fuel G (G.H.next G.grey) (G.H.next (G.H.next G.grey))
  let G ← freeLoop G.black fuel G (G.H.next G.black) (G.H.next (G.H.next G.black))
  pure { G with enabled := 1 }

/-- The client stores other references into one of its objects. -/
def store (G : Gc) (v : Addr) (ks : List Addr) : Outcome Gc := do
  let o ← load G v
  pure (put G v (some { o with kids := ks }))

end ZT.Gc
