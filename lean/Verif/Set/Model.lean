import Verif.Table.Compare

/-!
# zt_set.c

An element is `data, len` (address and length). The underlying table hashes elements with `zt_table_hash_int`, that is, by the
first `len` bytes of the address itself (longer elements: undefined), and compares them with the user's `match`.
Table, allocator and fuel as in Verif.Table.Model.
-/

namespace ZT.Set
open ZT.Table

/-- zt_set.h 8-13. -/
structure ZSet where
  tbl : Tbl
  length : Int

/-- The callbacks of the table inside a set: zt_set.c 17 with the user's `match`. For elements longer than 8 bytes, where
`zt_table_hash_int` is undefined, see `guard`. -/
def cbOf (mtch : Key → Key → Bool) : Callbacks :=
  ⟨fun k => (((ptrBytes k.1).take k.2).foldl (Hash.step Hash.PRIME32) Hash.INIT32).setWidth 64, mtch⟩

/-- The hash callback is called first in every table operation; it is undefined for elements longer than a pointer. -/
def guard (k : Key) : Outcome Unit := if k.2 ≤ 8 then .ok () else .ub

/-- zt_set.c 7-23 `zt_set_init`. -/
def init : ZSet := ⟨Table.init 128 false false, 0⟩

/-- zt_set.c 137-147 `zt_set_is_member`: errno is cleared, then zt_table_get. -/
def isMember (m : Key → Key → Bool) (fuel : Nat) (S : ZSet) (k : Key) : Outcome Bool := do
  guard k
  let r ← Table.get (cbOf m) fuel S.tbl k
  pure (r.ptr ≠ 0 || !r.enoent)

/-- zt_set.c 49-58 `zt_set_insert`. -/
def insert (m : Key → Key → Bool) (alloc : Tbl → Nat) (fuel : Nat) (S : ZSet) (k : Key) : Outcome (Int × ZSet) := do
  let mem ← isMember m fuel S k
  if mem then pure (1, S) else do
    let (r, t) ← Table.set (cbOf m) fuel S.tbl k k.1 k.2 (alloc S.tbl)
    pure (r, ⟨t, S.length + 1⟩)

/-- zt_set.c 60-65 `zt_set_remove(set, &data)`: deletes the key `(*data, 0)`. Results: the new `*data` and the set; it always
returns 0. -/
def remove (m : Key → Key → Bool) (fuel : Nat) (S : ZSet) (data : Nat) : Outcome (Nat × ZSet) := do
  let (r, t) ← Table.del (cbOf m) fuel S.tbl (data, 0)
  pure (r.ptr, ⟨t, S.length - 1⟩)

/-- zt_set.c 72-79 `_union`; the callback's state is the destination set. -/
def unionCb (m : Key → Key → Bool) (alloc : Tbl → Nat) (fuel : Nat) (e : Entry) (D : ZSet) : Outcome (Int × ZSet) :=
  insert m alloc fuel D (e.datum, e.datumLen)

/-- zt_set.c 81-91 `zt_set_union(setu, set1, set2)`; the three sets are different objects. -/
def union (m : Key → Key → Bool) (alloc : Tbl → Nat) (fuel : Nat) (U S1 S2 : ZSet) : Outcome (Int × ZSet) := do
  let (_, U) ← Table.forEach (unionCb m alloc fuel) fuel S1.tbl U
  let (_, U) ← Table.forEach (unionCb m alloc fuel) fuel S2.tbl U
  pure (0, U)

/-- zt_set.c 93-103 `_intersect`. -/
def intersectCb (m : Key → Key → Bool) (alloc : Tbl → Nat) (fuel : Nat) (S2 : ZSet) (e : Entry) (D : ZSet) : Outcome (Int × ZSet) := do
  let mem ← isMember m fuel S2 (e.datum, e.datumLen)
  if mem then insert m alloc fuel D (e.datum, e.datumLen) else pure (0, D)

/-- zt_set.c 105-113 `zt_set_intersection`. -/
def intersection (m : Key → Key → Bool) (alloc : Tbl → Nat) (fuel : Nat) (I S1 S2 : ZSet) : Outcome (Int × ZSet) :=
  Table.forEach (intersectCb m alloc fuel S2) fuel S1.tbl I

/-- zt_set.c 115-125 `_difference`. -/
def differenceCb (m : Key → Key → Bool) (alloc : Tbl → Nat) (fuel : Nat) (S2 : ZSet) (e : Entry) (D : ZSet) : Outcome (Int × ZSet) := do
  let mem ← isMember m fuel S2 (e.datum, e.datumLen)
  if !mem then insert m alloc fuel D (e.datum, e.datumLen) else pure (0, D)

/-- zt_set.c 127-135 `zt_set_difference`. -/
def difference (m : Key → Key → Bool) (alloc : Tbl → Nat) (fuel : Nat) (D S1 S2 : ZSet) : Outcome (Int × ZSet) :=
  Table.forEach (differenceCb m alloc fuel S2) fuel S1.tbl D

/-- zt_set.c 149-158 `_is_subset`. -/
def isSubsetCb (m : Key → Key → Bool) (fuel : Nat) (S2 : ZSet) (e : Entry) (_ : Unit) : Outcome (Int × Unit) := do
  let mem ← isMember m fuel S2 (e.datum, e.datumLen)
  if mem then pure (0, ()) else pure (1, ())

/-- zt_set.c 160-171 `zt_set_is_subset`. -/
def isSubset (m : Key → Key → Bool) (fuel : Nat) (S1 S2 : ZSet) : Outcome Bool :=
  if S1.length > S2.length then .ok false else do
    let (r, _) ← Table.forEach (isSubsetCb m fuel S2) fuel S1.tbl ()
    pure (r = 0)

/-- zt_set.c 173-184 `zt_set_is_equal`. -/
def isEqual (m : Key → Key → Bool) (fuel : Nat) (S1 S2 : ZSet) : Outcome Bool :=
  if S1.length ≠ S2.length then .ok false else do
    let (r, _) ← Table.forEach (isSubsetCb m fuel S2) fuel S1.tbl ()
    pure (r = 0)

/-- zt_set.c 192-211 `zt_set_for_each`: the iterator gets the data pointer. -/
def forEach {σ : Type} (it : Nat → σ → Outcome (Int × σ)) (fuel : Nat) (S : ZSet) (s : σ) : Outcome (Int × σ) :=
  Table.forEach (fun e s => it e.datum s) fuel S.tbl s

end ZT.Set
