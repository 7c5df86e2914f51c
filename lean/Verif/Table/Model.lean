import Verif.Mem
import Verif.Hash.Model

/-!
# zt_table.c

Keys are what the callbacks receive: the `void *` key (as a number) and `key_len`. Data are the `void *` datum (0 = NULL) and its
length. The callbacks are pure functions of what they receive (the memory behind keys is not modified while they are stored; `cdata`
is fixed). Nodes live in a heap that maps addresses to live nodes; `none` as a pointer is NULL; reading, writing or releasing a dead
node is undefined. The node pool (zt_mem.c, modelled in Verif.MemPool) is represented by what it promises: `zt_mem_pool_alloc`
returns some address that holds no live node. That address is an argument `a`, so the theorems hold for every choice it makes.
Loops along `next` carry `fuel`; running out is `ub` (theorems show that enough fuel exists).
-/

namespace ZT.Table

abbrev Ptr := Option Nat
/-- `key`, `key_len`. -/
abbrev Key := Nat × Nat
abbrev ULong := BitVec 64

/-- zt_table.c 38-45 `struct table_node` without `next`. -/
structure Entry where
  key : Key
  datum : Nat
  datumLen : Nat
  hash : ULong
  deriving Repr, DecidableEq

/-- zt_table.c 38-45 `struct table_node`. -/
structure Node where
  e : Entry
  next : Ptr
  deriving Repr, DecidableEq

/-- The callbacks given to zt_table_init, with `cdata` fixed. `cmp` nonzero is `true`. -/
structure Callbacks where
  hash : Key → ULong
  cmp : Key → Key → Bool

/-- zt_table.c 47-59 `struct zt_table`; the bucket array has `num` elements. -/
structure Tbl where
  nbits : Nat
  dup : Bool
  num : Nat
  buckets : Nat → Ptr
  heap : Nat → Option Node

/-- zt_table.c 15-24 `nbits`: the loop, with `n` the current count. `val` is a size_t. -/
def nbitsLoop (val n : Nat) : Nat :=
  if h : val / 2 = 0 then n else nbitsLoop (val / 2) (n + 1)
  termination_by val
  decreasing_by omega

/-- zt_table.c 15-24 `nbits`. -/
def nbits (val : Nat) : Nat := nbitsLoop val 1

/-- zt_table.c 26-36 `powers_of_2`. -/
def powersOf2 : List Nat := [
  2, 4, 8,
  16, 32, 64,
  128, 256, 512,
  1024, 2048, 4096,
  8192, 16384, 32768,
  65535, 131072, 262144,
  524288, 1048576, 2097152,
  4194304, 8388608, 16777216,
  33554432, 67108864, 134217728,
  268435456, 536870912, 1073741824,
  2147483648, 4294967295]

/-- zt_table.c 102-110: the first entry above the hint; `nbuckets` stays 0 if there is none. -/
def pickSize (hint : Nat) : List Nat → Nat
  | [] => 0
  | p :: ps => if p > hint then p else pickSize hint ps

/-- zt_table.c 99-112: number of buckets; `useHint` is the flag ZT_TABLE_SIZE_USE_HINT. -/
def sizeFor (hint : Nat) (useHint : Bool) : Nat := if useHint then hint else pickSize hint powersOf2

/-- zt_table.c 73-136 `zt_table_init` for non-NULL callbacks. `nbuckets - 1` is computed in size_t (64 bits). Not modelled: name,
pools, failure of the allocator. -/
def init (hint : Nat) (useHint dup : Bool) : Tbl :=
  let n := sizeFor hint useHint
  { nbits := nbits ((n + (2 ^ 64 - 1)) % 2 ^ 64), dup := dup, num := n, buckets := fun _ => none, heap := fun _ => none }

/-- zt_hash.h 41 `ZT_HASH_MASK(x)` converted to unsigned long; used for x < 32 only. -/
def mask (x : Nat) : ULong := (1#64 <<< x) - 1#64

/-- zt_hash.h 56-63 `ZT_HASH_SUB32_MASK(nkey, x)` on an unsigned long. -/
def fold (h : ULong) (x : Nat) : ULong :=
  if x < 32 then
    if x < 16 then ((h >>> x) ^^^ h) &&& mask x
    else (h >>> x) ^^^ (h &&& mask x)
  else h

/-- `h->buckets[i]` for reading. -/
def bucket (T : Tbl) (i : Nat) : Outcome Ptr := if i < T.num then .ok (T.buckets i) else .ub

/-- `h->buckets[i] = p`. -/
def setBucket (T : Tbl) (i : Nat) (p : Ptr) : Outcome Tbl :=
  if i < T.num then .ok { T with buckets := fun j => if j = i then p else T.buckets j } else .ub

/-- `*p`. -/
def load (T : Tbl) (a : Nat) : Outcome Node :=
  match T.heap a with
  | some n => .ok n
  | none => .ub

def updHeap (T : Tbl) (a : Nat) (n : Option Node) : Tbl := { T with heap := fun x => if x = a then n else T.heap x }

/-- `p->next = q`. -/
def setNext (T : Tbl) (a : Nat) (q : Ptr) : Outcome Tbl := do
  let n ← load T a
  pure (updHeap T a (some { n with next := q }))

/-- `zt_mem_pool_release(&p)`. -/
def release (T : Tbl) (a : Nat) : Outcome Tbl := do
  let _ ← load T a
  pure (updHeap T a none)

/-- The test of zt_table.c 180-181, 216-217, 241-242. -/
def hit (cb : Callbacks) (e : Entry) (key : Key) : Bool := e.hash == cb.hash key && cb.cmp e.key key

/-- The search loops of zt_table.c 179-186 and 215-222: the first matching node. -/
def find (cb : Callbacks) (T : Tbl) (key : Key) : (fuel : Nat) → Ptr → Outcome (Option (Nat × Entry))
  | 0, _ => .ub
  | _ + 1, none => .ok none
  | fuel + 1, some a => do
      let n ← load T a
      if hit cb n.e key then pure (some (a, n.e)) else find cb T key fuel n.next

/-- Bucket index of a key (zt_table.c 169-172, 209-212, 233-236). -/
def index (cb : Callbacks) (T : Tbl) (key : Key) : Nat := (fold (cb.hash key) T.nbits).toNat

/-- zt_table.c 165-200 `zt_table_set`; `a` is the address of the new node. The result is the return value and the new table. -/
def set (cb : Callbacks) (fuel : Nat) (T : Tbl) (key : Key) (datum datumLen : Nat) (a : Nat) : Outcome (Int × Tbl) := do
  let i := index cb T key
  let nn ← bucket T i
  let found ← if T.dup then pure none else find cb T key fuel nn
  match found with
  | some _ => pure (1, T)
  | none => do
      let b ← bucket T i
      let T := updHeap T a (some ⟨⟨key, datum, datumLen, cb.hash key⟩, b⟩)
      let T ← setBucket T i (some a)
      pure (0, T)

/-- What a lookup leaves behind: the returned pointer and whether errno was set to ENOENT. -/
structure Ret where
  ptr : Nat
  enoent : Bool
  deriving Repr, DecidableEq

/-- zt_table.c 202-226 `zt_table_get`. -/
def get (cb : Callbacks) (fuel : Nat) (T : Tbl) (key : Key) : Outcome Ret := do
  let node ← bucket T (index cb T key)
  let found ← find cb T key fuel node
  match found with
  | some (_, e) => pure ⟨e.datum, false⟩
  | none => pure ⟨0, true⟩

/-- The loop of zt_table.c 240-258. `prev` is not advanced by the code. -/
def delLoop (cb : Callbacks) (T : Tbl) (key : Key) (i : Nat) (prev : Ptr) : (fuel : Nat) → Ptr → Outcome (Ret × Tbl)
  | 0, _ => .ub
  | _ + 1, none => .ok (⟨0, true⟩, T)
  | fuel + 1, some a => do
      let n ← load T a
      if hit cb n.e key then do
        let T ← if prev = some a then setBucket T i n.next else
          match prev with
          | some p => setNext T p n.next
          | none => .ub
        let T ← release T a
        pure (⟨n.e.datum, false⟩, T)
      else delLoop cb T key i prev fuel n.next

/-- zt_table.c 228-260 `zt_table_del`. -/
def del (cb : Callbacks) (fuel : Nat) (T : Tbl) (key : Key) : Outcome (Ret × Tbl) := do
  let i := index cb T key
  let node ← bucket T i
  delLoop cb T key i node fuel node

/-- The inner loop of zt_table.c 290-297. `it` is the iterator callback acting on its own state `σ` (the callback does not modify
the table being traversed). The result is the final state, and the nonzero result if it stopped. -/
def eachChain {σ : Type} (it : Entry → σ → Outcome (Int × σ)) (T : Tbl) : (fuel : Nat) → Ptr → σ → Outcome (Int × σ)
  | 0, _, _ => .ub
  | _ + 1, none, s => .ok (0, s)
  | fuel + 1, some a, s => do
      let n ← load T a
      let (r, s) ← it n.e s
      if r ≠ 0 then pure (r, s) else eachChain it T fuel n.next s

/-- The outer loop of zt_table.c 287-298; `k` buckets are left. -/
def eachLoop {σ : Type} (it : Entry → σ → Outcome (Int × σ)) (T : Tbl) (fuel : Nat) : (k i : Nat) → σ → Outcome (Int × σ)
  | 0, _, s => .ok (0, s)
  | k + 1, i, s => do
      let b ← bucket T i
      let (r, s) ← eachChain it T fuel b s
      if r ≠ 0 then pure (r, s) else eachLoop it T fuel k (i + 1) s

/-- zt_table.c 281-300 `zt_table_for_each`. -/
def forEach {σ : Type} (it : Entry → σ → Outcome (Int × σ)) (fuel : Nat) (T : Tbl) (s : σ) : Outcome (Int × σ) :=
  eachLoop it T fuel T.num 0 s

/-- The body of the inner loop of zt_table.c 270-275. `alloc` stands for the destination's node pool: the address it returns next. -/
def copyStep (cb2 : Callbacks) (alloc : Tbl → Nat) (fuel : Nat) (e : Entry) (s : Bool × Tbl) : Outcome (Int × (Bool × Tbl)) := do
  let (_, T2) ← set cb2 fuel s.2 e.key e.datum e.datumLen (alloc s.2)
  pure (0, (true, T2))

/-- zt_table.c 262-279 `zt_table_copy(t1, t2)`: adds the entries of t1 to t2 (a different table); returns `any`. The two nested
loops are those of zt_table_for_each. -/
def copy (cb2 : Callbacks) (alloc : Tbl → Nat) (fuel : Nat) (T1 T2 : Tbl) : Outcome (Bool × Tbl) := do
  let (_, s) ← forEach (copyStep cb2 alloc fuel) fuel T1 (false, T2)
  pure s

/-- The inner loop of zt_table.c 145-149. -/
def destroyChain : (fuel : Nat) → Tbl → Ptr → Outcome Tbl
  | 0, _, _ => .ub
  | _ + 1, T, none => .ok T
  | fuel + 1, T, some a => do
      let n ← load T a
      let T ← release T a
      destroyChain fuel T n.next

/-- The outer loop of zt_table.c 143-150. -/
def destroyLoop (fuel : Nat) : (k i : Nat) → Tbl → Outcome Tbl
  | 0, _, T => .ok T
  | k + 1, i, T => do
      let b ← bucket T i
      let T ← destroyChain fuel T b
      destroyLoop fuel k (i + 1) T

/-- zt_table.c 138-162 `zt_table_destroy`: the release of the nodes (the pools and the name are not modelled here). -/
def destroy (fuel : Nat) (T : Tbl) : Outcome Tbl := destroyLoop fuel T.num 0 T

end ZT.Table
