import Verif.Table.Exact
import Verif.MemPool.Group

/-!
# C98: all the hash tables of a process and their memory (zt_table.c, zt_mem.c)

Verif.Table.Model describes one table and takes the address of a new node as an argument. Here any number of tables live in one memory: their nodes are elements of pools of
Verif.MemPool, all nodes of all tables are kept in one heap `H` (address to contents), and the table structures are elements of the shared pool. Allocations succeed (`Good`).
-/

namespace ZT.Table.Proc

open MemPool (Mem Alloc)

/-- The blocks got from malloc directly (the bucket array with its header, its name, the copy of the table name): those in use, and the next new one. -/
structure Blocks where
  live : List Nat
  next : Nat

/-- malloc -/
def Blocks.alloc (P : Blocks) : Nat × Blocks := (P.next, ⟨P.next :: P.live, P.next + 1⟩)

/-- free: undefined unless the block is in use. -/
def Blocks.free (P : Blocks) (a : Nat) : Outcome Blocks := if a ∈ P.live then .ok { P with live := P.live.erase a } else .ub

/-- "zt.table.pool" (zt_table.c 60). -/
def nTable : List Byte := [122, 116, 46, 116, 97, 98, 108, 101, 46, 112, 111, 111, 108]

/-- " (table node pool)" -/
def suffix : List Byte := [32, 40, 116, 97, 98, 108, 101, 32, 110, 111, 100, 101, 32, 112, 111, 111, 108, 41]

/-- zt_table.c 126: snprintf into 1024 bytes. -/
def poolName (name : List Byte) : List Byte := (name ++ suffix).take 1023

/-- zt_table.c 47-59 `struct zt_table`: the members of `Tbl` without the nodes, the node pool, the address of the structure, and the blocks of table_heap, its name and name. -/
structure Tab where
  cb : Callbacks
  nbits : Nat
  dup : Bool
  num : Nat
  buckets : Nat → Ptr
  pool : Nat
  addr : Nat
  heapB : Nat
  heapN : Nat
  nameB : Nat
  name : List Byte

/-- The table with the nodes of the process. -/
def view (t : Tab) (H : Nat → Option Node) : Tbl := ⟨t.nbits, t.dup, t.num, t.buckets, H⟩

/-- Storing the members. -/
def put (t : Tab) (T : Tbl) : Tab := { t with nbits := T.nbits, dup := T.dup, num := T.num, buckets := T.buckets }

/-- zt_table.c 62-70 `zt_table_pool_init` for a pool that was not found (84-88). zt_mem_pool_alloc(NULL) is undefined. -/
def sharedPool (al : Alloc) (M : Mem) : Option Nat → Outcome (Nat × Mem)
  | some p => .ok (p, M)
  | none => do
      let (r, M) ← MemPool.init al M nTable 2 80 MemPool.defaultTest 0
      match r with
      | some p => pure (p, M)
      | none => .ub

/-- Conversion of a size_t to ssize_t. -/
def signed (n : Nat) : Int := if n < 2 ^ 63 then n else (n : Int) - 2 ^ 64

/-- zt_table.c 73-136 `zt_table_init` for callbacks that are not NULL; `name` NULL is passed to snprintf with `%s`, which is undefined. A node pool that could not be made is
dereferenced later (undefined here). -/
def newTable (al : Alloc) (cb : Callbacks) (name : Option (List Byte)) (hint : Nat) (useHint dup : Bool) (M : Mem) (P : Blocks) (fuel : Nat) : Outcome (Tab × Mem × Blocks) := do
  let g ← MemPool.get M nTable fuel
  let (sp, M) ← sharedPool al M g
  let (h, M) ← MemPool.alloc al M sp
  let T := init hint useHint dup
  let (b1, P) := P.alloc
  let (b2, P) := P.alloc
  let (b3, P) := P.alloc
  match name with
  | none => .ub
  | some nm => do
      let (r, M) ← MemPool.init al M (poolName nm) (signed T.num) 48 MemPool.defaultTest 0
      match r with
      | none => .ub
      | some p => pure (⟨cb, T.nbits, T.dup, T.num, T.buckets, p, h, b1, b2, b3, nm⟩, M, P)

/-- zt_table.c 178-187: the search that is left out with ZT_TABLE_ALLOW_DUP_KEYS. -/
def searchDup (cb : Callbacks) (T : Tbl) (key : Key) (fuel : Nat) (p : Ptr) : Outcome (Option (Nat × Entry)) := if T.dup then pure none else find cb T key fuel p

/-- zt_table.c 165-200 `zt_table_set`: the result, the table, the nodes, the pools. -/
def setT (al : Alloc) (t : Tab) (key : Key) (datum datumLen : Nat) (H : Nat → Option Node) (M : Mem) (fuel : Nat) : Outcome (Int × Tab × (Nat → Option Node) × Mem) := do
  let T := view t H
  let i := index t.cb T key
  let nn ← bucket T i
  let found ← searchDup t.cb T key fuel nn
  match found with
  | some _ => pure (1, t, H, M)
  | none => do
      let (a, M) ← MemPool.alloc al M t.pool
      let b ← bucket T i
      let T := updHeap T a (some ⟨⟨key, datum, datumLen, t.cb.hash key⟩, b⟩)
      let T ← setBucket T i (some a)
      pure (0, put t T, T.heap, M)

/-- zt_table.c 245-249: taking the node after `a` out of the chain. -/
def unlink (T : Tbl) (i : Nat) (prev : Ptr) (a : Nat) (nx : Ptr) : Outcome Tbl :=
  if prev = some a then setBucket T i nx
  else
    match prev with
    | some p => setNext T p nx
    | none => .ub

/-- The loop of zt_table.c 240-258 with the release of the node. -/
def delLoopM (cb : Callbacks) (T : Tbl) (M : Mem) (key : Key) (i : Nat) (prev : Ptr) : (fuel : Nat) → Ptr → Outcome (Ret × Tbl × Mem)
  | 0, _ => .ub
  | _ + 1, none => .ok (⟨0, true⟩, T, M)
  | fuel + 1, some a => do
      let n ← load T a
      if hit cb n.e key then do
        let T ← unlink T i prev a n.next
        let T ← Table.release T a
        let M ← MemPool.release M a
        pure (⟨n.e.datum, false⟩, T, M)
      else delLoopM cb T M key i prev fuel n.next

/-- zt_table.c 228-260 `zt_table_del`. -/
def delT (t : Tab) (key : Key) (H : Nat → Option Node) (M : Mem) (fuel : Nat) : Outcome (Ret × Tab × (Nat → Option Node) × Mem) := do
  let T := view t H
  let i := index t.cb T key
  let node ← bucket T i
  let (r, T, M) ← delLoopM t.cb T M key i node fuel node
  pure (r, put t T, T.heap, M)

/-- The inner loop of zt_table.c 268-274; `node->next` is read after the entry has been added to the other table. -/
def copyChain (al : Alloc) (t1 : Tab) (fuel2 : Nat) : (fuel : Nat) → Ptr → Bool → Tab → (Nat → Option Node) → Mem → Outcome (Bool × Tab × (Nat → Option Node) × Mem)
  | 0, _, _, _, _, _ => .ub
  | _ + 1, none, any, t2, H, M => .ok (any, t2, H, M)
  | fuel + 1, some a, _, t2, H, M => do
      let n ← load (view t1 H) a
      let (_, t2, H, M) ← setT al t2 n.e.key n.e.datum n.e.datumLen H M fuel2
      let n ← load (view t1 H) a
      copyChain al t1 fuel2 fuel n.next true t2 H M

/-- The outer loop of zt_table.c 266-276; `k` buckets are left. -/
def copyLoop (al : Alloc) (t1 : Tab) (fuel : Nat) : (k i : Nat) → Bool → Tab → (Nat → Option Node) → Mem → Outcome (Bool × Tab × (Nat → Option Node) × Mem)
  | 0, _, any, t2, H, M => .ok (any, t2, H, M)
  | k + 1, i, any, t2, H, M => do
      let b ← bucket (view t1 H) i
      let (any, t2, H, M) ← copyChain al t1 fuel fuel b any t2 H M
      copyLoop al t1 fuel k (i + 1) any t2 H M

/-- zt_table.c 262-279 `zt_table_copy(t1, t2)` for two different tables. -/
def copyT (al : Alloc) (t1 t2 : Tab) (H : Nat → Option Node) (M : Mem) (fuel : Nat) : Outcome (Bool × Tab × (Nat → Option Node) × Mem) :=
  copyLoop al t1 fuel t1.num 0 false t2 H M

/-- The inner loop of zt_table.c 145-149. -/
def freeChain : (fuel : Nat) → Tbl → Mem → Ptr → Outcome (Tbl × Mem)
  | 0, _, _, _ => .ub
  | _ + 1, T, M, none => .ok (T, M)
  | fuel + 1, T, M, some a => do
      let n ← load T a
      let T ← Table.release T a
      let M ← MemPool.release M a
      freeChain fuel T M n.next

/-- The outer loop of zt_table.c 143-150. -/
def freeLoop (fuel : Nat) : (k i : Nat) → Tbl → Mem → Outcome (Tbl × Mem)
  | 0, _, T, M => .ok (T, M)
  | k + 1, i, T, M => do
      let b ← bucket T i
      let (T, M) ← freeChain fuel T M b
      freeLoop fuel k (i + 1) T M

/-- zt_table.c 138-162 `zt_table_destroy`; the result of zt_mem_pool_destroy is ignored. -/
def destroyT (t : Tab) (H : Nat → Option Node) (M : Mem) (P : Blocks) (fuel : Nat) : Outcome ((Nat → Option Node) × Mem × Blocks) := do
  let (T, M) ← freeLoop fuel t.num 0 (view t H) M
  let P ← P.free t.nameB
  let (_, M) ← MemPool.destroy M t.pool fuel
  let P ← P.free t.heapN
  let P ← P.free t.heapB
  let M ← MemPool.release M t.addr
  pure (T.heap, M, P)

/-! ## Tables in a larger memory -/

/-- The table together with other nodes. -/
def join (T : Tbl) (R : Nat → Option Node) : Tbl := { T with heap := fun x => (T.heap x).or (R x) }

/-- The other nodes are not nodes of the table. -/
def Apart (T : Tbl) (R : Nat → Option Node) : Prop := ∀ x, T.heap x ≠ none → R x = none

theorem load_ok {T : Tbl} {a : Nat} {n : Node} (h : load T a = .ok n) : T.heap a = some n := by
  rw [load] at h
  cases e : T.heap a with
  | none => rw [e] at h; cases h
  | some m => rw [e] at h; cases h; rfl

theorem load_join {T : Tbl} {R : Nat → Option Node} {a : Nat} {n : Node} (h : load T a = .ok n) : load (join T R) a = .ok n := by
  have := load_ok h
  simp [load, join, this]

theorem updHeap_join (T : Tbl) (R : Nat → Option Node) (a : Nat) (n : Node) : updHeap (join T R) a (some n) = join (updHeap T a (some n)) R := by
  simp only [updHeap, join, Tbl.mk.injEq, true_and]
  funext x
  by_cases c : x = a <;> simp [c]

theorem setBucket_join {T T' : Tbl} (R : Nat → Option Node) {i : Nat} {p : Ptr} (h : setBucket T i p = .ok T') : setBucket (join T R) i p = .ok (join T' R) ∧ T'.heap = T.heap := by
  rw [setBucket] at h ⊢
  split at h
  · rename_i c
    cases h
    exact ⟨by rw [if_pos (show i < (join T R).num from c)]; rfl, rfl⟩
  · cases h

theorem setNext_join {T T' : Tbl} {R : Nat → Option Node} (A : Apart T R) {a : Nat} {q : Ptr} (h : setNext T a q = .ok T') : setNext (join T R) a q = .ok (join T' R) ∧ Apart T' R := by
  rw [setNext] at h ⊢
  obtain ⟨n, e, h⟩ := Outcome.bind_eq_ok.1 h
  cases h
  have := load_ok e
  refine ⟨Outcome.bind_eq_ok.2 ⟨n, load_join e, ?_⟩, fun x hx => ?_⟩
  · rw [updHeap_join]; rfl
  · simp only [updHeap] at hx
    by_cases c : x = a
    · subst c; exact A x (by rw [this]; simp)
    · rw [if_neg c] at hx; exact A x hx

theorem release_join {T T' : Tbl} {R : Nat → Option Node} (A : Apart T R) {a : Nat} (h : Table.release T a = .ok T') : Table.release (join T R) a = .ok (join T' R) ∧ Apart T' R := by
  rw [Table.release] at h ⊢
  obtain ⟨n, e, h⟩ := Outcome.bind_eq_ok.1 h
  cases h
  have := load_ok e
  have hR := A a (by rw [this]; simp)
  refine ⟨Outcome.bind_eq_ok.2 ⟨n, load_join e, ?_⟩, fun x hx => ?_⟩
  · simp only [updHeap, join, Outcome.pure_eq, Outcome.ok.injEq, Tbl.mk.injEq, true_and]
    funext x
    by_cases c : x = a <;> simp [c, hR]
  · simp only [updHeap] at hx
    by_cases c : x = a
    · subst c; exact hR
    · rw [if_neg c] at hx; exact A x hx

theorem find_join {cb : Callbacks} {T : Tbl} {R : Nat → Option Node} {key : Key} : ∀ {fuel : Nat} {p : Ptr} {r : Option (Nat × Entry)}, find cb T key fuel p = .ok r →
    find cb (join T R) key fuel p = .ok r := by
  intro fuel
  induction fuel with
  | zero => intro p r h; cases h
  | succ fuel ih =>
      intro p r h
      cases p with
      | none => exact h
      | some a =>
          rw [find] at h ⊢
          obtain ⟨n, e, h⟩ := Outcome.bind_eq_ok.1 h
          refine Outcome.bind_eq_ok.2 ⟨n, load_join e, ?_⟩
          split at h
          · rw [if_pos (by assumption)]; exact h
          · rw [if_neg (by assumption)]; exact ih h

theorem unlink_join {T T' : Tbl} {R : Nat → Option Node} (A : Apart T R) {i a : Nat} {prev nx : Ptr} (h : unlink T i prev a nx = .ok T') :
    unlink (join T R) i prev a nx = .ok (join T' R) ∧ Apart T' R := by
  unfold unlink at h ⊢
  split at h
  · rw [if_pos (by assumption)]
    obtain ⟨h1, h2⟩ := setBucket_join R h
    exact ⟨h1, fun x hx => A x (h2 ▸ hx)⟩
  · rw [if_neg (by assumption)]
    cases prev with
    | none => cases h
    | some p => exact setNext_join A h

/-- The loop of the deletion, taken apart: the loop of Verif.Table.Model, the node it stops at (the one a search stops at), and the release of this node. -/
theorem delLoopM_join {cb : Callbacks} {T : Tbl} {R : Nat → Option Node} (A : Apart T R) {M : Mem} {key : Key} {i : Nat} {prev : Ptr} :
    ∀ {fuel : Nat} {p : Ptr} {r : Ret} {T' : Tbl} {f : Option (Nat × Entry)}, delLoop cb T key i prev fuel p = .ok (r, T') → find cb T key fuel p = .ok f → Apart T' R ∧ r.enoent = f.isNone ∧ (f = none → T' = T) ∧
      (f = none → delLoopM cb (join T R) M key i prev fuel p = .ok (r, join T' R, M)) ∧
      ∀ a e, f = some (a, e) → (∀ M', MemPool.release M a = .ok M' → delLoopM cb (join T R) M key i prev fuel p = .ok (r, join T' R, M')) ∧
        (∀ x, T'.heap x ≠ none ↔ x ≠ a ∧ T.heap x ≠ none) := by
  intro fuel
  induction fuel with
  | zero => intro p r T' f h; cases h
  | succ fuel ih =>
      intro p r T' f h hf
      cases p with
      | none =>
          cases h; cases hf
          exact ⟨A, rfl, fun _ => rfl, fun _ => rfl, fun a e h => by cases h⟩
      | some b =>
          rw [delLoop] at h
          rw [find] at hf
          obtain ⟨n, e, h⟩ := Outcome.bind_eq_ok.1 h
          rw [e, Outcome.ok_bind] at hf
          by_cases c : hit cb n.e key = true
          · rw [if_pos c] at h hf
            cases hf
            have h : (unlink T i prev b n.next >>= fun T => Table.release T b >>= fun T => pure (⟨n.e.datum, false⟩, T)) = .ok (r, T') := by
              rw [← h]
              unfold unlink
              by_cases cp : prev = some b
              · rw [if_pos cp, if_pos cp]
              · rw [if_neg cp, if_neg cp]
                cases prev <;> rfl
            obtain ⟨T1, e1, h⟩ := Outcome.bind_eq_ok.1 h
            obtain ⟨T2, e2, h⟩ := Outcome.bind_eq_ok.1 h
            cases h
            obtain ⟨j1, A1⟩ := unlink_join A e1
            obtain ⟨j2, A2⟩ := release_join A1 e2
            refine ⟨A2, rfl, (fun h => by cases h), (fun h => by cases h), fun a x hx => ?_⟩
            cases hx
            refine ⟨fun M' hM => ?_, fun x => ?_⟩
            · rw [delLoopM]
              refine Outcome.bind_eq_ok.2 ⟨n, load_join e, ?_⟩
              rw [if_pos c]
              refine Outcome.bind_eq_ok.2 ⟨_, j1, Outcome.bind_eq_ok.2 ⟨_, j2, Outcome.bind_eq_ok.2 ⟨_, hM, rfl⟩⟩⟩
            · have hx : T1.heap x ≠ none ↔ T.heap x ≠ none := by
                unfold unlink at e1
                split at e1
                · rw [(setBucket_join R e1).2]
                · cases prev with
                  | none => cases e1
                  | some p =>
                      simp only [setNext] at e1
                      obtain ⟨m, em, e1⟩ := Outcome.bind_eq_ok.1 e1
                      cases e1
                      have := load_ok em
                      simp only [updHeap]
                      by_cases cx : x = p
                      · simp [cx, this]
                      · simp [cx]
              rw [Table.release] at e2
              obtain ⟨m, em, e2⟩ := Outcome.bind_eq_ok.1 e2
              cases e2
              simp only [updHeap]
              by_cases cx : x = b
              · simp [cx]
              · simp only [cx, if_false, ne_eq, not_false_eq_true, true_and]; exact hx
          · rw [if_neg c] at h hf
            obtain ⟨h1, g1, g2, h2, h3⟩ := ih h hf
            have key : ∀ z, delLoopM cb (join T R) M key i prev fuel n.next = .ok z → delLoopM cb (join T R) M key i prev (fuel + 1) (some b) = .ok z := by
              intro z hz
              rw [delLoopM]
              refine Outcome.bind_eq_ok.2 ⟨n, load_join e, ?_⟩
              rw [if_neg c]; exact hz
            exact ⟨h1, g1, g2, fun hn => key _ (h2 hn), fun a x hx => ⟨fun M' hM => key _ ((h3 a x hx).1 M' hM), (h3 a x hx).2⟩⟩

theorem delLoop_mono {cb : Callbacks} {T : Tbl} {key : Key} {i : Nat} {prev : Ptr} : ∀ {fuel : Nat} {p : Ptr} {z : Ret × Tbl}, delLoop cb T key i prev fuel p = .ok z → ∀ fuel', fuel ≤ fuel' →
    delLoop cb T key i prev fuel' p = .ok z := by
  intro fuel
  induction fuel with
  | zero => intro p z h; cases h
  | succ fuel ih =>
      intro p z h fuel' hf
      match fuel', hf with
      | f + 1, hf =>
        cases p with
        | none => exact h
        | some b =>
            rw [delLoop] at h ⊢
            obtain ⟨n, e, h⟩ := Outcome.bind_eq_ok.1 h
            refine Outcome.bind_eq_ok.2 ⟨n, e, ?_⟩
            by_cases c : hit cb n.e key = true
            · rw [if_pos c] at h ⊢; exact h
            · rw [if_neg c] at h ⊢; exact ih h f (by omega)

end ZT.Table.Proc
