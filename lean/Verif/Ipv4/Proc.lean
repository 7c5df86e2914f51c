import Verif.MemPool.Group
import Verif.Ipv4.Model

/-!
# C94: all the IPv4 tables of a process and their memory (zt_ipv4_tbl.c, zt_mem.c)

The memory side of the table functions, on the pools of Verif.MemPool: which elements of which pools are taken and given back. What the tables
contain is the subject of Verif.Ipv4.Model. The table structure and the two blocks of the group (calloc) are not modelled. Allocations succeed (`Good`).
-/

namespace ZT.Ipv4.Proc

open MemPool (Mem Desc Alloc Good Hist Client groupInit groupDestroy poolsHead held)

/-- "zt_ipv4_node_hash". -/
def nHash : List Byte := [122, 116, 95, 105, 112, 118, 52, 95, 110, 111, 100, 101, 95, 104, 97, 115, 104]
/-- "zt_ipv4_node". -/
def nNode : List Byte := [122, 116, 95, 105, 112, 118, 52, 95, 110, 111, 100, 101]
/-- "zt_ipv4_addr". -/
def nAddr : List Byte := [122, 116, 95, 105, 112, 118, 52, 95, 97, 100, 100, 114]

/-- zt_ipv4_tbl.c 35-49: the descriptions of the three pools. `sizeof(zt_ipv4_node *)` is 8, `sizeof(zt_ipv4_node)` and `sizeof(zt_ipv4_addr)` are 16; the release test is
NULL, hence the default. -/
def descs (rsize : Nat) : List Desc :=
  [⟨some nHash, 1, 8 * rsize, MemPool.defaultTest, 0⟩, ⟨some nNode, 1, 16, MemPool.defaultTest, 0⟩, ⟨some nAddr, 1, 16, MemPool.defaultTest, 0⟩]

/-- A table: its group of pools and the number of slots of each of its arrays (`tbl->sz`). -/
structure Tab where
  group : List (Option Nat)
  sz : Nat

/-- zt_ipv4_tbl.c 31-62 `zt_ipv4_tbl_init`. -/
def newTable (al : Alloc) (size : Nat) (M : Mem) (fuel : Nat) : Outcome (Option Tab × Mem) := do
  let rsize := if size = 0 then 128 else size
  let (r, M) ← groupInit al fuel (descs rsize) M
  match r with
  | none => pure (none, M)
  | some g => pure (some ⟨g, rsize⟩, M)

/-- zt_mem_pool_get followed by zt_mem_pool_alloc: zt_ipv4_tbl.c 75-77 and 83-85, 109-115, 148-150 and 159-161. -/
def poolAlloc (al : Alloc) (name : List Byte) (M : Mem) (fuel : Nat) : Outcome (Option Nat × Mem) := do
  match ← MemPool.get M name fuel with
  | none => pure (none, M)
  | some p => do
      let (d, M) ← MemPool.alloc al M p
      pure (some d, M)

/-- zt_ipv4_tbl.c 65-96 `zt_ipv4_addr_frm_str`; `parsed` tells whether zt_ipv4_str2net returned 0. -/
def newAddr (al : Alloc) (parsed : Bool) (M : Mem) (fuel : Nat) : Outcome (Option Nat × Mem) := do
  match ← MemPool.get M nAddr fuel with
  | none => pure (none, M)
  | some p =>
      if parsed then do
        let (d, M) ← MemPool.alloc al M p
        pure (some d, M)
      else pure (none, M)

/-- zt_ipv4_tbl.c 99-125 `zt_ipv4_node_str_init`: the node taken and the record taken; the result is NULL unless there are both. -/
def newNode (al : Alloc) (parsed : Bool) (M : Mem) (fuel : Nat) : Outcome ((Option Nat × Option Nat) × Mem) := do
  let (n, M) ← poolAlloc al nNode M fuel
  match n with
  | none => pure ((none, none), M)
  | some n => do
      let (a, M) ← newAddr al parsed M fuel
      pure ((some n, a), M)

/-- zt_ipv4_tbl.c 148-161: a slot array. -/
def newSlots (al : Alloc) (M : Mem) (fuel : Nat) : Outcome (Option Nat × Mem) := poolAlloc al nHash M fuel

/-- zt_ipv4_tbl.c 291-309 `zt_ipv4_tbl_search_from_str`: the node is given back if it was complete, the record is not. -/
def searchMem (al : Alloc) (parsed : Bool) (M : Mem) (fuel : Nat) : Outcome ((Option Nat × Option Nat) × Mem) := do
  let ((n, a), M) ← newNode al parsed M fuel
  match n, a with
  | some n, some a => do
      let M ← MemPool.release M n
      pure ((none, some a), M)
  | n, a => pure ((n, a), M)

/-- zt_ipv4_tbl.c 17-29 `zt_ipv4_tbl_destroy`; the result of the group destruction is ignored. -/
def destroyTable (t : Tab) (M : Mem) (fuel : Nat) : Outcome Mem := do
  let (_, M) ← groupDestroy fuel t.group M
  pure M

/-- What the program has: its tables, the number of slots of all the tables it ever made (the newest first), and the nodes, address records and slot arrays (with the number
of slots asked for) taken from pools and not given back. -/
structure World where
  tabs : List Tab
  created : List Nat
  nodes : List Nat
  addrs : List Nat
  slots : List (Nat × Nat)

/-- All histories of table functions, in any order and for any number of tables. A slot array is taken for an existing table. -/
inductive Use (al : Alloc) : World → Mem → Prop
  | start {M} : M.blocks = [(poolsHead, 16)] → M.H.next poolsHead = poolsHead → M.H.prev poolsHead = poolsHead → Use al ⟨[], [], [], [], []⟩ M
  | table {w M size t M'} : Use al w M → size < 2 ^ 32 → Runs (newTable al size M) (some t, M') → Use al { w with tabs := t :: w.tabs, created := t.sz :: w.created } M'
  | node {w M parsed n a M'} : Use al w M → Runs (newNode al parsed M) ((n, a), M') → Use al { w with nodes := n.toList ++ w.nodes, addrs := a.toList ++ w.addrs } M'
  | slots {w M t d M'} : Use al w M → t ∈ w.tabs → Runs (newSlots al M) (d, M') → Use al { w with slots := d.toList.map (fun d => (d, t.sz)) ++ w.slots } M'
  | search {w M parsed n a M'} : Use al w M → Runs (searchMem al parsed M) ((n, a), M') → Use al { w with nodes := n.toList ++ w.nodes, addrs := a.toList ++ w.addrs } M'
  | destroy {w M pre t post M'} : Use al w M → w.tabs = pre ++ t :: post → Runs (destroyTable t M) M' → Use al { w with tabs := pre ++ post } M'

/-- A pool of the client: address, element size, name. -/
abbrev PoolRec := Nat × Nat × List Byte

/-- The pools of a table. -/
def Owns (t : Tab) (g : List PoolRec) : Prop := t.group = g.map (fun q => some q.1) ∧ g.map (·.2) = [(8 * t.sz, nHash), (16, nNode), (16, nAddr)]

/-- An element held, from a pool of that name. -/
def From (c : Client) (name : List Byte) (size d : Nat) : Prop := ∃ p, (p, size, name) ∈ c.pools ∧ (d, p) ∈ c.live

/-- Sizes of the hash pools, the oldest first. -/
def hashSizes (c : Client) : List Nat := (c.pools.filter fun q => q.2.2 = nHash).map (·.2.1)

/-- The invariant. -/
structure Inv (al : Alloc) (w : World) (c : Client) (ts : List (Tab × List PoolRec)) (M : Mem) : Prop where
  hist : Hist al c M
  tabs : w.tabs = ts.map (·.1)
  owns : ∀ x ∈ ts, Owns x.1 x.2
  mine : ∀ q ∈ (ts.flatMap (·.2)), q ∈ c.pools
  apart : (ts.flatMap (·.2)).Nodup
  known : ∀ q ∈ c.pools, (q.2.2 = nHash ∧ 0 < q.2.1) ∨ (q.2.2 = nNode ∧ q.2.1 = 16) ∨ (q.2.2 = nAddr ∧ q.2.1 = 16)
  sizes : (hashSizes c).Sublist (w.created.reverse.map (8 * ·))
  nodes : ∀ d ∈ w.nodes, From c nNode 16 d
  addrs : ∀ d ∈ w.addrs, From c nAddr 16 d
  slots : ∀ d ∈ w.slots, ∃ size, From c nHash size d.1 ∧ (w.created.Pairwise (· ≤ ·) → 8 * d.2 ≤ size)
  all : (c.live.map (·.1)).Perm (w.nodes ++ (w.addrs ++ w.slots.map (·.1)))
  clean : w.nodes = [] → w.addrs = [] → w.slots = [] → ∀ q ∈ c.pools, q ∈ (ts.flatMap (·.2))

theorem nodup_of_nodup_map {α β : Type} {f : α → β} {l : List α} (h : (l.map f).Nodup) : l.Nodup := List.Pairwise.of_map (f := f) (fun _ _ hab he => hab (he ▸ rfl)) h

theorem pools_nodup {al : Alloc} (G : Good al) {c : Client} {M : Mem} (h : Hist al c M) : (c.pools.map (·.1)).Nodup := by
  obtain ⟨A, S, R⟩ := MemPool.rel_of_hist G h
  exact R.nodupPools

theorem fits_descs {rsize : Nat} (h : rsize < 2 ^ 32) : ∀ d ∈ descs rsize, d.name ≠ none ∧ MemPool.Fits d.elts d.size := by
  intro d hd
  simp only [descs, List.mem_cons, List.not_mem_nil, or_false] at hd
  rcases hd with rfl | rfl | rfl
  · refine ⟨by simp, .inr ⟨by simp, ?_⟩⟩
    simp; omega
  · exact ⟨by simp, .inl (by decide)⟩
  · exact ⟨by simp, .inl (by decide)⟩

theorem poolAlloc_spec {al : Alloc} (G : Good al) {c : Client} {M : Mem} (h : Hist al c M) (name : List Byte) :
    (c.pools.find? (fun x => x.2.2 = name) = none ∧ Runs (poolAlloc al name M) (none, M)) ∨
    ∃ q d M', c.pools.find? (fun x => x.2.2 = name) = some q ∧ Runs (poolAlloc al name M) (some d, M') ∧ Hist al { c with live := (d, q.1) :: c.live } M' := by
  obtain ⟨k, hk⟩ := MemPool.c61_get G h name
  cases hf : c.pools.find? (fun x => x.2.2 = name) with
  | none =>
      rw [hf] at hk
      refine .inl ⟨rfl, k, fun fuel hl => ?_⟩
      rw [poolAlloc, hk fuel hl]; rfl
  | some q =>
      rw [hf] at hk
      have hq : (q.1, q.2.1, q.2.2) ∈ c.pools := List.mem_of_find?_eq_some hf
      obtain ⟨⟨d, M', e⟩, _⟩ := (MemPool.c30_total G h).2.1 q hq
      refine .inr ⟨q, d, M', rfl, ⟨k, fun fuel hl => ?_⟩, Hist.alloc h hq e⟩
      rw [poolAlloc, hk fuel hl]
      simp only [Outcome.ok_bind, Option.map_some, e]; rfl

theorem newAddr_true (al : Alloc) (M : Mem) : newAddr al true M = poolAlloc al nAddr M := by
  funext fuel; rfl

theorem newAddr_false {al : Alloc} (G : Good al) {c : Client} {M : Mem} (h : Hist al c M) : Runs (newAddr al false M) (none, M) := by
  obtain ⟨k, hk⟩ := MemPool.c61_get G h nAddr
  refine ⟨k, fun fuel hl => ?_⟩
  rw [newAddr, hk fuel hl]
  cases c.pools.find? (fun x => x.2.2 = nAddr) <;> rfl

/-- What a new node takes. -/
theorem newNode_spec {al : Alloc} (G : Good al) {c : Client} {M : Mem} (h : Hist al c M) (parsed : Bool) :
    (c.pools.find? (fun x => x.2.2 = nNode) = none ∧ Runs (newNode al parsed M) ((none, none), M)) ∨
    (∃ q n M', c.pools.find? (fun x => x.2.2 = nNode) = some q ∧ Runs (newNode al parsed M) ((some n, none), M') ∧ Hist al { c with live := (n, q.1) :: c.live } M' ∧
      (parsed = false ∨ c.pools.find? (fun x => x.2.2 = nAddr) = none)) ∨
    ∃ q q' n a M1 M', c.pools.find? (fun x => x.2.2 = nNode) = some q ∧ c.pools.find? (fun x => x.2.2 = nAddr) = some q' ∧ parsed = true ∧
      Runs (newNode al parsed M) ((some n, some a), M') ∧ Hist al { c with live := (n, q.1) :: c.live } M1 ∧
      Hist al { c with live := (a, q'.1) :: (n, q.1) :: c.live } M' := by
  rcases poolAlloc_spec G h nNode with ⟨h1, k, hk⟩ | ⟨q, n, M1, h1, ⟨k, hk⟩, h2⟩
  · refine .inl ⟨h1, k, fun fuel hl => ?_⟩
    rw [newNode, hk fuel hl]; rfl
  · cases parsed with
    | false =>
        obtain ⟨k', hk'⟩ := newAddr_false G h2
        refine .inr (.inl ⟨q, n, M1, h1, ⟨max k k', fun fuel hl => ?_⟩, h2, .inl rfl⟩)
        rw [newNode, hk fuel (by omega)]
        simp only [Outcome.ok_bind, hk' fuel (by omega)]; rfl
    | true =>
        rcases poolAlloc_spec G h2 nAddr with ⟨h3, k', hk'⟩ | ⟨q', a, M', h3, ⟨k', hk'⟩, h4⟩
        · refine .inr (.inl ⟨q, n, M1, h1, ⟨max k k', fun fuel hl => ?_⟩, h2, .inr h3⟩)
          rw [newNode, hk fuel (by omega)]
          simp only [Outcome.ok_bind, newAddr_true, hk' fuel (by omega)]; rfl
        · refine .inr (.inr ⟨q, q', n, a, M1, M', h1, h3, rfl, ⟨max k k', fun fuel hl => ?_⟩, h2, h4⟩)
          rw [newNode, hk fuel (by omega)]
          simp only [Outcome.ok_bind, newAddr_true, hk' fuel (by omega)]; rfl

theorem From.mono {c c' : Client} {name : List Byte} {size d : Nat} (h : From c name size d) (h1 : ∀ q ∈ c.pools, q ∈ c'.pools) (h2 : ∀ x ∈ c.live, x ∈ c'.live) :
    From c' name size d := by
  obtain ⟨p, a, b⟩ := h
  exact ⟨p, h1 _ a, h2 _ b⟩

/-- The pool found under a name, in a world of tables only. -/
theorem Inv.found {al : Alloc} {w : World} {c : Client} {ts : List (Tab × List PoolRec)} {M : Mem} (I : Inv al w c ts M) {name : List Byte} {q : PoolRec}
    (h : c.pools.find? (fun x => x.2.2 = name) = some q) : (q.1, q.2.1, name) ∈ c.pools ∧ (name ≠ nHash → q.2.1 = 16) := by
  have hq := List.mem_of_find?_eq_some h
  have hn : q.2.2 = name := by simpa using List.find?_some h
  refine ⟨hn ▸ hq, fun hne => ?_⟩
  rcases I.known q hq with h1 | h1 | h1
  · exact absurd (hn ▸ h1.1) hne
  · exact h1.2
  · exact h1.2

/-- The three pools of an existing table are registered. -/
theorem Inv.own {al : Alloc} {w : World} {c : Client} {ts : List (Tab × List PoolRec)} {M : Mem} (I : Inv al w c ts M) {t : Tab} (ht : t ∈ w.tabs) :
    (∃ p, (p, 8 * t.sz, nHash) ∈ c.pools) ∧ (∃ p, (p, 16, nNode) ∈ c.pools) ∧ ∃ p, (p, 16, nAddr) ∈ c.pools := by
  rw [I.tabs] at ht
  obtain ⟨x, hx, rfl⟩ := List.mem_map.1 ht
  obtain ⟨h1, h2⟩ := I.owns x hx
  have hin : ∀ q ∈ x.2, q ∈ c.pools := fun q hq => I.mine q (List.mem_flatMap.2 ⟨x, hx, hq⟩)
  have key : ∀ s n, (s, n) ∈ x.2.map (·.2) → ∃ p, (p, s, n) ∈ c.pools := by
    intro s n hm
    obtain ⟨q, hq, e⟩ := List.mem_map.1 hm
    refine ⟨q.1, ?_⟩
    have := hin q hq
    rw [← e]; exact this
  rw [h2] at key
  exact ⟨key _ _ (by simp), key _ _ (by simp), key _ _ (by simp)⟩

theorem find_isSome {c : Client} {p s : Nat} {name : List Byte} (h : (p, s, name) ∈ c.pools) : ∃ q, c.pools.find? (fun x => x.2.2 = name) = some q := by
  cases hf : c.pools.find? (fun x => x.2.2 = name) with
  | some q => exact ⟨q, rfl⟩
  | none =>
      have := List.find?_eq_none.1 hf _ h
      simp at this

/-- Room: if no table was larger than an earlier one, the oldest hash pool is large enough for every existing table. -/
theorem Inv.room {al : Alloc} {w : World} {c : Client} {ts : List (Tab × List PoolRec)} {M : Mem} (I : Inv al w c ts M) {t : Tab} (ht : t ∈ w.tabs) {q : PoolRec}
    (h : c.pools.find? (fun x => x.2.2 = nHash) = some q) (mono : w.created.Pairwise (· ≤ ·)) : 8 * t.sz ≤ q.2.1 := by
  obtain ⟨⟨p, hp⟩, _⟩ := I.own ht
  have hs := I.sizes
  have hpw : (w.created.reverse.map (8 * ·)).Pairwise (fun a b => b ≤ a) := by
    rw [List.pairwise_map, List.pairwise_reverse]
    exact mono.imp fun h => by omega
  have hpw := hpw.sublist hs
  rw [hashSizes] at hpw
  rw [← List.head?_filter] at h
  have hm : 8 * t.sz ∈ (c.pools.filter fun q => q.2.2 = nHash).map (·.2.1) := List.mem_map.2 ⟨_, List.mem_filter.2 ⟨hp, by simp⟩, rfl⟩
  generalize (c.pools.filter fun q => q.2.2 = nHash) = l at h hpw hm
  cases l with
  | nil => cases h
  | cons x xs =>
      cases h
      rw [List.map_cons, List.pairwise_cons] at hpw
      rw [List.map_cons, List.mem_cons] at hm
      rcases hm with hm | hm
      · omega
      · exact hpw.1 _ hm

theorem names_ne : nHash ≠ nNode ∧ nHash ≠ nAddr ∧ nNode ≠ nAddr := by decide

/-- Taking elements keeps the invariant. -/
theorem Inv.take {al : Alloc} {w : World} {c : Client} {ts : List (Tab × List PoolRec)} {M M' : Mem} (I : Inv al w c ts M) (l : List (Nat × Nat)) (ns as : List Nat) (ss : List (Nat × Nat))
    (h : Hist al { c with live := l ++ c.live } M') (hn : ∀ d ∈ ns, ∃ p, (p, 16, nNode) ∈ c.pools ∧ (d, p) ∈ l) (ha : ∀ d ∈ as, ∃ p, (p, 16, nAddr) ∈ c.pools ∧ (d, p) ∈ l)
    (hs : ∀ d ∈ ss, ∃ size p, (p, size, nHash) ∈ c.pools ∧ (d.1, p) ∈ l ∧ (w.created.Pairwise (· ≤ ·) → 8 * d.2 ≤ size))
    (hl : (l.map (·.1)).Perm (ns ++ (as ++ ss.map (·.1)))) :
    Inv al { w with nodes := ns ++ w.nodes, addrs := as ++ w.addrs, slots := ss ++ w.slots } { c with live := l ++ c.live } ts M' := by
  have up : ∀ {name size d}, From c name size d → From { c with live := l ++ c.live } name size d := fun hf => hf.mono (fun _ h => h) (fun x h => by simp [h])
  refine ⟨h, I.tabs, I.owns, I.mine, I.apart, I.known, I.sizes, ?_, ?_, ?_, ?_, ?_⟩
  · intro d hd
    rcases List.mem_append.1 hd with hd | hd
    · obtain ⟨p, h1, h2⟩ := hn d hd
      exact ⟨p, h1, by simp [h2]⟩
    · exact up (I.nodes d hd)
  · intro d hd
    rcases List.mem_append.1 hd with hd | hd
    · obtain ⟨p, h1, h2⟩ := ha d hd
      exact ⟨p, h1, by simp [h2]⟩
    · exact up (I.addrs d hd)
  · intro d hd
    rcases List.mem_append.1 hd with hd | hd
    · obtain ⟨size, p, h1, h2, h3⟩ := hs d hd
      exact ⟨size, ⟨p, h1, by simp [h2]⟩, h3⟩
    · obtain ⟨size, h1, h2⟩ := I.slots d hd
      exact ⟨size, up h1, h2⟩
  · simp only [List.map_append]
    refine (hl.append I.all).trans ?_
    rw [List.perm_iff_count]
    intro x
    simp only [List.count_append]; omega
  · intro h1 h2 h3
    simp only [List.append_eq_nil_iff] at h1 h2 h3
    exact I.clean h1.2 h2.2 h3.2

theorem newTable_spec {al : Alloc} (G : Good al) {c : Client} {M : Mem} (h : Hist al c M) {size : Nat} (hs : size < 2 ^ 32) :
    ∃ p1 p2 p3 M', Runs (newTable al size M) (some ⟨[some p1, some p2, some p3], if size = 0 then 128 else size⟩, M') ∧
      Hist al { c with pools := c.pools ++ [(p1, 8 * (if size = 0 then 128 else size), nHash), (p2, 16, nNode), (p3, 16, nAddr)] } M' := by
  have hr : (if size = 0 then 128 else size) < 2 ^ 32 := by split <;> omega
  obtain ⟨ps, M', e, hl, h'⟩ := MemPool.c63_group_init G h (fits_descs hr)
  match ps, hl with
  | [p1, p2, p3], _ =>
      refine ⟨p1, p2, p3, M', ⟨0, fun fuel _ => ?_⟩, by simpa [descs] using h'⟩
      rw [newTable]
      simp only [e fuel, Outcome.ok_bind]; rfl

theorem Inv.table {al : Alloc} (G : Good al) {w : World} {c : Client} {ts : List (Tab × List PoolRec)} {M : Mem} (I : Inv al w c ts M) {size : Nat} (hs : size < 2 ^ 32) :
    ∃ t M' c' ts', Runs (newTable al size M) (some t, M') ∧ t.sz = (if size = 0 then 128 else size) ∧ Inv al { w with tabs := t :: w.tabs, created := t.sz :: w.created } c' ts' M' := by
  have hpos : 0 < (if size = 0 then 128 else size) := by split <;> omega
  obtain ⟨p1, p2, p3, M', e, h⟩ := newTable_spec G I.hist hs
  generalize (if size = 0 then 128 else size) = sz at e h hpos ⊢
  have hnd := pools_nodup G h
  have up : ∀ {name size d}, From c name size d → From { c with pools := c.pools ++ [(p1, 8 * sz, nHash), (p2, 16, nNode), (p3, 16, nAddr)] } name size d :=
    fun hf => hf.mono (fun _ h => by simp [h]) (fun _ h => h)
  refine ⟨⟨[some p1, some p2, some p3], sz⟩, M', _, (⟨[some p1, some p2, some p3], sz⟩, [(p1, 8 * sz, nHash), (p2, 16, nNode), (p3, 16, nAddr)]) :: ts, e, rfl, ⟨h, ?_, ?_, ?_, ?_, ?_, ?_, ?_, ?_, ?_, ?_, ?_⟩⟩
  · simp [I.tabs]
  · intro x hx
    rcases List.mem_cons.1 hx with rfl | hx
    · exact ⟨rfl, rfl⟩
    · exact I.owns x hx
  · intro q hq
    rw [List.flatMap_cons, List.mem_append] at hq
    rcases hq with hq | hq
    · exact List.mem_append_right _ hq
    · exact List.mem_append_left _ (I.mine q hq)
  · rw [List.flatMap_cons, List.nodup_append]
    have hnd := nodup_of_nodup_map hnd
    obtain ⟨h1, h2, h3⟩ := List.nodup_append.1 hnd
    exact ⟨h2, I.apart, fun a ha b hb he => h3 b (I.mine b hb) a ha he.symm⟩
  · intro q hq
    rcases List.mem_append.1 hq with hq | hq
    · exact I.known q hq
    · simp only [List.mem_cons, List.not_mem_nil, or_false] at hq
      rcases hq with rfl | rfl | rfl <;> simp [hpos]
  · have := names_ne
    have e1 : hashSizes { c with pools := c.pools ++ [(p1, 8 * sz, nHash), (p2, 16, nNode), (p3, 16, nAddr)] } = hashSizes c ++ [8 * sz] := by
      simp [hashSizes, List.filter_append, this.1.symm, this.2.1.symm]
    rw [e1]
    simp only [List.reverse_cons, List.map_append, List.map_cons, List.map_nil]
    exact I.sizes.append (List.Sublist.refl _)
  · exact fun d hd => up (I.nodes d hd)
  · exact fun d hd => up (I.addrs d hd)
  · intro d hd
    obtain ⟨size, h1, h2⟩ := I.slots d hd
    exact ⟨size, up h1, fun hm => h2 (List.pairwise_cons.1 hm).2⟩
  · exact I.all
  · intro h1 h2 h3 q hq
    rw [List.flatMap_cons, List.mem_append]
    rcases List.mem_append.1 hq with hq | hq
    · exact .inr (I.clean h1 h2 h3 q hq)
    · exact .inl hq

theorem Inv.node {al : Alloc} (G : Good al) {w : World} {c : Client} {ts : List (Tab × List PoolRec)} {M : Mem} (I : Inv al w c ts M) (parsed : Bool) :
    ∃ n a M' c', Runs (newNode al parsed M) ((n, a), M') ∧ Inv al { w with nodes := n.toList ++ w.nodes, addrs := a.toList ++ w.addrs } c' ts M' := by
  have ⟨_, ne2, ne3⟩ := names_ne
  rcases newNode_spec G I.hist parsed with ⟨_, e⟩ | ⟨q, n, M', h1, e, h2, _⟩ | ⟨q, q', n, a, M1, M', h1, h2, _, e, _, h3⟩
  · exact ⟨none, none, M, c, e, by simpa using I⟩
  · have f1 := I.found h1
    rw [f1.2 names_ne.1.symm] at f1
    exact ⟨some n, none, M', _, e, I.take [(n, q.1)] [n] [] [] h2 (by simpa using f1.1) (by simp) (by simp) (by simp)⟩
  · have f1 := I.found h1
    rw [f1.2 names_ne.1.symm] at f1
    have f2 := I.found h2
    rw [f2.2 names_ne.2.1.symm] at f2
    exact ⟨some n, some a, M', _, e, I.take [(a, q'.1), (n, q.1)] [n] [a] [] h3 (by simp; exact ⟨q.1, f1.1, .inr rfl⟩) (by simp; exact ⟨q'.1, f2.1, .inl rfl⟩) (by simp) (List.Perm.swap _ _ _)⟩

theorem Inv.search {al : Alloc} (G : Good al) {w : World} {c : Client} {ts : List (Tab × List PoolRec)} {M : Mem} (I : Inv al w c ts M) (parsed : Bool) :
    ∃ n a M' c', Runs (searchMem al parsed M) ((n, a), M') ∧ Inv al { w with nodes := n.toList ++ w.nodes, addrs := a.toList ++ w.addrs } c' ts M' := by
  have ⟨_, ne2, ne3⟩ := names_ne
  rcases newNode_spec G I.hist parsed with ⟨_, k, e⟩ | ⟨q, n, M', h1, ⟨k, e⟩, h2, _⟩ | ⟨q, q', n, a, M1, M', h1, h2, _, ⟨k, e⟩, _, h3⟩
  · exact ⟨none, none, M, c, ⟨k, fun fuel hl => by rw [searchMem, e fuel hl]; rfl⟩, by simpa using I⟩
  · have f1 := I.found h1
    rw [f1.2 names_ne.1.symm] at f1
    exact ⟨some n, none, M', _, ⟨k, fun fuel hl => by rw [searchMem, e fuel hl]; rfl⟩, I.take [(n, q.1)] [n] [] [] h2 (by simpa using f1.1) (by simp) (by simp) (by simp)⟩
  · have f2 := I.found h2
    rw [f2.2 names_ne.2.1.symm] at f2
    obtain ⟨M2, e2⟩ := (MemPool.c30_total G h3).2.2 (n, q.1) (by simp)
    have h4 := Hist.release h3 (d := n) (p := q.1) (by simp) e2
    have hnd := (MemPool.c30_disjoint G h3).1
    have hne : (a, q'.1) ≠ (n, q.1) := fun he => (List.nodup_cons.1 hnd).1 (he ▸ by simp)
    have h5 : Hist al { c with live := [(a, q'.1)] ++ c.live } M2 := by
      rw [List.erase_cons_tail (by simpa using hne), List.erase_cons_head] at h4
      exact h4
    refine ⟨none, some a, M2, _, ⟨k, fun fuel hl => ?_⟩, I.take [(a, q'.1)] [] [a] [] h5 (by simp) (by simpa using f2.1) (by simp) (by simp)⟩
    rw [searchMem, e fuel hl]
    simp only [Outcome.ok_bind, e2]; rfl

theorem Inv.slotArray {al : Alloc} (G : Good al) {w : World} {c : Client} {ts : List (Tab × List PoolRec)} {M : Mem} (I : Inv al w c ts M) {t : Tab} (ht : t ∈ w.tabs) :
    ∃ d M' c', Runs (newSlots al M) (some d, M') ∧ Inv al { w with slots := (d, t.sz) :: w.slots } c' ts M' := by
  obtain ⟨⟨p, hp⟩, _⟩ := I.own ht
  obtain ⟨q0, hq0⟩ := find_isSome hp
  rcases poolAlloc_spec G I.hist nHash with ⟨h1, _⟩ | ⟨q, d, M', h1, e, h2⟩
  · rw [h1] at hq0; cases hq0
  · have f1 := I.found h1
    exact ⟨d, M', _, e, I.take [(d, q.1)] [] [] [(d, t.sz)] h2 (by simp) (by simp)
      (by intro x hx; rw [List.mem_singleton.1 hx]; exact ⟨q.2.1, q.1, f1.1, by simp, I.room ht h1⟩) (by simp)⟩

theorem Inv.destroy {al : Alloc} (G : Good al) {w : World} {c : Client} {ts : List (Tab × List PoolRec)} {M : Mem} (I : Inv al w c ts M) {pre post : List Tab} {t : Tab}
    (ht : w.tabs = pre ++ t :: post) : ∃ M' c' ts', Runs (destroyTable t M) M' ∧ Inv al { w with tabs := pre ++ post } c' ts' M' ∧ c'.live = c.live := by
  have htt := I.tabs
  rw [ht] at htt
  obtain ⟨l1, l2, e1, e2, e3⟩ := List.map_eq_append_iff.1 htt.symm
  obtain ⟨x, l3, e4, e5, e6⟩ := List.map_eq_cons_iff.1 e3
  subst e4; subst e1
  have hx := I.owns x (by simp)
  have ap := I.apart
  simp only [List.flatMap_append, List.flatMap_cons] at ap
  have hxn : x.2.Nodup := (List.nodup_append.1 (List.nodup_append.1 ap).2.1).1
  obtain ⟨n, b, M', c', r1, r2, r3, r4, r5, r6⟩ := MemPool.c63_group_destroy G x.2 I.hist (fun q hq => I.mine q (by simp [hq])) hxn
  rw [← hx.1] at r1
  have keep : ∀ {name size d}, From c name size d → From c' name size d := by
    rintro name size d ⟨p, h1, h2⟩
    refine ⟨p, (r4 _).2 ⟨h1, fun _ => ?_⟩, by rw [r3]; exact h2⟩
    rw [held, List.any_eq_true]
    exact ⟨(d, p), h2, by simp⟩
  refine ⟨M', c', l1 ++ l3, ⟨n, fun fuel hf => ?_⟩, ⟨r2, ?_, ?_, ?_, ?_, ?_, ?_, ?_, ?_, ?_, ?_, ?_⟩, r3⟩
  · subst e5
    rw [destroyTable, r1 fuel hf]; rfl
  · simp [e2, e6]
  · intro y hy; exact I.owns y (by rcases List.mem_append.1 hy with h | h <;> simp [h])
  · intro q hq
    rw [List.flatMap_append, List.mem_append] at hq
    have hm : q ∈ c.pools := I.mine q (by rcases hq with h | h <;> simp [List.flatMap_append, List.flatMap_cons, h])
    refine (r4 q).2 ⟨hm, fun hqx => ?_⟩
    exfalso
    obtain ⟨_, n2, n3⟩ := List.nodup_append.1 ap
    obtain ⟨_, _, n4⟩ := List.nodup_append.1 n2
    rcases hq with h | h
    · exact n3 q h q (by simp [hqx]) rfl
    · exact n4 q hqx q h rfl
  · rw [List.flatMap_append]
    refine ap.sublist (List.Sublist.append (List.Sublist.refl _) (List.sublist_append_right _ _))
  · exact fun q hq => I.known q ((r4 q).1 hq).1
  · exact ((r6.filter _).map _).trans I.sizes
  · exact fun d hd => keep (I.nodes d hd)
  · exact fun d hd => keep (I.addrs d hd)
  · intro d hd
    obtain ⟨size, h1, h2⟩ := I.slots d hd
    exact ⟨size, keep h1, h2⟩
  · rw [r3]; exact I.all
  · intro h1 h2 h3 q hq
    obtain ⟨hq1, hq2⟩ := (r4 q).1 hq
    have := I.clean h1 h2 h3 q hq1
    simp only [List.flatMap_append, List.flatMap_cons, List.mem_append] at this ⊢
    rcases this with h | h | h
    · exact .inl h
    · have hh := hq2 h
      rw [held, List.any_eq_true] at hh
      obtain ⟨y, hy, _⟩ := hh
      have := I.all.mem_iff.1 (List.mem_map.2 ⟨y, hy, rfl⟩)
      simp only at h1 h2 h3
      rw [h1, h2, h3] at this
      simp at this
    · exact .inr h

theorem inv_of_use {al : Alloc} (G : Good al) {w : World} {M : Mem} (h : Use al w M) : ∃ c ts, Inv al w c ts M := by
  induction h with
  | @start M h1 h2 h3 =>
      exact ⟨⟨[], [], false⟩, [], ⟨.start h1 h2 h3, rfl, by simp, by simp, by simp, by simp, by simp [hashSizes], by simp, by simp, by simp, by simp, by simp⟩⟩
  | @table w M size t M' _ hs e ih =>
      obtain ⟨c, ts, I⟩ := ih
      obtain ⟨t', M1, c', ts', e', _, I'⟩ := I.table G hs
      cases e.unique e'
      exact ⟨c', ts', I'⟩
  | @node w M parsed n a M' _ e ih =>
      obtain ⟨c, ts, I⟩ := ih
      obtain ⟨n', a', M1, c', e', I'⟩ := I.node G parsed
      cases e.unique e'
      exact ⟨c', ts, I'⟩
  | @slots w M t d M' _ ht e ih =>
      obtain ⟨c, ts, I⟩ := ih
      obtain ⟨d', M1, c', e', I'⟩ := I.slotArray G ht
      cases e.unique e'
      exact ⟨c', ts, I'⟩
  | @search w M parsed n a M' _ e ih =>
      obtain ⟨c, ts, I⟩ := ih
      obtain ⟨n', a', M1, c', e', I'⟩ := I.search G parsed
      cases e.unique e'
      exact ⟨c', ts, I'⟩
  | @destroy w M pre t post M' _ ht e ih =>
      obtain ⟨c, ts, I⟩ := ih
      obtain ⟨M1, c', ts', e', I', _⟩ := I.destroy G ht
      cases e.unique e'
      exact ⟨c', ts', I'⟩

/-- **C94 (no undefined behaviour).** After any history, with any number of tables made and destroyed: a table can be made, and has the number of slots asked for (128 for 0); a
table can be destroyed; texts can be turned into nodes and searched; and while there is a table, a node with its record is obtained for every text that is understood, and a slot
array for every table. -/
theorem c94_total {al : Alloc} (G : Good al) {w : World} {M : Mem} (h : Use al w M) :
    (∀ size, size < 2 ^ 32 → ∃ t M', Runs (newTable al size M) (some t, M') ∧ t.sz = if size = 0 then 128 else size) ∧
    (∀ t ∈ w.tabs, (∃ M', Runs (destroyTable t M) M') ∧ (∃ d M', Runs (newSlots al M) (some d, M')) ∧ ∃ n a M', Runs (newNode al true M) ((some n, some a), M')) ∧
    ∀ parsed, (∃ r, Runs (newNode al parsed M) r) ∧ ∃ r, Runs (searchMem al parsed M) r := by
  obtain ⟨c, ts, I⟩ := inv_of_use G h
  refine ⟨fun size hs => ?_, fun t ht => ⟨?_, ?_, ?_⟩, fun parsed => ⟨?_, ?_⟩⟩
  · obtain ⟨t, M', _, _, e, hsz, _⟩ := I.table G hs
    exact ⟨t, M', e, hsz⟩
  · obtain ⟨pre, post, e⟩ := List.append_of_mem ht
    obtain ⟨M', _, _, e', _⟩ := I.destroy G e
    exact ⟨M', e'⟩
  · obtain ⟨d, M', _, e, _⟩ := I.slotArray G ht
    exact ⟨d, M', e⟩
  · obtain ⟨_, ⟨p, hp⟩, ⟨p', hp'⟩⟩ := I.own ht
    obtain ⟨q, hq⟩ := find_isSome hp
    obtain ⟨q', hq'⟩ := find_isSome hp'
    rcases newNode_spec G I.hist true with ⟨h1, _⟩ | ⟨_, _, _, _, _, _, h1 | h1⟩ | ⟨_, _, n, a, _, M', _, _, _, e, _, _⟩
    · rw [h1] at hq; cases hq
    · cases h1
    · rw [h1] at hq'; cases hq'
    · exact ⟨n, a, M', e⟩
  · obtain ⟨n, a, M', _, e, _⟩ := I.node G parsed
    exact ⟨_, e⟩
  · obtain ⟨n, a, M', _, e, _⟩ := I.search G parsed
    exact ⟨_, e⟩

/-- The memory of the nodes and address records in use. -/
def small (w : World) : List (Nat × Nat) := (w.nodes ++ w.addrs).map fun d => (d, 16)

/-- The memory of the slot arrays in use: 8 bytes for each slot of their table. -/
def arrays (w : World) : List (Nat × Nat) := w.slots.map fun d => (d.1, 8 * d.2)

/-- Inside a block that is allocated. -/
def Inside (M : Mem) (r : Nat × Nat) : Prop := ∃ b ∈ M.blocks, b.1 ≤ r.1 ∧ r.1 + r.2 ≤ b.1 + b.2

theorem pairwise_of_nodup {α : Type} {r : α → α → Prop} : ∀ {l : List α}, l.Nodup → (∀ a ∈ l, ∀ b ∈ l, a ≠ b → r a b) → l.Pairwise r := by
  intro l
  induction l with
  | nil => intro _ _; exact .nil
  | cons x xs ih =>
      intro hn h
      obtain ⟨h1, h2⟩ := List.nodup_cons.1 hn
      refine List.pairwise_cons.2 ⟨fun y hy => h x (by simp) y (by simp [hy]) (fun e => h1 (e ▸ hy)), ih h2 fun a ha b hb => h a (by simp [ha]) b (by simp [hb])⟩

/-- Elements taken are inside blocks, and apart. -/
theorem From.inside {al : Alloc} (G : Good al) {c : Client} {M : Mem} (h : Hist al c M) {name : List Byte} {size d k : Nat} (hf : From c name size d) (hk : k ≤ size) : Inside M (d, k) := by
  obtain ⟨p, h1, h2⟩ := hf
  obtain ⟨sz, nm, hm, b, hb, h3, h4⟩ := (MemPool.c30_disjoint G h).2.1 _ h2
  obtain ⟨A, S, R⟩ := MemPool.rel_of_hist G h
  have e1 := (R.sizes _ hm).1
  have e2 := (R.sizes _ h1).1
  simp only at e1 e2 h3 h4
  exact ⟨b, hb, h3, by simp only; omega⟩

theorem From.apart {al : Alloc} (G : Good al) {c : Client} {M : Mem} (h : Hist al c M) {name name' : List Byte} {size size' d d' k k' : Nat} (hf : From c name size d)
    (hf' : From c name' size' d') (hk : k ≤ size) (hk' : k' ≤ size') (hne : d ≠ d') : MemPool.Disj (d, k) (d', k') := by
  obtain ⟨p, h1, h2⟩ := hf
  obtain ⟨p', h1', h2'⟩ := hf'
  have := (MemPool.c30_disjoint G h).2.2 _ h2 _ h2' _ _ _ _ h1 h1' (by simp [hne])
  unfold MemPool.Disj
  simp only at this ⊢; omega

theorem Inv.nodup {al : Alloc} (G : Good al) {w : World} {c : Client} {ts : List (Tab × List PoolRec)} {M : Mem} (I : Inv al w c ts M) :
    (w.nodes ++ (w.addrs ++ w.slots.map (·.1))).Nodup := by
  refine I.all.nodup_iff.1 ?_
  obtain ⟨h1, h2, h3⟩ := MemPool.c30_disjoint G I.hist
  refine List.pairwise_map.2 (pairwise_of_nodup h1 ?_)
  intro x hx y hy hne he
  obtain ⟨sx, nx, hpx, _⟩ := h2 x hx
  obtain ⟨sy, ny, hpy, _⟩ := h2 y hy
  have := h3 x hx y hy _ _ _ _ hpx hpy hne
  have k1 := I.known _ hpx
  have k2 := I.known _ hpy
  simp only at k1 k2
  omega

/-- **C94 (nodes and records).** After any history, whatever tables were made, used and destroyed since, the nodes and address records obtained are inside allocated memory and
no two of them overlap: destroying a table never takes away the nodes of another one. -/
theorem c94_valid {al : Alloc} (G : Good al) {w : World} {M : Mem} (h : Use al w M) : (∀ r ∈ small w, Inside M r) ∧ (small w).Pairwise MemPool.Disj := by
  obtain ⟨c, ts, I⟩ := inv_of_use G h
  have hf : ∀ d ∈ w.nodes ++ w.addrs, ∃ name, From c name 16 d := by
    intro d hd
    rcases List.mem_append.1 hd with hd | hd
    · exact ⟨_, I.nodes d hd⟩
    · exact ⟨_, I.addrs d hd⟩
  constructor
  · intro r hr
    obtain ⟨d, hd, rfl⟩ := List.mem_map.1 hr
    obtain ⟨name, f⟩ := hf d hd
    exact f.inside G I.hist (Nat.le_refl _)
  · have hn := I.nodup G
    rw [← List.append_assoc] at hn
    refine List.pairwise_map.2 (pairwise_of_nodup (List.nodup_append.1 hn).1 fun a ha b hb hne => ?_)
    obtain ⟨_, f⟩ := hf a ha
    obtain ⟨_, f'⟩ := hf b hb
    exact f.apart G I.hist f' (Nat.le_refl _) (Nat.le_refl _) hne

/-- **C94 (slot arrays, partial).** If no table was made with more slots than an earlier one, then after any history every slot array has room for the slots of its table, inside
allocated memory, and overlaps no other slot array, node or address record. Missing: the other orders (`c94_small_violation`, `c94_overflow_violation`). -/
theorem c94_room_partial {al : Alloc} (G : Good al) {w : World} {M : Mem} (h : Use al w M) (mono : w.created.Pairwise (· ≤ ·)) :
    (∀ r ∈ small w ++ arrays w, Inside M r) ∧ (small w ++ arrays w).Pairwise MemPool.Disj := by
  obtain ⟨c, ts, I⟩ := inv_of_use G h
  have hf : ∀ r ∈ small w ++ arrays w, ∃ name size, From c name size r.1 ∧ r.2 ≤ size := by
    intro r hr
    rcases List.mem_append.1 hr with hr | hr
    · obtain ⟨d, hd, rfl⟩ := List.mem_map.1 hr
      rcases List.mem_append.1 hd with hd | hd
      · exact ⟨_, _, I.nodes d hd, Nat.le_refl _⟩
      · exact ⟨_, _, I.addrs d hd, Nat.le_refl _⟩
    · obtain ⟨d, hd, rfl⟩ := List.mem_map.1 hr
      obtain ⟨size, h1, h2⟩ := I.slots d hd
      exact ⟨_, _, h1, h2 mono⟩
  constructor
  · intro r hr
    obtain ⟨_, _, f, hk⟩ := hf r hr
    exact f.inside G I.hist hk
  · have hn : ((small w ++ arrays w).map (·.1)).Nodup := by
      have := I.nodup G
      have e : (small w ++ arrays w).map (·.1) = w.nodes ++ (w.addrs ++ w.slots.map (·.1)) := by simp [small, arrays, Function.comp_def]
      rw [e]; exact this
    have hn' := nodup_of_nodup_map hn
    generalize small w ++ arrays w = l at hf hn hn'
    refine (List.pairwise_map.1 hn).imp_of_mem fun {a b} ha hb hne => ?_
    obtain ⟨_, _, f, hk⟩ := hf a ha
    obtain ⟨_, _, f', hk'⟩ := hf b hb
    exact f.apart G I.hist f' hk hk' hne

/-- **C94 (destruction, partial).** When every table has been destroyed and nothing was ever taken for them, all memory has been given back. Missing: tables that were used
(`c94_leak_violation`). -/
theorem c94_clean_partial {al : Alloc} (G : Good al) {w : World} {M : Mem} (h : Use al w M) (ht : w.tabs = []) (h1 : w.nodes = []) (h2 : w.addrs = []) (h3 : w.slots = []) :
    M.blocks = [(poolsHead, 16)] := by
  obtain ⟨c, ts, I⟩ := inv_of_use G h
  refine (MemPool.c31_no_leak G I.hist ?_).1
  have hts : ts = [] := by
    have := I.tabs
    rw [ht] at this
    exact List.map_eq_nil_iff.1 this.symm
  rw [List.eq_nil_iff_forall_not_mem]
  intro q hq
  have := I.clean h1 h2 h3 q hq
  rw [hts] at this
  simp at this

/-- Violation of C94: after any history in which a node, an address record or a slot array was taken, be it for a table or for a search, memory stays allocated when all
tables have been destroyed, and the exit handler does not give it back either. -/
theorem c94_leak_violation {al : Alloc} (G : Good al) {w : World} {M : Mem} (h : Use al w M) {d : Nat} (hd : d ∈ w.nodes ++ (w.addrs ++ w.slots.map (·.1))) :
    (∃ b ∈ M.blocks, b.1 ≤ d ∧ d < b.1 + b.2 ∧ b ≠ (poolsHead, 16)) ∧ ∃ M', Runs (MemPool.releaseAll M) M' ∧ ∃ b ∈ M'.blocks, b.1 ≤ d ∧ d < b.1 + b.2 ∧ b ≠ (poolsHead, 16) := by
  obtain ⟨c, ts, I⟩ := inv_of_use G h
  obtain ⟨x, hx, rfl⟩ := List.mem_map.1 (I.all.mem_iff.2 hd)
  have key : ∀ {c' : Client} {M' : Mem}, Hist al c' M' → (∀ q ∈ c'.pools, q ∈ c.pools) → x ∈ c'.live → ∃ b ∈ M'.blocks, b.1 ≤ x.1 ∧ x.1 < b.1 + b.2 ∧ b ≠ (poolsHead, 16) := by
    intro c' M' h' hp hx'
    obtain ⟨A, S, R⟩ := MemPool.rel_of_hist G h'
    obtain ⟨sz, nm, hm, -⟩ := (MemPool.c30_disjoint G h').2.1 x hx'
    obtain ⟨e, he, hl, g, hg, hel, _⟩ := (R.live x.1 x.2).1 hx'
    have k := I.known _ (hp _ hm)
    have hpos : 0 < (M'.pool x.2).eltSize := by
      rw [(R.sizes _ hm).1]
      simp only at k ⊢; omega
    have hin := R.inv.elt_in hl hel
    have hep := R.inv.epp x.2 hl
    have hmul : 1 * (24 + (M'.pool x.2).eltSize) ≤ (M'.pool x.2).epp * (24 + (M'.pool x.2).eltSize) := Nat.mul_le_mul_right _ hep.1
    refine ⟨_, R.inv.bpage x.2 hl g hg, by simp only; omega, by simp only; omega, ?_⟩
    simp only [ne_eq, Prod.mk.injEq, not_and]
    intro _; omega
  refine ⟨key I.hist (fun _ h => h) hx, ?_⟩
  obtain ⟨M', c', e, h', hp, hl⟩ := MemPool.c62_exit G I.hist
  refine ⟨M', e, key h' (fun q hq => ?_) (hl ▸ hx)⟩
  rw [hp] at hq
  exact (List.mem_filter.1 hq).1

/-- Element size of the pool in which slot arrays are taken. -/
def slotRoom (M : Mem) (fuel : Nat) : Outcome (Option Nat) := do
  match ← MemPool.get M nHash fuel with
  | none => pure none
  | some p => do
      let s ← MemPool.getStats M p
      pure (some s.eltSize)

theorem slotRoom_spec {al : Alloc} (G : Good al) {c : Client} {M : Mem} (h : Hist al c M) :
    Runs (slotRoom M) ((c.pools.find? (fun x => x.2.2 = nHash)).map (·.2.1)) := by
  obtain ⟨k, hk⟩ := MemPool.c61_get G h nHash
  refine ⟨k, fun fuel hl => ?_⟩
  rw [slotRoom, hk fuel hl]
  cases hf : c.pools.find? (fun x => x.2.2 = nHash) with
  | none => rfl
  | some q =>
      obtain ⟨A, S, R⟩ := MemPool.rel_of_hist G h
      have hq := List.mem_of_find?_eq_some hf
      simp only [Outcome.ok_bind, Option.map_some, MemPool.getStats, MemPool.chk_ok (R.inv.bpool q.1 (R.mem hq).2) (Nat.le_refl _) (Nat.le_refl _), (R.sizes q hq).1]
      rfl

/-- Violation of C94: with two tables, the second with more slots, the slot arrays of the second are taken from a pool whose elements are too small for them. -/
theorem c94_small_violation {al : Alloc} (G : Good al) {M0 M1 M2 : Mem} (h : Use al ⟨[], [], [], [], []⟩ M0) {s1 s2 : Nat} (h1 : 0 < s1) (h2 : s1 < s2) (h3 : s2 < 2 ^ 32) {t1 t2 : Tab}
    (e1 : Runs (newTable al s1 M0) (some t1, M1)) (e2 : Runs (newTable al s2 M1) (some t2, M2)) : t2.sz = s2 ∧ Runs (slotRoom M2) (some (8 * s1)) ∧ 8 * s1 < 8 * t2.sz := by
  obtain ⟨c, ts, I⟩ := inv_of_use G h
  obtain ⟨p1, p2, p3, M', r1, g1⟩ := newTable_spec G I.hist (size := s1) (by omega)
  cases e1.unique r1
  obtain ⟨p1', p2', p3', M', r2, g2⟩ := newTable_spec G g1 (size := s2) h3
  cases e2.unique r2
  have hc : c.pools = [] := by
    rw [List.eq_nil_iff_forall_not_mem]
    intro q hq
    have := I.clean rfl rfl rfl q hq
    have ht := I.tabs
    rw [List.map_eq_nil_iff.1 ht.symm] at this
    simp at this
  have := slotRoom_spec G g2
  rw [if_neg (show ¬ s1 = 0 by omega), hc] at this
  refine ⟨if_neg (by omega), ?_, ?_⟩
  · simpa using this
  · simp only [if_neg (show ¬ s2 = 0 by omega)]; omega

/-- Violation of C94: the same after the first table has been destroyed, if it had a slot array: its pool stays. -/
theorem c94_stale_violation {al : Alloc} (G : Good al) {M0 M1 M2 M3 M4 : Mem} (h : Use al ⟨[], [], [], [], []⟩ M0) {s1 s2 d : Nat} (h1 : 0 < s1) (h2 : s1 < s2) (h3 : s2 < 2 ^ 32)
    {t1 t2 : Tab} (e1 : Runs (newTable al s1 M0) (some t1, M1)) (e2 : Runs (newSlots al M1) (some d, M2)) (e3 : Runs (destroyTable t1 M2) M3)
    (e4 : Runs (newTable al s2 M3) (some t2, M4)) : t2.sz = s2 ∧ Runs (slotRoom M4) (some (8 * s1)) ∧ 8 * s1 < 8 * t2.sz := by
  have k1 := Use.table h (by omega) e1
  have k2 := Use.slots k1 (t := t1) (by simp) e2
  have k3 := Use.destroy k2 (pre := []) (t := t1) (post := []) rfl e3
  obtain ⟨c, ts, I⟩ := inv_of_use G k3
  obtain ⟨c0, ts0, I0⟩ := inv_of_use G h
  obtain ⟨p1, p2, p3, M', r1, g1⟩ := newTable_spec G I0.hist (size := s1) (by omega)
  cases e1.unique r1
  obtain ⟨p1', p2', p3', M', r2, g2⟩ := newTable_spec G I.hist (size := s2) h3
  cases e4.unique r2
  have hsz : (if s1 = 0 then 128 else s1) = s1 := if_neg (by omega)
  have hcs := I.sizes
  obtain ⟨size, ⟨p, hp, _⟩, _⟩ := I.slots (d, if s1 = 0 then 128 else s1) (by simp)
  obtain ⟨q, hq⟩ := find_isSome hp
  have hq1 : q.2.1 ∈ hashSizes c := List.mem_map.2 ⟨q, List.mem_filter.2 ⟨List.mem_of_find?_eq_some hq, by simpa using List.find?_some hq⟩, rfl⟩
  have hq2 := hcs.mem hq1
  simp only [hsz, List.reverse_cons, List.reverse_nil, List.nil_append, List.map_cons, List.map_nil, List.mem_singleton] at hq2
  have := slotRoom_spec G g2
  rw [List.find?_append, hq] at this
  refine ⟨if_neg (by omega), ?_, ?_⟩
  · simpa [hq2] using this
  · simp only [if_neg (show ¬ s2 = 0 by omega)]; omega

/-- Two tables, and two slot arrays for the second: where they are, and whether clearing the first one (zt_ipv4_tbl.c 163) stays inside allocated memory. -/
def twoArrays (s1 s2 : Nat) : Outcome (Nat × Nat × Outcome Unit) := do
  let (_, M) ← newTable MemPool.bump s1 MemPool.start 20
  let (_, M) ← newTable MemPool.bump s2 M 20
  let (d1, M) ← newSlots MemPool.bump M 20
  let (d2, M) ← newSlots MemPool.bump M 20
  pure (d1.getD 0, d2.getD 0, MemPool.chk M (d1.getD 0) (8 * s2))

/-- Violation of C94: after a table with one slot, the slot array of a table with 600 slots is cleared beyond the end of the allocated block; that of a table with two slots
stays inside the block, but its second slot is the first word of the header of the next array. -/
theorem c94_overflow_violation : (twoArrays 1 600 = .ok (296, 328, .ub)) ∧ twoArrays 1 2 = .ok (296, 328, .ok ()) ∧ 296 + 8 * 1 = 328 - 24 := by decide +kernel

/-- Two tables of the same size, each used, the first one destroyed: the hypotheses of the theorems are met. -/
example : ∃ w M, Use MemPool.bump w M ∧ w.created.Pairwise (· ≤ ·) ∧ w.tabs.length = 1 ∧ w.nodes.length = 2 ∧ w.slots.length = 2 := by
  have G := MemPool.bump_good
  have h0 : Use MemPool.bump ⟨[], [], [], [], []⟩ MemPool.start := .start rfl rfl rfl
  obtain ⟨t1, M1, e1, z1⟩ := (c94_total G h0).1 8 (by decide)
  have h1 := Use.table h0 (by decide) e1
  obtain ⟨t2, M2, e2, z2⟩ := (c94_total G h1).1 8 (by decide)
  have h2 := Use.table h1 (by decide) e2
  obtain ⟨n1, a1, M3, e3⟩ := ((c94_total G h2).2.1 t1 (by simp)).2.2
  have h3 := Use.node h2 e3
  obtain ⟨d1, M4, e4⟩ := ((c94_total G h3).2.1 t1 (by simp)).2.1
  have h4 := Use.slots h3 (t := t1) (by simp) e4
  obtain ⟨n2, a2, M5, e5⟩ := ((c94_total G h4).2.1 t2 (by simp)).2.2
  have h5 := Use.node h4 e5
  obtain ⟨d2, M6, e6⟩ := ((c94_total G h5).2.1 t2 (by simp)).2.1
  have h6 := Use.slots h5 (t := t2) (by simp) e6
  obtain ⟨M7, e7⟩ := ((c94_total G h6).2.1 t1 (by simp)).1
  have h7 := Use.destroy h6 (pre := [t2]) (t := t1) (post := []) rfl e7
  exact ⟨_, _, h7, by simp [z1, z2], rfl, rfl, rfl⟩

end ZT.Ipv4.Proc
