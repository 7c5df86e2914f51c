import Verif.Table.Proc

/-!
# C98: the invariant of all tables of a process
-/

namespace ZT.Table.Proc

open MemPool (Mem Alloc Hist Client)

/-- Bucket of a key. -/
def Tab.ix (t : Tab) (k : Key) : Nat := (fold (t.cb.hash k) t.nbits).toNat

/-- A table, what it should contain and the number of its nodes: the entries added less the entries deleted. -/
structure Rec where
  t : Tab
  s : Bag
  n : Nat

/-- The process: its tables, the nodes, the pools, the other blocks; whether a table was ever made, the number of nodes lost by tables that were destroyed, and the number of
destroyed tables that had lost nodes. -/
structure World where
  tabs : List Rec
  H : Nat → Option Node
  M : Mem
  P : Blocks
  made : Bool
  left : Nat
  stuck : Nat

/-- The nodes of one pool. -/
def own (c : Client) (p : Nat) (H : Nat → Option Node) : Nat → Option Node := fun a => if (a, p) ∈ c.live then H a else none

/-- The other nodes. -/
def rest (c : Client) (p : Nat) (H : Nat → Option Node) : Nat → Option Node := fun a => if (a, p) ∈ c.live then none else H a

theorem join_own (c : Client) (t : Tab) (p : Nat) (H : Nat → Option Node) : join (view t (own c p H)) (rest c p H) = view t H := by
  simp only [join, view, Tbl.mk.injEq, true_and]
  funext x
  simp only [own, rest]
  split <;> simp

theorem apart_own (c : Client) (t : Tab) (p : Nat) (H : Nat → Option Node) : Apart (view t (own c p H)) (rest c p H) := by
  intro x hx
  simp only [view, own] at hx
  simp only [rest]
  split at hx
  · rw [if_pos (by assumption)]
  · exact absurd rfl hx

/-- What holds for one table. -/
structure Loc (c : Client) (H : Nat → Option Node) (x : Rec) : Prop where
  abs : ∃ C Z L, AbsX x.t.cb (view x.t (own c x.t.pool H)) C Z x.s L
  full : ∀ a, (a, x.t.pool) ∈ c.live → H a ≠ none
  pool : (x.t.pool, 48, poolName x.t.name) ∈ c.pools
  addr : ∃ sp, (sp, 80, nTable) ∈ c.pools ∧ (x.t.addr, sp) ∈ c.live
  count : c.live.countP (fun y => y.2 = x.t.pool) = x.n

/-- The blocks of a table. -/
def Tab.blocks (t : Tab) : List Nat := [t.heapB, t.heapN, t.nameB]

/-- The number of elements of tables. -/
def elements (l : List Rec) : Nat := (l.map fun x => x.n + 1).sum

/-- The invariant. -/
structure Inv (al : Alloc) (w : World) (c : Client) : Prop where
  hist : Hist al c w.M
  loc : ∀ x ∈ w.tabs, Loc c w.H x
  pools : (w.tabs.map (·.t.pool)).Nodup
  addrs : (w.tabs.map (·.t.addr)).Nodup
  known : ∀ q ∈ c.pools, (q.2.2 = nTable ∧ q.2.1 = 80) ∨ ((∃ nm, q.2.2 = poolName nm) ∧ q.2.1 = 48)
  shared : (c.pools.filter fun q => q.2.2 = nTable).length = if w.made then 1 else 0
  npools : c.pools.length = w.tabs.length + w.stuck + if w.made then 1 else 0
  nlive : c.live.length = elements w.tabs + w.left
  blocks : w.P.live.Perm (w.tabs.flatMap fun x => x.t.blocks)
  bnodup : w.P.live.Nodup
  bnext : ∀ b ∈ w.P.live, b < w.P.next

theorem poolName_ne (nm : List Byte) : poolName nm ≠ nTable := by
  intro h
  have := congrArg List.length h
  simp [poolName, nTable, suffix] at this
  omega

/-- An address is an element of one pool only. -/
theorem one_pool {al : Alloc} (G : MemPool.Good al) {c : Client} {M : Mem} (h : Hist al c M) (hk : ∀ q ∈ c.pools, 0 < q.2.1) {a p p' : Nat} (h1 : (a, p) ∈ c.live) (h2 : (a, p') ∈ c.live) :
    p = p' := by
  obtain ⟨_, h3, h4⟩ := MemPool.c30_disjoint G h
  obtain ⟨s1, n1, q1, _⟩ := h3 _ h1
  obtain ⟨s2, n2, q2, _⟩ := h3 _ h2
  refine Decidable.byContradiction fun hne => ?_
  have := h4 _ h1 _ h2 _ _ _ _ q1 q2 (fun e => hne (congrArg Prod.snd e))
  have g1 := hk _ q1
  have g2 := hk _ q2
  simp only at this g1 g2
  omega

theorem Inv.pos {al : Alloc} {w : World} {c : Client} (I : Inv al w c) : ∀ q ∈ c.pools, 0 < q.2.1 := by
  intro q hq
  rcases I.known q hq with h | h <;> omega

theorem pools_nodup {al : Alloc} (G : MemPool.Good al) {c : Client} {M : Mem} (h : Hist al c M) : (c.pools.map (·.1)).Nodup := by
  obtain ⟨A, S, R⟩ := MemPool.rel_of_hist G h
  exact R.nodupPools

/-- A pool has one size and one name. -/
theorem one_name {al : Alloc} (G : MemPool.Good al) {c : Client} {M : Mem} (h : Hist al c M) {p s s' : Nat} {n n' : List Byte} (h1 : (p, s, n) ∈ c.pools) (h2 : (p, s', n') ∈ c.pools) :
    s = s' ∧ n = n' := by
  have hn := pools_nodup G h
  have : ∀ l : List (Nat × Nat × List Byte), (l.map (·.1)).Nodup → (p, s, n) ∈ l → (p, s', n') ∈ l → s = s' ∧ n = n' := by
    intro l
    induction l with
    | nil => intro _ h; cases h
    | cons y ys ih =>
        intro hn h1 h2
        simp only [List.map_cons, List.nodup_cons] at hn
        rcases List.mem_cons.1 h1 with e1 | e1 <;> rcases List.mem_cons.1 h2 with e2 | e2
        · rw [← e1] at e2; cases e2; exact ⟨rfl, rfl⟩
        · exact absurd (List.mem_map.2 ⟨_, e2, by rw [← e1]⟩) hn.1
        · exact absurd (List.mem_map.2 ⟨_, e1, by rw [← e2]⟩) hn.1
        · exact ih hn.2 e1 e2
  exact this _ hn h1 h2

/-- What concerns other pools leaves a table alone. -/
theorem Loc.frame {c c' : Client} {H H' : Nat → Option Node} {y : Rec} (L : Loc c H y) (h1 : ∀ a, (a, y.t.pool) ∈ c'.live ↔ (a, y.t.pool) ∈ c.live)
    (h2 : c'.live.countP (fun z => z.2 = y.t.pool) = c.live.countP (fun z => z.2 = y.t.pool)) (h3 : ∀ a, (a, y.t.pool) ∈ c.live → H' a = H a)
    (h4 : ∀ s n, (y.t.pool, s, n) ∈ c.pools → (y.t.pool, s, n) ∈ c'.pools) (h5 : ∀ sp, (sp, 80, nTable) ∈ c.pools → (y.t.addr, sp) ∈ c.live → (sp, 80, nTable) ∈ c'.pools ∧ (y.t.addr, sp) ∈ c'.live) :
    Loc c' H' y ∧ own c' y.t.pool H' = own c y.t.pool H := by
  have he : own c' y.t.pool H' = own c y.t.pool H := by
    funext a
    simp only [own]
    by_cases hc : (a, y.t.pool) ∈ c.live
    · rw [if_pos hc, if_pos ((h1 a).2 hc), h3 a hc]
    · rw [if_neg hc, if_neg (fun h => hc ((h1 a).1 h))]
  refine ⟨⟨?_, fun a ha => ?_, h4 _ _ L.pool, ?_, h2.trans L.count⟩, he⟩
  · rw [he]; exact L.abs
  · rw [h3 a ((h1 a).1 ha)]; exact L.full a ((h1 a).1 ha)
  · obtain ⟨sp, a1, a2⟩ := L.addr
    exact ⟨sp, h5 sp a1 a2⟩

theorem elements_mid (pre post : List Rec) (x : Rec) : elements (pre ++ x :: post) = elements (pre ++ post) + (x.n + 1) := by
  simp only [elements, List.map_append, List.map_cons, List.sum_append, List.sum_cons]; omega

/-- Exchanging a table for its next state. -/
theorem Inv.step {al : Alloc} {w : World} {c c' : Client} (I : Inv al w c) {pre post : List Rec} {x x' : Rec} (hw : w.tabs = pre ++ x :: post) {H' : Nat → Option Node} {M' : Mem}
    (hh : Hist al c' M') (hp : c'.pools = c.pools) (ht : x'.t.pool = x.t.pool ∧ x'.t.addr = x.t.addr ∧ x'.t.blocks = x.t.blocks) (hl : c'.live.length + x.n = c.live.length + x'.n)
    (hx : Loc c' H' x') (ho : ∀ y ∈ pre ++ post, Loc c' H' y) : Inv al { w with tabs := pre ++ x' :: post, H := H', M := M' } c' := by
  have h1 := I.pools
  have h2 := I.addrs
  have h3 := I.npools
  have h4 := I.nlive
  have h5 := I.blocks
  rw [hw] at h1 h2 h3 h4 h5
  refine ⟨hh, ?_, ?_, ?_, ?_, ?_, ?_, ?_, ?_, I.bnodup, I.bnext⟩
  · intro y hy
    simp only [List.mem_append, List.mem_cons] at hy
    rcases hy with hy | rfl | hy
    · exact ho y (by simp [hy])
    · exact hx
    · exact ho y (by simp [hy])
  · simpa [ht.1] using h1
  · simpa [ht.2.1] using h2
  · rw [hp]; exact I.known
  · rw [hp]; exact I.shared
  · rw [hp, h3]; simp
  · rw [elements_mid] at h4 ⊢
    simp only
    omega
  · simpa [ht.2.2] using h5

/-- Pools of different tables are different. -/
theorem Inv.other {al : Alloc} {w : World} {c : Client} (I : Inv al w c) {pre post : List Rec} {x : Rec} (hw : w.tabs = pre ++ x :: post) : ∀ y ∈ pre ++ post, y.t.pool ≠ x.t.pool := by
  intro y hy he
  have h1 := I.pools
  rw [hw] at h1
  simp only [List.map_append, List.map_cons] at h1
  have := (List.nodup_cons.1 (List.perm_middle.nodup_iff.1 h1)).1
  rw [← he] at this
  apply this
  rw [← List.map_append]
  exact List.mem_map.2 ⟨y, hy, rfl⟩

theorem Inv.mem {al : Alloc} {w : World} {c : Client} (I : Inv al w c) {pre post : List Rec} {x : Rec} (hw : w.tabs = pre ++ x :: post) : Loc c w.H x := I.loc x (by rw [hw]; simp)

/-- zt_table_set -/
theorem set_inv {al : Alloc} (G : MemPool.Good al) {w : World} {c : Client} (I : Inv al w c) {pre post : List Rec} {x : Rec} (hw : w.tabs = pre ++ x :: post) (k : Key) (d dl : Nat) :
    ∃ (r : Int) (t' : Tab) (H' : Nat → Option Node) (M' : Mem) (c' : Client), Runs (setT al x.t k d dl w.H w.M) (r, t', H', M') ∧
      (x.s.step x.t.cb x.t.dup x.t.ix (.set k d dl)).1 = .int r ∧
      Inv al { w with tabs := pre ++ ⟨t', (x.s.step x.t.cb x.t.dup x.t.ix (.set k d dl)).2, if r = 0 then x.n + 1 else x.n⟩ :: post, H := H', M := M' } c' ∧
      (t'.cb = x.t.cb ∧ t'.nbits = x.t.nbits ∧ t'.dup = x.t.dup) ∧ ∀ y ∈ pre ++ post, own c' y.t.pool H' = own c y.t.pool w.H := by
  have Lx := I.mem hw
  obtain ⟨C, Z, L, A⟩ := Lx.abs
  have hi : x.t.ix k < x.t.num := A.range k
  have hfind : ∀ fuel, L < fuel → find x.t.cb (view x.t w.H) k fuel (x.t.buckets (x.t.ix k)) = .ok ((C (x.t.ix k)).find? fun y => hit x.t.cb y.2 k) := by
    intro fuel hf
    have := find_spec x.t.cb (view x.t (own c x.t.pool w.H)) k (C (x.t.ix k)) _ fuel (A.rep.chain (x.t.ix k)) (by have := A.len (x.t.ix k); omega)
    have := find_join (R := rest c x.t.pool w.H) this
    rw [join_own] at this
    exact this
  have hany : ((C (x.t.ix k)).find? fun y => hit x.t.cb y.2 k).isSome = (x.s.bucket (x.t.ix k)).any (Meets x.t.cb k) := by
    have := find_meets A.rep (x.t.ix k) k
    rw [this, A.buckets, List.any_map, List.isSome_find?]; rfl
  by_cases hc : (!x.t.dup && (x.s.bucket (x.t.ix k)).any (Meets x.t.cb k)) = true
  · refine ⟨1, x.t, w.H, w.M, c, ⟨L + 1, fun fuel hf => ?_⟩, ?_, ?_, ⟨rfl, rfl, rfl⟩, fun y _ => rfl⟩
    · rw [setT]
      simp only [Bool.and_eq_true, Bool.not_eq_true'] at hc
      refine Outcome.bind_eq_ok.2 ⟨x.t.buckets (x.t.ix k), if_pos hi, ?_⟩
      rw [← hany] at hc
      obtain ⟨z, hz⟩ := Option.isSome_iff_exists.1 hc.2
      refine Outcome.bind_eq_ok.2 ⟨some z, ?_, rfl⟩
      rw [searchDup, if_neg (by simp [view, hc.1]), hfind fuel (by omega), hz]
    · simp only [Bag.step, if_pos hc]
    · have := I.step hw (x' := ⟨x.t, x.s, x.n⟩) I.hist rfl ⟨rfl, rfl, rfl⟩ rfl Lx (fun y hy => I.loc y (by rw [hw]; simp at hy ⊢; grind))
      simpa only [Bag.step, if_pos hc, show ¬ (1 : Int) = 0 by decide, if_false] using this
  · have hfn : x.t.dup = true ∨ ((C (x.t.ix k)).find? fun y => hit x.t.cb y.2 k) = none := by
      cases hd : x.t.dup with
      | true => exact .inl rfl
      | false =>
          right
          simp only [hd, Bool.not_false, Bool.true_and, ← hany] at hc
          simpa using hc
    obtain ⟨⟨a, M', ea⟩, _⟩ := (MemPool.c30_total G I.hist).2.1 _ Lx.pool
    have hh := Hist.alloc I.hist Lx.pool ea
    obtain ⟨hna, hdj⟩ := MemPool.c30_alloc G I.hist Lx.pool ea
    have hloc : (own c x.t.pool w.H) a = none := by simp only [own]; rw [if_neg hna]
    obtain ⟨T', C', e1, e2, e3, e4, A'⟩ := set_x A (L + 1) (by omega) k d dl a hloc
    have hdup : (view x.t (own c x.t.pool w.H)).dup = x.t.dup := rfl
    have hix : index x.t.cb (view x.t (own c x.t.pool w.H)) = x.t.ix := rfl
    have hset := set_spec A.rep (L + 1) k d dl a (A.range k) (by have := A.len (index x.t.cb (view x.t (own c x.t.pool w.H)) k); omega)
    rw [hix, hdup, hany, if_neg hc] at hset
    have hT : T' = pushed (view x.t (own c x.t.pool w.H)) (x.t.ix k) a ⟨k, d, dl, x.t.cb.hash k⟩ := by
      simp only [exec, hset, Outcome.ok_bind, Outcome.pure_eq, Outcome.ok.injEq, Prod.mk.injEq] at e1
      exact e1.2.symm
    subst hT
    rw [hdup, hix] at A'
    have hother : ∀ y ∈ pre ++ post, Loc { c with live := (a, x.t.pool) :: c.live } (fun z => if z = a then some ⟨⟨k, d, dl, x.t.cb.hash k⟩, x.t.buckets (x.t.ix k)⟩ else w.H z) y ∧
        own { c with live := (a, x.t.pool) :: c.live } y.t.pool (fun z => if z = a then some ⟨⟨k, d, dl, x.t.cb.hash k⟩, x.t.buckets (x.t.ix k)⟩ else w.H z) = own c y.t.pool w.H := by
      intro y hy
      have hne := I.other hw y hy
      have Ly := I.loc y (by rw [hw]; simp at hy ⊢; grind)
      refine Ly.frame ?_ ?_ ?_ (fun _ _ h => h) (fun sp h1 h2 => ⟨h1, by simp [h2]⟩)
      · intro b; simp [hne]
      · have := Ne.symm hne
        simp [List.countP_cons, this]
      · intro b hb
        have : b ≠ a := by
          rintro rfl
          have h1 := hdj _ hb _ _ Ly.pool
          simp only at h1
          omega
        simp [this]
    refine ⟨0, put x.t (pushed (view x.t w.H) (x.t.ix k) a ⟨k, d, dl, x.t.cb.hash k⟩), _, M', { c with live := (a, x.t.pool) :: c.live }, ⟨L + 1, fun fuel hf => ?_⟩, ?_, ?_, ⟨rfl, rfl, rfl⟩,
      fun y hy => (hother y hy).2⟩
    · rw [setT]
      refine Outcome.bind_eq_ok.2 ⟨x.t.buckets (x.t.ix k), if_pos hi, ?_⟩
      refine Outcome.bind_eq_ok.2 ⟨none, ?_, ?_⟩
      · rw [searchDup]
        rcases hfn with h | h
        · exact if_pos h
        · cases hd : x.t.dup with
          | true => exact if_pos hd
          | false =>
              rw [if_neg (show ¬ (view x.t w.H).dup = true by simp [view, hd])]
              rw [hfind fuel (by omega), h]
      · refine Outcome.bind_eq_ok.2 ⟨_, ea, ?_⟩
        refine Outcome.bind_eq_ok.2 ⟨x.t.buckets (x.t.ix k), if_pos hi, ?_⟩
        refine Outcome.bind_eq_ok.2 ⟨_, if_pos hi, rfl⟩
    · simp only [Bag.step, if_neg hc]
    · refine I.step hw hh rfl ⟨rfl, rfl, rfl⟩ (by simp only [if_true, List.length_cons]; omega) ⟨⟨C', Z, L + 1, ?_⟩, ?_, Lx.pool, ?_, ?_⟩ (fun y hy => (hother y hy).1)
      · have he : view (put x.t (pushed (view x.t w.H) (x.t.ix k) a ⟨k, d, dl, x.t.cb.hash k⟩)) (own { c with live := (a, x.t.pool) :: c.live } x.t.pool
            (fun z => if z = a then some ⟨⟨k, d, dl, x.t.cb.hash k⟩, x.t.buckets (x.t.ix k)⟩ else w.H z)) =
            pushed (view x.t (own c x.t.pool w.H)) (x.t.ix k) a ⟨k, d, dl, x.t.cb.hash k⟩ := by
          simp only [view, put, pushed, Tbl.mk.injEq, true_and]
          funext z
          simp only [own, List.mem_cons, Prod.mk.injEq, and_true]
          by_cases cz : z = a
          · simp [cz]
          · simp [cz]
        rw [← he] at A'
        exact A'
      · intro b hb
        by_cases cb' : b = a
        · simp [cb']
        · simp only [cb', if_false]
          simp only [List.mem_cons, Prod.mk.injEq] at hb
          rcases hb with hb | hb
          · exact absurd hb.1 cb'
          · exact Lx.full b hb
      · obtain ⟨sp, h1, h2⟩ := Lx.addr
        exact ⟨sp, h1, by simp only [List.mem_cons]; exact .inr h2⟩
      · have := Lx.count
        simp only [put, List.countP_cons, decide_true, if_true]
        exact congrArg (· + 1) this

end ZT.Table.Proc
