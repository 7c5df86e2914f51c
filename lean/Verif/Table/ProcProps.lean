import Verif.Table.ProcLife

/-!
# C98: the theorems
-/

namespace ZT.Table.Proc

open MemPool (Mem Alloc Hist Client)

theorem fits_node (n : Int) : MemPool.Fits n 48 := .inl (by decide)

/-- zt_table_init -/
theorem new_inv {al : Alloc} (G : MemPool.Good al) {w : World} {c : Client} (I : Inv al w c) (cb : Callbacks) (nm : List Byte) (hint : Nat) (useHint dup : Bool)
    (hr : InRange cb (init hint useHint dup)) :
    ∃ (t : Tab) (M' : Mem) (P' : Blocks) (c' : Client), Runs (newTable al cb (some nm) hint useHint dup w.M w.P) (t, M', P') ∧
      Inv al { w with tabs := ⟨t, ⟨fun _ => [], []⟩, 0⟩ :: w.tabs, M := M', P := P', made := true } c' ∧ t.cb = cb ∧ t.dup = dup ∧ t.num = (init hint useHint dup).num ∧ t.nbits = (init hint useHint dup).nbits := by
  -- the shared pool
  have hs : ∃ (k sp : Nat) (M1 : Mem) (c1 : Client), (∀ fuel, k ≤ fuel → ∃ g, MemPool.get w.M nTable fuel = .ok g ∧ sharedPool al w.M g = .ok (sp, M1)) ∧ Hist al c1 M1 ∧ c1.live = c.live ∧
      (sp, 80, nTable) ∈ c1.pools ∧ (∀ q ∈ c.pools, q ∈ c1.pools) ∧ (∀ q ∈ c1.pools, (q.2.2 = nTable ∧ q.2.1 = 80) ∨ ((∃ nm, q.2.2 = poolName nm) ∧ q.2.1 = 48)) ∧
      (c1.pools.filter fun q => decide (q.2.2 = nTable)).length = 1 ∧ c1.pools.length = w.tabs.length + w.stuck + 1 := by
    obtain ⟨k, hk⟩ := MemPool.c61_get G I.hist nTable
    have hsh := I.shared
    have hnp := I.npools
    cases hf : c.pools.find? (fun y => y.2.2 = nTable) with
    | some q =>
        have hq := List.mem_of_find?_eq_some hf
        have hn : q.2.2 = nTable := by simpa using List.find?_some hf
        have hm : w.made = true := by
          cases hm : w.made with
          | true => rfl
          | false =>
              rw [hm] at hsh
              have : q ∈ c.pools.filter fun q => decide (q.2.2 = nTable) := List.mem_filter.2 ⟨hq, by simpa using hn⟩
              rw [List.length_eq_zero_iff.1 hsh] at this
              cases this
        rw [hm] at hsh hnp
        refine ⟨k, q.1, w.M, c, fun fuel hl => ⟨some q.1, ?_, rfl⟩, I.hist, rfl, ?_, fun _ h => h, I.known, hsh, hnp⟩
        · rw [hk fuel hl, hf]; rfl
        · rcases I.known q hq with h | h
          · rw [← h.1, ← h.2]; exact hq
          · obtain ⟨⟨nm', h1⟩, _⟩ := h
            exact absurd (h1.symm.trans hn) (poolName_ne nm')
    | none =>
        have hno : ∀ q ∈ c.pools, q.2.2 ≠ nTable := fun q hq => by simpa using List.find?_eq_none.1 hf q hq
        have he : c.pools.filter (fun q => decide (q.2.2 = nTable)) = [] := by
          rw [List.filter_eq_nil_iff]
          intro q hq
          simp [hno q hq]
        have hm : w.made = false := by
          cases hm : w.made with
          | false => rfl
          | true => rw [hm, he] at hsh; cases hsh
        rw [hm] at hnp
        obtain ⟨p, M1, e⟩ := (MemPool.c30_total G I.hist).1 nTable 2 80 MemPool.defaultTest 0 (.inl (by decide))
        refine ⟨k, p, M1, _, fun fuel hl => ⟨none, ?_, ?_⟩, Hist.init I.hist (.inl (by decide)) e, rfl, by simp, fun q hq => by simp [hq], ?_, ?_, ?_⟩
        · rw [hk fuel hl, hf]; rfl
        · rw [sharedPool]
          exact Outcome.bind_eq_ok.2 ⟨_, e, rfl⟩
        · intro q hq
          rcases List.mem_append.1 hq with hq | hq
          · exact I.known q hq
          · left; rw [List.mem_singleton.1 hq]; exact ⟨rfl, rfl⟩
        · show ((c.pools ++ [(p, 80, nTable)]).filter fun q : Nat × Nat × List Byte => decide (q.2.2 = nTable)).length = 1
          rw [List.filter_append, he]; simp
        · simp only [List.length_append, List.length_singleton]
          simp only [Bool.false_eq_true, if_false] at hnp
          omega
  obtain ⟨k, sp, M1, c1, e1, h1, hl1, hsp, hsub, hkn, hfl, hpl⟩ := hs
  obtain ⟨⟨h, M2, e2⟩, _⟩ := (MemPool.c30_total G h1).2.1 _ hsp
  have h2 := Hist.alloc h1 hsp e2
  obtain ⟨hna, hdj⟩ := MemPool.c30_alloc G h1 hsp e2
  obtain ⟨p, M3, e3⟩ := (MemPool.c30_total G h2).1 (poolName nm) (signed (init hint useHint dup).num) 48 MemPool.defaultTest 0 (fits_node _)
  have h3 := Hist.init h2 (fits_node _) e3
  have hpn := pools_nodup G h3
  have hpnew : ∀ q ∈ c1.pools, q.1 ≠ p := by
    intro q hq he
    simp only [List.map_append, List.map_cons, List.map_nil] at hpn
    rw [List.nodup_append] at hpn
    exact hpn.2.2 q.1 (List.mem_map.2 ⟨q, hq, rfl⟩) p (by simp) he
  have hlivep : ∀ a p', (a, p') ∈ (h, sp) :: c1.live → p' ≠ p := by
    intro a p' hm
    obtain ⟨sz, name, hq, _⟩ := (MemPool.c30_disjoint G h2).2.1 _ hm
    exact hpnew _ hq
  have hA := init_x cb hint useHint dup hr
  refine ⟨⟨cb, (init hint useHint dup).nbits, (init hint useHint dup).dup, (init hint useHint dup).num, (init hint useHint dup).buckets, p, h, w.P.next, w.P.next + 1, w.P.next + 1 + 1, nm⟩, M3,
    ⟨(w.P.next + 1 + 1) :: (w.P.next + 1) :: w.P.next :: w.P.live, w.P.next + 1 + 1 + 1⟩, _, ⟨k, fun fuel hl => ?_⟩, ⟨h3, ?_, ?_, ?_, ?_, ?_, ?_, ?_, ?_, ?_, ?_⟩, rfl, rfl, rfl, rfl⟩
  · rw [newTable]
    obtain ⟨g, g1, g2⟩ := e1 fuel hl
    refine Outcome.bind_eq_ok.2 ⟨g, g1, ?_⟩
    refine Outcome.bind_eq_ok.2 ⟨_, g2, ?_⟩
    refine Outcome.bind_eq_ok.2 ⟨_, e2, ?_⟩
    exact Outcome.bind_eq_ok.2 ⟨_, e3, rfl⟩
  · intro y hy
    rcases List.mem_cons.1 hy with rfl | hy
    · have hown : own { pools := c1.pools ++ [(p, 48, poolName nm)], live := (h, sp) :: c1.live, odd := c1.odd } p w.H = fun _ => none := by
        funext a
        simp only [own]
        rw [if_neg]
        exact fun hm => hlivep a p hm rfl
      refine ⟨⟨fun _ => [], [], 0, ?_⟩, fun a ha => absurd rfl (hlivep a p ha), by simp, ⟨sp, by simp [hsp], by simp⟩, ?_⟩
      · simp only [hown]
        exact hA
      · show ((h, sp) :: c1.live).countP (fun y => decide (y.2 = p)) = 0
        rw [List.countP_eq_zero]
        intro z hz
        have := hlivep z.1 z.2 hz
        simpa using this
    · have Ly := I.loc y hy
      have hyne : sp ≠ y.t.pool := fun he => poolName_ne y.t.name (one_name G h1 (hsub _ Ly.pool) (he ▸ hsp)).2
      refine (Ly.frame (fun a => ?_) ?_ (fun _ _ => rfl) (fun s n hq => by simp [hsub _ hq]) (fun sp' g1 g2 => ⟨by simp [hsub _ g1], by simp [hl1, g2]⟩)).1
      · simp [hl1, Ne.symm hyne]
      · show ((h, sp) :: c1.live).countP (fun z => decide (z.2 = y.t.pool)) = _
        rw [hl1]
        simp [List.countP_cons, hyne]
  · simp only [List.map_cons, List.nodup_cons]
    refine ⟨fun hm => ?_, I.pools⟩
    obtain ⟨y, hy, he⟩ := List.mem_map.1 hm
    exact hpnew _ (hsub _ (I.loc y hy).pool) he
  · simp only [List.map_cons, List.nodup_cons]
    refine ⟨fun hm => ?_, I.addrs⟩
    obtain ⟨y, hy, he⟩ := List.mem_map.1 hm
    obtain ⟨sp', g1, g2⟩ := (I.loc y hy).addr
    have := hdj (y.t.addr, sp') (by rw [hl1]; exact g2) _ _ (hsub _ g1)
    simp only at this
    omega
  · intro q hq
    rcases List.mem_append.1 hq with hq | hq
    · exact hkn q hq
    · right; rw [List.mem_singleton.1 hq]; exact ⟨⟨nm, rfl⟩, rfl⟩
  · show ((c1.pools ++ [(p, 48, poolName nm)]).filter fun q : Nat × Nat × List Byte => decide (q.2.2 = nTable)).length = 1
    rw [List.filter_append, List.length_append, hfl]
    simp [poolName_ne]
  · simp only [List.length_append, List.length_cons, List.length_nil, if_true]
    omega
  · have := I.nlive
    simp only [List.length_cons, hl1, elements, List.map_cons, List.sum_cons] at this ⊢
    omega
  · have hb := I.blocks
    refine List.perm_iff_count.2 fun a => ?_
    have := List.perm_iff_count.1 hb a
    rw [List.flatMap_cons, Tab.blocks]
    simp only [List.count_cons, List.cons_append, List.nil_append] at this ⊢
    omega
  · have h5 := I.bnext
    simp only [List.nodup_cons, List.mem_cons, not_or]
    refine ⟨⟨by omega, by omega, fun hm => ?_⟩, ⟨by omega, fun hm => ?_⟩, fun hm => ?_, I.bnodup⟩ <;> (have := h5 _ hm; omega)
  · intro b hb
    have h5 := I.bnext
    simp only [List.mem_cons] at hb ⊢
    rcases hb with rfl | rfl | rfl | hb
    · omega
    · omega
    · omega
    · have := h5 b hb; omega

/-! ## Specification: histories -/

/-- All histories of table functions on any number of tables. What a table should contain changes with the calls made for this table only. Tables have a name, and buckets for all
keys (C17). A table is not copied to itself. -/
inductive Use (al : Alloc) : World → Prop
  | start {M : Mem} : M.blocks = [(MemPool.poolsHead, 16)] → M.H.next MemPool.poolsHead = MemPool.poolsHead → M.H.prev MemPool.poolsHead = MemPool.poolsHead →
      Use al ⟨[], fun _ => none, M, ⟨[], 0⟩, false, 0, 0⟩
  | table {w : World} {cb : Callbacks} {nm : List Byte} {hint : Nat} {useHint dup : Bool} {t : Tab} {M' : Mem} {P' : Blocks} : Use al w → InRange cb (init hint useHint dup) →
      Runs (newTable al cb (some nm) hint useHint dup w.M w.P) (t, M', P') →
      Use al { w with tabs := ⟨t, ⟨fun _ => [], []⟩, 0⟩ :: w.tabs, M := M', P := P', made := true }
  | set {w : World} {pre post : List Rec} {x : Rec} {k : Key} {d dl : Nat} {r : Int} {t' : Tab} {H' : Nat → Option Node} {M' : Mem} : Use al w → w.tabs = pre ++ x :: post →
      Runs (setT al x.t k d dl w.H w.M) (r, t', H', M') →
      Use al { w with tabs := pre ++ ⟨t', (x.s.step x.t.cb x.t.dup x.t.ix (.set k d dl)).2, if r = 0 then x.n + 1 else x.n⟩ :: post, H := H', M := M' }
  | del {w : World} {pre post : List Rec} {x : Rec} {k : Key} {r : Ret} {t' : Tab} {H' : Nat → Option Node} {M' : Mem} : Use al w → w.tabs = pre ++ x :: post →
      Runs (delT x.t k w.H w.M) (r, t', H', M') →
      Use al { w with tabs := pre ++ ⟨t', (x.s.step x.t.cb x.t.dup x.t.ix (.del k)).2, if r.enoent then x.n else x.n - 1⟩ :: post, H := H', M := M' }
  | copy {w : World} {pre post : List Rec} {x y : Rec} {any : Bool} {t' : Tab} {H' : Nat → Option Node} {M' : Mem} : Use al w → w.tabs = pre ++ x :: post → y ∈ pre ++ post →
      Runs (copyT al y.t x.t w.H w.M) (any, t', H', M') →
      Use al { w with tabs := pre ++ ⟨t', (x.adds (entries y)).1, (x.adds (entries y)).2⟩ :: post, H := H', M := M' }
  | destroy {w : World} {pre post : List Rec} {x : Rec} {H' : Nat → Option Node} {M' : Mem} {P' : Blocks} : Use al w → w.tabs = pre ++ x :: post →
      Runs (destroyT x.t w.H w.M w.P) (H', M', P') →
      Use al { w with tabs := pre ++ post, H := H', M := M', P := P', left := w.left + x.s.lost.length, stuck := w.stuck + if x.s.lost = [] then 0 else 1 }

theorem inv_of_use {al : Alloc} (G : MemPool.Good al) {w : World} (h : Use al w) : ∃ c, Inv al w c := by
  induction h with
  | start h1 h2 h3 =>
      exact ⟨⟨[], [], false⟩, Hist.start h1 h2 h3, by simp, by simp, by simp, by simp, by simp, by simp, by simp [elements], by simp, by simp, by simp⟩
  | table _ hr e ih =>
      obtain ⟨c, I⟩ := ih
      obtain ⟨t, M', P', c', e', I', _⟩ := new_inv G I _ _ _ _ _ hr
      cases e.unique e'
      exact ⟨c', I'⟩
  | set _ hw e ih =>
      obtain ⟨c, I⟩ := ih
      obtain ⟨r, t', H', M', c', e', _, I', _⟩ := set_inv G I hw _ _ _
      cases e.unique e'
      exact ⟨c', I'⟩
  | del _ hw e ih =>
      obtain ⟨c, I⟩ := ih
      obtain ⟨r, t', H', M', c', e', _, I'⟩ := del_inv G I hw _
      cases e.unique e'
      exact ⟨c', I'⟩
  | copy _ hw hy e ih =>
      obtain ⟨c, I⟩ := ih
      obtain ⟨t', H', M', c', e', I'⟩ := copy_inv G I hw hy
      cases e.unique e'
      exact ⟨c', I'⟩
  | destroy _ hw e ih =>
      obtain ⟨c, I⟩ := ih
      obtain ⟨H', M', P', c', e', I', _⟩ := destroy_inv G I hw
      cases e.unique e'
      exact ⟨c', I'⟩

/-! ## Theorems -/

/-- **C98 (calls).** After every history each call works, whatever happens to other tables: a table can be made; the results of zt_table_set, zt_table_get and zt_table_del, what
zt_table_for_each visits and the result of zt_table_copy are those of what the table should contain; and a table can be destroyed. -/
theorem c98_calls {al : Alloc} (G : MemPool.Good al) {w : World} (h : Use al w) :
    (∀ cb nm hint useHint dup, InRange cb (init hint useHint dup) → ∃ t M' P', Runs (newTable al cb (some nm) hint useHint dup w.M w.P) (t, M', P') ∧ t.cb = cb ∧ t.dup = dup ∧
      t.num = (init hint useHint dup).num ∧ t.nbits = (init hint useHint dup).nbits) ∧
    ∀ x ∈ w.tabs,
      (∀ k d dl, ∃ (r : Int) (t' : Tab) (H' : Nat → Option Node) (M' : Mem), Runs (setT al x.t k d dl w.H w.M) (r, t', H', M') ∧ (x.s.step x.t.cb x.t.dup x.t.ix (.set k d dl)).1 = .int r) ∧
      (∀ k, Runs (fun fuel => get x.t.cb fuel (view x.t w.H) k) (report (((x.s.bucket (x.t.ix k)).find? (Meets x.t.cb k)).map (·.datum)))) ∧
      (∀ k, ∃ (r : Ret) (t' : Tab) (H' : Nat → Option Node) (M' : Mem), Runs (delT x.t k w.H w.M) (r, t', H', M') ∧ (x.s.step x.t.cb x.t.dup x.t.ix (.del k)).1 = .ret r) ∧
      (∃ n, ∀ fuel ≥ n, ∀ (σ : Type) (it : Entry → σ → Outcome (Int × σ)) (v : σ), forEach it fuel (view x.t w.H) v = visit it (entries x) v) ∧
      (∀ pre post y, w.tabs = pre ++ x :: post → y ∈ pre ++ post → ∃ t' H' M', Runs (copyT al y.t x.t w.H w.M) (!(entries y).isEmpty, t', H', M')) ∧
      ∃ H' M' P', Runs (destroyT x.t w.H w.M w.P) (H', M', P') := by
  obtain ⟨c, I⟩ := inv_of_use G h
  refine ⟨fun cb nm hint useHint dup hr => ?_, fun x hx => ?_⟩
  · obtain ⟨t, M', P', _, e, _, h1⟩ := new_inv G I cb nm hint useHint dup hr
    exact ⟨t, M', P', e, h1⟩
  · obtain ⟨pre, post, hw⟩ := List.append_of_mem hx
    have Lx := I.loc x hx
    refine ⟨fun k d dl => ?_, get_inv Lx, fun k => ?_, each_inv Lx, fun pre post y hw hy => ?_, ?_⟩
    · obtain ⟨r, t', H', M', _, e, h1, _⟩ := set_inv G I hw k d dl
      exact ⟨r, t', H', M', e, h1⟩
    · obtain ⟨r, t', H', M', _, e, h1, _⟩ := del_inv G I hw k
      exact ⟨r, t', H', M', e, h1⟩
    · obtain ⟨t', H', M', _, e, _⟩ := copy_inv G I hw hy
      exact ⟨t', H', M', e⟩
    · obtain ⟨H', M', P', _, e, _⟩ := destroy_inv G I hw
      exact ⟨H', M', P', e⟩

/-- **C98 (accounting).** After every history: the elements in use are one structure and `n` nodes for every table (`n` counts the entries added and not deleted), and the nodes
lost by tables that were destroyed; the pools are one for every table, one for every destroyed table that had lost nodes, and one shared pool if a table was ever made; the blocks from
malloc are three for every table. -/
theorem c98_accounting {al : Alloc} (G : MemPool.Good al) {w : World} (h : Use al w) :
    ∃ c, Hist al c w.M ∧ c.live.length = (w.tabs.map fun x => x.n + 1).sum + w.left ∧ c.pools.length = w.tabs.length + w.stuck + (if w.made then 1 else 0) ∧
      w.P.live.length = 3 * w.tabs.length ∧
      (∀ x ∈ w.tabs, (c.live.filter fun y => decide (y.2 = x.t.pool)).length = x.n ∧ ∃ sp, (x.t.addr, sp) ∈ c.live ∧ (sp, 80, nTable) ∈ c.pools) := by
  obtain ⟨c, I⟩ := inv_of_use G h
  refine ⟨c, I.hist, I.nlive, I.npools, ?_, fun x hx => ⟨?_, ?_⟩⟩
  · rw [I.blocks.length_eq]
    have : ∀ l : List Rec, (l.flatMap fun x => x.t.blocks).length = 3 * l.length := by
      intro l
      induction l with
      | nil => rfl
      | cons x xs ih =>
          rw [List.flatMap_cons, List.length_append, ih, Tab.blocks]
          simp only [List.length_cons, List.length_nil]; omega
    exact this _
  · rw [← List.countP_eq_length_filter]; exact (I.loc x hx).count
  · obtain ⟨sp, h1, h2⟩ := (I.loc x hx).addr
    exact ⟨sp, h2, h1⟩

/-- **C98 (all given back, proved for tables that lost no nodes).** When every table has been destroyed and none of them had lost nodes, no element of any pool and no other block is
in use, and the only pool is the shared one (if a table was ever made). -/
theorem c98_clean_partial {al : Alloc} (G : MemPool.Good al) {w : World} (h : Use al w) (h1 : w.tabs = []) (h2 : w.left = 0) (h3 : w.stuck = 0) :
    w.P.live = [] ∧ ∃ c, Hist al c w.M ∧ c.live = [] ∧ (∀ q ∈ c.pools, q.2.2 = nTable) ∧ c.pools.length ≤ 1 := by
  obtain ⟨c, I⟩ := inv_of_use G h
  have e1 := I.nlive
  have e2 := I.npools
  have e3 := I.blocks
  have e4 := I.shared
  rw [h1] at e1 e2 e3
  rw [h3] at e2
  refine ⟨by simpa using e3, c, I.hist, ?_, ?_, ?_⟩
  · rw [h2] at e1; simpa [elements] using e1
  · intro q hq
    refine Decidable.byContradiction fun hn => ?_
    have hlt : (c.pools.filter fun q => decide (q.2.2 = nTable)).length < c.pools.length := by
      have := List.length_filter_lt_length_iff_exists (p := fun q : Nat × Nat × List Byte => decide (q.2.2 = nTable)) (l := c.pools)
      exact this.2 ⟨q, hq, by simpa using hn⟩
    simp only [List.length_nil, Nat.zero_add] at e2
    omega
  · simp only [List.length_nil, Nat.zero_add] at e2
    rw [e2]; split <;> omega

/-- **C98 (apart).** The memory of different tables never overlaps: any two structures (80 bytes) or nodes (48 bytes) are in disjoint ranges of allocated memory. -/
theorem c98_apart {al : Alloc} (G : MemPool.Good al) {w : World} (h : Use al w) :
    (w.tabs.map (·.t.addr)).Nodup ∧ (w.tabs.map (·.t.pool)).Nodup ∧ (∀ x ∈ w.tabs, ∀ y ∈ w.tabs, x.t.addr = y.t.addr ∨ x.t.addr + 80 ≤ y.t.addr ∨ y.t.addr + 80 ≤ x.t.addr) ∧
    (∀ x ∈ w.tabs, ∃ b ∈ w.M.blocks, b.1 ≤ x.t.addr ∧ x.t.addr + 80 ≤ b.1 + b.2) ∧
    ∃ nodes : Rec → List Nat, (∀ x ∈ w.tabs, (nodes x).length = x.n ∧ (nodes x).Nodup ∧ (∀ a ∈ nodes x, w.H a ≠ none ∧ ∃ b ∈ w.M.blocks, b.1 ≤ a ∧ a + 48 ≤ b.1 + b.2) ∧
      ∀ i a, x.t.buckets i = some a → a ∈ nodes x) ∧
      (∀ x ∈ w.tabs, ∀ y ∈ w.tabs, ∀ a ∈ nodes x, y.t.addr + 80 ≤ a ∨ a + 48 ≤ y.t.addr) ∧
      ∀ x ∈ w.tabs, ∀ y ∈ w.tabs, ∀ a ∈ nodes x, ∀ b ∈ nodes y, (a = b ∧ x.t.pool = y.t.pool) ∨ a + 48 ≤ b ∨ b + 48 ≤ a := by
  obtain ⟨c, I⟩ := inv_of_use G h
  obtain ⟨hn, h1, h2⟩ := MemPool.c30_disjoint G I.hist
  have blk : ∀ a p sz nm, (a, p) ∈ c.live → (p, sz, nm) ∈ c.pools → ∃ b ∈ w.M.blocks, b.1 ≤ a ∧ a + sz ≤ b.1 + b.2 := by
    intro a p sz nm ha hp
    obtain ⟨s, n, hq, b, hb, h3⟩ := h1 _ ha
    have := (one_name G I.hist hp hq).1
    subst this
    exact ⟨b, hb, h3⟩
  refine ⟨I.addrs, I.pools, fun x hx y hy => ?_, fun x hx => ?_, fun x => (c.live.filter fun z => decide (z.2 = x.t.pool)).map (·.1), fun x hx => ⟨?_, ?_, fun a ha => ?_, fun i a hi => ?_⟩, fun x hx y hy a ha => ?_,
    fun x hx y hy a ha b hb => ?_⟩
  · obtain ⟨s1, g1, g2⟩ := (I.loc x hx).addr
    obtain ⟨s2, g3, g4⟩ := (I.loc y hy).addr
    by_cases e : x.t.addr = y.t.addr
    · exact .inl e
    · exact .inr (h2 _ g2 _ g4 _ _ _ _ g1 g3 (fun h => e (congrArg Prod.fst h)))
  · obtain ⟨sp, g1, g2⟩ := (I.loc x hx).addr
    exact blk _ _ _ _ g2 g1
  · rw [List.length_map, ← List.countP_eq_length_filter]; exact (I.loc x hx).count
  · refine List.pairwise_map.2 ((hn.filter _).imp_of_mem ?_)
    intro a b ha hb hne he
    have h3 : a.2 = x.t.pool := by simpa using (List.mem_filter.1 ha).2
    have h4 : b.2 = x.t.pool := by simpa using (List.mem_filter.1 hb).2
    exact hne (Prod.ext he (h3.trans h4.symm))
  · obtain ⟨z, hz, rfl⟩ := List.mem_map.1 ha
    obtain ⟨hz, hp⟩ := List.mem_filter.1 hz
    have hp : z.2 = x.t.pool := by simpa using hp
    have hm : (z.1, x.t.pool) ∈ c.live := by rw [← hp]; exact hz
    exact ⟨(I.loc x hx).full _ hm, blk _ _ _ _ hm (I.loc x hx).pool⟩
  · obtain ⟨C, Z, L, A⟩ := (I.loc x hx).abs
    have hc := A.rep.chain i
    have hb : (view x.t (own c x.t.pool w.H)).buckets i = some a := hi
    rw [hb] at hc
    have ha : a ∈ adr (C i) := by
      cases hci : C i with
      | nil => rw [hci] at hc; cases hc
      | cons z zs => rw [hci] at hc; obtain ⟨z1, z2⟩ := z; obtain ⟨e, _⟩ := hc; cases e; simp
    have hl := chain_live _ _ (A.rep.chain i) a ha
    simp only [view, own] at hl
    split at hl
    · exact List.mem_map.2 ⟨(a, x.t.pool), List.mem_filter.2 ⟨by assumption, by simp⟩, rfl⟩
    · exact absurd rfl hl
  · obtain ⟨z, hz, rfl⟩ := List.mem_map.1 ha
    obtain ⟨hz, hp⟩ := List.mem_filter.1 hz
    have hp : z.2 = x.t.pool := by simpa using hp
    have hm : (z.1, x.t.pool) ∈ c.live := by rw [← hp]; exact hz
    obtain ⟨sp, g1, g2⟩ := (I.loc y hy).addr
    have hne : sp ≠ x.t.pool := fun he => poolName_ne x.t.name (one_name G I.hist (I.loc x hx).pool (he ▸ g1)).2
    exact h2 _ g2 _ hm _ _ _ _ g1 (I.loc x hx).pool (fun he => hne (congrArg Prod.snd he))
  · obtain ⟨z, hz, rfl⟩ := List.mem_map.1 ha
    obtain ⟨hz, hp⟩ := List.mem_filter.1 hz
    have hp : z.2 = x.t.pool := by simpa using hp
    have hm : (z.1, x.t.pool) ∈ c.live := by rw [← hp]; exact hz
    obtain ⟨v, hv, rfl⟩ := List.mem_map.1 hb
    obtain ⟨hv, hq⟩ := List.mem_filter.1 hv
    have hq : v.2 = y.t.pool := by simpa using hq
    have hm' : (v.1, y.t.pool) ∈ c.live := by rw [← hq]; exact hv
    by_cases e : (z.1, x.t.pool) = (v.1, y.t.pool)
    · rw [Prod.mk.injEq] at e; exact .inl e
    · exact .inr (h2 _ hm _ hm' _ _ _ _ (I.loc x hx).pool (I.loc y hy).pool e)

/-! ## Violations -/

/-- Violation of C98: the documented anonymous table (a NULL name) is never made: the name is also used for the name of the node pool. -/
theorem c98_anonymous_violation (al : Alloc) (cb : Callbacks) (hint : Nat) (useHint dup : Bool) (M : Mem) (P : Blocks) (fuel : Nat) (r : Tab × Mem × Blocks) :
    newTable al cb none hint useHint dup M P fuel ≠ .ok r := by
  intro h
  rw [newTable] at h
  obtain ⟨_, _, h⟩ := Outcome.bind_eq_ok.1 h
  obtain ⟨_, _, h⟩ := Outcome.bind_eq_ok.1 h
  obtain ⟨_, _, h⟩ := Outcome.bind_eq_ok.1 h
  cases h

/-- The call is undefined, not just without a result. -/
theorem c98_anonymous_ub_violation : newTable MemPool.bump constCb none 0 false false MemPool.start ⟨[], 0⟩ 20 = .ub := by rfl

/-- The contents of a table after three entries have gone into one bucket and the oldest one has been deleted. -/
def lostBag : Bag :=
  ((((((((⟨fun _ => [], []⟩ : Bag).step constCb false (fun _ => 0) (.set (1, 1) 10 0)).2).step constCb false (fun _ => 0) (.set (2, 1) 20 0)).2).step constCb false (fun _ => 0)
    (.set (3, 1) 30 0)).2).step constCb false (fun _ => 0) (.del (1, 1))).2

theorem lost_bag : lostBag.lost.length = 1 := by decide +kernel

/-- Violation of C98: three entries in one bucket, the oldest is deleted, the table is destroyed; then one node, the pool of the table and the shared pool are still there, although there
is no table any more. -/
theorem c98_lost_violation {al : Alloc} (G : MemPool.Good al) {M : Mem} (h1 : M.blocks = [(MemPool.poolsHead, 16)]) (h2 : M.H.next MemPool.poolsHead = MemPool.poolsHead)
    (h3 : M.H.prev MemPool.poolsHead = MemPool.poolsHead) (nm : List Byte) :
    ∃ w, Use al w ∧ w.tabs = [] ∧ w.P.live = [] ∧ ∃ c, Hist al c w.M ∧ c.live.length = 1 ∧ c.pools.length = 2 := by
  have u0 : Use al _ := .start h1 h2 h3
  obtain ⟨t, M1, P1, e1, k1, k2, k3, k4⟩ := (c98_calls G u0).1 constCb nm 0 false false (in_range_small_partial _ 0 false (by decide))
  have u1 := Use.table u0 (in_range_small_partial _ 0 false (by decide)) e1
  have hix : ∀ t' : Tab, t'.cb = constCb → t'.nbits = t.nbits → ∀ k, t'.ix k = 0 := by
    intro t' h1 h2 k
    rw [Tab.ix, h1, h2, k4]
    have : (init 0 false false).nbits = 1 := by decide +kernel
    rw [this]
    show (fold (constCb.hash (0, 0)) 1).toNat = 0
    decide +kernel
  obtain ⟨c1, I1⟩ := inv_of_use G u1
  obtain ⟨r2, t2, H2, M2, c2, e2, b2, I2, ⟨g1, g2, g3⟩, _⟩ := set_inv G I1 (pre := []) (post := []) rfl (1, 1) 10 0
  have u2 := Use.set u1 (pre := []) (post := []) rfl e2
  obtain ⟨r3, t3, H3, M3, c3, e3, b3, I3, ⟨g4, g5, g6⟩, _⟩ := set_inv G I2 (pre := []) (post := []) rfl (2, 1) 20 0
  have u3 := Use.set u2 (pre := []) (post := []) rfl e3
  obtain ⟨r4, t4, H4, M4, c4, e4, b4, I4, ⟨g7, g8, g9⟩, _⟩ := set_inv G I3 (pre := []) (post := []) rfl (3, 1) 30 0
  have u4 := Use.set u3 (pre := []) (post := []) rfl e4
  obtain ⟨r5, t5, H5, M5, c5, e5, b5, I5⟩ := del_inv G I4 (pre := []) (post := []) rfl (1, 1)
  have u5 := Use.del u4 (pre := []) (post := []) rfl e5
  obtain ⟨H6, M6, P6, c6, e6, I6, _⟩ := destroy_inv G I5 (pre := []) (post := []) rfl
  have u6 := Use.destroy u5 (pre := []) (post := []) rfl e6
  simp only [] at g1 g2 g3 g4 g5 g6 g7 g8 g9
  have a1 : t2.cb = constCb := g1.trans k1
  have a2 : t3.cb = constCb := g4.trans a1
  have a3 : t4.cb = constCb := g7.trans a2
  have n1 : t2.nbits = t.nbits := g2
  have n2 : t3.nbits = t.nbits := g5.trans n1
  have n3 : t4.nbits = t.nbits := g8.trans n2
  have d1 : t2.dup = false := g3.trans k2
  have d2 : t3.dup = false := g6.trans d1
  have d3 : t4.dup = false := g9.trans d2
  have f0 : t.ix = fun _ => 0 := funext (hix t k1 rfl)
  have f1 : t2.ix = fun _ => 0 := funext (hix t2 a1 n1)
  have f2 : t3.ix = fun _ => 0 := funext (hix t3 a2 n2)
  have f3 : t4.ix = fun _ => 0 := funext (hix t4 a3 n3)
  rw [k1, k2, f0, a1, d1, f1, a2, d2, f2, a3, d3, f3] at u6
  obtain ⟨c, hh, hl, hp, hb, _⟩ := c98_accounting G u6
  refine ⟨_, u6, rfl, ?_, c, hh, ?_, ?_⟩
  · exact List.length_eq_zero_iff.1 hb
  · rw [hl]
    show 0 + (0 + lostBag.lost.length) = 1
    rw [lost_bag]
  · rw [hp]
    show 0 + (0 + (if lostBag.lost = [] then 0 else 1)) + 1 = 2
    rw [if_neg fun h => by have := lost_bag; rw [h] at this; cases this]

/-- Two tables, the first one filled and copied to the second one, then destroyed: the hypotheses of the theorems are met. -/
example : ∃ w, Use MemPool.bump w ∧ w.tabs.length = 1 ∧ w.made = true ∧ ∃ x ∈ w.tabs, x.n = 2 := by
  have G := MemPool.bump_good
  have hr : InRange constCb (init 0 false true) := in_range_small_partial _ 0 true (by decide)
  have u0 : Use MemPool.bump ⟨[], fun _ => none, MemPool.start, ⟨[], 0⟩, false, 0, 0⟩ := .start rfl rfl rfl
  obtain ⟨t1, M1, P1, e1, k1, k2, k3, k4⟩ := (c98_calls G u0).1 constCb [65] 0 false true hr
  have u1 := Use.table u0 hr e1
  obtain ⟨t2, M2, P2, e2, l1, l2, l3, l4⟩ := (c98_calls G u1).1 constCb [65] 0 false true hr
  have u2 := Use.table u1 hr e2
  obtain ⟨r3, t3, H3, M3, e3, q3⟩ := ((c98_calls G u2).2 ⟨t1, ⟨fun _ => [], []⟩, 0⟩ (by simp)).1 (7, 1) 10 0
  have u3 := Use.set u2 (pre := [⟨t2, ⟨fun _ => [], []⟩, 0⟩]) (post := []) rfl e3
  have hr3 : r3 = 0 := by
    simp only [k2, Bag.step, Bool.not_true, Bool.false_and, Bool.false_eq_true, if_false] at q3
    cases q3; rfl
  obtain ⟨r4, t4, H4, M4, e4, q4⟩ := ((c98_calls G u3).2 ⟨t2, ⟨fun _ => [], []⟩, 0⟩ (by simp)).1 (7, 1) 20 0
  have u4 := Use.set u3 (pre := []) (x := ⟨t2, ⟨fun _ => [], []⟩, 0⟩) rfl e4
  have hr4 : r4 = 0 := by
    simp only [l2, Bag.step, Bool.not_true, Bool.false_and, Bool.false_eq_true, if_false] at q4
    cases q4; rfl
  obtain ⟨r5, t5, H5, M5, e5, q5⟩ := ((c98_calls G u4).2 _ (List.mem_cons_of_mem _ (List.mem_singleton.2 rfl))).1 (8, 1) 30 0
  have u5 := Use.set u4 (pre := [_]) (post := []) rfl e5
  have hd : t3.dup = true := by
    obtain ⟨c, I⟩ := inv_of_use G u2
    obtain ⟨_, t', _, _, _, e, _, _, h, _⟩ := set_inv G I (pre := [⟨t2, ⟨fun _ => [], []⟩, 0⟩]) (post := []) (x := ⟨t1, ⟨fun _ => [], []⟩, 0⟩) rfl (7, 1) 10 0
    cases e3.unique e
    exact h.2.2.trans k2
  have hr5 : r5 = 0 := by
    simp only [hd, Bag.step, Bool.not_true, Bool.false_and, Bool.false_eq_true, if_false] at q5
    cases q5; rfl
  obtain ⟨H6, M6, P6, e6⟩ := ((c98_calls G u5).2 _ (List.mem_cons_self)).2.2.2.2.2
  have u6 := Use.destroy u5 (pre := []) rfl e6
  refine ⟨_, u6, rfl, rfl, _, List.mem_singleton.2 rfl, ?_⟩
  simp [hr3, hr5]

end ZT.Table.Proc
