import Verif.Table.ProcOps

namespace ZT.Table.Proc

open MemPool (Mem Alloc Hist Client)

/-- A client without some elements of a pool. -/
def without (c : Client) (p : Nat) (g : List Nat) : Client := { c with live := c.live.filter fun y => !(decide (y.2 = p) && decide (y.1 ∈ g)) }

theorem mem_without {c : Client} {p : Nat} {g : List Nat} {y : Nat × Nat} : y ∈ (without c p g).live ↔ y ∈ c.live ∧ ¬ (y.2 = p ∧ y.1 ∈ g) := by
  simp only [without, List.mem_filter, Bool.not_eq_true', Bool.and_eq_false_iff, decide_eq_false_iff_not]
  refine and_congr_right fun _ => ?_
  by_cases h : y.2 = p <;> simp [h]

theorem without_nil (c : Client) (p : Nat) : without c p [] = c := by
  have : (c.live.filter fun y => !(decide (y.2 = p) && decide (y.1 ∈ ([] : List Nat)))) = c.live := by
    rw [List.filter_eq_self]; intro y _; simp
  rw [without, this]

/-- The inner loop of the destruction. -/
theorem freeChain_spec {al : Alloc} (G : MemPool.Good al) (pool : Nat) : ∀ (l : List (Nat × Entry)) (T : Tbl) (M : Mem) (c : Client) (p : Ptr), Hist al c M → Chain T.heap p l → (adr l).Nodup →
    (∀ a ∈ adr l, (a, pool) ∈ c.live) → ∃ T' M', (∀ fuel, l.length < fuel → freeChain fuel T M p = .ok (T', M')) ∧ T'.num = T.num ∧ T'.buckets = T.buckets ∧
      (∀ a, T'.heap a = if a ∈ adr l then none else T.heap a) ∧ Hist al (without c pool (adr l)) M' := by
  intro l
  induction l with
  | nil =>
      intro T M c p h hc _ _
      simp only [Chain] at hc
      subst hc
      refine ⟨T, M, fun fuel hf => ?_, rfl, rfl, by simp, ?_⟩
      · match fuel, hf with
        | f + 1, _ => rfl
      · rw [adr_nil, without_nil]; exact h
  | cons x xs ih =>
      intro T M c p h hc hn hl
      obtain ⟨a, e⟩ := x
      obtain ⟨rfl, nx, hna, hc⟩ := hc
      simp only [adr_cons, List.nodup_cons] at hn
      have hin := hl a (by simp)
      obtain ⟨M1, eM⟩ := (MemPool.c30_total G h).2.2 _ hin
      have h1 := Hist.release h hin eM
      have hnd := (MemPool.c30_disjoint G h).1
      obtain ⟨T', M', e1, e2, e3, e4, h2⟩ := ih (updHeap T a none) M1 _ nx h1 (chain_frame xs nx (fun b hb => by
          have : b ≠ a := fun h => hn.1 (h ▸ hb)
          simp [updHeap, this]) hc) hn.2 (fun b hb => (hnd.mem_erase_iff).2 ⟨fun he => by cases he; exact hn.1 hb, hl b (by simp [hb])⟩)
      refine ⟨T', M', fun fuel hf => ?_, e2, e3, fun b => ?_, ?_⟩
      · match fuel, hf with
        | f + 1, hf =>
          rw [freeChain]
          refine Outcome.bind_eq_ok.2 ⟨⟨e, nx⟩, by simp [load, hna], ?_⟩
          refine Outcome.bind_eq_ok.2 ⟨updHeap T a none, by simp [Table.release, load, hna], ?_⟩
          refine Outcome.bind_eq_ok.2 ⟨M1, eM, ?_⟩
          exact e1 f (by simp at hf; omega)
      · rw [e4]
        simp only [updHeap, adr_cons, List.mem_cons]
        grind
      · have : without { c with live := c.live.erase (a, pool) } pool (adr xs) = without c pool (adr ((a, e) :: xs)) := by
          simp only [without, Client.mk.injEq, true_and, and_true, hnd.erase_eq_filter, List.filter_filter]
          refine List.filter_congr fun y _ => ?_
          obtain ⟨y1, y2⟩ := y
          simp only [adr_cons, List.mem_cons]
          by_cases c1 : y2 = pool <;> by_cases c2 : y1 = a <;> by_cases c3 : y1 ∈ adr xs <;> simp [c1, c2, c3]
        rw [← this]; exact h2

/-- The addresses in buckets `i .. i+k-1`. -/
def span (C : Nat → List (Nat × Entry)) (k i : Nat) : List Nat := (List.range' i k).flatMap fun j => adr (C j)

theorem mem_span {C : Nat → List (Nat × Entry)} {k i a : Nat} : a ∈ span C k i ↔ ∃ j, i ≤ j ∧ j < i + k ∧ a ∈ adr (C j) := by
  simp only [span, List.mem_flatMap, List.mem_range'_1]
  grind

/-- The outer loop of the destruction. -/
theorem freeLoop_spec {al : Alloc} (G : MemPool.Good al) (pool : Nat) (C : Nat → List (Nat × Entry)) (L : Nat) (hL : ∀ i, (C i).length ≤ L) (hn : ∀ j, (adr (C j)).Nodup)
    (hd : ∀ j j' a, a ∈ adr (C j) → a ∈ adr (C j') → j = j') : ∀ (k i : Nat) (T : Tbl) (M : Mem) (c : Client), Hist al c M → (∀ j, i ≤ j → Chain T.heap (T.buckets j) (C j)) →
    (∀ j a, i ≤ j → a ∈ adr (C j) → (a, pool) ∈ c.live) → i + k ≤ T.num → ∃ T' M', (∀ fuel, L < fuel → freeLoop fuel k i T M = .ok (T', M')) ∧
      (∀ a, T'.heap a = if a ∈ span C k i then none else T.heap a) ∧ Hist al (without c pool (span C k i)) M' := by
  intro k
  induction k with
  | zero =>
      intro i T M c h _ _ _
      refine ⟨T, M, fun _ _ => rfl, by simp [span], ?_⟩
      have : span C 0 i = [] := by simp [span]
      rw [this, without_nil]; exact h
  | succ k ih =>
      intro i T M c h hc hl hk
      obtain ⟨T1, M1, e1, e2, e3, e4, h1⟩ := freeChain_spec G pool (C i) T M c _ h (hc i (by omega)) (hn i) (fun a ha => hl i a (by omega) ha)
      obtain ⟨T2, M2, f1, f2, h2⟩ := ih (i + 1) T1 M1 _ h1 (fun j hj => by
        rw [e3]
        refine chain_frame _ _ (fun a ha => ?_) (hc j (by omega))
        rw [e4, if_neg]
        intro hm
        have := hd j i a ha hm
        omega) (fun j a hj ha => mem_without.2 ⟨hl j a (by omega) ha, fun hx => by
          have := hd j i a ha hx.2
          omega⟩) (by omega)
      have hs : ∀ a, a ∈ span C (k + 1) i ↔ a ∈ adr (C i) ∨ a ∈ span C k (i + 1) := by
        intro a
        simp only [span, List.range'_succ, List.flatMap_cons, List.mem_append]
      refine ⟨T2, M2, fun fuel hf => ?_, fun a => ?_, ?_⟩
      · rw [freeLoop]
        refine Outcome.bind_eq_ok.2 ⟨T.buckets i, if_pos (by omega), ?_⟩
        refine Outcome.bind_eq_ok.2 ⟨_, e1 fuel (by have := hL i; omega), ?_⟩
        exact f1 fuel hf
      · rw [f2, e4]
        simp only [hs]
        grind
      · have : without (without c pool (adr (C i))) pool (span C k (i + 1)) = without c pool (span C (k + 1) i) := by
          simp only [without, Client.mk.injEq, true_and, and_true, List.filter_filter]
          refine List.filter_congr fun y _ => ?_
          obtain ⟨y1, y2⟩ := y
          simp only [hs]
          by_cases c1 : y2 = pool <;> by_cases c2 : y1 ∈ adr (C i) <;> by_cases c3 : y1 ∈ span C k (i + 1) <;> simp [c1, c2, c3]
        rw [← this]; exact h2

theorem free_spec {P : Blocks} {a : Nat} (h : a ∈ P.live) : P.free a = .ok { P with live := P.live.erase a } := if_pos h

theorem count_pool {c : Client} {p : Nat} {Z : List Nat} (hn : c.live.Nodup) (hz : Z.Nodup) (h : ∀ a, (a, p) ∈ c.live ↔ a ∈ Z) : c.live.countP (fun y => decide (y.2 = p)) = Z.length := by
  rw [List.countP_eq_length_filter]
  have : (c.live.filter fun y => decide (y.2 = p)).Perm (Z.map fun a => (a, p)) := by
    rw [List.perm_ext_iff_of_nodup (hn.filter _)]
    · intro y
      obtain ⟨a, q⟩ := y
      simp only [List.mem_filter, decide_eq_true_eq, List.mem_map, Prod.mk.injEq]
      constructor
      · rintro ⟨h1, rfl⟩; exact ⟨a, (h a).1 h1, rfl, rfl⟩
      · rintro ⟨b, hb, rfl, rfl⟩; exact ⟨(h _).2 hb, rfl⟩
    · exact List.Pairwise.map (fun a => (a, p)) (fun a b hab he => hab (congrArg Prod.fst he)) hz
  rw [this.length_eq, List.length_map]

/-- zt_table_destroy -/
theorem destroy_inv {al : Alloc} (G : MemPool.Good al) {w : World} {c : Client} (I : Inv al w c) {pre post : List Rec} {x : Rec} (hw : w.tabs = pre ++ x :: post) :
    ∃ (H' : Nat → Option Node) (M' : Mem) (P' : Blocks) (c' : Client), Runs (destroyT x.t w.H w.M w.P) (H', M', P') ∧
      Inv al { w with tabs := pre ++ post, H := H', M := M', P := P', left := w.left + x.s.lost.length, stuck := w.stuck + if x.s.lost = [] then 0 else 1 } c' ∧
      (x.s.lost = [] → ∀ q ∈ c'.pools, q.1 ≠ x.t.pool) := by
  have Lx := I.mem hw
  obtain ⟨C, Z, L, A⟩ := Lx.abs
  have hownin : ∀ b, own c x.t.pool w.H b ≠ none ↔ (b, x.t.pool) ∈ c.live := by
    intro b
    simp only [own]
    split
    · simp [*, Lx.full b (by assumption)]
    · simp [*]
  have hmem : ∀ b, (b, x.t.pool) ∈ c.live ↔ (∃ i, b ∈ adr (C i)) ∨ b ∈ adr Z := fun b => by rw [← hownin]; exact A.live b
  have hspan : ∀ b, b ∈ span C x.t.num 0 ↔ ∃ i, b ∈ adr (C i) := by
    intro b
    rw [mem_span]
    constructor
    · rintro ⟨j, _, _, h⟩; exact ⟨j, h⟩
    · rintro ⟨j, h⟩
      obtain ⟨y, hy, _⟩ := List.mem_map.1 h
      have : j < x.t.num := (A.rep.hash j y hy).2.2
      exact ⟨j, by omega, by omega, h⟩
  obtain ⟨T1, M1, e1, hT1, h1⟩ := freeLoop_spec G x.t.pool C L A.len A.rep.nodup A.rep.disj x.t.num 0 (view x.t w.H) w.M c I.hist (fun j _ => Loc.chains A.rep.chain j)
    (fun j a _ ha => (hmem a).2 (.inl ⟨j, ha⟩)) (by simp [view])
  have hnd1 := (MemPool.c30_disjoint G h1).1
  have hz : ∀ a, (a, x.t.pool) ∈ (without c x.t.pool (span C x.t.num 0)).live ↔ a ∈ adr Z := by
    intro a
    rw [mem_without, hmem, hspan]
    constructor
    · rintro ⟨h | h, h'⟩
      · exact absurd ⟨rfl, h⟩ h'
      · exact h
    · intro h
      exact ⟨.inr h, fun ⟨_, i, hi⟩ => A.disj i a hi h⟩
  have hzl : (adr Z).length = x.s.lost.length := by rw [A.lost]; simp [adr]
  have hcnt := count_pool hnd1 A.nodup hz
  have hpool : (x.t.pool, 48, poolName x.t.name) ∈ (without c x.t.pool (span C x.t.num 0)).pools := Lx.pool
  obtain ⟨b, M2, e2, hb⟩ := MemPool.c31_destroy G h1 hpool
  have hbl : b = true ↔ x.s.lost = [] := by
    rw [hb, ← List.length_eq_zero_iff, ← hzl, List.length_eq_zero_iff]
    constructor
    · intro h
      rw [List.eq_nil_iff_forall_not_mem]
      intro a ha
      exact h _ ((hz a).2 ha) rfl
    · rintro h ⟨a, p⟩ hy rfl
      have := (hz a).1 hy
      rw [h] at this; cases this
  obtain ⟨sp, hsp, hadr⟩ := Lx.addr
  have hspne : sp ≠ x.t.pool := fun he => poolName_ne x.t.name (one_name G I.hist Lx.pool (he ▸ hsp)).2
  -- after the destruction of the pool
  have h2 : ∃ c2 : Client, Hist al c2 M2 ∧ c2.live = (without c x.t.pool (span C x.t.num 0)).live ∧
      c2.pools = (if x.s.lost = [] then c.pools.filter (fun y => decide (y.1 ≠ x.t.pool)) else c.pools) := by
    cases b with
    | true =>
        refine ⟨_, Hist.destroyed h1 hpool e2, rfl, ?_⟩
        rw [if_pos (hbl.1 rfl)]; rfl
    | false =>
        refine ⟨_, Hist.refused h1 hpool e2, rfl, ?_⟩
        rw [if_neg (fun h => by cases hbl.2 h)]; rfl
  obtain ⟨c2, h2, hl2, hp2⟩ := h2
  have hin2 : (x.t.addr, sp) ∈ c2.live := by
    rw [hl2, mem_without]
    exact ⟨hadr, fun h => hspne h.1⟩
  obtain ⟨M3, e3⟩ := (MemPool.c30_total G h2).2.2 _ hin2
  have h3 := Hist.release h2 hin2 e3
  have hnd2 : c2.live.Nodup := by rw [hl2]; exact hnd1
  have hmem3 : ∀ y, y ∈ c2.live.erase (x.t.addr, sp) ↔ y ≠ (x.t.addr, sp) ∧ y ∈ c.live ∧ ¬ (y.2 = x.t.pool ∧ y.1 ∈ span C x.t.num 0) := by
    intro y; rw [hnd2.mem_erase_iff, hl2, mem_without]
  -- blocks
  have hbn := I.bnodup
  have hbp := I.blocks
  rw [hw] at hbp
  have hbp : w.P.live.Perm ([x.t.heapB, x.t.heapN, x.t.nameB] ++ (pre ++ post).flatMap fun y => y.t.blocks) := by
    refine hbp.trans ?_
    simp only [List.flatMap_append, List.flatMap_cons, Tab.blocks]
    refine List.perm_iff_count.2 fun a => ?_
    simp only [List.count_append]
    omega
  have hbn' := hbp.nodup_iff.1 hbn
  have hm1 : x.t.nameB ∈ w.P.live := hbp.mem_iff.2 (by simp)
  have hp1 : (w.P.live.erase x.t.nameB).Perm ([x.t.heapB, x.t.heapN] ++ (pre ++ post).flatMap fun y => y.t.blocks) := by
    have hr := hbp.erase x.t.nameB
    refine hr.trans (List.Perm.cons_inv (a := x.t.nameB) ?_)
    refine (List.perm_cons_erase (by simp)).symm.trans ?_
    refine List.perm_iff_count.2 fun a => ?_
    simp only [List.count_append, List.count_cons, List.count_nil, List.cons_append, List.nil_append]
    omega
  have hm2 : x.t.heapN ∈ w.P.live.erase x.t.nameB := hp1.mem_iff.2 (by simp)
  have hp2' : ((w.P.live.erase x.t.nameB).erase x.t.heapN).Perm ([x.t.heapB] ++ (pre ++ post).flatMap fun y => y.t.blocks) := by
    have hr := hp1.erase x.t.heapN
    refine hr.trans (List.Perm.cons_inv (a := x.t.heapN) ?_)
    refine (List.perm_cons_erase (by simp)).symm.trans ?_
    refine List.perm_iff_count.2 fun a => ?_
    simp only [List.count_append, List.count_cons, List.count_nil, List.cons_append, List.nil_append]
    omega
  have hm3 : x.t.heapB ∈ (w.P.live.erase x.t.nameB).erase x.t.heapN := hp2'.mem_iff.2 (by simp)
  have hp3 : (((w.P.live.erase x.t.nameB).erase x.t.heapN).erase x.t.heapB).Perm ((pre ++ post).flatMap fun y => y.t.blocks) := by
    refine List.Perm.cons_inv (a := x.t.heapB) ?_
    exact (List.perm_cons_erase hm3).symm.trans hp2'
  have hsub : ∀ b, b ∈ ((w.P.live.erase x.t.nameB).erase x.t.heapN).erase x.t.heapB → b ∈ w.P.live := fun b hb =>
    List.mem_of_mem_erase (List.mem_of_mem_erase (List.mem_of_mem_erase hb))
  -- counting
  have hcx : c.live.countP (fun y => decide (y.2 = x.t.pool)) = x.n := Lx.count
  have hsplit : ∀ l : List (Nat × Nat), l.length + (l.filter fun y => !(decide (y.2 = x.t.pool) && decide (y.1 ∈ span C x.t.num 0))).countP (fun y => decide (y.2 = x.t.pool)) =
      (l.filter fun y => !(decide (y.2 = x.t.pool) && decide (y.1 ∈ span C x.t.num 0))).length + l.countP (fun y => decide (y.2 = x.t.pool)) := by
    intro l
    induction l with
    | nil => rfl
    | cons y ys ih =>
        obtain ⟨y1, y2⟩ := y
        by_cases c1 : y2 = x.t.pool <;> by_cases c2 : y1 ∈ span C x.t.num 0 <;> simp [c1, c2, List.countP_cons, List.filter_cons] <;> simp at ih <;> omega
  have hlen : (c2.live.erase (x.t.addr, sp)).length + (x.n + 1) = c.live.length + x.s.lost.length := by
    have h5 := hsplit c.live
    rw [hcx] at h5
    have h6 : (without c x.t.pool (span C x.t.num 0)).live.length = c2.live.length := by rw [hl2]
    rw [hzl] at hcnt
    have h7 := List.length_erase_of_mem hin2
    have h8 := List.length_pos_of_mem hin2
    simp only [without] at hcnt h6
    rw [hcnt, h6] at h5
    omega
  have hpn := pools_nodup G I.hist
  have hplen : c2.pools.length + (if x.s.lost = [] then 1 else 0) = c.pools.length := by
    rw [hp2]
    split
    · have : ∀ l : List (Nat × Nat × List Byte), (l.map (·.1)).Nodup → (x.t.pool, 48, poolName x.t.name) ∈ l → (l.filter fun y => decide (y.1 ≠ x.t.pool)).length + 1 = l.length := by
        intro l
        induction l with
        | nil => intro _ h; cases h
        | cons y ys ih =>
            intro hn hm
            simp only [List.map_cons, List.nodup_cons] at hn
            by_cases cy : y.1 = x.t.pool
            · have : ys.filter (fun y => decide (y.1 ≠ x.t.pool)) = ys := by
                rw [List.filter_eq_self]
                intro z hz
                simp only [decide_eq_true_eq]
                intro he
                exact hn.1 (List.mem_map.2 ⟨z, hz, he.trans cy.symm⟩)
              rw [List.filter_cons, if_neg (by simp [cy]), this]; simp
            · rcases List.mem_cons.1 hm with h | h
              · exact absurd (congrArg Prod.fst h).symm cy
              · rw [List.filter_cons, if_pos (by simp [cy])]
                have := ih hn.2 h
                simp only [List.length_cons]
                omega
      exact this _ hpn Lx.pool
    · rfl
  have hpsub : ∀ q, q ∈ c2.pools → q ∈ c.pools := by
    intro q hq
    rw [hp2] at hq
    split at hq
    · exact (List.mem_filter.1 hq).1
    · exact hq
  have hpkeep : ∀ q, q ∈ c.pools → q.1 ≠ x.t.pool → q ∈ c2.pools := by
    intro q hq hne
    rw [hp2]
    split
    · exact List.mem_filter.2 ⟨hq, by simp [hne]⟩
    · exact hq
  have hfilt : c2.pools.filter (fun q => decide (q.2.2 = nTable)) = c.pools.filter fun q => decide (q.2.2 = nTable) := by
    rw [hp2]
    split
    · rw [List.filter_filter]
      refine List.filter_congr fun q hq => ?_
      by_cases cq : q.1 = x.t.pool
      · have : q.2.2 ≠ nTable := by
          have := (one_name G I.hist Lx.pool (s' := q.2.1) (n' := q.2.2) (by rw [← cq]; exact hq)).2
          rw [← this]; exact poolName_ne _
        simp [cq, this]
      · simp [cq]
    · rfl
  refine ⟨T1.heap, M3, ⟨((w.P.live.erase x.t.nameB).erase x.t.heapN).erase x.t.heapB, w.P.next⟩, { c2 with live := c2.live.erase (x.t.addr, sp) }, ?_, ?_, ?_⟩
  · obtain ⟨k2, e2⟩ := e2
    refine ⟨max (L + 1) k2, fun fuel hf => ?_⟩
    rw [destroyT]
    refine Outcome.bind_eq_ok.2 ⟨_, e1 fuel (by omega), ?_⟩
    refine Outcome.bind_eq_ok.2 ⟨_, free_spec hm1, ?_⟩
    refine Outcome.bind_eq_ok.2 ⟨_, e2 fuel (by omega), ?_⟩
    refine Outcome.bind_eq_ok.2 ⟨_, free_spec hm2, ?_⟩
    refine Outcome.bind_eq_ok.2 ⟨_, free_spec hm3, ?_⟩
    exact Outcome.bind_eq_ok.2 ⟨_, e3, rfl⟩
  · have h5 := I.pools
    have h6 := I.addrs
    have h7 := I.npools
    have h8 := I.nlive
    rw [hw] at h5 h6 h7 h8
    refine ⟨h3, ?_, ?_, ?_, fun q hq => I.known q (hpsub q hq), ?_, ?_, ?_, hp3, ((hbn.erase _).erase _).erase _, fun b hb => I.bnext b (hsub b hb)⟩
    · intro y hy
      have hne := I.other hw y hy
      have Ly := I.loc y (by rw [hw]; simp at hy ⊢; grind)
      have hya : y.t.addr ≠ x.t.addr := by
        simp only [List.map_append, List.map_cons] at h6
        have := (List.nodup_cons.1 (List.perm_middle.nodup_iff.1 h6)).1
        intro he
        rw [← he, ← List.map_append] at this
        exact this (List.mem_map.2 ⟨y, hy, rfl⟩)
      have hyp : sp ≠ y.t.pool := fun he => poolName_ne y.t.name (one_name G I.hist Ly.pool (he ▸ hsp)).2
      refine (Ly.frame (c' := { c2 with live := c2.live.erase (x.t.addr, sp) }) (fun a => ?_) ?_ ?_ ?_ ?_).1
      · rw [hmem3]
        exact ⟨fun h => h.2.1, fun h => ⟨fun he => hyp (congrArg Prod.snd he).symm, h, fun he => hne he.1⟩⟩
      · have h9 := countP_erase (p := fun z : Nat × Nat => decide (z.2 = y.t.pool)) hin2
        have h10 : c2.live.countP (fun z => decide (z.2 = y.t.pool)) = c.live.countP (fun z => decide (z.2 = y.t.pool)) := by
          rw [hl2]
          simp only [without, List.countP_filter]
          congr 1
          funext z
          by_cases cz : z.2 = y.t.pool
          · simp [cz, hne]
          · simp [cz]
        rw [if_neg (by simp [hyp])] at h9
        show (c2.live.erase (x.t.addr, sp)).countP (fun z => decide (z.2 = y.t.pool)) = _
        rw [← h10]; omega
      · intro a ha
        have ha' : a ∉ span C x.t.num 0 := fun hs => hne (one_pool G I.hist I.pos ha ((hmem a).2 (.inl ((hspan a).1 hs))))
        show T1.heap a = w.H a
        rw [hT1, if_neg ha']; rfl
      · exact fun s n hq => hpkeep _ hq hne
      · intro sp' g1 g2
        refine ⟨hpkeep _ g1 (fun he => by
          have he : sp' = x.t.pool := he
          exact poolName_ne x.t.name (one_name G I.hist Lx.pool (he ▸ g1)).2), ?_⟩
        refine (hmem3 _).2 ⟨fun he => hya (congrArg Prod.fst he), g2, fun he => ?_⟩
        have he : sp' = x.t.pool := he.1
        exact poolName_ne x.t.name (one_name G I.hist Lx.pool (he ▸ g1)).2
    · have := (List.nodup_cons.1 (List.perm_middle.nodup_iff.1 (by simpa using h5))).2
      simpa using this
    · have := (List.nodup_cons.1 (List.perm_middle.nodup_iff.1 (by simpa using h6))).2
      simpa using this
    · show (c2.pools.filter (fun q => decide (q.2.2 = nTable))).length = _
      rw [hfilt]; exact I.shared
    · simp only [List.length_append, List.length_cons] at h7 ⊢
      split at hplen
      · rw [if_pos (by assumption)]; omega
      · rw [if_neg (by assumption)]; omega
    · rw [elements_mid] at h8
      simp only
      omega
  · intro hlost q hq
    have hq : q ∈ c2.pools := hq
    rw [hp2, if_pos hlost] at hq
    simpa using (List.mem_filter.1 hq).2

end ZT.Table.Proc
