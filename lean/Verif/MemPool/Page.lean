import Verif.MemPool.Inv

/-!
# Adding and destroying pages keep the invariant
-/

namespace ZT.MemPool

open EList (Rep Step exec)

theorem upd_eq {α : Type} (f : Addr → α) (a : Addr) (v : α) (x : Addr) : upd f a v x = if x = a then v else f x := rfl

theorem elts_congr {P Q : Pool} (h1 : P.epp = Q.epp) (h2 : P.eltSize = Q.eltSize) (g : Addr) : elts P g = elts Q g := by
  unfold elts; rw [h1, h2]

/-- The configuration of a pool never changes. -/
def SameCfg (P Q : Pool) : Prop := P.epp = Q.epp ∧ P.eltSize = Q.eltSize ∧ P.pageSize = Q.pageSize ∧ P.name = Q.name

/-- The state after adding page `g` to pool `p`. -/
def St.grow (S : St) (P : Pool) (p g : Addr) : St :=
  { S with pages := upd S.pages p (S.pages p ++ [g]), free := upd S.free p (S.free p ++ elts P g) }

theorem pageAlloc_spec {al : Alloc} (G : Good al) {M : Mem} {A : EList.Abs} {S : St} (I : Inv M A S) {p : Addr} (hp : p ∈ S.pools) :
    ∃ g M', pageAlloc al M p = .ok (some g, M') ∧ 0 < g ∧ (∀ b ∈ M.blocks, Disj (g, (M.pool p).pageSize) b) ∧
      M'.blocks = (g, (M.pool p).pageSize) :: M.blocks ∧
      Rep M'.H (A.set (freeHead p) (some (S.free p ++ elts (M.pool p) g))) ∧
      (∀ x, M'.parent x = if x ∈ elts (M.pool p) g then g else M.parent x) ∧
      (∀ x, M'.nfree x = if x = g then (M.pool p).epp else M.nfree x) ∧
      (∀ x, M'.ppool x = if x = g then p else M.ppool x) ∧
      M'.pool = upd M.pool p { M.pool p with npages := (M.pool p).npages + 1, nfreePages := (M.pool p).nfreePages + 1 } := by
  obtain ⟨g, ha, hpos, hfresh⟩ := G M.tick M.blocks (M.pool p).pageSize
  have hps := I.pageSize_pos hp
  obtain ⟨he1, he2⟩ := I.epp p hp
  have hfree : ∀ x, In (g, (M.pool p).pageSize) x → EList.Free A x := fun x hx => I.fresh_free hfresh hx
  have h0 : g + 32 = elt (M.pool p).eltSize g 0 := by simp [elt]
  have hb0 := elt_bound (sz := (M.pool p).eltSize) (g := g) he1
  have hnotin : ∀ x, In (g, (M.pool p).pageSize) x → x ∉ S.free p := fun x hx => (hfree x hx).2 _ _ (I.afree p hp)
  have hIn : ∀ j, j < (M.pool p).epp → In (g, (M.pool p).pageSize) (elt (M.pool p).eltSize g j) := by
    intro j hj
    have := elt_bound (sz := (M.pool p).eltSize) (g := g) hj
    unfold In; simp only
    constructor
    · unfold elt; omega
    · omega
  have R0 : Rep (EList.reset M.H g) A := rep_reset I.rep (hfree g (by unfold In; simp only; omega))
  have hF0 := hfree _ (hIn 0 he1)
  have R1 := rep_append R0 (I.afree p hp) hF0
  have hel : elts (M.pool p) g = elt (M.pool p).eltSize g 0 :: (List.range' 1 ((M.pool p).epp - 1)).map (elt (M.pool p).eltSize g) := by
    rw [elts, List.range_eq_range', show (M.pool p).epp = ((M.pool p).epp - 1) + 1 by omega, List.range'_succ]; rfl
  obtain ⟨M', e1, e2, e3, e4, e5, e6, e7, _⟩ := fillLoop_spec p g (M.pool p).eltSize ((M.pool p).epp - 1) 0
    { M with blocks := (g, (M.pool p).pageSize) :: M.blocks, tick := M.tick + 1, nfree := upd (upd M.nfree g 0) g (upd M.nfree g 0 g + 1), ppool := upd M.ppool g p,
             H := EList.addTail (EList.reset M.H g) (freeHead p) (elt (M.pool p).eltSize g 0), parent := upd M.parent (elt (M.pool p).eltSize g 0) g }
    (A.set (freeHead p) (some (S.free p ++ [elt (M.pool p).eltSize g 0]))) (S.free p ++ [elt (M.pool p).eltSize g 0]) (M.pool p).pageSize R1
    (by simp [EList.set_eq]) (by simp) (by rw [show 0 + 1 + ((M.pool p).epp - 1) = (M.pool p).epp by omega]; exact he2)
    (fun x hx hm => by
      simp only [List.mem_append, List.mem_cons, List.not_mem_nil, or_false, not_or] at hm
      exact free_append (hfree x hx) (I.afree p hp) hm.2)
    (fun j hj hj2 => by
      simp only [List.mem_append, List.mem_cons, List.not_mem_nil, or_false, not_or]
      exact ⟨hnotin _ (hIn j (by omega)), fun e => by have := elt_inj e; omega⟩)
  refine ⟨g, { M' with pool := upd M.pool p { M.pool p with npages := (M.pool p).npages + 1, nfreePages := (M.pool p).nfreePages + 1 } }, ?_, hpos, hfresh, e7, ?_, ?_, ?_, ?_, rfl⟩
  · rw [pageAlloc, malloc, ha]
    simp only
    rw [chk_ok (b := (g, (M.pool p).pageSize)) (by simp) (by simp only; omega) (by simp only; omega)]
    simp only [Outcome.ok_bind]
    rw [chk_ok (b := (g, (M.pool p).pageSize)) (by simp) (by simp only; omega) (by simp only; omega)]
    simp only [Outcome.ok_bind, h0]
    rw [e1]
    simp only [Outcome.ok_bind, Outcome.pure_eq, e6]
  · rw [set_set] at e2
    rw [hel]
    simpa using e2
  · intro x
    simp only
    rw [e3, hel]
    simp only [upd, List.mem_cons]
    grind
  · intro x
    simp only
    rw [e4]
    simp only [upd]
    grind
  · intro x
    simp only
    rw [e5]; rfl

theorem addPage_full {al : Alloc} (G : Good al) {M : Mem} {A : EList.Abs} {S : St} (I : Inv M A S) {p : Addr} (hp : p ∈ S.pools) :
    ∃ g M' A', addPage al M p = .ok M' ∧ M'.blocks = (g, (M.pool p).pageSize) :: M.blocks ∧ Inv M' A' (S.grow (M.pool p) p g) ∧ (∀ q, SameCfg (M'.pool q) (M.pool q)) := by
  obtain ⟨g, M1, e, hpos, hfresh, hbl, hrep, hpar, hnf, hpp, hpool⟩ := pageAlloc_spec G I hp
  have hps := I.pageSize_pos hp
  have hIng : In (g, (M.pool p).pageSize) g := by unfold In; simp only; omega
  have hfg := I.fresh_free hfresh hIng
  have hnew : ∀ b ∈ M.blocks, ¬ In b g := by
    intro b hb hi
    have := hfresh b hb
    unfold Disj In at *; simp only at *; omega
  have hgp : ∀ q ∈ S.pools, g ∉ S.pages q := fun q hq => hfg.2 _ _ (I.apages q hq)
  have hgpool : ∀ q ∈ S.pools, q ≠ g := by
    intro q hq e
    exact hnew _ (I.bpool q hq) (by subst e; unfold In; simp only; omega)
  -- elements of the new page are new
  have hnewe : ∀ q ∈ S.pools, ∀ g' ∈ S.pages q, ∀ x ∈ elts (M.pool q) g', x ∉ elts (M.pool p) g := by
    intro q hq g' hg' x hx hx2
    have h1 := I.elt_In hq hx
    have h2 := I.elt_In (g := g) hp hx2
    have h3 := hfresh _ (I.bpage q hq g' hg')
    unfold Disj In at *; simp only at *; omega
  have hnewf : ∀ q ∈ S.pools, ∀ x ∈ S.free q, x ∉ elts (M.pool p) g := by
    intro q hq x hx
    obtain ⟨g', hg', he⟩ := I.freeSub q hq x hx
    exact hnewe q hq g' hg' x he
  have hFg : EList.Free (A.set (freeHead p) (some (S.free p ++ elts (M.pool p) g))) g := by
    have hgh : g ≠ freeHead p := by
      intro h
      exact hnew _ (I.bpool p hp) (by rw [h]; unfold In freeHead; simp only; omega)
    refine ⟨by rw [EList.set_eq, if_neg hgh]; exact hfg.1, ?_⟩
    intro h xs hx
    rw [EList.set_eq] at hx
    split at hx
    · cases hx
      rw [List.mem_append]
      rintro (h1 | h1)
      · exact hfg.2 _ _ (I.afree p hp) h1
      · have := I.elt_in (g := g) hp h1; omega
    · exact hfg.2 _ _ hx
  have hpf : pageHead p ≠ freeHead p := by unfold pageHead freeHead; omega
  have R2 := rep_append hrep (h := pageHead p) (fl := S.pages p) (by rw [EList.set_eq, if_neg hpf]; exact I.apages p hp) hFg
  refine ⟨g, { M1 with H := EList.addTail M1.H (pageHead p) g, pool := upd M1.pool p { M1.pool p with pageAllocs := (M1.pool p).pageAllocs + 1 } },
    (A.set (freeHead p) (some (S.free p ++ elts (M.pool p) g))).set (pageHead p) (some (S.pages p ++ [g])), ?_, hbl, ?_, ?_⟩
  · rw [addPage, e]; rfl
  · generalize hM' : ({ M1 with H := EList.addTail M1.H (pageHead p) g, pool := upd M1.pool p { M1.pool p with pageAllocs := (M1.pool p).pageAllocs + 1 } } : Mem) = M'
    have hpool' : ∀ q, M'.pool q = if q = p then { M.pool p with npages := (M.pool p).npages + 1, nfreePages := (M.pool p).nfreePages + 1, pageAllocs := (M.pool p).pageAllocs + 1 } else M.pool q := by
      intro q; subst hM'; simp only; rw [hpool]; simp only [upd]; grind
    have hbl' : M'.blocks = (g, (M.pool p).pageSize) :: M.blocks := by subst hM'; exact hbl
    have hrep' : M'.H = EList.addTail M1.H (pageHead p) g := by subst hM'; rfl
    have hpar' : ∀ x, M'.parent x = if x ∈ elts (M.pool p) g then g else M.parent x := by subst hM'; exact hpar
    have hnf' : ∀ x, M'.nfree x = if x = g then (M.pool p).epp else M.nfree x := by subst hM'; exact hnf
    have hpp' : ∀ x, M'.ppool x = if x = g then p else M.ppool x := by subst hM'; exact hpp
    clear hM' hpool hbl hpar hnf hpp
    have hcfg : ∀ q, (M'.pool q).epp = (M.pool q).epp ∧ (M'.pool q).eltSize = (M.pool q).eltSize ∧ (M'.pool q).pageSize = (M.pool q).pageSize := by
      intro q; rw [hpool']; grind
    have hel : ∀ q g', elts (M'.pool q) g' = elts (M.pool q) g' := fun q g' => elts_congr (hcfg q).1 (hcfg q).2.1 g'
    have hpg : ∀ q, (S.grow (M.pool p) p g).pages q = if q = p then S.pages p ++ [g] else S.pages q := fun _ => rfl
    have hfr : ∀ q, (S.grow (M.pool p) p g).free q = if q = p then S.free p ++ elts (M.pool p) g else S.free q := fun _ => rfl
    have hmemp : ∀ q g', g' ∈ (S.grow (M.pool p) p g).pages q ↔ g' ∈ S.pages q ∨ (q = p ∧ g' = g) := by
      intro q g'; rw [hpg]; split
      · subst_vars; simp
      · simp_all
    constructor
    case rep => rw [hrep']; exact R2
    case aroot =>
      have := I.heads hp hp
      rw [EList.set_eq, if_neg this.2.2.2.1, EList.set_eq, if_neg this.2.2.2.2]; exact I.aroot
    case linked => exact I.linked
    case apages =>
      intro q hq
      have := I.heads hq hp
      have hA := I.apages q hq
      rw [EList.set_eq, EList.set_eq, hpg]; grind
    case afree =>
      intro q hq
      have := I.heads hq hp
      have := I.heads hp hq
      have hA := I.afree q hq
      rw [EList.set_eq, EList.set_eq, hfr]; grind
    case only =>
      intro h hh
      rw [EList.set_eq, EList.set_eq] at hh
      by_cases h1 : h = pageHead p
      · exact .inr ⟨p, hp, .inl h1⟩
      · by_cases h2 : h = freeHead p
        · exact .inr ⟨p, hp, .inr h2⟩
        · rw [if_neg h1, if_neg h2] at hh; exact I.only h hh
    case nodup =>
      rw [hbl', List.nodup_cons]
      exact ⟨fun hm => hnew _ hm hIng, I.nodup⟩
    case disj =>
      rw [hbl']
      intro b hb c hc hne
      rcases List.mem_cons.1 hb with rfl | hb
      · rcases List.mem_cons.1 hc with rfl | hc
        · exact absurd rfl hne
        · exact hfresh c hc
      · rcases List.mem_cons.1 hc with rfl | hc
        · have := hfresh b hb; unfold Disj at *; omega
        · exact I.disj b hb c hc hne
    case pos =>
      rw [hbl']
      intro b hb
      rcases List.mem_cons.1 hb with rfl | hb
      · exact ⟨hpos, by simp only; omega⟩
      · exact I.pos b hb
    case broot => rw [hbl']; exact List.mem_cons_of_mem _ I.broot
    case bpool => intro q hq; rw [hbl']; exact List.mem_cons_of_mem _ (I.bpool q hq)
    case bpage =>
      intro q hq g' hg'
      rw [hbl', (hcfg q).2.2]
      rcases (hmemp q g').1 hg' with h | ⟨rfl, rfl⟩
      · exact List.mem_cons_of_mem _ (I.bpage q hq g' h)
      · simp
    case sep =>
      intro q hq r hr hm
      rcases (hmemp r q).1 hm with h | ⟨rfl, rfl⟩
      · exact I.sep q hq r hr h
      · exact hgpool _ hq rfl
    case epp =>
      intro q hq
      rw [(hcfg q).1, (hcfg q).2.1, (hcfg q).2.2]; exact I.epp q hq
    case ppool =>
      intro q hq g' hg'
      rw [hpp']
      rcases (hmemp q g').1 hg' with h | ⟨rfl, rfl⟩
      · rw [if_neg (by rintro rfl; exact hgp q hq h)]; exact I.ppool q hq g' h
      · simp
    case parent =>
      intro q hq g' hg' x hx
      rw [hel] at hx
      rw [hpar']
      rcases (hmemp q g').1 hg' with h | ⟨rfl, rfl⟩
      · rw [if_neg (hnewe q hq g' h x hx)]; exact I.parent q hq g' h x hx
      · rw [if_pos hx]
    case freeSub =>
      intro q hq x hx
      rw [hfr] at hx
      simp only [hel, hmemp]
      split at hx
      · subst_vars
        rcases List.mem_append.1 hx with h | h
        · obtain ⟨g', hg', he⟩ := I.freeSub q hq x h
          exact ⟨g', .inl hg', he⟩
        · exact ⟨g, .inr ⟨rfl, rfl⟩, h⟩
      · obtain ⟨g', hg', he⟩ := I.freeSub q hq x hx
        exact ⟨g', .inl hg', he⟩
    case nfree =>
      intro q hq g' hg'
      rw [hnf', hel, hfr]
      rcases (hmemp q g').1 hg' with h | ⟨rfl, rfl⟩
      · rw [if_neg (by rintro rfl; exact hgp q hq h), I.nfree q hq g' h]
        refine List.countP_congr fun x hx => ?_
        have := hnewe q hq g' h x hx
        split
        · subst_vars; simp [this]
        · simp
      · rw [if_pos rfl, if_pos rfl]
        have : (elts (M.pool q) g').countP (fun x => decide (x ∈ S.free q ++ elts (M.pool q) g')) = (elts (M.pool q) g').length := by
          rw [List.countP_eq_length]
          intro x hx; simp [hx]
        rw [this, elts]; simp
    case npages =>
      intro q hq
      have := I.npages q hq
      rw [hpool', hpg]
      split
      · subst_vars; simp [this]
      · exact this
    case nfreePages =>
      intro q hq
      have h1 := I.nfreePages q hq
      have hold : (S.pages q).countP (fun g' => decide (M'.nfree g' = (M'.pool q).epp)) = (S.pages q).countP (fun g' => decide (M.nfree g' = (M.pool q).epp)) := by
        refine List.countP_congr fun x hx => ?_
        rw [hnf', if_neg (by rintro rfl; exact hgp q hq hx), (hcfg q).1]
      rw [hpg]
      split
      · subst_vars
        rw [List.countP_append, hold, ← h1, hpool', if_pos rfl]
        simp [hnf', hpool']
      · rw [hold, ← h1, hpool', if_neg ‹_›]
    case count =>
      intro q hq
      have := I.count q hq
      rw [hpool']
      show _ = _ + _ + S.lost q
      split
      · subst_vars; simp only; omega
      · exact this
    case noleak =>
      intro b hb
      rw [hbl'] at hb
      simp only [hmemp, (hcfg _).2.2]
      rcases List.mem_cons.1 hb with rfl | hb
      · exact .inr ⟨p, hp, .inr ⟨g, .inr ⟨rfl, rfl⟩, rfl⟩⟩
      · rcases I.noleak b hb with h | ⟨q, hq, h | ⟨g', hg', h⟩⟩
        · exact .inl h
        · exact .inr ⟨q, hq, .inl h⟩
        · exact .inr ⟨q, hq, .inr ⟨g', .inl hg', h⟩⟩
  · intro q; simp only [SameCfg]; rw [hpool]; simp only [upd]; grind

theorem addPage_spec {al : Alloc} (G : Good al) {M : Mem} {A : EList.Abs} {S : St} (I : Inv M A S) {p : Addr} (hp : p ∈ S.pools) :
    ∃ g M' A', addPage al M p = .ok M' ∧ Inv M' A' (S.grow (M.pool p) p g) ∧ (∀ q, SameCfg (M'.pool q) (M.pool q)) := by
  obtain ⟨g, M', A', h1, _, h2, h3⟩ := addPage_full G I hp
  exact ⟨g, M', A', h1, h2, h3⟩

end ZT.MemPool
