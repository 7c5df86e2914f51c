import Verif.MemPool.Elt

/-!
# Destroying pages and pools keeps the invariant
-/

namespace ZT.MemPool

open EList (Rep Step exec)

theorem filter_ne_of_append {l r : List Nat} {x : Nat} (h : (l ++ x :: r).Nodup) : (l ++ x :: r).filter (fun y => decide (y ≠ x)) = l ++ r := by
  rw [List.nodup_append] at h
  obtain ⟨h1, h2, h3⟩ := h
  rw [List.nodup_cons] at h2
  rw [List.filter_append, List.filter_cons, if_neg (by simp)]
  have e1 : l.filter (fun y => decide (y ≠ x)) = l := List.filter_eq_self.2 fun y hy => by
    have := h3 y hy x (by simp); simpa using this
  have e2 : r.filter (fun y => decide (y ≠ x)) = r := List.filter_eq_self.2 fun y hy => by
    have : y ≠ x := by rintro rfl; exact h2.1 hy
    simpa using this
  rw [e1, e2]

theorem rep_remove {H : EList.Heap} {A : EList.Abs} (R : Rep H A) {h x : Addr} {fl : List Addr} (hh : A h = some fl) (hx : x ∈ fl) :
    EList.empty H x = false ∧ Rep (EList.remove H x) (A.set h (some (fl.filter (fun y => decide (y ≠ x))))) := by
  have L := R.lists h fl hh
  refine ⟨by simpa [EList.empty] using next_ne_self L hx, ?_⟩
  obtain ⟨l, r, rfl⟩ := List.append_of_mem hx
  have hn := L.2
  rw [List.nodup_cons] at hn
  rw [filter_ne_of_append hn.2]
  exact EList.step_rep H A _ (.remove x) R (.remove hh)

theorem unlinkLoop_spec (p g sz n : Nat) : ∀ (k : Nat) (M : Mem) (A : EList.Abs) (fl : List Addr), Rep M.H A → A (freeHead p) = some fl →
    (∀ j, k ≤ j → j < k + n → elt sz g j ∈ fl ∧ chk M (elt sz g j) 24 = .ok ()) →
    ∃ H', unlinkLoop (24 + sz) n (elt sz g k) M = .ok { M with H := H' } ∧
      Rep H' (A.set (freeHead p) (some (fl.filter (fun y => decide (y ∉ (List.range' k n).map (elt sz g)))))) := by
  induction n with
  | zero =>
      intro k M A fl R hh _
      refine ⟨M.H, rfl, ?_⟩
      rw [List.filter_eq_self.2 (by simp), set_same A hh]; exact R
  | succ n ih =>
      intro k M A fl R hh hj
      obtain ⟨h1, h2⟩ := hj k (by omega) (by omega)
      obtain ⟨h3, h4⟩ := rep_remove R hh h1
      have hnext : elt sz g k + (24 + sz) = elt sz g (k + 1) := by unfold elt; rw [Nat.succ_mul]; omega
      rw [unlinkLoop, h2]
      simp only [Outcome.ok_bind, h3, hnext, Bool.false_eq_true, if_false]
      obtain ⟨H', e1, e2⟩ := ih (k + 1) { M with H := EList.remove M.H (elt sz g k) } _ _ h4 (by rw [EList.set_eq, if_pos rfl]) (fun j hj1 hj2 => by
        obtain ⟨h5, h6⟩ := hj j (by omega) (by omega)
        refine ⟨List.mem_filter.2 ⟨h5, ?_⟩, h6⟩
        have : elt sz g j ≠ elt sz g k := fun e => by have := elt_inj e; omega
        simpa using this)
      refine ⟨H', e1, ?_⟩
      rw [set_set, List.filter_filter] at e2
      have : (fl.filter fun a => decide (¬a ∈ List.map (elt sz g) (List.range' (k + 1) n)) && decide (a ≠ elt sz g k)) =
          fl.filter (fun y => decide (y ∉ (List.range' k (n + 1)).map (elt sz g))) := by
        refine List.filter_congr fun x _ => ?_
        rw [List.range'_succ, List.map_cons]
        simp only [List.mem_cons, not_or, Bool.decide_and, Bool.and_comm, ne_eq]
      rw [this] at e2
      exact e2

/-- The state after destroying page `g` of pool `p` (not counted in page_frees). -/
def St.shrink (S : St) (P : Pool) (p g : Addr) : St :=
  { S with pages := upd S.pages p ((S.pages p).filter (fun y => decide (y ≠ g))), free := upd S.free p ((S.free p).filter (fun y => decide (y ∉ elts P g))),
           lost := upd S.lost p (S.lost p + 1) }

theorem all_free {M : Mem} {A : EList.Abs} {S : St} (I : Inv M A S) {p g : Addr} (hp : p ∈ S.pools) (hg : g ∈ S.pages p) :
    M.nfree g = (M.pool p).epp ↔ ∀ e ∈ elts (M.pool p) g, e ∈ S.free p := by
  rw [I.nfree p hp g hg]
  have h1 : (elts (M.pool p) g).length = (M.pool p).epp := by simp [elts]
  rw [← h1, List.countP_eq_length]
  simp

theorem pageDestroy_spec {M : Mem} {A : EList.Abs} {S : St} (I : Inv M A S) {p g : Addr} (hp : p ∈ S.pools) (hg : g ∈ S.pages p) (hfull : M.nfree g = (M.pool p).epp) :
    ∃ M' A', pageDestroy M g = .ok (0, M') ∧ Inv M' A' (S.shrink (M.pool p) p g) ∧ (∀ q, SameCfg (M'.pool q) (M.pool q)) ∧ M'.nfree = M.nfree ∧
      M'.blocks = M.blocks.filter (fun b => decide (b.1 ≠ g)) ∧ M'.tick = M.tick := by
  have hall := (all_free I hp hg).1 hfull
  have hps := I.pageSize_pos hp
  have hgp : ∀ q ∈ S.pools, g ∈ S.pages q → q = p := fun q hq hgq => by rw [← I.ppool q hq g hgq, ← I.ppool p hp g hg]
  have helx : elts (M.pool p) g = (List.range' 0 (M.pool p).epp).map (elt (M.pool p).eltSize g) := by rw [elts, List.range_eq_range']
  have hnp : 0 < (M.pool p).npages := by
    rw [I.npages p hp]; exact List.length_pos_of_mem hg
  have hnfp : 0 < (M.pool p).nfreePages := by
    rw [I.nfreePages p hp]; exact List.countP_pos_iff.2 ⟨g, hg, by simp [hfull]⟩
  obtain ⟨H1, e1, R1⟩ := unlinkLoop_spec p g (M.pool p).eltSize (M.pool p).epp 0
    { M with pool := upd M.pool p { M.pool p with npages := (M.pool p).npages - 1, nfreePages := (M.pool p).nfreePages - 1 } } A (S.free p) I.rep (I.afree p hp)
    (fun j _ hj => by
      have hm : elt (M.pool p).eltSize g j ∈ elts (M.pool p) g := mem_elts.2 ⟨j, by omega, rfl⟩
      exact ⟨hall _ hm, chk_elt (M := M) I hp hg hm⟩)
  rw [← helx] at R1
  have hpf : pageHead p ≠ freeHead p := (I.heads hp hp).2.2.1
  obtain ⟨h3, R2⟩ := rep_remove R1 (h := pageHead p) (by rw [EList.set_eq, if_neg hpf]; exact I.apages p hp) hg
  have h0 : g + 32 = elt (M.pool p).eltSize g 0 := by simp [elt]
  have hb := I.bpage p hp g hg
  have hsame : ∀ b ∈ M.blocks, b.1 = g → b = (g, (M.pool p).pageSize) := by
    intro b hb' hbg
    refine I.same_block hb' hb (x := g) ?_ (by unfold In; simp only; omega)
    have := I.pos b hb'
    unfold In; omega
  refine ⟨{ M with pool := upd M.pool p { M.pool p with npages := (M.pool p).npages - 1, nfreePages := (M.pool p).nfreePages - 1 }, H := EList.remove H1 g, blocks := M.blocks.filter (fun b => decide (b.1 ≠ g)) },
    (A.set (freeHead p) (some ((S.free p).filter (fun y => decide (y ∉ elts (M.pool p) g))))).set (pageHead p) (some ((S.pages p).filter (fun y => decide (y ≠ g)))), ?_, ?_, ?_, rfl, rfl, rfl⟩
  · rw [pageDestroy, chk_page I hp hg]
    simp only [Outcome.ok_bind, I.ppool p hp g hg]
    rw [chk_pool I hp]
    simp only [Outcome.ok_bind, hfull, Nat.lt_irrefl, if_false, dec_pos hnp, dec_pos hnfp, h0, e1, h3, Bool.false_eq_true]
    rw [dealloc, if_pos]
    · rfl
    · rw [List.any_eq_true]; exact ⟨_, hb, by simp⟩
  · generalize hM' : ({ M with pool := upd M.pool p { M.pool p with npages := (M.pool p).npages - 1, nfreePages := (M.pool p).nfreePages - 1 }, H := EList.remove H1 g, blocks := M.blocks.filter (fun b => decide (b.1 ≠ g)) } : Mem) = M'
    have hpool' : ∀ q, M'.pool q = if q = p then { M.pool p with npages := (M.pool p).npages - 1, nfreePages := (M.pool p).nfreePages - 1 } else M.pool q := by
      intro q; subst hM'; rfl
    have hbl' : M'.blocks = M.blocks.filter (fun b => decide (b.1 ≠ g)) := by subst hM'; rfl
    have hrep' : M'.H = EList.remove H1 g := by subst hM'; rfl
    have hpar' : M'.parent = M.parent := by subst hM'; rfl
    have hnf' : M'.nfree = M.nfree := by subst hM'; rfl
    have hpp' : M'.ppool = M.ppool := by subst hM'; rfl
    clear hM'
    have hcfg : ∀ q, (M'.pool q).epp = (M.pool q).epp ∧ (M'.pool q).eltSize = (M.pool q).eltSize ∧ (M'.pool q).pageSize = (M.pool q).pageSize := by
      intro q; rw [hpool']; grind
    have hel : ∀ q g', elts (M'.pool q) g' = elts (M.pool q) g' := fun q g' => elts_congr (hcfg q).1 (hcfg q).2.1 g'
    have hpg : ∀ q, (S.shrink (M.pool p) p g).pages q = if q = p then (S.pages p).filter (fun y => decide (y ≠ g)) else S.pages q := fun _ => rfl
    have hfr : ∀ q, (S.shrink (M.pool p) p g).free q = if q = p then (S.free p).filter (fun y => decide (y ∉ elts (M.pool p) g)) else S.free q := fun _ => rfl
    have hmemp : ∀ q ∈ S.pools, ∀ g', g' ∈ (S.shrink (M.pool p) p g).pages q ↔ g' ∈ S.pages q ∧ g' ≠ g := by
      intro q hq g'; rw [hpg]; split
      · subst_vars; simp
      · have : g' ∈ S.pages q → g' ≠ g := by rintro h rfl; exact ‹¬ q = p› (hgp q hq h)
        constructor
        · intro h; exact ⟨h, this h⟩
        · intro h; exact h.1
    have hmb : ∀ b, b ∈ M'.blocks ↔ b ∈ M.blocks ∧ b.1 ≠ g := by intro b; rw [hbl']; simp
    have hpoolg : ∀ q ∈ S.pools, q ≠ g := by rintro q hq rfl; exact I.sep q hq p hp hg
    have hrootg : poolsHead ≠ g := by
      intro h
      have := hsame _ I.broot h
      injection this; omega
    constructor
    case rep => rw [hrep']; exact R2
    case aroot =>
      have := I.heads hp hp
      rw [EList.set_eq, if_neg this.2.2.2.1, EList.set_eq, if_neg this.2.2.2.2]; exact I.aroot
    case linked => exact I.linked
    case apages =>
      intro q hq
      have := I.heads hq hp
      have hA := I.apages q hq
      rw [EList.set_eq, EList.set_eq, hpg]; grind
    case afree =>
      intro q hq
      have := I.heads hq hp
      have := I.heads hp hq
      have hA := I.afree q hq
      rw [EList.set_eq, EList.set_eq, hfr]; grind
    case only =>
      intro h hh
      rw [EList.set_eq, EList.set_eq] at hh
      by_cases h1 : h = pageHead p
      · exact .inr ⟨p, hp, .inl h1⟩
      · by_cases h2 : h = freeHead p
        · exact .inr ⟨p, hp, .inr h2⟩
        · rw [if_neg h1, if_neg h2] at hh; exact I.only h hh
    case nodup => rw [hbl']; exact I.nodup.filter _
    case disj => intro b hb c hc; exact I.disj b ((hmb b).1 hb).1 c ((hmb c).1 hc).1
    case pos => intro b hb; exact I.pos b ((hmb b).1 hb).1
    case broot => exact (hmb _).2 ⟨I.broot, hrootg⟩
    case bpool => intro q hq; exact (hmb _).2 ⟨I.bpool q hq, hpoolg q hq⟩
    case bpage =>
      intro q hq g' hg'
      rw [(hcfg q).2.2]
      have := (hmemp q hq g').1 hg'
      exact (hmb _).2 ⟨I.bpage q hq g' this.1, this.2⟩
    case sep =>
      intro q hq r hr hm
      exact I.sep q hq r hr ((hmemp r hr q).1 hm).1
    case epp => intro q hq; rw [(hcfg q).1, (hcfg q).2.1, (hcfg q).2.2]; exact I.epp q hq
    case ppool => intro q hq g' hg'; rw [hpp']; exact I.ppool q hq g' ((hmemp q hq g').1 hg').1
    case parent =>
      intro q hq g' hg' x hx
      rw [hel] at hx; rw [hpar']
      exact I.parent q hq g' ((hmemp q hq g').1 hg').1 x hx
    case freeSub =>
      intro q hq x hx
      rw [hfr] at hx
      simp only [hel]
      split at hx
      · subst_vars
        rw [List.mem_filter] at hx
        obtain ⟨g', hg', he⟩ := I.freeSub q hq x hx.1
        refine ⟨g', (hmemp q hq g').2 ⟨hg', ?_⟩, he⟩
        rintro rfl
        simp [he] at hx
      · obtain ⟨g', hg', he⟩ := I.freeSub q hq x hx
        refine ⟨g', (hmemp q hq g').2 ⟨hg', ?_⟩, he⟩
        rintro rfl
        exact ‹¬ q = p› (hgp q hq hg')
    case nfree =>
      intro q hq g' hg'
      have hgg := (hmemp q hq g').1 hg'
      rw [hnf', hel, hfr, I.nfree q hq g' hgg.1]
      refine List.countP_congr fun x hx => ?_
      split
      · subst_vars
        have : x ∉ elts (M.pool q) g := fun h => hgg.2 (I.elt_unique hq hgg.1 hx hq hg h).1
        simp [this]
      · rfl
    case npages =>
      intro q hq
      have h1 := I.npages q hq
      rw [hpool', hpg]
      split
      · subst_vars
        have hnd : (S.pages q).Nodup := by
          have := (I.rep.lists _ _ (I.apages q hq)).2
          rw [List.nodup_cons] at this; exact this.2
        obtain ⟨l, r, h⟩ := List.append_of_mem hg
        rw [h] at hnd h1 ⊢
        rw [filter_ne_of_append hnd]
        simp only [List.length_append, List.length_cons] at h1 ⊢
        omega
      · exact h1
    case nfreePages =>
      intro q hq
      have h1 := I.nfreePages q hq
      rw [hnf', (hcfg q).1, hpg]
      split
      · subst_vars
        have hnd : (S.pages q).Nodup := by
          have := (I.rep.lists _ _ (I.apages q hq)).2
          rw [List.nodup_cons] at this; exact this.2
        obtain ⟨l, r, h⟩ := List.append_of_mem hg
        rw [h] at hnd h1 ⊢
        rw [filter_ne_of_append hnd, hpool', if_pos rfl]
        rw [List.countP_append, List.countP_cons_of_pos (by simp [hfull])] at h1
        rw [List.countP_append]
        simp only
        omega
      · rw [hpool', if_neg ‹_›, h1]
    case count =>
      intro q hq
      have := I.count q hq
      rw [hpool']
      show _ = _ + _ + upd S.lost p (S.lost p + 1) q
      simp only [upd]
      split
      · subst_vars; simp only; omega
      · exact this
    case noleak =>
      intro b hb
      obtain ⟨hb, hbg⟩ := (hmb b).1 hb
      simp only [(hcfg _).2.2]
      rcases I.noleak b hb with h | ⟨q, hq, h | ⟨g', hg', h⟩⟩
      · exact .inl h
      · exact .inr ⟨q, hq, .inl h⟩
      · exact .inr ⟨q, hq, .inr ⟨g', (hmemp q hq g').2 ⟨hg', by rintro rfl; exact hbg (by rw [h])⟩, h⟩⟩
  · intro q; simp only [SameCfg, upd]; grind

end ZT.MemPool
