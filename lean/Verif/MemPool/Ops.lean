import Verif.Fuel
import Verif.MemPool.Destroy

/-!
# The public operations keep the invariant
-/

namespace ZT.MemPool

open EList (Rep Step exec)

/-- Element `e` of pool `p` is handed out. -/
def Live (M : Mem) (S : St) (p e : Addr) : Prop := p ∈ S.pools ∧ ∃ g ∈ S.pages p, e ∈ elts (M.pool p) g ∧ e ∉ S.free p

theorem grow_live {M M' : Mem} {A A' : EList.Abs} {S : St} (I : Inv M A S) {p g : Addr} (hp : p ∈ S.pools) (I' : Inv M' A' (S.grow (M.pool p) p g))
    (hcfg : ∀ q, SameCfg (M'.pool q) (M.pool q)) (q e : Addr) : Live M' (S.grow (M.pool p) p g) q e ↔ Live M S q e := by
  have hel : ∀ q g', elts (M'.pool q) g' = elts (M.pool q) g' := fun q g' => elts_congr (hcfg q).1 (hcfg q).2.1 g'
  have hpg : (S.grow (M.pool p) p g).pages p = S.pages p ++ [g] := by simp [St.grow, upd]
  have hfp : (S.grow (M.pool p) p g).free p = S.free p ++ elts (M.pool p) g := by simp [St.grow, upd]
  have hnd := (I'.rep.lists _ _ (I'.apages p hp)).2
  rw [hpg] at hnd
  unfold Live
  simp only [hel]
  refine and_congr Iff.rfl ?_
  by_cases hq : q = p
  · subst hq
    rw [hpg, hfp]
    constructor
    · rintro ⟨g', h1, h2, h3⟩
      simp only [List.mem_append, not_or] at h3
      rcases List.mem_append.1 h1 with h | h
      · exact ⟨g', h, h2, h3.1⟩
      · rw [List.mem_singleton.1 h] at h2; exact absurd h2 h3.2
    · rintro ⟨g', h1, h2, h3⟩
      refine ⟨g', by simp [h1], h2, ?_⟩
      simp only [List.mem_append, not_or]
      refine ⟨h3, fun h4 => ?_⟩
      have := (I'.elt_unique (e := e) (g := g') hp (by rw [hpg]; simp [h1]) (by rw [hel]; exact h2) hp (g' := g) (by rw [hpg]; simp) (by rw [hel]; exact h4)).1
      rw [List.nodup_cons, List.nodup_append] at hnd
      exact hnd.2.2.2 g' h1 g (by simp) this
  · have h1 : (S.grow (M.pool p) p g).pages q = S.pages q := by simp [St.grow, upd, hq]
    have h2 : (S.grow (M.pool p) p g).free q = S.free q := by simp [St.grow, upd, hq]
    rw [h1, h2]

theorem shrink_live {M M' : Mem} {A : EList.Abs} {S : St} (I : Inv M A S) {p g : Addr} (hp : p ∈ S.pools) (hg : g ∈ S.pages p) (hfull : M.nfree g = (M.pool p).epp)
    (hcfg : ∀ q, SameCfg (M'.pool q) (M.pool q)) (q e : Addr) : Live M' (S.shrink (M.pool p) p g) q e ↔ Live M S q e := by
  have hel : ∀ q g', elts (M'.pool q) g' = elts (M.pool q) g' := fun q g' => elts_congr (hcfg q).1 (hcfg q).2.1 g'
  have hall := (all_free I hp hg).1 hfull
  unfold Live
  simp only [hel]
  refine and_congr Iff.rfl ?_
  by_cases hq : q = p
  · subst hq
    have hpg : (S.shrink (M.pool q) q g).pages q = (S.pages q).filter (fun y => decide (y ≠ g)) := by simp [St.shrink, upd]
    have hfp : (S.shrink (M.pool q) q g).free q = (S.free q).filter (fun y => decide (y ∉ elts (M.pool q) g)) := by simp [St.shrink, upd]
    rw [hpg, hfp]
    constructor
    · rintro ⟨g', h1, h2, h3⟩
      rw [List.mem_filter] at h1
      have hgg : g' ≠ g := by simpa using h1.2
      refine ⟨g', h1.1, h2, fun h4 => h3 (List.mem_filter.2 ⟨h4, ?_⟩)⟩
      have : e ∉ elts (M.pool q) g := fun h5 => hgg (I.elt_unique hp h1.1 h2 hp hg h5).1
      simp [this]
    · rintro ⟨g', h1, h2, h3⟩
      have hgg : g' ≠ g := by rintro rfl; exact h3 (hall e h2)
      refine ⟨g', List.mem_filter.2 ⟨h1, by simp [hgg]⟩, h2, fun h4 => h3 (List.mem_filter.1 h4).1⟩
  · have h1 : (S.shrink (M.pool p) p g).pages q = S.pages q := by simp [St.shrink, upd, hq]
    have h2 : (S.shrink (M.pool p) p g).free q = S.free q := by simp [St.shrink, upd, hq]
    rw [h1, h2]

theorem SameCfg.trans {P Q R : Pool} (h : SameCfg P Q) (k : SameCfg Q R) : SameCfg P R := ⟨h.1.trans k.1, h.2.1.trans k.2.1, h.2.2.1.trans k.2.2.1, h.2.2.2.trans k.2.2.2⟩

theorem SameCfg.refl (P : Pool) : SameCfg P P := ⟨rfl, rfl, rfl, rfl⟩

theorem take_live {M M' : Mem} {A : EList.Abs} {S : St} (I : Inv M A S) {p e : Addr} {fl : List Addr} (hp : p ∈ S.pools) (hf : S.free p = e :: fl)
    (hcfg : ∀ q, SameCfg (M'.pool q) (M.pool q)) (q x : Addr) : Live M' { S with free := upd S.free p fl } q x ↔ Live M S q x ∨ (q = p ∧ x = e) := by
  have hel : ∀ q g', elts (M'.pool q) g' = elts (M.pool q) g' := fun q g' => elts_congr (hcfg q).1 (hcfg q).2.1 g'
  obtain ⟨g, hg, he⟩ := I.freeSub p hp e (by rw [hf]; simp)
  have hnd := free_nodup I hp
  rw [hf, List.nodup_cons] at hnd
  unfold Live
  simp only [hel, upd]
  by_cases hq : q = p
  · subst hq
    simp only [if_true, true_and, hf]
    constructor
    · rintro ⟨h1, g', h2, h3, h4⟩
      by_cases hx : x = e
      · exact .inr hx
      · exact .inl ⟨h1, g', h2, h3, by simp [hx, h4]⟩
    · rintro (⟨h1, g', h2, h3, h4⟩ | rfl)
      · exact ⟨h1, g', h2, h3, fun h => h4 (by simp [h])⟩
      · exact ⟨hp, g, hg, he, hnd.1⟩
  · simp only [hq, if_false, false_and, or_false]

/-- Everything an operation that hands out or takes back nothing preserves. -/
structure Keeps (M M' : Mem) (S S' : St) : Prop where
  pools : S'.pools = S.pools
  linked : S'.linked = S.linked
  cfg : ∀ q, SameCfg (M'.pool q) (M.pool q)
  live : ∀ q e, Live M' S' q e ↔ Live M S q e

theorem alloc_spec {al : Alloc} (G : Good al) {M : Mem} {A : EList.Abs} {S : St} (I : Inv M A S) {p : Addr} (hp : p ∈ S.pools) :
    ∃ e M' A' S', alloc al M p = .ok (e + 24, M') ∧ Inv M' A' S' ∧ S'.pools = S.pools ∧ S'.linked = S.linked ∧ S'.lost = S.lost ∧
      (∀ q, SameCfg (M'.pool q) (M.pool q)) ∧ ¬ Live M S p e ∧ (∀ q x, Live M' S' q x ↔ Live M S q x ∨ (q = p ∧ x = e)) := by
  have hemp : EList.empty M.H (freeHead p) = decide (S.free p = []) := by
    have L := (I.rep.lists _ _ (I.afree p hp))
    cases hf : S.free p with
    | nil => rw [hf] at L; have := L.1; simp only [EList.Linked] at this; simp [EList.empty, this.1]
    | cons x xs =>
        rw [hf] at L
        have h1 := L.1; simp only [EList.Linked] at h1
        have h2 := L.2
        simp only [EList.empty, h1.1]
        have : x ≠ freeHead p := by rintro rfl; simp at h2
        simpa using this
  rw [alloc, chk_pool I hp]
  simp only [Outcome.ok_bind, hemp]
  cases hf : S.free p with
  | nil =>
      simp only [decide_true, if_true]
      obtain ⟨g, M1, A1, e1, I1, hc1⟩ := addPage_spec G I hp
      have hne : (S.grow (M.pool p) p g).free p = elts (M.pool p) g := by simp [St.grow, upd, hf]
      have hlen : (elts (M.pool p) g).length = (M.pool p).epp := by simp [elts]
      have hepp := (I.epp p hp).1
      obtain ⟨e, fl, hel⟩ : ∃ e fl, elts (M.pool p) g = e :: fl := by
        cases h : elts (M.pool p) g with
        | nil => rw [h] at hlen; simp at hlen; omega
        | cons e fl => exact ⟨e, fl, rfl⟩
      rw [hel] at hne
      obtain ⟨M2, e2, I2, hc2⟩ := take_spec I1 (p := p) hp hne
      refine ⟨e, M2, _, _, ?_, I2, rfl, rfl, rfl, fun q => (hc2 q).trans (hc1 q), ?_, ?_⟩
      · rw [e1]; exact e2
      · intro h
        have h' := (grow_live I hp I1 hc1 p e).2 h
        obtain ⟨_, g', _, _, h4⟩ := h'
        exact h4 (by rw [hne]; simp)
      · intro q x
        rw [take_live I1 hp hne hc2, grow_live I hp I1 hc1]
  | cons e fl =>
      simp only [reduceCtorEq, decide_false, Bool.false_eq_true, if_false]
      obtain ⟨M2, e2, I2, hc2⟩ := take_spec I hp hf
      refine ⟨e, M2, _, _, e2, I2, rfl, rfl, rfl, hc2, ?_, fun q x => take_live I hp hf hc2 q x⟩
      rintro ⟨_, g', _, _, h4⟩
      exact h4 (by rw [hf]; simp)

theorem give_live {M M' : Mem} {S : St} {p e g : Addr} (hp : p ∈ S.pools) (hg : g ∈ S.pages p) (he : e ∈ elts (M.pool p) g) (hlive : e ∉ S.free p)
    (hcfg : ∀ q, SameCfg (M'.pool q) (M.pool q)) (q x : Addr) :
    Live M' { S with free := upd S.free p (e :: S.free p) } q x ↔ Live M S q x ∧ ¬ (q = p ∧ x = e) := by
  have hel : ∀ q g', elts (M'.pool q) g' = elts (M.pool q) g' := fun q g' => elts_congr (hcfg q).1 (hcfg q).2.1 g'
  unfold Live
  simp only [hel, upd]
  by_cases hq : q = p
  · subst hq
    simp only [if_true, true_and, List.mem_cons, not_or]
    constructor
    · rintro ⟨h1, g', h2, h3, h4, h5⟩; exact ⟨⟨h1, g', h2, h3, h5⟩, h4⟩
    · rintro ⟨⟨h1, g', h2, h3, h5⟩, h4⟩; exact ⟨h1, g', h2, h3, h4, h5⟩
  · simp [hq]

/-- The page counted as freed. -/
theorem inv_countFree {M : Mem} {A : EList.Abs} {S : St} (I : Inv M A S) {p n : Addr} (hp : p ∈ S.pools) (hn : S.lost p = n + 1) :
    Inv { M with pool := upd M.pool p { M.pool p with pageFrees := (M.pool p).pageFrees + 1 } } A { S with lost := upd S.lost p n } := by
  have hcfg : ∀ q, (upd M.pool p { M.pool p with pageFrees := (M.pool p).pageFrees + 1 } q).epp = (M.pool q).epp ∧
      (upd M.pool p { M.pool p with pageFrees := (M.pool p).pageFrees + 1 } q).eltSize = (M.pool q).eltSize ∧
      (upd M.pool p { M.pool p with pageFrees := (M.pool p).pageFrees + 1 } q).pageSize = (M.pool q).pageSize ∧
      (upd M.pool p { M.pool p with pageFrees := (M.pool p).pageFrees + 1 } q).npages = (M.pool q).npages ∧
      (upd M.pool p { M.pool p with pageFrees := (M.pool p).pageFrees + 1 } q).nfreePages = (M.pool q).nfreePages := by
    intro q; simp only [upd]; grind
  have hel : ∀ q g', elts (upd M.pool p { M.pool p with pageFrees := (M.pool p).pageFrees + 1 } q) g' = elts (M.pool q) g' :=
    fun q g' => elts_congr (hcfg q).1 (hcfg q).2.1 g'
  constructor
  case rep => exact I.rep
  case aroot => exact I.aroot
  case linked => exact I.linked
  case apages => exact I.apages
  case afree => exact I.afree
  case only => exact I.only
  case nodup => exact I.nodup
  case disj => exact I.disj
  case pos => exact I.pos
  case broot => exact I.broot
  case bpool => exact I.bpool
  case bpage => intro q hq g hg; simp only [(hcfg q).2.2.1]; exact I.bpage q hq g hg
  case sep => exact I.sep
  case epp => intro q hq; simp only [(hcfg q).1, (hcfg q).2.1, (hcfg q).2.2.1]; exact I.epp q hq
  case ppool => exact I.ppool
  case parent => intro q hq g hg e he; simp only [hel] at he; exact I.parent q hq g hg e he
  case freeSub => intro q hq e he; simp only [hel]; exact I.freeSub q hq e he
  case nfree => intro q hq g hg; simp only [hel]; exact I.nfree q hq g hg
  case npages => intro q hq; simp only [(hcfg q).2.2.2.1]; exact I.npages q hq
  case nfreePages => intro q hq; simp only [(hcfg q).2.2.2.2, (hcfg q).1]; exact I.nfreePages q hq
  case count =>
    intro q hq
    have := I.count q hq
    simp only [upd]
    split
    · subst_vars; simp only; omega
    · exact this
  case noleak => intro b hb; simp only [(hcfg _).2.2.1]; exact I.noleak b hb

theorem release_spec {M : Mem} {A : EList.Abs} {S : St} (I : Inv M A S) {p e : Addr} (hl : Live M S p e) :
    ∃ M' A' S', release M (e + 24) = .ok M' ∧ Inv M' A' S' ∧ S'.pools = S.pools ∧ S'.linked = S.linked ∧ S'.lost = S.lost ∧
      (∀ q, SameCfg (M'.pool q) (M.pool q)) ∧ (∀ q x, Live M' S' q x ↔ Live M S q x ∧ ¬ (q = p ∧ x = e)) := by
  obtain ⟨hp, g, hg, he, hnf⟩ := hl
  have hpar := I.parent p hp g hg e he
  have hg0 : g ≠ 0 := by have := (I.pos _ (I.bpage p hp g hg)).1; simp only at this; omega
  obtain ⟨I1, hc1, hn1⟩ := giveBack_spec I hp hg he hnf
  rw [release, Nat.add_sub_cancel, chk_elt I hp hg he]
  simp only [Outcome.ok_bind, hpar, hg0, if_false]
  rw [chk_page I hp hg]
  simp only [Outcome.ok_bind, I.ppool p hp g hg]
  rw [chk_pool I hp]
  simp only [Outcome.ok_bind]
  split
  · rename_i hcond
    rw [Bool.and_eq_true] at hcond
    have hfull : (giveBack M p g e).nfree g = ((giveBack M p g e).pool p).epp := by simpa using hcond.1
    obtain ⟨M2, A2, e2, I2, hc2, _⟩ := pageDestroy_spec I1 hp hg hfull
    have hcf := inv_countFree I2 hp (n := S.lost p) (by simp [St.shrink, upd])
    have hc3 : ∀ q, SameCfg (upd M2.pool p { M2.pool p with pageFrees := (M2.pool p).pageFrees + 1 } q) (M2.pool q) := by
      intro q; simp only [upd, SameCfg]; grind
    refine ⟨{ M2 with pool := upd M2.pool p { M2.pool p with pageFrees := (M2.pool p).pageFrees + 1 } }, A2, _, ?_, hcf, rfl, rfl, ?_, ?_, ?_⟩
    · rw [e2]; rfl
    · funext q; simp only [St.shrink, upd]; grind
    · intro q; exact (hc3 q).trans ((hc2 q).trans (hc1 q))
    · intro q x
      have h1 := shrink_live (M' := { M2 with pool := upd M2.pool p { M2.pool p with pageFrees := (M2.pool p).pageFrees + 1 } }) I1 hp hg hfull
        (fun q => (hc3 q).trans (hc2 q)) q x
      rw [← give_live (M' := giveBack M p g e) hp hg he hnf hc1, ← h1]
      rfl
  · refine ⟨giveBack M p g e, _, _, rfl, I1, rfl, rfl, rfl, hc1, ?_⟩
    intro q x
    exact give_live hp hg he hnf hc1 q x

/-! ### loops over pages -/

/-- First node of the rest of a circular list. -/
def nodeAt (l : List Addr) (h : Addr) : Addr := (l ++ [h]).headD h

theorem linked_rest {H : EList.Heap} {h : Addr} {kept rest : List Addr} {x : Addr} (L : EList.IsList H h (kept ++ x :: rest)) : H.next x = nodeAt rest h := by
  have := ((EList.linked_append H h h x kept rest).1 L.1).2
  cases rest with
  | nil => simp only [EList.Linked] at this; simp [nodeAt, this.1]
  | cons y ys => simp only [EList.Linked] at this; simp [nodeAt, this.1]

theorem linked_first {H : EList.Heap} {h : Addr} {l : List Addr} (L : EList.IsList H h l) : H.next h = nodeAt l h := by
  have := L.1
  cases l with
  | nil => simp only [EList.Linked] at this; simp [nodeAt, this.1]
  | cons y ys => simp only [EList.Linked] at this; simp [nodeAt, this.1]

theorem chk_node {M : Mem} {A : EList.Abs} {S : St} (I : Inv M A S) {p : Addr} (hp : p ∈ S.pools) {rest : List Addr} (h : ∀ x ∈ rest, x ∈ S.pages p) :
    chk M (nodeAt rest (pageHead p)) 16 = .ok () := by
  cases rest with
  | nil => exact chk_ok (I.bpool p hp) (by simp [nodeAt, pageHead]) (by simp [nodeAt, pageHead])
  | cons y ys =>
      have := I.pageSize_pos hp
      exact chk_ok (I.bpage p hp y (h y (by simp))) (by simp [nodeAt]) (by simp only [nodeAt, List.cons_append, List.headD_cons]; omega)

theorem Keeps.trans {M1 M2 M3 : Mem} {S1 S2 S3 : St} (h : Keeps M1 M2 S1 S2) (k : Keeps M2 M3 S2 S3) : Keeps M1 M3 S1 S3 :=
  ⟨k.pools.trans h.pools, k.linked.trans h.linked, fun q => (k.cfg q).trans (h.cfg q), fun q e => (k.live q e).trans (h.live q e)⟩

theorem Keeps.refl (M : Mem) (S : St) : Keeps M M S S := ⟨rfl, rfl, fun _ => .refl _, fun _ _ => Iff.rfl⟩

theorem nodup_pages {M : Mem} {A : EList.Abs} {S : St} (I : Inv M A S) {p : Addr} (hp : p ∈ S.pools) : pageHead p ∉ S.pages p ∧ (S.pages p).Nodup := by
  have := (I.rep.lists _ _ (I.apages p hp)).2
  rw [List.nodup_cons] at this; exact this

/-- One page destroyed inside a loop. -/
theorem destroyOne {M : Mem} {A : EList.Abs} {S : St} (I : Inv M A S) {p g : Addr} {kept rest : List Addr} (hp : p ∈ S.pools) (hpg : S.pages p = kept ++ g :: rest)
    (hfull : M.nfree g = (M.pool p).epp) :
    ∃ M' A' S', pageDestroy M g = .ok (0, M') ∧ Inv M' A' S' ∧ Keeps M M' S S' ∧ S'.pages p = kept ++ rest ∧ M'.nfree = M.nfree ∧ (∀ q, q ≠ p → S'.lost q = S.lost q) ∧
      M'.blocks = M.blocks.filter (fun b => decide (b.1 ≠ g)) := by
  have hg : g ∈ S.pages p := by rw [hpg]; simp
  obtain ⟨M1, A1, e1, I1, hc1, hn1, hb1, _⟩ := pageDestroy_spec I hp hg hfull
  refine ⟨M1, A1, _, e1, I1, ⟨rfl, rfl, hc1, fun q e => shrink_live I hp hg hfull hc1 q e⟩, ?_, hn1, ?_, hb1⟩
  · have := (nodup_pages I hp).2
    rw [hpg] at this
    simp only [St.shrink, upd, if_true]
    rw [hpg, filter_ne_of_append this]
  · intro q hq; simp [St.shrink, upd, hq]

theorem freePagesLoop_spec {p : Addr} (todo : List Addr) : ∀ (kept : List Addr) (M : Mem) (A : EList.Abs) (S : St), Inv M A S → p ∈ S.pools → S.pages p = kept ++ todo →
    ∀ fuel, todo.length < fuel → ∃ M' A' S', freePagesLoop p fuel (nodeAt todo (pageHead p)) (M.H.next (nodeAt todo (pageHead p))) M = .ok M' ∧
      Inv M' A' S' ∧ Keeps M M' S S' ∧ S'.pages p = kept ++ todo.filter (fun g => decide (M.nfree g ≠ (M.pool p).epp)) ∧ M'.nfree = M.nfree := by
  induction todo with
  | nil =>
      intro kept M A S I hp hpg fuel hf
      match fuel with
      | f + 1 =>
          refine ⟨M, A, S, ?_, I, .refl _ _, by simpa using hpg, rfl⟩
          rw [freePagesLoop, if_pos (by simp [nodeAt])]
  | cons g rest ih =>
      intro kept M A S I hp hpg fuel hf
      match fuel with
      | f + 1 =>
          have hg : g ∈ S.pages p := by rw [hpg]; simp
          have hne : g ≠ pageHead p := by rintro rfl; exact (nodup_pages I hp).1 hg
          have hnext : M.H.next g = nodeAt rest (pageHead p) := linked_rest (kept := kept) (by rw [← hpg]; exact I.rep.lists _ _ (I.apages p hp))
          have hn : nodeAt (g :: rest) (pageHead p) = g := by simp [nodeAt]
          rw [hn, hnext, freePagesLoop, if_neg hne, chk_page I hp hg]
          simp only [Outcome.ok_bind]
          by_cases hfull : M.nfree g = (M.pool p).epp
          · rw [if_pos hfull]
            obtain ⟨M1, A1, S1, e1, I1, k1, hp1, hn1, _⟩ := destroyOne I hp hpg hfull
            rw [e1]
            simp only [Outcome.ok_bind]
            have hp' : p ∈ S1.pools := by rw [k1.pools]; exact hp
            rw [chk_node I1 hp' (by rw [hp1]; simp_all)]
            simp only [Outcome.ok_bind]
            obtain ⟨M2, A2, S2, e2, I2, k2, hp2, hn2⟩ := ih kept M1 A1 S1 I1 hp' hp1 f (by simpa using hf)
            refine ⟨M2, A2, S2, e2, I2, k1.trans k2, ?_, hn2.trans hn1⟩
            rw [hp2, List.filter_cons, if_neg (by simp [hfull]), hn1, (k1.cfg p).1]
          · rw [if_neg hfull]
            rw [chk_node I hp (by rw [hpg]; simp_all)]
            simp only [Outcome.ok_bind]
            obtain ⟨M2, A2, S2, e2, I2, k2, hp2, hn2⟩ := ih (kept ++ [g]) M A S I hp (by simpa using hpg) f (by simpa using hf)
            refine ⟨M2, A2, S2, e2, I2, k2, ?_, hn2⟩
            rw [hp2, List.filter_cons, if_pos (by simp [hfull])]
            simp

theorem releaseFreePages_spec {M : Mem} {A : EList.Abs} {S : St} (I : Inv M A S) {p : Addr} (hp : p ∈ S.pools) :
    ∃ M' A' S', Runs (releaseFreePages M p) M' ∧ Inv M' A' S' ∧ Keeps M M' S S' ∧ S'.pages p = (S.pages p).filter (fun g => decide (M.nfree g ≠ (M.pool p).epp)) ∧ M'.nfree = M.nfree := by
  have key : ∀ fuel, (S.pages p).length < fuel → ∃ M' A' S', releaseFreePages M p fuel = .ok M' ∧ Inv M' A' S' ∧ Keeps M M' S S' ∧
      S'.pages p = (S.pages p).filter (fun g => decide (M.nfree g ≠ (M.pool p).epp)) ∧ M'.nfree = M.nfree := by
    intro fuel hf
    obtain ⟨M', A', S', e, I', k, h, hn⟩ := freePagesLoop_spec (S.pages p) [] M A S I hp (by simp) fuel hf
    refine ⟨M', A', S', ?_, I', k, by simpa using h, hn⟩
    rw [releaseFreePages, chk_pool I hp]
    simp only [Outcome.ok_bind]
    rw [linked_first (I.rep.lists _ _ (I.apages p hp)), chk_node I hp (fun _ h => h)]
    exact e
  have mono : ∀ fuel, Le (releaseFreePages M p fuel) (releaseFreePages M p (fuel + 1)) := by
    have ml : ∀ fuel cur nxt M, Le (freePagesLoop p fuel cur nxt M) (freePagesLoop p (fuel + 1) cur nxt M) := by
      intro fuel
      induction fuel with
      | zero => intro _ _ _; exact Le.ub _
      | succ n ih =>
          intro cur nxt M
          rw [freePagesLoop, freePagesLoop]
          refine Le.ite (fun _ => Le.refl _) fun _ => Le.bind (Le.refl _) fun _ => Le.ite (fun _ => Le.bind (Le.refl _) fun r => ?_) fun _ => Le.bind (Le.refl _) fun _ => ih _ _ _
          exact Le.bind (Le.refl _) fun _ => ih _ _ _
    intro fuel
    exact Le.bind (Le.refl _) fun _ => Le.bind (Le.refl _) fun _ => ml _ _ _ _
  obtain ⟨M', A', S', e, I', k, h, hn⟩ := key _ (Nat.lt_succ_self _)
  exact ⟨M', A', S', Runs.of mono e, I', k, h, hn⟩

theorem destroyLoop_spec {p : Addr} (todo : List Addr) : ∀ (M : Mem) (A : EList.Abs) (S : St), Inv M A S → p ∈ S.pools → S.pages p = todo →
    ∀ fuel, todo.length < fuel → ∃ b M' A' S', destroyLoop p fuel (nodeAt todo (pageHead p)) (M.H.next (nodeAt todo (pageHead p))) M = .ok (b, M') ∧
      Inv M' A' S' ∧ Keeps M M' S S' ∧ (b = true → S'.pages p = []) ∧ (b = false → ∃ e, Live M S p e) ∧ (∀ q, q ≠ p → S'.lost q = S.lost q) := by
  induction todo with
  | nil =>
      intro M A S I hp hpg fuel hf
      match fuel with
      | f + 1 =>
          refine ⟨true, M, A, S, ?_, I, .refl _ _, fun _ => hpg, by simp, fun _ _ => rfl⟩
          rw [destroyLoop, if_pos (by simp [nodeAt])]
  | cons g rest ih =>
      intro M A S I hp hpg fuel hf
      match fuel with
      | f + 1 =>
          have hg : g ∈ S.pages p := by rw [hpg]; simp
          have hne : g ≠ pageHead p := by rintro rfl; exact (nodup_pages I hp).1 hg
          have hnext : M.H.next g = nodeAt rest (pageHead p) := linked_rest (kept := []) (by rw [List.nil_append, ← hpg]; exact I.rep.lists _ _ (I.apages p hp))
          have hn : nodeAt (g :: rest) (pageHead p) = g := by simp [nodeAt]
          rw [hn, hnext, destroyLoop, if_neg hne, chk_page I hp hg]
          simp only [Outcome.ok_bind]
          have hle := nfree_le I hp hg
          by_cases hfull : M.nfree g = (M.pool p).epp
          · rw [if_neg (by omega)]
            obtain ⟨M1, A1, S1, e1, I1, k1, hp1, hn1, hl1, _⟩ := destroyOne (kept := []) I hp hpg hfull
            rw [e1]
            simp only [Outcome.ok_bind]
            have hp' : p ∈ S1.pools := by rw [k1.pools]; exact hp
            rw [chk_node I1 hp' (by rw [hp1]; simp_all)]
            simp only [Outcome.ok_bind]
            obtain ⟨b, M2, A2, S2, e2, I2, k2, h2, h3, h4⟩ := ih M1 A1 S1 I1 hp' (by simpa using hp1) f (by simpa using hf)
            refine ⟨b, M2, A2, S2, e2, I2, k1.trans k2, h2, ?_, fun q hq => (h4 q hq).trans (hl1 q hq)⟩
            intro hb
            obtain ⟨e, he⟩ := h3 hb
            exact ⟨e, (k1.live p e).1 he⟩
          · rw [if_pos (by omega)]
            refine ⟨false, M, A, S, rfl, I, .refl _ _, by simp, ?_, fun _ _ => rfl⟩
            intro _
            have : ¬ ∀ e ∈ elts (M.pool p) g, e ∈ S.free p := fun h => hfull ((all_free I hp hg).2 h)
            have : ∃ e ∈ elts (M.pool p) g, e ∉ S.free p := by
              apply Classical.byContradiction
              intro hc
              exact this fun e he => Classical.byContradiction fun hn => hc ⟨e, he, hn⟩
            obtain ⟨e, he, hn⟩ := this
            exact ⟨e, hp, g, hg, he, hn⟩

/-- The state after pool `p` is gone. -/
def St.without (S : St) (p : Addr) : St :=
  { S with pools := S.pools.filter (fun q => decide (q ≠ p)), linked := S.linked.filter (fun q => decide (q ≠ p)) }

theorem removePool {M : Mem} {A : EList.Abs} {S : St} (I : Inv M A S) {p : Addr} (hl : p ∈ S.linked) (hempty : S.pages p = []) :
    ∃ M' A', dealloc { M with H := EList.remove M.H p } p = .ok M' ∧ Inv M' A' (S.without p) ∧ M'.pool = M.pool ∧
      M'.blocks = M.blocks.filter (fun b => decide (b.1 ≠ p)) := by
  have hp := I.linked p hl
  have hb := I.bpool p hp
  obtain ⟨_, R⟩ := rep_remove I.rep I.aroot hl
  have R2 := rep_drop (rep_drop R (pageHead p)) (freeHead p)
  have hm : ∀ q, q ∈ (S.without p).pools ↔ q ∈ S.pools ∧ q ≠ p := by intro q; simp [St.without]
  have hsame : ∀ b ∈ M.blocks, b.1 = p → b = (p, 160) := by
    intro b hb' hbg
    refine I.same_block hb' hb (x := p) ?_ (by unfold In; simp only; omega)
    have := I.pos b hb'
    unfold In; omega
  have hmb : ∀ b, b ∈ M.blocks.filter (fun b => decide (b.1 ≠ p)) ↔ b ∈ M.blocks ∧ b.1 ≠ p := by intro b; simp
  refine ⟨{ M with H := EList.remove M.H p, blocks := M.blocks.filter (fun b => decide (b.1 ≠ p)) },
    ((A.set poolsHead (some (S.linked.filter (fun q => decide (q ≠ p))))).set (pageHead p) none).set (freeHead p) none, ?_, ?_, rfl, rfl⟩
  · rw [dealloc, if_pos]
    rw [List.any_eq_true]; exact ⟨_, hb, by simp⟩
  · have hAq : ∀ q ∈ S.pools, q ≠ p → ∀ h, (h = pageHead q ∨ h = freeHead q) →
        (((A.set poolsHead (some (S.linked.filter (fun q => decide (q ≠ p))))).set (pageHead p) none).set (freeHead p) none) h = A h := by
      intro q hq hne h hh
      have := I.heads hq hp
      have := I.heads hp hq
      have := I.heads hq hq
      rw [EList.set_eq, EList.set_eq, EList.set_eq]
      grind
    constructor
    case rep => exact R2
    case aroot =>
      have := I.heads hp hp
      rw [EList.set_eq, EList.set_eq, EList.set_eq]
      simp only [St.without]
      grind
    case linked =>
      intro q hq
      simp only [St.without, List.mem_filter] at hq
      exact (hm q).2 ⟨I.linked q hq.1, by simpa using hq.2⟩
    case apages =>
      intro q hq
      obtain ⟨hq, hne⟩ := (hm q).1 hq
      rw [hAq q hq hne _ (.inl rfl)]; exact I.apages q hq
    case afree =>
      intro q hq
      obtain ⟨hq, hne⟩ := (hm q).1 hq
      rw [hAq q hq hne _ (.inr rfl)]; exact I.afree q hq
    case only =>
      intro h hh
      rw [EList.set_eq, EList.set_eq, EList.set_eq] at hh
      by_cases h1 : h = freeHead p
      · rw [if_pos h1] at hh; cases hh
      · by_cases h2 : h = pageHead p
        · rw [if_neg h1, if_pos h2] at hh; cases hh
        · by_cases h3 : h = poolsHead
          · exact .inl h3
          · rw [if_neg h1, if_neg h2, if_neg h3] at hh
            rcases I.only h hh with h4 | ⟨q, hq, h4⟩
            · exact .inl h4
            · refine .inr ⟨q, (hm q).2 ⟨hq, ?_⟩, h4⟩
              rintro rfl
              rcases h4 with h4 | h4
              · exact h2 h4
              · exact h1 h4
    case nodup => exact I.nodup.filter _
    case disj => intro b hb c hc; exact I.disj b ((hmb b).1 hb).1 c ((hmb c).1 hc).1
    case pos => intro b hb; exact I.pos b ((hmb b).1 hb).1
    case broot =>
      refine (hmb _).2 ⟨I.broot, ?_⟩
      intro h
      have := hsame _ I.broot h
      simp at this
    case bpool => intro q hq; obtain ⟨hq, hne⟩ := (hm q).1 hq; exact (hmb _).2 ⟨I.bpool q hq, hne⟩
    case bpage =>
      intro q hq g hg
      obtain ⟨hq, hne⟩ := (hm q).1 hq
      refine (hmb _).2 ⟨I.bpage q hq g hg, ?_⟩
      intro h
      have h' : g = p := h
      exact I.sep p hp q hq (h' ▸ hg)
    case sep => intro q hq r hr; exact I.sep q ((hm q).1 hq).1 r ((hm r).1 hr).1
    case epp => intro q hq; exact I.epp q ((hm q).1 hq).1
    case ppool => intro q hq; exact I.ppool q ((hm q).1 hq).1
    case parent => intro q hq; exact I.parent q ((hm q).1 hq).1
    case freeSub => intro q hq; exact I.freeSub q ((hm q).1 hq).1
    case nfree => intro q hq; exact I.nfree q ((hm q).1 hq).1
    case npages => intro q hq; exact I.npages q ((hm q).1 hq).1
    case nfreePages => intro q hq; exact I.nfreePages q ((hm q).1 hq).1
    case count => intro q hq; exact I.count q ((hm q).1 hq).1
    case noleak =>
      intro b hb
      obtain ⟨hb, hbp⟩ := (hmb b).1 hb
      rcases I.noleak b hb with h | ⟨q, hq, h | ⟨g', hg', h⟩⟩
      · exact .inl h
      · exact .inr ⟨q, (hm q).2 ⟨hq, by rintro rfl; exact hbp (by rw [h])⟩, .inl h⟩
      · refine .inr ⟨q, (hm q).2 ⟨hq, ?_⟩, .inr ⟨g', hg', h⟩⟩
        rintro rfl
        have hc : g' ∈ S.pages q := hg'
        rw [hempty] at hc; cases hc

theorem destroy_spec {M : Mem} {A : EList.Abs} {S : St} (I : Inv M A S) {p : Addr} (hl : p ∈ S.linked) :
    (∃ M' A' S', Runs (destroy M p) (false, M') ∧ Inv M' A' S' ∧ Keeps M M' S S' ∧ (∀ q, q ≠ p → S'.lost q = S.lost q) ∧ ∃ e, Live M S p e) ∨
    (∃ M' A' S' S1, Runs (destroy M p) (true, M') ∧ Inv M' A' S' ∧ S' = S1.without p ∧ Keeps M M' S S1 ∧ (∀ q, q ≠ p → S1.lost q = S.lost q) ∧ ∀ e, ¬ Live M S p e) := by
  have hp := I.linked p hl
  have mono : ∀ fuel, Le (destroy M p fuel) (destroy M p (fuel + 1)) := by
    have ml : ∀ fuel cur nxt M, Le (destroyLoop p fuel cur nxt M) (destroyLoop p (fuel + 1) cur nxt M) := by
      intro fuel
      induction fuel with
      | zero => intro _ _ _; exact Le.ub _
      | succ n ih =>
          intro cur nxt M
          rw [destroyLoop, destroyLoop]
          refine Le.ite (fun _ => Le.refl _) fun _ => Le.bind (Le.refl _) fun _ => Le.ite (fun _ => Le.refl _) fun _ => Le.bind (Le.refl _) fun r => ?_
          exact Le.bind (Le.refl _) fun _ => ih _ _ _
    intro fuel
    exact Le.bind (Le.refl _) fun _ => Le.bind (Le.refl _) fun _ => Le.bind (ml _ _ _ _) fun _ => Le.refl _
  obtain ⟨b, M1, A1, S1, e, I1, k, h1, h2, h3⟩ := destroyLoop_spec (S.pages p) M A S I hp rfl _ (Nat.lt_succ_self _)
  have estart : ∀ fuel, destroy M p fuel = (destroyLoop p fuel (nodeAt (S.pages p) (pageHead p)) (M.H.next (nodeAt (S.pages p) (pageHead p))) M >>= fun r =>
      if r.1 then (do let M ← dealloc { r.2 with H := EList.remove r.2.H p } p; pure (true, M)) else pure (false, r.2)) := by
    intro fuel
    rw [destroy, chk_pool I hp]
    simp only [Outcome.ok_bind]
    rw [linked_first (I.rep.lists _ _ (I.apages p hp)), chk_node I hp (fun _ h => h)]
    rfl
  cases b with
  | false =>
      refine .inl ⟨M1, A1, S1, Runs.of mono (n := (S.pages p).length + 1) ?_, I1, k, h3, h2 rfl⟩
      rw [estart, e]; rfl
  | true =>
      have hl1 : p ∈ S1.linked := by rw [k.linked]; exact hl
      obtain ⟨M2, A2, e2, I2, hpool, _⟩ := removePool I1 hl1 (h1 rfl)
      have hlive : ∀ e, ¬ Live M S p e := by
        intro e he
        obtain ⟨_, g, hg, _⟩ := (k.live p e).2 he
        rw [h1 rfl] at hg; cases hg
      refine .inr ⟨M2, A2, _, S1, Runs.of mono (n := (S.pages p).length + 1) ?_, I2, rfl, ⟨k.pools, k.linked, fun q => by rw [hpool]; exact k.cfg q, ?_⟩, h3, hlive⟩
      · rw [estart, e]
        simp only [Outcome.ok_bind, if_true]
        rw [e2]; rfl
      · intro q e
        rw [← k.live]
        unfold Live
        rw [hpool]

end ZT.MemPool
