import Verif.MemPool.Init

/-!
# C30, C31: memory pools
-/

namespace ZT.MemPool

open EList (Rep IsList)

/-- What a client knows: the pools it created (address, element size asked for, name) in order, the elements it holds (data pointer, pool), and
whether it ever called zt_mem_pool_release_free_pages or had a zt_mem_pool_destroy refused. -/
structure Client where
  pools : List (Addr × Nat × List Byte)
  live : List (Addr × Addr)
  odd : Bool

/-- All histories of correct use: only existing pools are used and only elements held are released. -/
inductive Hist (al : Alloc) : Client → Mem → Prop
  | start {M} : M.blocks = [(poolsHead, 16)] → M.H.next poolsHead = poolsHead → M.H.prev poolsHead = poolsHead → Hist al ⟨[], [], false⟩ M
  | init {c M name n size test flags p M'} : Hist al c M → Fits n size → init al M name n size test flags = .ok (some p, M') →
      Hist al { c with pools := c.pools ++ [(p, size, name)] } M'
  | alloc {c M p sz name d M'} : Hist al c M → (p, sz, name) ∈ c.pools → alloc al M p = .ok (d, M') → Hist al { c with live := (d, p) :: c.live } M'
  | release {c M d p M'} : Hist al c M → (d, p) ∈ c.live → release M d = .ok M' → Hist al { c with live := c.live.erase (d, p) } M'
  | releaseFree {c M p sz name M'} : Hist al c M → (p, sz, name) ∈ c.pools → Runs (releaseFreePages M p) M' → Hist al { c with odd := true } M'
  | destroyed {c M p sz name M'} : Hist al c M → (p, sz, name) ∈ c.pools → Runs (destroy M p) (true, M') →
      Hist al { c with pools := c.pools.filter (fun x => decide (x.1 ≠ p)) } M'
  | refused {c M p sz name M'} : Hist al c M → (p, sz, name) ∈ c.pools → Runs (destroy M p) (false, M') → Hist al { c with odd := true } M'

/-- Relation between the client's view and the contents. -/
structure Rel (c : Client) (M : Mem) (A : EList.Abs) (S : St) : Prop where
  inv : Inv M A S
  linked : S.linked = c.pools.map (·.1)
  all : ∀ p, p ∈ S.pools → p ∈ S.linked
  sizes : ∀ x ∈ c.pools, (M.pool x.1).eltSize = x.2.1 ∧ (M.pool x.1).name = x.2.2
  live : ∀ d p, (d, p) ∈ c.live ↔ ∃ e, d = e + 24 ∧ Live M S p e
  nodup : c.live.Nodup
  lost : c.odd = false → ∀ p ∈ S.pools, S.lost p = 0

theorem Rel.mem {c : Client} {M : Mem} {A : EList.Abs} {S : St} (R : Rel c M A S) {x : Addr × Nat × List Byte} (h : x ∈ c.pools) : x.1 ∈ S.linked ∧ x.1 ∈ S.pools := by
  have : x.1 ∈ S.linked := by rw [R.linked]; exact List.mem_map.2 ⟨x, h, rfl⟩
  exact ⟨this, R.inv.linked _ this⟩

theorem Rel.nodupPools {c : Client} {M : Mem} {A : EList.Abs} {S : St} (R : Rel c M A S) : (c.pools.map (·.1)).Nodup := by
  have := (R.inv.rep.lists _ _ R.inv.aroot).2
  rw [List.nodup_cons, R.linked] at this; exact this.2

theorem rel_of_hist {al : Alloc} (G : Good al) {c : Client} {M : Mem} (h : Hist al c M) : ∃ A S, Rel c M A S := by
  induction h with
  | @start M hb hn hp =>
      refine ⟨fun x => if x = poolsHead then some [] else none, ⟨[], [], fun _ => [], fun _ => [], fun _ => 0⟩, ⟨?_, rfl, by simp, by simp, ?_, by simp, by simp⟩⟩
      · constructor
        case rep =>
          constructor
          · intro h xs hx
            split at hx
            · cases hx; subst_vars; exact ⟨by simp [EList.Linked, hn, hp], by simp⟩
            · cases hx
          · intro h h' xs xs' hx hx' hne
            split at hx
            · split at hx'
              · subst_vars; exact absurd rfl hne
              · cases hx'
            · cases hx
        case only => intro h hh; left; simp at hh; exact hh
        all_goals simp [hb, poolsHead]
      · intro d p; simp [Live]
  | @init c M name n size test flags p M' _ hfit e ih =>
      obtain ⟨A, S, R⟩ := ih
      obtain ⟨p', M'', A', S', e', I', hpn, h1, h2, h3, h4, h5, h6, h7⟩ := init_spec G R.inv name test flags hfit
      rw [e'] at e; cases e
      refine ⟨A', S', ⟨I', ?_, ?_, ?_, ?_, R.nodup, ?_⟩⟩
      · rw [h2, R.linked]; simp
      · intro q hq
        rw [h1] at hq; rw [h2]
        rcases List.mem_cons.1 hq with rfl | hq
        · simp
        · simp [R.all q hq]
      · intro x hx
        rcases List.mem_append.1 hx with hy | hx
        · have hne : x.1 ≠ p := by intro h; exact hpn (h ▸ (R.mem hy).2)
          rw [(h6 x.1 hne).2.1, (h6 x.1 hne).2.2.2]; exact R.sizes x hy
        · rw [List.mem_singleton.1 hx]; exact ⟨h4, h5⟩
      · intro d q; rw [R.live]; simp only [h7]
      · intro ho q hq
        rw [h3]
        rw [h1] at hq
        rcases List.mem_cons.1 hq with rfl | hq
        · simp
        · split
          · rfl
          · exact R.lost ho q hq
  | @alloc c M p sz name d M' _ hp e ih =>
      obtain ⟨A, S, R⟩ := ih
      obtain ⟨x, M'', A', S', e', I', h1, h2, h3, h4, h5, h6⟩ := alloc_spec G R.inv (R.mem hp).2
      rw [e'] at e; cases e
      refine ⟨A', S', ⟨I', by rw [h2]; exact R.linked, by rw [h1, h2]; exact R.all, ?_, ?_, ?_, ?_⟩⟩
      · intro y hy; rw [(h4 y.1).2.1, (h4 y.1).2.2.2]; exact R.sizes y hy
      · intro d q
        simp only [List.mem_cons, R.live, h6, Prod.mk.injEq]
        constructor
        · rintro (⟨rfl, rfl⟩ | ⟨y, hy, hl⟩)
          · exact ⟨x, rfl, .inr ⟨rfl, rfl⟩⟩
          · exact ⟨y, hy, .inl hl⟩
        · rintro ⟨y, hy, hl | ⟨rfl, rfl⟩⟩
          · exact .inr ⟨y, hy, hl⟩
          · exact .inl ⟨hy, rfl⟩
      · refine List.nodup_cons.2 ⟨?_, R.nodup⟩
        intro hm
        obtain ⟨y, hy, hl⟩ := (R.live _ _).1 hm
        have : x = y := by omega
        subst this
        exact h5 hl
      · rw [h1, h3]; exact R.lost
  | @release c M d p M' _ hd e ih =>
      obtain ⟨A, S, R⟩ := ih
      obtain ⟨x, rfl, hl⟩ := (R.live d p).1 hd
      obtain ⟨M'', A', S', e', I', h1, h2, h3, h4, h5⟩ := release_spec R.inv hl
      rw [e'] at e; cases e
      refine ⟨A', S', ⟨I', by rw [h2]; exact R.linked, by rw [h1, h2]; exact R.all, ?_, ?_, R.nodup.erase _, ?_⟩⟩
      · intro y hy; rw [(h4 y.1).2.1, (h4 y.1).2.2.2]; exact R.sizes y hy
      · intro d q
        rw [R.nodup.mem_erase_iff, R.live]
        simp only [h5, ne_eq, Prod.mk.injEq, not_and]
        constructor
        · rintro ⟨hn, y, rfl, hy⟩
          exact ⟨y, rfl, hy, fun h1 h2 => hn (by omega) h1⟩
        · rintro ⟨y, rfl, hy, hn⟩
          exact ⟨fun h1 h2 => hn h2 (by omega), y, rfl, hy⟩
      · rw [h1, h3]; exact R.lost
  | @releaseFree c M p sz name M' _ hp e ih =>
      obtain ⟨A, S, R⟩ := ih
      obtain ⟨M'', A', S', e', I', k, _⟩ := releaseFreePages_spec R.inv (R.mem hp).2
      cases e.unique e'
      refine ⟨A', S', ⟨I', by rw [k.linked]; exact R.linked, by rw [k.pools, k.linked]; exact R.all, ?_, ?_, R.nodup, by simp⟩⟩
      · intro y hy; rw [(k.cfg y.1).2.1, (k.cfg y.1).2.2.2]; exact R.sizes y hy
      · intro d q; rw [R.live]; simp only [k.live]
  | @destroyed c M p sz name M' _ hp e ih =>
      obtain ⟨A, S, R⟩ := ih
      rcases destroy_spec R.inv (R.mem hp).1 with ⟨M'', _, _, e', _⟩ | ⟨M'', A', S', S1, e', I', hS, k, h3, hnl⟩
      · have := e.unique e'; simp at this
      · cases e.unique e'
        subst hS
        have hmem : ∀ q, q ∈ (S1.without p).pools ↔ q ∈ S.pools ∧ q ≠ p := by intro q; simp [St.without, k.pools]
        refine ⟨A', S1.without p, ⟨I', ?_, ?_, ?_, ?_, R.nodup, ?_⟩⟩
        · simp only [St.without, k.linked, R.linked, List.filter_map]; rfl
        · intro q hq
          have := (hmem q).1 hq
          simp only [St.without, k.linked, List.mem_filter]
          exact ⟨R.all q this.1, by simpa using this.2⟩
        · intro y hy
          rw [(k.cfg y.1).2.1, (k.cfg y.1).2.2.2]; exact R.sizes y (List.mem_filter.1 hy).1
        · intro d q
          rw [R.live]
          refine exists_congr fun x => and_congr Iff.rfl ?_
          rw [← k.live]
          constructor
          · rintro ⟨h1, h2⟩
            have hqp : q ≠ p := by rintro rfl; exact hnl x ((k.live q x).1 ⟨h1, h2⟩)
            exact ⟨(hmem q).2 ⟨by rw [← k.pools]; exact h1, hqp⟩, h2⟩
          · rintro ⟨h1, h2⟩
            exact ⟨by rw [k.pools]; exact ((hmem q).1 h1).1, h2⟩
        · intro ho q hq
          have := (hmem q).1 hq
          show S1.lost q = 0
          rw [h3 q this.2]; exact R.lost ho q this.1
  | @refused c M p sz name M' _ hp e ih =>
      obtain ⟨A, S, R⟩ := ih
      rcases destroy_spec R.inv (R.mem hp).1 with ⟨M'', A', S', e', I', k, _⟩ | ⟨M'', _, _, _, e', _⟩
      · cases e.unique e'
        refine ⟨A', S', ⟨I', by rw [k.linked]; exact R.linked, by rw [k.pools, k.linked]; exact R.all, ?_, ?_, R.nodup, by simp⟩⟩
        · intro y hy; rw [(k.cfg y.1).2.1, (k.cfg y.1).2.2.2]; exact R.sizes y hy
        · intro d q; rw [R.live]; simp only [k.live]
      · have := e.unique e'; simp at this

/-- **C30 (no undefined behaviour).** After any history, every correct call completes: a new pool can be made, any pool can be asked for an element, any
element held can be released, free pages can be released and a pool can be destroyed. -/
theorem c30_total {al : Alloc} (G : Good al) {c : Client} {M : Mem} (h : Hist al c M) :
    (∀ name n size test flags, Fits n size → ∃ p M', init al M name n size test flags = .ok (some p, M')) ∧
    (∀ x ∈ c.pools, (∃ d M', alloc al M x.1 = .ok (d, M')) ∧ (∃ M', Runs (releaseFreePages M x.1) M') ∧ ∃ b M', Runs (destroy M x.1) (b, M')) ∧
    (∀ x ∈ c.live, ∃ M', release M x.1 = .ok M') := by
  obtain ⟨A, S, R⟩ := rel_of_hist G h
  refine ⟨?_, ?_, ?_⟩
  · intro name n size test flags hf
    obtain ⟨p, M', _, _, e, _⟩ := init_spec G R.inv name test flags hf
    exact ⟨p, M', e⟩
  · intro x hx
    obtain ⟨h1, h2⟩ := R.mem hx
    refine ⟨?_, ?_, ?_⟩
    · obtain ⟨e, M', _, _, e', _⟩ := alloc_spec G R.inv h2
      exact ⟨_, _, e'⟩
    · obtain ⟨M', _, _, e', _⟩ := releaseFreePages_spec R.inv h2
      exact ⟨_, e'⟩
    · rcases destroy_spec R.inv h1 with ⟨M'', A', S', e', _⟩ | ⟨M'', _, _, _, e', _⟩
      · exact ⟨_, _, e'⟩
      · exact ⟨_, _, e'⟩
  · rintro ⟨d, p⟩ hx
    obtain ⟨e, rfl, hl⟩ := (R.live d p).1 hx
    obtain ⟨M', _, _, e', _⟩ := release_spec R.inv hl
    exact ⟨_, e'⟩

theorem Rel.pool_of_live {c : Client} {M : Mem} {A : EList.Abs} {S : St} (R : Rel c M A S) {d p : Addr} (h : (d, p) ∈ c.live) : ∃ x ∈ c.pools, x.1 = p := by
  obtain ⟨e, _, hl⟩ := (R.live d p).1 h
  have := R.all p hl.1
  rw [R.linked] at this
  obtain ⟨x, hx, e⟩ := List.mem_map.1 this
  exact ⟨x, hx, e⟩

/-- **C30 (elements are disjoint).** After any history, every element held belongs to one existing pool; two elements held, from the same or different
pools, do not overlap over the element sizes asked for; and each lies inside a block currently obtained from the system allocator. -/
theorem c30_disjoint {al : Alloc} (G : Good al) {c : Client} {M : Mem} (h : Hist al c M) :
    c.live.Nodup ∧ (∀ x ∈ c.live, ∃ sz name, (x.2, sz, name) ∈ c.pools ∧ ∃ b ∈ M.blocks, b.1 ≤ x.1 ∧ x.1 + sz ≤ b.1 + b.2) ∧
    (∀ x ∈ c.live, ∀ y ∈ c.live, ∀ sx nx sy ny, (x.2, sx, nx) ∈ c.pools → (y.2, sy, ny) ∈ c.pools → x ≠ y → x.1 + sx ≤ y.1 ∨ y.1 + sy ≤ x.1) := by
  obtain ⟨A, S, R⟩ := rel_of_hist G h
  refine ⟨R.nodup, ?_, ?_⟩
  · rintro ⟨d, p⟩ hx
    obtain ⟨e, rfl, hp, g, hg, he, _⟩ := (R.live d p).1 hx
    obtain ⟨y, hy, rfl⟩ := R.pool_of_live hx
    refine ⟨y.2.1, y.2.2, hy, _, R.inv.bpage _ hp g hg, ?_⟩
    have := R.inv.elt_in hp he
    rw [← (R.sizes y hy).1]
    simp only; omega
  · rintro ⟨d, p⟩ hx ⟨d', p'⟩ hy sx nx sy ny hpx hpy hne
    obtain ⟨e, rfl, hp, g, hg, he, _⟩ := (R.live d p).1 hx
    obtain ⟨e', rfl, hp', g', hg', he', _⟩ := (R.live d' p').1 hy
    have s1 : (M.pool p).eltSize = sx := (R.sizes _ hpx).1
    have s2 : (M.pool p').eltSize = sy := (R.sizes _ hpy).1
    have i1 := R.inv.elt_in hp he
    have i2 := R.inv.elt_in hp' he'
    by_cases hgg : g = g'
    · subst hgg
      have hpp : p = p' := by rw [← R.inv.ppool p hp g hg, ← R.inv.ppool p' hp' g hg']
      subst hpp
      have hss : sx = sy := s1.symm.trans s2
      subst hss
      obtain ⟨k, hk, rfl⟩ := mem_elts.1 he
      obtain ⟨k', hk', rfl⟩ := mem_elts.1 he'
      have hkk : k ≠ k' := by rintro rfl; exact hne rfl
      have := elt_sep (sz := (M.pool p).eltSize) (g := g) hkk
      rw [s1] at this ⊢
      simp only; omega
    · have := R.inv.disj _ (R.inv.bpage p hp g hg) _ (R.inv.bpage p' hp' g' hg') (by simp [hgg])
      unfold Disj at this
      simp only at this ⊢
      omega

/-- **C30 (alloc).** An allocation hands out an element that is not held and that overlaps no element held. -/
theorem c30_alloc {al : Alloc} (G : Good al) {c : Client} {M M' : Mem} (h : Hist al c M) {p sz d : Nat} {name : List Byte} (hp : (p, sz, name) ∈ c.pools)
    (e : alloc al M p = .ok (d, M')) : (d, p) ∉ c.live ∧ ∀ y ∈ c.live, ∀ sy ny, (y.2, sy, ny) ∈ c.pools → d + sz ≤ y.1 ∨ y.1 + sy ≤ d := by
  have h' := Hist.alloc h hp e
  obtain ⟨h1, _, h3⟩ := c30_disjoint G h'
  have hnm := (List.nodup_cons.1 h1).1
  refine ⟨hnm, fun y hy sy ny hpy => ?_⟩
  exact h3 (d, p) (by simp) y (by simp [hy]) sz name sy ny hp hpy (by rintro rfl; exact hnm hy)

/-- **C30 (the bookkeeping is out of reach).** No element held overlaps a pool structure, the header of a page on a page list or the header of an element
on a free list, so writing to elements cannot damage a pool. -/
theorem c30_bookkeeping {al : Alloc} (G : Good al) {c : Client} {M : Mem} (h : Hist al c M) {x : Addr × Addr} (hx : x ∈ c.live) {sx : Nat} {nx : List Byte}
    (hpx : (x.2, sx, nx) ∈ c.pools) {q : Addr × Nat × List Byte} (hq : q ∈ c.pools) :
    Disj (x.1, sx) (q.1, 160) ∧ ∃ pages free, IsList M.H (pageHead q.1) pages ∧ IsList M.H (freeHead q.1) free ∧
      (∀ g ∈ pages, Disj (x.1, sx) (g, 32)) ∧ ∀ e ∈ free, Disj (x.1, sx) (e, 24) := by
  obtain ⟨A, S, R⟩ := rel_of_hist G h
  obtain ⟨d, p⟩ := x
  obtain ⟨e, rfl, hp, g, hg, he, hn⟩ := (R.live d p).1 hx
  have s1 : (M.pool p).eltSize = sx := (R.sizes _ hpx).1
  have i1 := R.inv.elt_in hp he
  have hqp := (R.mem hq).2
  refine ⟨?_, S.pages q.1, S.free q.1, R.inv.rep.lists _ _ (R.inv.apages _ hqp), R.inv.rep.lists _ _ (R.inv.afree _ hqp), ?_, ?_⟩
  · have hne : (g, (M.pool p).pageSize) ≠ (q.1, 160) := by
      intro h1
      have h2 : g = q.1 := by injection h1
      exact R.inv.sep q.1 hqp p hp (h2 ▸ hg)
    have := R.inv.disj _ (R.inv.bpage p hp g hg) _ (R.inv.bpool _ hqp) hne
    unfold Disj at *; simp only at *; omega
  · intro g' hg'
    by_cases hgg : g = g'
    · subst hgg; unfold Disj; simp only; omega
    · have := R.inv.disj _ (R.inv.bpage p hp g hg) _ (R.inv.bpage _ hqp g' hg') (by simp [hgg])
      have := R.inv.pageSize_pos hqp
      unfold Disj at *; simp only at *; omega
  · intro e' he'
    obtain ⟨g', hg', hee⟩ := R.inv.freeSub _ hqp e' he'
    have i2 := R.inv.elt_in hqp hee
    by_cases hgg : g = g'
    · subst hgg
      have hpp : p = q.1 := by rw [← R.inv.ppool p hp g hg, ← R.inv.ppool _ hqp g hg']
      rw [← hpp] at hee he'
      obtain ⟨k, hk, rfl⟩ := mem_elts.1 he
      obtain ⟨k', hk', rfl⟩ := mem_elts.1 hee
      have hkk : k ≠ k' := by rintro rfl; exact hn he'
      have := elt_sep (sz := (M.pool p).eltSize) (g := g) hkk
      unfold Disj; simp only; omega
    · have := R.inv.disj _ (R.inv.bpage p hp g hg) _ (R.inv.bpage _ hqp g' hg') (by simp [hgg])
      unfold Disj at *; simp only at *; omega

/-- The data pointer lies in the page (of `n` bytes) at `g`; an empty element may sit at the very end. -/
def InPage (n g d : Nat) : Bool := decide (g < d ∧ d ≤ g + n)

theorem Rel.in_page {c : Client} {M : Mem} {A : EList.Abs} {S : St} (R : Rel c M A S) {p g : Addr} (hp : p ∈ S.pools) (hg : g ∈ S.pages p) {d q : Addr}
    (h : (d, q) ∈ c.live) : InPage (M.pool p).pageSize g d = true ↔ ∃ e, d = e + 24 ∧ q = p ∧ e ∈ elts (M.pool p) g ∧ e ∉ S.free p := by
  obtain ⟨e, rfl, hq, g', hg', he, hn⟩ := (R.live d q).1 h
  have i1 := R.inv.elt_in hq he
  simp only [InPage, decide_eq_true_eq]
  constructor
  · intro hin
    have hgg : g' = g := by
      by_cases hgg : g' = g
      · exact hgg
      · have := R.inv.disj _ (R.inv.bpage q hq g' hg') _ (R.inv.bpage p hp g hg) (by simp [hgg])
        unfold Disj at this; simp only at this; omega
    subst hgg
    have hpp : q = p := by rw [← R.inv.ppool p hp _ hg, ← R.inv.ppool q hq _ hg']
    subst hpp
    exact ⟨e, rfl, rfl, he, hn⟩
  · rintro ⟨e', h1, rfl, he', _⟩
    have : e = e' := by omega
    subst this
    have := R.inv.elt_in hp he'
    omega

theorem Rel.held {c : Client} {M : Mem} {A : EList.Abs} {S : St} (R : Rel c M A S) {p g : Addr} (hp : p ∈ S.pools) (hg : g ∈ S.pages p) :
    M.nfree g + c.live.countP (fun x => InPage (M.pool p).pageSize g x.1) = (M.pool p).epp := by
  have hlen : (elts (M.pool p) g).length = (M.pool p).epp := by simp [elts]
  rw [R.inv.nfree p hp g hg, ← hlen, List.length_eq_countP_add_countP (fun x => decide (x ∈ S.free p))]
  congr 1
  rw [List.countP_eq_length_filter, List.countP_eq_length_filter]
  rw [← List.length_map (f := fun x : Addr × Addr => x.1 - 24)]
  apply List.Perm.length_eq
  rw [List.perm_ext_iff_of_nodup]
  · intro e
    simp only [List.mem_map, List.mem_filter, Bool.not_eq_true, decide_eq_false_iff_not]
    constructor
    · rintro ⟨⟨d, q⟩, ⟨h1, h2⟩, rfl⟩
      obtain ⟨e, rfl, rfl, h3, h4⟩ := (R.in_page hp hg h1).1 h2
      simpa using ⟨h3, h4⟩
    · rintro ⟨h1, h2⟩
      have h2 : e ∉ S.free p := by simpa using h2
      have hl : (e + 24, p) ∈ c.live := (R.live _ _).2 ⟨e, rfl, hp, g, hg, h1, h2⟩
      exact ⟨(e + 24, p), ⟨hl, (R.in_page hp hg hl).2 ⟨e, rfl, rfl, h1, h2⟩⟩, by simp⟩
  · apply map_nodup (R.nodup.filter _)
    rintro ⟨d, q⟩ h1 ⟨d', q'⟩ h2 h3
    obtain ⟨h1, h1'⟩ := List.mem_filter.1 h1
    obtain ⟨h4, h4'⟩ := List.mem_filter.1 h2
    obtain ⟨e, h5, h6, _⟩ := (R.in_page hp hg h1).1 h1'
    obtain ⟨e', h7, h8, _⟩ := (R.in_page hp hg h4).1 h4'
    simp only at h3
    have : d = d' := by omega
    rw [this, h6, h8]
  · exact (elts_nodup _ _).filter _

/-- **C31 (counters).** After any history zt_mem_pool_get_stats succeeds for every pool and agrees with its contents: `pages` is the number of pages, which
are live blocks of the system allocator of the page size; each page's count of free elements plus the number of elements the client holds in it is the number of
elements per page; `free_pages` is the number of pages in which the client holds nothing; pages ever obtained are at least those present plus those counted as freed,
and equal as long as zt_mem_pool_release_free_pages was never called and no destruction was refused. -/
theorem c31_counters {al : Alloc} (G : Good al) {c : Client} {M : Mem} (h : Hist al c M) {q : Addr × Nat × List Byte} (hq : q ∈ c.pools) :
    ∃ s pages, getStats M q.1 = .ok s ∧ s.eltSize = q.2.1 ∧ 0 < s.eltsPerPage ∧ 32 + s.eltsPerPage * (24 + s.eltSize) ≤ s.pageSize ∧
      IsList M.H (pageHead q.1) pages ∧ (∀ g ∈ pages, (g, s.pageSize) ∈ M.blocks) ∧ s.pages = pages.length ∧
      (∀ g ∈ pages, M.nfree g + c.live.countP (fun x => InPage s.pageSize g x.1) = s.eltsPerPage) ∧
      s.freePages = pages.countP (fun g => c.live.all (fun x => !InPage s.pageSize g x.1)) ∧
      s.pages + s.pageFrees ≤ s.pageAllocs ∧
      (c.odd = false → s.pageAllocs = s.pages + s.pageFrees) := by
  obtain ⟨A, S, R⟩ := rel_of_hist G h
  have hp := (R.mem hq).2
  have hc := R.inv.count _ hp
  obtain ⟨e1, e2⟩ := R.inv.epp _ hp
  refine ⟨⟨(M.pool q.1).npages, (M.pool q.1).nfreePages, (M.pool q.1).pageAllocs, (M.pool q.1).pageFrees, (M.pool q.1).epp, (M.pool q.1).eltSize,
    (M.pool q.1).pageSize, (M.pool q.1).rcache, (M.pool q.1).ncache, (M.pool q.1).pcache, (M.pool q.1).flags⟩, S.pages q.1, ?_, (R.sizes q hq).1, e1, e2, R.inv.rep.lists _ _ (R.inv.apages _ hp), R.inv.bpage _ hp, R.inv.npages _ hp,
    fun g hg => R.held hp hg, ?_, ?_, ?_⟩
  · rw [getStats, chk_pool R.inv hp]; rfl
  · simp only
    rw [R.inv.nfreePages _ hp]
    apply List.countP_congr
    intro g hg
    have := R.held hp hg
    simp only [decide_eq_true_eq, List.all_eq_true, Bool.not_eq_true']
    constructor
    · intro hn x hx
      have h0 : c.live.countP (fun x => InPage (M.pool q.1).pageSize g x.1) = 0 := by omega
      have := (List.countP_eq_zero.1 h0) x hx
      simpa using this
    · intro hn
      have h0 : c.live.countP (fun x => InPage (M.pool q.1).pageSize g x.1) = 0 := List.countP_eq_zero.2 (fun x hx => by simp [hn x hx])
      omega
  · simp only; omega
  · intro ho
    have := R.lost ho _ hp
    simp only; omega

/-- **C31 (destruction).** zt_mem_pool_destroy succeeds exactly when the client holds no element of the pool. -/
theorem c31_destroy {al : Alloc} (G : Good al) {c : Client} {M : Mem} (h : Hist al c M) {q : Addr × Nat × List Byte} (hq : q ∈ c.pools) :
    ∃ b M', Runs (destroy M q.1) (b, M') ∧ (b = true ↔ ∀ x ∈ c.live, x.2 ≠ q.1) := by
  obtain ⟨A, S, R⟩ := rel_of_hist G h
  rcases destroy_spec R.inv (R.mem hq).1 with ⟨M', A', S', e, _, _, _, x, hx⟩ | ⟨M', A', S', S1, e, _, _, _, _, hn⟩
  · refine ⟨false, M', e, by simp, fun hh => ?_⟩
    exact absurd rfl (hh (x + 24, q.1) ((R.live _ _).2 ⟨x, rfl, hx⟩))
  · refine ⟨true, M', e, fun _ => ?_, fun _ => rfl⟩
    rintro ⟨d, p⟩ hx rfl
    obtain ⟨y, _, hy⟩ := (R.live _ _).1 hx
    exact hn y hy

/-- **C31 (no leak).** After any history the blocks obtained from the system allocator and not returned to it are, besides the static list head, the existing
pools and the pages on their page lists, each held once. -/
theorem c31_blocks {al : Alloc} (G : Good al) {c : Client} {M : Mem} (h : Hist al c M) :
    M.blocks.Nodup ∧ ∀ b ∈ M.blocks, b = (poolsHead, 16) ∨ ∃ q ∈ c.pools, b = (q.1, 160) ∨
      ∃ pages, IsList M.H (pageHead q.1) pages ∧ b.1 ∈ pages ∧ b.2 = (M.pool q.1).pageSize := by
  obtain ⟨A, S, R⟩ := rel_of_hist G h
  refine ⟨R.inv.nodup, fun b hb => ?_⟩
  rcases R.inv.noleak b hb with h1 | ⟨p, hp, h1⟩
  · exact .inl h1
  · have := R.all p hp
    rw [R.linked] at this
    obtain ⟨x, hx, rfl⟩ := List.mem_map.1 this
    refine .inr ⟨x, hx, ?_⟩
    rcases h1 with h1 | ⟨g, hg, rfl⟩
    · exact .inl h1
    · exact .inr ⟨S.pages x.1, R.inv.rep.lists _ _ (R.inv.apages _ hp), hg, rfl⟩

/-- **C31 (no leak).** When every pool has been destroyed, every block has been given back to the system allocator. -/
theorem c31_no_leak {al : Alloc} (G : Good al) {c : Client} {M : Mem} (h : Hist al c M) (he : c.pools = []) : M.blocks = [(poolsHead, 16)] ∧ c.live = [] := by
  obtain ⟨h1, h2⟩ := c31_blocks G h
  obtain ⟨A, S, R⟩ := rel_of_hist G h
  constructor
  · have hm := R.inv.broot
    have : ∀ b ∈ M.blocks, b = (poolsHead, 16) := fun b hb => by
      rcases h2 b hb with h | ⟨q, hq, _⟩
      · exact h
      · rw [he] at hq; cases hq
    generalize M.blocks = bs at *
    match bs with
    | [] => cases hm
    | [b] => rw [this b (by simp)]
    | b :: b' :: t =>
        have e1 := this b (by simp)
        have e2 := this b' (by simp)
        rw [e1, e2] at h1; simp at h1
  · rw [List.eq_nil_iff_forall_not_mem]
    rintro ⟨d, p⟩ hx
    obtain ⟨x, hx, _⟩ := R.pool_of_live hx
    rw [he] at hx; cases hx

/-- **C31 (releasing free pages).** zt_mem_pool_release_free_pages keeps exactly the pages in which the client holds an element, in the same order. -/
theorem c31_release_free {al : Alloc} (G : Good al) {c : Client} {M : Mem} (h : Hist al c M) {q : Addr × Nat × List Byte} (hq : q ∈ c.pools) :
    ∃ M' pages, Runs (releaseFreePages M q.1) M' ∧ IsList M.H (pageHead q.1) pages ∧
      IsList M'.H (pageHead q.1) (pages.filter (fun g => c.live.any (fun x => InPage (M.pool q.1).pageSize g x.1))) := by
  obtain ⟨A, S, R⟩ := rel_of_hist G h
  have hp := (R.mem hq).2
  obtain ⟨M', A', S', e, I', k, h1, _⟩ := releaseFreePages_spec R.inv hp
  refine ⟨M', S.pages q.1, e, R.inv.rep.lists _ _ (R.inv.apages _ hp), ?_⟩
  have := I'.rep.lists _ _ (I'.apages q.1 (by rw [k.pools]; exact hp))
  rw [h1] at this
  refine Eq.mp (congrArg _ ?_) this
  apply List.filter_congr
  intro g hg
  have := R.held hp hg
  rw [Bool.eq_iff_iff, List.any_eq_true, decide_eq_true_eq]
  refine Iff.symm ⟨?_, ?_⟩
  · rintro ⟨x, hx, hin⟩ h0
    have h0 : c.live.countP (fun x => InPage (M.pool q.1).pageSize g x.1) = 0 := by omega
    exact (List.countP_eq_zero.1 h0) x hx hin
  · intro h0
    have h0 : 0 < c.live.countP (fun x => InPage (M.pool q.1).pageSize g x.1) := by omega
    obtain ⟨x, hx, hin⟩ := List.countP_pos_iff.1 h0
    exact ⟨x, hx, hin⟩

/-! ### C61: lookup by name -/

theorem getLoop_spec {M : Mem} {name : List Byte} : ∀ (l : List Addr) (a : Addr) (fuel : Nat), EList.Linked M.H a l poolsHead → poolsHead ∉ l →
    (∀ x ∈ l, (x, 160) ∈ M.blocks) → l.length < fuel → getLoop name fuel (M.H.next a) M = .ok (l.find? (fun x => (M.pool x).name = name)) := by
  intro l
  induction l with
  | nil =>
      intro a fuel hl hh hb hf
      obtain ⟨f, rfl⟩ : ∃ f, fuel = f + 1 := ⟨fuel - 1, by simp at hf; omega⟩
      rw [getLoop, if_pos hl.1]; rfl
  | cons x xs ih =>
      intro a fuel hl hh hb hf
      obtain ⟨f, rfl⟩ : ∃ f, fuel = f + 1 := ⟨fuel - 1, by simp at hf; omega⟩
      have hx : M.H.next a = x := hl.1
      have hne : x ≠ poolsHead := fun h => hh (by simp [h])
      rw [getLoop, hx, if_neg hne, chk_ok (hb x (by simp)) (by simp) (by simp)]
      simp only [Outcome.ok_bind, List.find?_cons]
      by_cases hn : (M.pool x).name = name
      · simp [hn]
      · simp only [hn, if_false, decide_false]
        exact ih x f hl.2.2 (fun h => hh (by simp [h])) (fun y hy => hb y (by simp [hy])) (by simp at hf; omega)

/-- **C61.** After any history zt_mem_pool_get finds the oldest pool still existing with that name, and NULL when there is none. -/
theorem c61_get {al : Alloc} (G : Good al) {c : Client} {M : Mem} (h : Hist al c M) (name : List Byte) :
    Runs (get M name) ((c.pools.find? (fun x => x.2.2 = name)).map (·.1)) := by
  obtain ⟨A, S, R⟩ := rel_of_hist G h
  have L := R.inv.rep.lists _ _ R.inv.aroot
  refine ⟨S.linked.length + 1, fun fuel hf => ?_⟩
  rw [get, getLoop_spec S.linked poolsHead fuel L.1 (List.nodup_cons.1 L.2).1 (fun x hx => R.inv.bpool x (R.inv.linked x hx)) (by omega), R.linked]
  congr 1
  rw [List.find?_map]
  congr 1
  have : ∀ (l : List (Addr × Nat × List Byte)), (∀ x ∈ l, (M.pool x.1).name = x.2.2) →
      l.find? ((fun x => decide ((M.pool x).name = name)) ∘ fun x => x.1) = l.find? (fun x => decide (x.2.2 = name)) := by
    intro l
    induction l with
    | nil => intro _; rfl
    | cons y ys ih =>
        intro hy
        simp only [List.find?_cons, ih fun z hz => hy z (by simp [hz]), Function.comp_apply, hy y (by simp)]
  exact this _ fun x hx => (R.sizes x hx).2

end ZT.MemPool
