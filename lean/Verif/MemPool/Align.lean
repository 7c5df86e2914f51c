import Verif.MemPool.Extra

/-!
# C134: alignment of the memory from pools

Addresses as in `Model.lean` (LP64: the page header has 32 bytes, the header of an element 24; zt_mem.c 26-44). The system allocator returns addresses that are multiples of 16, as malloc does.
-/

namespace ZT.MemPool

open EList (IsList)

/-! ## Specification -/

/-- What the system allocator returns is aligned to 16. -/
def Aligned (al : Alloc) : Prop := ∀ t bs n a, al t bs n = some a → 16 ∣ a

/-- More calls of zt_mem_pool_alloc on pool `p`, with the addresses returned, the first call first. -/
inductive Allocs (al : Alloc) (p : Addr) : Mem → List Addr → Mem → Prop
  | nil {M} : Allocs al p M [] M
  | cons {M M1 M2 d l} : alloc al M p = .ok (d, M1) → Allocs al p M1 l M2 → Allocs al p M (d :: l) M2

/-! ## Proof -/

/-- The live blocks of `M'` are aligned or were live in `M`. -/
def Sub (M M' : Mem) : Prop := ∀ b ∈ M'.blocks, 16 ∣ b.1 ∨ b ∈ M.blocks

theorem Sub.refl (M : Mem) : Sub M M := fun _ h => .inr h

theorem Sub.of_eq {M M' : Mem} (h : M'.blocks = M.blocks) : Sub M M' := fun _ hb => .inr (h ▸ hb)

theorem Sub.trans {M M1 M2 : Mem} (h1 : Sub M M1) (h2 : Sub M1 M2) : Sub M M2 := fun b hb => (h2 b hb).elim .inl (h1 b)

theorem chk_bind {α : Type} {M : Mem} {a n : Nat} {f : Unit → Outcome α} {r : α} (h : (chk M a n).bind f = .ok r) : f () = .ok r := by
  rw [chk] at h
  split at h
  · exact h
  · cases h

theorem sub_fill (p page size : Addr) : ∀ n e M M', fillLoop p page size n e M = .ok M' → M'.blocks = M.blocks := by
  intro n
  induction n with
  | zero => intro e M M' h; cases h; rfl
  | succ n ih =>
      intro e M M' h
      rw [fillLoop] at h
      have k := chk_bind h
      dsimp only at k
      have := ih _ _ _ k
      exact this

theorem sub_pageAlloc {al : Alloc} (L : Aligned al) {M M' : Mem} {p : Addr} {r} (h : pageAlloc al M p = .ok (r, M')) : Sub M M' := by
  simp only [pageAlloc, malloc] at h
  cases ha : al M.tick M.blocks (M.pool p).pageSize with
  | none => rw [ha] at h; cases h; exact .refl _
  | some a =>
      rw [ha] at h
      simp only at h
      replace h := chk_bind (chk_bind h)
      obtain ⟨M1, e1, h⟩ := (Outcome.bind_eq_ok ..).1 h
      cases h
      have := sub_fill _ _ _ _ _ _ _ e1
      intro b hb
      change b ∈ M1.blocks at hb
      rw [this] at hb
      rcases List.mem_cons.1 hb with rfl | hb
      · exact .inl (L _ _ _ _ ha)
      · exact .inr hb

theorem sub_addPage {al : Alloc} (L : Aligned al) {M M' : Mem} {p : Addr} (h : addPage al M p = .ok M') : Sub M M' := by
  rw [addPage] at h
  obtain ⟨⟨r, M1⟩, e1, h⟩ := (Outcome.bind_eq_ok ..).1 h
  have s := sub_pageAlloc L e1
  cases r with
  | none => cases h
  | some g => cases h; exact s.trans (.of_eq rfl)

theorem sub_addPages {al : Alloc} (L : Aligned al) {p : Addr} : ∀ n M M', addPages al p n M = .ok M' → Sub M M' := by
  intro n
  induction n with
  | zero => intro M M' h; cases h; exact .refl _
  | succ n ih =>
      intro M M' h
      rw [addPages] at h
      obtain ⟨M1, e1, h⟩ := (Outcome.bind_eq_ok ..).1 h
      exact (sub_addPage L e1).trans (ih _ _ h)

theorem sub_init {al : Alloc} (L : Aligned al) {M M' : Mem} {name n size test flags r} (h : init al M name n size test flags = .ok (r, M')) : Sub M M' := by
  simp only [init, malloc] at h
  cases ha : al M.tick M.blocks 160 with
  | none => rw [ha] at h; cases h; exact .refl _
  | some a =>
      rw [ha] at h
      simp only at h
      obtain ⟨M1, e1, h⟩ := (Outcome.bind_eq_ok ..).1 h
      cases h
      refine Sub.trans ?_ ((sub_addPages L _ _ _ e1).trans (.of_eq rfl))
      intro b hb
      rcases List.mem_cons.1 hb with rfl | hb
      · exact .inl (L _ _ _ _ ha)
      · exact .inr hb

theorem sub_take {M M' : Mem} {p d : Addr} (h : take M p = .ok (d, M')) : Sub M M' := by
  rw [take] at h
  replace h := chk_bind (chk_bind h)
  simp only [pure, Outcome.ok.injEq, Prod.mk.injEq] at h
  rw [← h.2]
  split <;> exact .of_eq rfl

theorem sub_alloc {al : Alloc} (L : Aligned al) {M M' : Mem} {p d : Addr} (h : alloc al M p = .ok (d, M')) : Sub M M' := by
  rw [alloc] at h
  replace h := chk_bind h
  split at h
  · obtain ⟨M1, e1, h⟩ := (Outcome.bind_eq_ok ..).1 h
    exact (sub_addPage L e1).trans (sub_take h)
  · exact sub_take h

theorem sub_unlink (size : Nat) : ∀ n e M M', unlinkLoop size n e M = .ok M' → M'.blocks = M.blocks := by
  intro n
  induction n with
  | zero => intro e M M' h; cases h; rfl
  | succ n ih =>
      intro e M M' h
      rw [unlinkLoop] at h
      rw [ih _ _ _ (chk_bind h)]
      split <;> rfl

theorem sub_dealloc {M M' : Mem} {a : Addr} (h : dealloc M a = .ok M') : Sub M M' := by
  rw [dealloc] at h
  split at h
  · cases h; exact fun b hb => .inr (List.mem_filter.1 hb).1
  · cases h

theorem sub_pageDestroy {M M' : Mem} {g : Addr} {r} (h : pageDestroy M g = .ok (r, M')) : Sub M M' := by
  rw [pageDestroy] at h
  replace h := chk_bind (chk_bind h)
  simp only at h
  split at h
  · cases h; exact .refl _
  · obtain ⟨M1, e1, h⟩ := (Outcome.bind_eq_ok ..).1 h
    obtain ⟨M2, e2, h⟩ := (Outcome.bind_eq_ok ..).1 h
    cases h
    have k0 := sub_unlink _ _ _ _ _ e1
    have k1 : Sub M M1 := .of_eq k0
    refine k1.trans (Sub.trans ?_ (sub_dealloc e2))
    split <;> exact .of_eq rfl

theorem sub_giveBack (M : Mem) (p g e : Addr) : (giveBack M p g e).blocks = M.blocks := by
  simp only [giveBack]
  split <;> rfl

theorem sub_release {M M' : Mem} {d : Addr} (h : release M d = .ok M') : Sub M M' := by
  rw [release] at h
  replace h := chk_bind h
  dsimp only at h
  split at h
  · exact sub_dealloc h
  · replace h := chk_bind (chk_bind h)
    split at h
    · obtain ⟨⟨r, M1⟩, e1, h⟩ := (Outcome.bind_eq_ok ..).1 h
      cases h
      exact (Sub.of_eq (sub_giveBack ..)).trans ((sub_pageDestroy e1).trans (.of_eq rfl))
    · cases h; exact .of_eq (sub_giveBack ..)

theorem sub_freePagesLoop (p : Addr) : ∀ fuel cur nxt M M', freePagesLoop p fuel cur nxt M = .ok M' → Sub M M' := by
  intro fuel
  induction fuel with
  | zero => intro _ _ _ _ h; cases h
  | succ n ih =>
      intro cur nxt M M' h
      rw [freePagesLoop] at h
      split at h
      · cases h; exact .refl _
      · replace h := chk_bind h
        split at h
        · obtain ⟨⟨r, M1⟩, e1, h⟩ := (Outcome.bind_eq_ok ..).1 h
          exact (sub_pageDestroy e1).trans (ih _ _ _ _ (chk_bind h))
        · exact ih _ _ _ _ (chk_bind h)

theorem sub_releaseFreePages {M M' : Mem} {p : Addr} {fuel} (h : releaseFreePages M p fuel = .ok M') : Sub M M' := by
  rw [releaseFreePages] at h
  exact sub_freePagesLoop _ _ _ _ _ _ (chk_bind (chk_bind h))

theorem sub_destroyLoop (p : Addr) : ∀ fuel cur nxt M r M', destroyLoop p fuel cur nxt M = .ok (r, M') → Sub M M' := by
  intro fuel
  induction fuel with
  | zero => intro _ _ _ _ _ h; cases h
  | succ n ih =>
      intro cur nxt M r M' h
      rw [destroyLoop] at h
      split at h
      · cases h; exact .refl _
      · replace h := chk_bind h
        split at h
        · cases h; exact .refl _
        · obtain ⟨⟨r, M1⟩, e1, h⟩ := (Outcome.bind_eq_ok ..).1 h
          exact (sub_pageDestroy e1).trans (ih _ _ _ _ _ (chk_bind h))

theorem sub_destroy {M M' : Mem} {p : Addr} {fuel r} (h : destroy M p fuel = .ok (r, M')) : Sub M M' := by
  rw [destroy] at h
  replace h := chk_bind (chk_bind h)
  obtain ⟨⟨b, M1⟩, e1, h⟩ := (Outcome.bind_eq_ok ..).1 h
  have s := sub_destroyLoop _ _ _ _ _ _ _ e1
  simp only at h
  split at h
  · obtain ⟨M2, e2, h⟩ := (Outcome.bind_eq_ok ..).1 h
    cases h
    refine s.trans (Sub.trans ?_ (sub_dealloc e2))
    exact .of_eq rfl
  · cases h; exact s

theorem runs_ok {α : Type} {f : Nat → Outcome α} {r : α} (h : Runs f r) : ∃ n, f n = .ok r := by
  obtain ⟨n, h⟩ := h
  exact ⟨n, h n (Nat.le_refl _)⟩

theorem blocks_aligned {al : Alloc} (L : Aligned al) {c : Client} {M : Mem} (h : Hist al c M) : ∀ b ∈ M.blocks, 16 ∣ b.1 := by
  have keep : ∀ {M M' : Mem}, Sub M M' → (∀ b ∈ M.blocks, 16 ∣ b.1) → ∀ b ∈ M'.blocks, 16 ∣ b.1 := fun s ih b hb => (s b hb).elim id (ih b)
  induction h with
  | start hb => rw [hb]; intro b hb; rw [List.mem_singleton.1 hb]; exact ⟨4, rfl⟩
  | init _ _ e ih => exact keep (sub_init L e) ih
  | alloc _ _ e ih => exact keep (sub_alloc L e) ih
  | release _ _ e ih => exact keep (sub_release e) ih
  | releaseFree _ _ e ih => obtain ⟨_, e⟩ := runs_ok e; exact keep (sub_releaseFreePages e) ih
  | destroyed _ _ e ih => obtain ⟨_, e⟩ := runs_ok e; exact keep (sub_destroy e) ih
  | refused _ _ e ih => obtain ⟨_, e⟩ := runs_ok e; exact keep (sub_destroy e) ih

/-- Where elements are. -/
theorem elt_place {al : Alloc} (L : Aligned al) {c : Client} {M : Mem} {A : EList.Abs} {S : St} (h : Hist al c M) (R : Rel c M A S) {q : Addr × Nat × List Byte} (hq : q ∈ c.pools) {g e : Addr}
    (hg : g ∈ S.pages q.1) (he : e ∈ elts (M.pool q.1) g) : 16 ∣ g ∧ ∃ k, e = g + 32 + k * (24 + q.2.1) := by
  obtain ⟨k, _, rfl⟩ := mem_elts.1 he
  refine ⟨blocks_aligned L h _ (R.inv.bpage _ (R.mem hq).2 _ hg), k, ?_⟩
  rw [elt, (R.sizes q hq).1]

theorem place_dvd {a g sz k : Nat} (hg : 16 ∣ g) (h8 : a ∣ 8) (hs : a ∣ sz) : a ∣ g + 32 + k * (24 + sz) := by
  have h16 : a ∣ 16 := Nat.dvd_trans h8 (by decide)
  refine Nat.dvd_add (Nat.dvd_add (Nat.dvd_trans h16 hg) (Nat.dvd_trans h8 (by decide))) (Nat.dvd_mul_left_of_dvd (Nat.dvd_add (Nat.dvd_trans h8 (by decide)) hs) _)

/-! ## The theorems -/

/-- **C134.** After any history: what a pool of elements of `sz` bytes has handed out is aligned to `a`, for all `a` of 1, 2, 4, 8 that divide `sz`: for an array of objects of a type
with alignment at most 8, all of them are aligned (`sizeof` is a multiple of the alignment). -/
theorem c134_partial {al : Alloc} (G : Good al) (L : Aligned al) {c : Client} {M : Mem} (h : Hist al c M) {d p sz : Nat} {name : List Byte} (hd : (d, p) ∈ c.live) (hp : (p, sz, name) ∈ c.pools)
    {a : Nat} (h8 : a ∣ 8) (hs : a ∣ sz) : a ∣ d := by
  obtain ⟨A, S, R⟩ := rel_of_hist G h
  obtain ⟨e, rfl, -, g, hg, he, -⟩ := (R.live d p).1 hd
  obtain ⟨h16, k, rfl⟩ := elt_place L h R hp hg he
  exact Nat.dvd_add (place_dvd h16 h8 hs) (Nat.dvd_trans h8 (by decide))

/-- **C134.** If moreover 8 divides the size, the structures the library itself keeps there are aligned as their pointers demand: the pages, the headers of free elements, and those of the elements handed out. -/
theorem c134_headers {al : Alloc} (G : Good al) (L : Aligned al) {c : Client} {M : Mem} (h : Hist al c M) {p sz : Nat} {name : List Byte} (hp : (p, sz, name) ∈ c.pools) (hs : 8 ∣ sz) :
    8 ∣ p ∧ (∃ pages free, IsList M.H (pageHead p) pages ∧ IsList M.H (freeHead p) free ∧ (∀ g ∈ pages, 8 ∣ g) ∧ ∀ e ∈ free, 8 ∣ e) ∧ ∀ d, (d, p) ∈ c.live → 8 ∣ d - 24 := by
  obtain ⟨A, S, R⟩ := rel_of_hist G h
  have m := (R.mem hp).2
  refine ⟨Nat.dvd_trans (by decide) (blocks_aligned L h _ (R.inv.bpool _ m)), ⟨_, _, R.inv.rep.lists _ _ (R.inv.apages _ m), R.inv.rep.lists _ _ (R.inv.afree _ m), ?_, ?_⟩, ?_⟩
  · exact fun g hg => Nat.dvd_trans (by decide) (blocks_aligned L h _ (R.inv.bpage _ m _ hg))
  · intro e he
    obtain ⟨g, hg, he⟩ := R.inv.freeSub _ m _ he
    obtain ⟨h16, k, rfl⟩ := elt_place L h R hp hg he
    exact place_dvd h16 (Nat.dvd_refl 8) hs
  · intro d hd
    have := c134_partial G L h hd hp (Nat.dvd_refl 8) hs
    exact Nat.dvd_sub this (by decide)

theorem empty_iff {M : Mem} {A : EList.Abs} {S : St} (I : Inv M A S) {p : Addr} (hp : p ∈ S.pools) : EList.empty M.H (freeHead p) = decide (S.free p = []) := by
  have L := (I.rep.lists _ _ (I.afree p hp))
  cases hf : S.free p with
  | nil => rw [hf] at L; have := L.1; simp only [EList.Linked] at this; simp [EList.empty, this.1]
  | cons x xs =>
      rw [hf] at L
      have h1 := L.1; simp only [EList.Linked] at h1
      have h2 := L.2
      simp only [EList.empty, h1.1]
      have : x ≠ freeHead p := by rintro rfl; simp at h2
      simpa using this

theorem alloc_take {al : Alloc} {M : Mem} {A : EList.Abs} {S : St} (I : Inv M A S) {p e : Addr} {fl : List Addr} (hp : p ∈ S.pools) (hf : S.free p = e :: fl) :
    ∃ M' A', alloc al M p = .ok (e + 24, M') ∧ Inv M' A' { S with free := upd S.free p fl } ∧ ∀ q, SameCfg (M'.pool q) (M.pool q) := by
  obtain ⟨M', e1, I', hc⟩ := take_spec I hp hf
  refine ⟨M', _, ?_, I', hc⟩
  rw [alloc, chk_pool I hp]
  simp only [Outcome.ok_bind, empty_iff I hp, hf, reduceCtorEq, decide_false, Bool.false_eq_true, if_false]
  exact e1

/-- All free elements can be taken. -/
theorem drain {al : Alloc} (p : Addr) : ∀ (n : Nat) (M : Mem) (A : EList.Abs) (S : St), Inv M A S → p ∈ S.pools → (S.free p).length = n →
    ∃ l M' A' S', Allocs al p M l M' ∧ Inv M' A' S' ∧ p ∈ S'.pools ∧ S'.free p = [] ∧ SameCfg (M'.pool p) (M.pool p) := by
  intro n
  induction n with
  | zero => intro M A S I hp hn; exact ⟨[], M, A, S, .nil, I, hp, List.length_eq_zero_iff.1 hn, rfl, rfl, rfl, rfl⟩
  | succ n ih =>
      intro M A S I hp hn
      cases hf : S.free p with
      | nil => rw [hf] at hn; cases hn
      | cons e fl =>
          obtain ⟨M1, A1, e1, I1, c1⟩ := alloc_take (al := al) I hp hf
          obtain ⟨l, M2, A2, S2, e2, I2, p2, f2, c2⟩ := ih M1 A1 _ I1 hp (by simp [upd, hf] at hn ⊢; exact hn)
          exact ⟨_, M2, A2, S2, .cons e1 e2, I2, p2, f2, c2.trans (c1 p)⟩

theorem Allocs.append {al : Alloc} {p : Addr} {M M1 M2 : Mem} {l l' : List Addr} (h : Allocs al p M l M1) (h' : Allocs al p M1 l' M2) : Allocs al p M (l ++ l') M2 := by
  induction h with
  | nil => exact h'
  | cons e _ ih => exact .cons e (ih h')

theorem Allocs.sub {al : Alloc} (L : Aligned al) {p : Addr} {M M1 : Mem} {l : List Addr} (h : Allocs al p M l M1) : Sub M M1 := by
  induction h with
  | nil => exact .refl _
  | cons e _ ih => exact (sub_alloc L e).trans ih

theorem elts_cons (P : Pool) (g : Addr) (h : 0 < P.epp) : ∃ fl, elts P g = (g + 32) :: fl ∧ (2 ≤ P.epp → ∃ fl', fl = (g + 32 + (24 + P.eltSize)) :: fl') := by
  obtain ⟨n, hn⟩ : ∃ n, P.epp = n + 1 := ⟨P.epp - 1, by omega⟩
  refine ⟨((List.range n).map Nat.succ).map (elt P.eltSize g), ?_, ?_⟩
  · simp [elts, hn, List.range_succ_eq_map, elt]
  · intro h2
    obtain ⟨m, rfl⟩ : ∃ m, n = m + 1 := ⟨n - 1, by omega⟩
    exact ⟨(((List.range m).map Nat.succ).map Nat.succ).map (elt P.eltSize g), by simp [List.range_succ_eq_map, elt]⟩

/-- A page is filled from its beginning. -/
theorem fresh_page {al : Alloc} (G : Good al) {M : Mem} {A : EList.Abs} {S : St} (I : Inv M A S) {p : Addr} (hp : p ∈ S.pools) (hf : S.free p = []) :
    ∃ g M1 M', addPage al M p = .ok M1 ∧ (∃ n, (g, n) ∈ M1.blocks) ∧ alloc al M p = .ok (g + 56, M') ∧ (2 ≤ (M.pool p).epp → ∃ M2, alloc al M' p = .ok (g + 56 + (24 + (M.pool p).eltSize), M2)) := by
  obtain ⟨g, M1, A1, e1, I1, hc1⟩ := addPage_spec G I hp
  obtain ⟨fl, h1, h2⟩ := elts_cons (M.pool p) g (I.epp p hp).1
  have hne : (S.grow (M.pool p) p g).free p = (g + 32) :: fl := by simp [St.grow, upd, hf, h1]
  have hpg : g ∈ (S.grow (M.pool p) p g).pages p := by simp [St.grow, upd]
  obtain ⟨M2, e2, I2, hc2⟩ := take_spec I1 (p := p) hp hne
  refine ⟨g, M1, M2, e1, ⟨_, I1.bpage p hp g hpg⟩, ?_, ?_⟩
  · rw [alloc, chk_pool I hp]
    simp only [Outcome.ok_bind, empty_iff I hp, hf, decide_true, if_true]
    rw [e1]; exact e2
  · intro h
    obtain ⟨fl', rfl⟩ := h2 h
    obtain ⟨M3, A3, e3, -⟩ := alloc_take (al := al) I2 (p := p) hp (e := g + 32 + (24 + (M.pool p).eltSize)) (fl := fl') (by simp [upd])
    refine ⟨M3, ?_⟩
    rw [e3, show g + 32 + (24 + (M.pool p).eltSize) + 24 = g + 56 + (24 + (M.pool p).eltSize) by omega]

/-- **C134**, violated for larger alignments, for every pool and after every history: if one goes on allocating, an address comes that is not a multiple of 16, whatever the size of the elements. So no pool is good for
objects with alignment 16 (long double, max_align_t), though `malloc` would be. -/
theorem c134_sixteen_violation {al : Alloc} (G : Good al) (L : Aligned al) {c : Client} {M : Mem} (h : Hist al c M) {q : Addr × Nat × List Byte} (hq : q ∈ c.pools) :
    ∃ l d M', Allocs al q.1 M (l ++ [d]) M' ∧ d % 16 = 8 := by
  obtain ⟨A, S, R⟩ := rel_of_hist G h
  obtain ⟨l, M1, A1, S1, hl, I1, hp1, hf1, _⟩ := drain (al := al) q.1 _ M A S R.inv (R.mem hq).2 rfl
  obtain ⟨g, M2, M3, e1, ⟨n, hb⟩, e2, -⟩ := fresh_page G I1 hp1 hf1
  refine ⟨l, g + 56, M3, hl.append (.cons e2 .nil), ?_⟩
  have : 16 ∣ g := by
    rcases (hl.sub L).trans (sub_addPage L e1) _ hb with h16 | hm
    · exact h16
    · exact blocks_aligned L h _ hm
  omega

/-- **C134**, violated for the library itself: a pool with two elements or more in a page, whose size is not a multiple of 8, has sooner or later handed out an element whose header, with its pointers, is not aligned to 8 (so
neither is the list of free elements through it): `d - 24` is where the header is. -/
theorem c134_header_violation {al : Alloc} (G : Good al) (L : Aligned al) {c : Client} {M : Mem} (h : Hist al c M) {q : Addr × Nat × List Byte} (hq : q ∈ c.pools) {s : Stats} (hs : getStats M q.1 = .ok s)
    (h2 : 2 ≤ s.eltsPerPage) (h8 : ¬ 8 ∣ q.2.1) : ∃ l d M', Allocs al q.1 M (l ++ [d]) M' ∧ ¬ 8 ∣ d - 24 := by
  obtain ⟨A, S, R⟩ := rel_of_hist G h
  have hepp : s.eltsPerPage = (M.pool q.1).epp := by
    rw [getStats, chk_pool R.inv (R.mem hq).2, Outcome.ok_bind] at hs
    cases hs; rfl
  obtain ⟨l, M1, A1, S1, hl, I1, hp1, hf1, hc⟩ := drain (al := al) q.1 _ M A S R.inv (R.mem hq).2 rfl
  obtain ⟨g, M2, M3, e1, ⟨n, hb⟩, e2, e3⟩ := fresh_page G I1 hp1 hf1
  obtain ⟨M4, e3⟩ := e3 (by rw [hc.1, ← hepp]; exact h2)
  rw [hc.2.1, (R.sizes q hq).1] at e3
  refine ⟨l ++ [g + 56], g + 56 + (24 + q.2.1), M4, ?_, ?_⟩
  · exact (hl.append (.cons e2 .nil)).append (.cons e3 .nil)
  · have : 16 ∣ g := by
      rcases (hl.sub L).trans (sub_addPage L e1) _ hb with h16 | hm
      · exact h16
      · exact blocks_aligned L h _ hm
    omega

/-! ## Non-vacuity -/

theorem bump_aligned : Aligned bump := by
  intro t bs n a h
  simp only [bump, Option.some.injEq] at h
  rw [← h]; exact Nat.dvd_mul_left _ _

/-- A pool of 12 byte elements (three `int`s) from which one was taken: the element is aligned to 4, 101 and more fit in a page, and the size is not a multiple of 8. -/
example : ∃ c M p d s, Hist bump c M ∧ (p, 12, [97]) ∈ c.pools ∧ (d, p) ∈ c.live ∧ 4 ∣ d ∧ getStats M p = .ok s ∧ 2 ≤ s.eltsPerPage := by
  have h0 : Hist bump ⟨[], [], false⟩ start := .start rfl rfl rfl
  obtain ⟨p, M1, e1⟩ := (c30_total bump_good h0).1 [97] 10 12 defaultTest 0 (by simp [Fits])
  have h1 := Hist.init h0 (by simp [Fits]) e1
  obtain ⟨d, M2, e2⟩ := ((c30_total bump_good h1).2.1 (p, 12, [97]) (by simp)).1
  have h2 := Hist.alloc h1 (p := p) (sz := 12) (name := [97]) (by simp) e2
  have hk : ((init bump start [97] 10 12 defaultTest 0).bind fun r => (alloc bump r.2 (r.1.getD 0)).bind fun a => (getStats a.2 (r.1.getD 0)).bind fun s => .ok s.eltsPerPage) = .ok 112 := by decide +kernel
  rw [e1] at hk
  simp only [Outcome.bind, Option.getD_some] at hk
  rw [e2] at hk
  simp only at hk
  cases hs : getStats M2 p with
  | ok s =>
      rw [hs] at hk
      simp only [Outcome.ok.injEq] at hk
      exact ⟨_, M2, p, d, s, h2, by simp, by simp, c134_partial bump_good bump_aligned h2 (d := d) (p := p) (sz := 12) (name := [97]) (by simp) (by simp) ⟨2, rfl⟩ ⟨3, rfl⟩, hs, by omega⟩
  | abort => rw [hs] at hk; cases hk
  | ub => rw [hs] at hk; cases hk

end ZT.MemPool
