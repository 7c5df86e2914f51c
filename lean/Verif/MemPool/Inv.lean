import Verif.EList.Props
import Verif.MemPool.Model

/-!
# Invariant of the pools
-/

namespace ZT.MemPool

open EList (Rep Step exec)

/-- Two blocks do not overlap. -/
def Disj (b c : Block) : Prop := b.1 + b.2 ≤ c.1 ∨ c.1 + c.2 ≤ b.1

/-- The address is inside the block. -/
def In (b : Block) (x : Addr) : Prop := b.1 ≤ x ∧ x < b.1 + b.2

/-- The allocator succeeds and returns a block, not at 0, that overlaps no live block. -/
def Good (al : Alloc) : Prop := ∀ t bs n, ∃ a, al t bs n = some a ∧ 0 < a ∧ ∀ b ∈ bs, Disj (a, n) b

/-- The `k`-th element of a page. -/
def elt (sz page k : Nat) : Addr := page + 32 + k * (24 + sz)

/-- All elements of a page. -/
def elts (P : Pool) (page : Addr) : List Addr := (List.range P.epp).map (elt P.eltSize page)

/-- Contents of the pools: their addresses, those in the global list in order, the pages of each, the free elements of each, and the number of pages destroyed without
counting them in page_frees. -/
structure St where
  pools : List Addr
  linked : List Addr
  pages : Addr → List Addr
  free : Addr → List Addr
  lost : Addr → Nat

structure Inv (M : Mem) (A : EList.Abs) (S : St) : Prop where
  rep : Rep M.H A
  aroot : A poolsHead = some S.linked
  linked : ∀ p ∈ S.linked, p ∈ S.pools
  apages : ∀ p ∈ S.pools, A (pageHead p) = some (S.pages p)
  afree : ∀ p ∈ S.pools, A (freeHead p) = some (S.free p)
  only : ∀ h, (A h).isSome → h = poolsHead ∨ ∃ p ∈ S.pools, h = pageHead p ∨ h = freeHead p
  nodup : M.blocks.Nodup
  disj : ∀ b ∈ M.blocks, ∀ c ∈ M.blocks, b ≠ c → Disj b c
  pos : ∀ b ∈ M.blocks, 0 < b.1 ∧ 0 < b.2
  broot : (poolsHead, 16) ∈ M.blocks
  bpool : ∀ p ∈ S.pools, (p, 160) ∈ M.blocks
  bpage : ∀ p ∈ S.pools, ∀ g ∈ S.pages p, (g, (M.pool p).pageSize) ∈ M.blocks
  sep : ∀ p ∈ S.pools, ∀ q ∈ S.pools, p ∉ S.pages q
  epp : ∀ p ∈ S.pools, 0 < (M.pool p).epp ∧ 32 + (M.pool p).epp * (24 + (M.pool p).eltSize) ≤ (M.pool p).pageSize
  ppool : ∀ p ∈ S.pools, ∀ g ∈ S.pages p, M.ppool g = p
  parent : ∀ p ∈ S.pools, ∀ g ∈ S.pages p, ∀ e ∈ elts (M.pool p) g, M.parent e = g
  freeSub : ∀ p ∈ S.pools, ∀ e ∈ S.free p, ∃ g ∈ S.pages p, e ∈ elts (M.pool p) g
  nfree : ∀ p ∈ S.pools, ∀ g ∈ S.pages p, M.nfree g = (elts (M.pool p) g).countP (· ∈ S.free p)
  npages : ∀ p ∈ S.pools, (M.pool p).npages = (S.pages p).length
  nfreePages : ∀ p ∈ S.pools, (M.pool p).nfreePages = (S.pages p).countP (fun g => M.nfree g = (M.pool p).epp)
  count : ∀ p ∈ S.pools, (M.pool p).pageAllocs = (M.pool p).npages + (M.pool p).pageFrees + S.lost p
  noleak : ∀ b ∈ M.blocks, b = (poolsHead, 16) ∨ ∃ p ∈ S.pools, b = (p, 160) ∨ ∃ g ∈ S.pages p, b = (g, (M.pool p).pageSize)

/-! ### geometry -/

theorem mem_elts {P : Pool} {g x : Addr} : x ∈ elts P g ↔ ∃ k, k < P.epp ∧ x = elt P.eltSize g k := by
  simp [elts, eq_comm]

theorem elt_inj {sz g k k' : Nat} (h : elt sz g k = elt sz g k') : k = k' := by
  have h' : k * (24 + sz) = k' * (24 + sz) := by unfold elt at h; omega
  exact Nat.eq_of_mul_eq_mul_right (by omega) h'

theorem map_nodup {α β : Type} {f : α → β} {l : List α} (hl : l.Nodup) (hf : ∀ a ∈ l, ∀ b ∈ l, f a = f b → a = b) : (l.map f).Nodup := by
  induction l with
  | nil => simp
  | cons x xs ih =>
      rw [List.nodup_cons] at hl
      rw [List.map_cons, List.nodup_cons]
      refine ⟨fun hm => ?_, ih hl.2 fun a ha b hb => hf a (by simp [ha]) b (by simp [hb])⟩
      obtain ⟨y, hy, e⟩ := List.mem_map.1 hm
      exact hl.1 (hf y (by simp [hy]) x (by simp) e ▸ hy)

theorem elts_nodup (P : Pool) (g : Addr) : (elts P g).Nodup := map_nodup List.nodup_range fun _ _ _ _ h => elt_inj h

theorem elt_bound {sz g k n : Nat} (h : k < n) : elt sz g k + 24 + sz ≤ g + 32 + n * (24 + sz) := by
  have : (k + 1) * (24 + sz) ≤ n * (24 + sz) := Nat.mul_le_mul_right _ h
  rw [Nat.succ_mul] at this
  unfold elt; omega

theorem elt_sep {sz g k k' : Nat} (h : k ≠ k') : elt sz g k + 24 + sz ≤ elt sz g k' ∨ elt sz g k' + 24 + sz ≤ elt sz g k := by
  rcases Nat.lt_or_gt_of_ne h with h | h
  · left; have := elt_bound (sz := sz) (g := g) h; unfold elt at *; omega
  · right; have := elt_bound (sz := sz) (g := g) h; unfold elt at *; omega

theorem chk_ok {M : Mem} {b : Block} (hb : b ∈ M.blocks) {a n : Nat} (h1 : b.1 ≤ a) (h2 : a + n ≤ b.1 + b.2) : chk M a n = .ok () := by
  rw [chk, if_pos]
  rw [List.any_eq_true]
  exact ⟨b, hb, by simp [h1, h2]⟩

namespace Inv

variable {M : Mem} {A : EList.Abs} {S : St}

theorem same_block (I : Inv M A S) {b c : Block} (hb : b ∈ M.blocks) (hc : c ∈ M.blocks) {x : Addr} (h1 : In b x) (h2 : In c x) : b = c := by
  by_cases h : b = c
  · exact h
  · have := I.disj b hb c hc h
    unfold Disj In at *; omega

theorem pageSize_pos (I : Inv M A S) {p : Addr} (hp : p ∈ S.pools) : 32 < (M.pool p).pageSize := by
  obtain ⟨h1, h2⟩ := I.epp p hp
  have : 1 * (24 + (M.pool p).eltSize) ≤ (M.pool p).epp * (24 + (M.pool p).eltSize) := Nat.mul_le_mul_right _ h1
  omega

theorem elt_in (I : Inv M A S) {p g e : Addr} (hp : p ∈ S.pools) (he : e ∈ elts (M.pool p) g) :
    g + 32 ≤ e ∧ e + 24 + (M.pool p).eltSize ≤ g + (M.pool p).pageSize := by
  obtain ⟨k, hk, rfl⟩ := mem_elts.1 he
  have h1 := elt_bound (sz := (M.pool p).eltSize) (g := g) hk
  have h2 := (I.epp p hp).2
  refine ⟨by unfold elt; omega, by omega⟩

theorem elt_In (I : Inv M A S) {p g e : Addr} (hp : p ∈ S.pools) (he : e ∈ elts (M.pool p) g) : In (g, (M.pool p).pageSize) e := by
  have := I.elt_in hp he
  unfold In; simp only; omega

/-- An element belongs to one page. -/
theorem elt_unique (I : Inv M A S) {p g e p' g' : Addr} (hp : p ∈ S.pools) (hg : g ∈ S.pages p) (he : e ∈ elts (M.pool p) g)
    (hp' : p' ∈ S.pools) (hg' : g' ∈ S.pages p') (he' : e ∈ elts (M.pool p') g') : g = g' ∧ p = p' := by
  have := I.same_block (I.bpage p hp g hg) (I.bpage p' hp' g' hg') (I.elt_In hp he) (I.elt_In hp' he')
  have hg2 : g = g' := by injection this
  subst hg2
  exact ⟨rfl, by rw [← I.ppool p hp g hg, ← I.ppool p' hp' g hg']⟩

theorem heads (I : Inv M A S) {q r : Addr} (hq : q ∈ S.pools) (hr : r ∈ S.pools) : (pageHead q = pageHead r → q = r) ∧ (freeHead q = freeHead r → q = r) ∧
    pageHead q ≠ freeHead r ∧ poolsHead ≠ pageHead q ∧ poolsHead ≠ freeHead q := by
  have h1 := fun h : q ≠ r => I.disj _ (I.bpool q hq) _ (I.bpool r hr) (by simpa using h)
  have h2 := I.disj _ I.broot _ (I.bpool q hq) (by simp)
  unfold Disj at h1 h2; unfold pageHead freeHead
  simp only at h1 h2
  refine ⟨by omega, by omega, ?_, by omega, by omega⟩
  by_cases hqr : q = r
  · subst hqr; omega
  · have := h1 hqr; omega

theorem head_in (I : Inv M A S) {h : Addr} (hh : (A h).isSome) : ∃ b ∈ M.blocks, In b h := by
  rcases I.only h hh with rfl | ⟨p, hp, rfl | rfl⟩
  · exact ⟨_, I.broot, by unfold In; simp only; omega⟩
  · exact ⟨_, I.bpool p hp, by unfold In pageHead; simp only; omega⟩
  · exact ⟨_, I.bpool p hp, by unfold In freeHead; simp only; omega⟩

theorem member_in (I : Inv M A S) {h : Addr} {xs : List Addr} (hh : A h = some xs) {x : Addr} (hx : x ∈ xs) : ∃ b ∈ M.blocks, In b x := by
  rcases I.only h (by rw [hh]; rfl) with rfl | ⟨p, hp, rfl | rfl⟩
  · rw [I.aroot] at hh; cases hh
    exact ⟨_, I.bpool x (I.linked x hx), by unfold In; simp only; omega⟩
  · rw [I.apages p hp] at hh; cases hh
    have := I.pageSize_pos hp
    exact ⟨_, I.bpage p hp x hx, by unfold In; simp only; omega⟩
  · rw [I.afree p hp] at hh; cases hh
    obtain ⟨g, hg, he⟩ := I.freeSub p hp x hx
    exact ⟨_, I.bpage p hp g hg, I.elt_In hp he⟩

theorem fresh_free (I : Inv M A S) {c : Block} (hc : ∀ b ∈ M.blocks, Disj c b) {x : Addr} (hx : In c x) : EList.Free A x := by
  have key : ∀ b ∈ M.blocks, ¬ In b x := by
    intro b hb hi
    have := hc b hb
    unfold Disj In at *; omega
  refine ⟨?_, ?_⟩
  · cases hA : A x with
    | none => rfl
    | some xs =>
        obtain ⟨b, hb, hi⟩ := I.head_in (h := x) (by rw [hA]; rfl)
        exact absurd hi (key b hb)
  · intro h xs hh hm
    obtain ⟨b, hb, hi⟩ := I.member_in hh hm
    exact key b hb hi

end Inv

theorem rep_drop {H : EList.Heap} {A : EList.Abs} (R : Rep H A) (h : Addr) : Rep H (A.set h none) := by
  constructor
  · intro h' xs hx
    rw [EList.set_eq] at hx
    split at hx
    · cases hx
    · exact R.lists h' xs hx
  · intro h1 h2 xs ys hx hy
    rw [EList.set_eq] at hx hy
    split at hx
    · cases hx
    · split at hy
      · cases hy
      · exact R.disjoint h1 h2 xs ys hx hy

theorem next_ne_self {H : EList.Heap} {h x : Addr} {xs : List Addr} (L : EList.IsList H h xs) (hx : x ∈ xs) : H.next x ≠ x := by
  obtain ⟨l, r, rfl⟩ := List.append_of_mem hx
  have h1 := ((EList.linked_append H h h x l r).mp L.1).2
  have h2 := EList.linked_next_mem H x h r h1
  have h3 := L.2
  grind

theorem set_set (A : EList.Abs) (h : Addr) (u v : Option (List Addr)) : (A.set h u).set h v = A.set h v := by
  funext x; simp only [EList.set_eq]; split <;> rfl

theorem set_comm (A : EList.Abs) {h k : Addr} (hk : h ≠ k) (u v : Option (List Addr)) : (A.set h u).set k v = (A.set k v).set h u := by
  funext x; simp only [EList.set_eq]; grind

theorem set_same (A : EList.Abs) {h : Addr} {u : Option (List Addr)} (e : A h = u) : A.set h u = A := by
  funext x; simp only [EList.set_eq]; grind

/-- Appending one new element to the free list. -/
theorem rep_append {H : EList.Heap} {A : EList.Abs} (R : Rep H A) {h x : Addr} {fl : List Addr} (hh : A h = some fl) (hx : EList.Free A x) :
    Rep (EList.addTail H h x) (A.set h (some (fl ++ [x]))) := EList.step_rep H A _ (.addTail h x) R (.addTail hh hx)

theorem rep_reset {H : EList.Heap} {A : EList.Abs} (R : Rep H A) {x : Addr} (hx : EList.Free A x) : Rep (EList.reset H x) A := by
  have h1 := EList.step_rep H A _ (.reset x) R (.reset (.inl hx))
  have h2 := rep_drop h1 x
  rw [set_set, set_same A hx.1] at h2
  exact h2

theorem free_append {A : EList.Abs} {h x y : Addr} {fl : List Addr} (hy : EList.Free A y) (hh : A h = some fl) (hne : y ≠ x) :
    EList.Free (A.set h (some (fl ++ [x]))) y := by
  have hyh : y ≠ h := by intro e; rw [e] at hy; rw [hy.1] at hh; cases hh
  refine ⟨by rw [EList.set_eq, if_neg hyh]; exact hy.1, ?_⟩
  intro h' xs hx
  rw [EList.set_eq] at hx
  split at hx
  · cases hx
    have := hy.2 h fl hh
    simp [this, hne]
  · exact hy.2 h' xs hx

theorem fillLoop_spec (p page sz n : Nat) : ∀ (k : Nat) (M : Mem) (A : EList.Abs) (fl : List Addr) (ps : Nat), Rep M.H A → A (freeHead p) = some fl →
    (page, ps) ∈ M.blocks → 32 + (k + 1 + n) * (24 + sz) ≤ ps → (∀ x, In (page, ps) x → x ∉ fl → EList.Free A x) →
    (∀ j, k < j → j ≤ k + n → elt sz page j ∉ fl) →
    ∃ M', fillLoop p page (24 + sz) n (elt sz page k) M = .ok M' ∧
      Rep M'.H (A.set (freeHead p) (some (fl ++ (List.range' (k + 1) n).map (elt sz page)))) ∧
      (∀ x, M'.parent x = if x ∈ (List.range' (k + 1) n).map (elt sz page) then page else M.parent x) ∧
      (∀ x, M'.nfree x = if x = page then M.nfree page + n else M.nfree x) ∧
      M'.ppool = M.ppool ∧ M'.pool = M.pool ∧ M'.blocks = M.blocks ∧ M'.tick = M.tick := by
  induction n with
  | zero =>
      intro k M A fl ps R hh hb hps hfree hnot
      refine ⟨M, rfl, ?_, by simp, ?_, rfl, rfl, rfl, rfl⟩
      · simp only [List.range'_zero, List.map_nil, List.append_nil]
        rw [set_same A hh]; exact R
      · intro x; split <;> simp_all
  | succ n ih =>
      intro k M A fl ps R hh hb hps hfree hnot
      have hnext : elt sz page k + (24 + sz) = elt sz page (k + 1) := by unfold elt; rw [Nat.succ_mul]; omega
      have hbd : elt sz page (k + 1) + 24 + sz ≤ page + ps := by
        have := elt_bound (sz := sz) (g := page) (show k + 1 < k + 1 + (n + 1) by omega)
        omega
      have hge : page + 32 ≤ elt sz page (k + 1) := by unfold elt; omega
      have hx : EList.Free A (elt sz page (k + 1)) := hfree _ (by unfold In; simp only; omega) (hnot _ (by omega) (by omega))
      rw [fillLoop]
      simp only [hnext]
      rw [chk_ok hb (by simp only; omega) (by simp only; omega)]
      simp only [Outcome.ok_bind]
      have R2 := rep_append (rep_reset R hx) hh hx
      have hne : ∀ j, k + 1 < j → elt sz page j ≠ elt sz page (k + 1) := fun j hj e => by have := elt_inj e; omega
      obtain ⟨M', e1, e2, e3, e4, e5, e6, e7, e8⟩ := ih (k + 1)
        { M with H := EList.addTail (EList.reset M.H (elt sz page (k + 1))) (freeHead p) (elt sz page (k + 1)), parent := upd M.parent (elt sz page (k + 1)) page,
                 nfree := upd M.nfree page (M.nfree page + 1) }
        (A.set (freeHead p) (some (fl ++ [elt sz page (k + 1)]))) (fl ++ [elt sz page (k + 1)]) ps R2 (by simp [EList.set_eq]) hb
        (by rw [show k + 1 + 1 + n = k + 1 + (n + 1) by omega]; exact hps)
        (fun x hi hm => by
          simp only [List.mem_append, List.mem_cons, List.not_mem_nil, or_false, not_or] at hm
          exact free_append (hfree x hi hm.1) hh hm.2)
        (fun j hj hj2 => by
          simp only [List.mem_append, List.mem_cons, List.not_mem_nil, or_false, not_or]
          exact ⟨hnot j (by omega) (by omega), hne j (by omega)⟩)
      refine ⟨M', e1, ?_, ?_, ?_, e5, e6, e7, e8⟩
      · rw [set_set] at e2
        rw [List.range'_succ, List.map_cons]
        simpa using e2
      · intro x
        rw [e3, List.range'_succ, List.map_cons]
        simp only [upd, List.mem_cons]
        grind
      · intro x
        rw [e4]
        simp only [upd]
        grind

end ZT.MemPool
