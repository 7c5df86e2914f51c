import Verif.MemPool.Ops

/-!
# Creating a pool keeps the invariant
-/

namespace ZT.MemPool

open EList (Rep Step exec)

/-- Sizes for which the page computation does not wrap. -/
def Fits (elts : Int) (size : Nat) : Prop := size < 2032 ∨ (0 ≤ elts ∧ (if elts = 0 then 1 else elts.toNat) * (24 + size) + 32 < 2 ^ 64)

theorem pageData_ok {n : Int} {size : Nat} (h : Fits n size) : 0 < (pageData (if n = 0 then 1 else n) size).2.1 ∧
    32 + (pageData (if n = 0 then 1 else n) size).2.1 * (24 + size) ≤ (pageData (if n = 0 then 1 else n) size).1 := by
  by_cases hs : size < 2032
  · simp only [pageData]
    rw [if_pos (by omega)]
    simp only
    have h1 : 1 ≤ (4096 - 32) / (24 + size) := (Nat.one_le_div_iff (by omega)).2 (by omega)
    have h2 : (4096 - 32) / (24 + size) * (24 + size) ≤ 4096 - 32 := Nat.div_mul_le_self _ _
    omega
  · rcases h with h | ⟨h0, h⟩
    · omega
    · simp only [pageData]
      rw [if_neg (by omega)]
      simp only
      obtain ⟨m, rfl⟩ : ∃ m : Nat, n = m := ⟨n.toNat, by omega⟩
      have key : ∀ k : Nat, 0 < k → k * (24 + size) + 32 < 2 ^ 64 → 0 < ((k : Int) % 2 ^ 64).toNat ∧
          32 + ((k : Int) % 2 ^ 64).toNat * (24 + size) ≤ (((k : Int) * (24 + size) + 32) % 2 ^ 64).toNat := by
        intro k hk hb
        have hk2 : k * 1 ≤ k * (24 + size) := Nat.mul_le_mul_left _ (by omega)
        have e1 : ((k : Int) % 2 ^ 64).toNat = k := by omega
        have e2 : (((k : Int) * (24 + size) + 32) % 2 ^ 64).toNat = k * (24 + size) + 32 := by
          have : ((k : Int) * (24 + size) + 32) = ((k * (24 + size) + 32 : Nat) : Int) := by push_cast; rfl
          rw [this]; generalize k * (24 + size) + 32 = z at hb ⊢; omega
        rw [e1, e2]; omega
      by_cases hm : (m : Int) = 0
      · rw [if_pos hm] at h ⊢
        exact key 1 (by omega) h
      · rw [if_neg hm] at h ⊢
        exact key m (by omega) (by simpa using h)

/-- The state with a new, empty pool. -/
def St.fresh (S : St) (p : Addr) : St :=
  { S with pools := p :: S.pools, pages := upd S.pages p [], free := upd S.free p [], lost := upd S.lost p 0 }

theorem free_reset {A : EList.Abs} {h x : Addr} (hx : EList.Free A x) (hne : x ≠ h) : EList.Free (A.set h (some [])) x := by
  refine ⟨by rw [EList.set_eq, if_neg hne]; exact hx.1, ?_⟩
  intro h' xs hh
  rw [EList.set_eq] at hh
  split at hh
  · cases hh; simp
  · exact hx.2 h' xs hh

theorem inv_newPool {M : Mem} {A : EList.Abs} {S : St} (I : Inv M A S) {p : Addr} (hpos : 0 < p) (hfresh : ∀ b ∈ M.blocks, Disj (p, 160) b) (P : Pool)
    (hP : 0 < P.epp ∧ 32 + P.epp * (24 + P.eltSize) ≤ P.pageSize) (hc : P.npages = 0 ∧ P.nfreePages = 0 ∧ P.pageAllocs = 0 ∧ P.pageFrees = 0) :
    Inv { M with blocks := (p, 160) :: M.blocks, tick := M.tick + 1, H := EList.reset (EList.reset (EList.reset M.H p) (pageHead p)) (freeHead p), pool := upd M.pool p P }
      ((A.set (pageHead p) (some [])).set (freeHead p) (some [])) (S.fresh p) ∧ p ∉ S.pools := by
  have hIn : ∀ k : Nat, k < 160 → EList.Free A (p + k) := fun k hk => I.fresh_free hfresh (by unfold In; simp only; omega)
  have hnew : ∀ b ∈ M.blocks, ¬ In b p := by
    intro b hb hi
    have := hfresh b hb
    unfold Disj In at *; simp only at *; omega
  have hpn : p ∉ S.pools := fun h => hnew _ (I.bpool p h) (by unfold In; simp only; omega)
  have hne : ∀ q ∈ S.pools, q ≠ p := by rintro q hq rfl; exact hpn hq
  have hne' : pageHead p ≠ freeHead p := by unfold pageHead freeHead; omega
  have R1 := rep_reset I.rep (hIn 0 (by decide))
  have R2 := EList.step_rep _ A _ (.reset (pageHead p)) R1 (.reset (.inl (hIn 128 (by decide))))
  have R3 := EList.step_rep _ _ _ (.reset (freeHead p)) R2 (.reset (.inl (free_reset (hIn 144 (by decide)) hne'.symm)))
  have hsep : ∀ q ∈ S.pools, pageHead q ≠ pageHead p ∧ pageHead q ≠ freeHead p ∧ freeHead q ≠ pageHead p ∧ freeHead q ≠ freeHead p := by
    intro q hq
    have := hfresh _ (I.bpool q hq)
    unfold Disj at this; unfold pageHead freeHead; simp only at this
    refine ⟨by omega, by omega, by omega, by omega⟩
  have hroot : poolsHead ≠ pageHead p ∧ poolsHead ≠ freeHead p := by
    have := hfresh _ I.broot
    unfold Disj at this; unfold pageHead freeHead; simp only at this
    refine ⟨by omega, by omega⟩
  have hpg : ∀ q, (S.fresh p).pages q = if q = p then [] else S.pages q := fun _ => rfl
  have hfr : ∀ q, (S.fresh p).free q = if q = p then [] else S.free q := fun _ => rfl
  have hpl : ∀ q ∈ S.pools, upd M.pool p P q = M.pool q := by intro q hq; simp only [upd]; rw [if_neg (hne q hq)]
  have hpp : upd M.pool p P p = P := by simp [upd]
  have hpm : ∀ q, q ∈ (S.fresh p).pools ↔ q = p ∨ q ∈ S.pools := by intro q; simp [St.fresh]
  refine ⟨?_, hpn⟩
  constructor
  case rep => exact R3
  case aroot => rw [EList.set_eq, if_neg hroot.2, EList.set_eq, if_neg hroot.1]; exact I.aroot
  case linked => intro q hq; exact (hpm q).2 (.inr (I.linked q hq))
  case apages =>
    intro q hq
    rcases (hpm q).1 hq with rfl | hq
    · rw [EList.set_eq, if_neg hne', EList.set_eq, if_pos rfl, hpg, if_pos rfl]
    · rw [EList.set_eq, if_neg (hsep q hq).2.1, EList.set_eq, if_neg (hsep q hq).1, hpg, if_neg (hne q hq)]; exact I.apages q hq
  case afree =>
    intro q hq
    rcases (hpm q).1 hq with rfl | hq
    · rw [EList.set_eq, if_pos rfl, hfr, if_pos rfl]
    · rw [EList.set_eq, if_neg (hsep q hq).2.2.2, EList.set_eq, if_neg (hsep q hq).2.2.1, hfr, if_neg (hne q hq)]; exact I.afree q hq
  case only =>
    intro h hh
    rw [EList.set_eq, EList.set_eq] at hh
    by_cases h1 : h = freeHead p
    · exact .inr ⟨p, (hpm p).2 (.inl rfl), .inr h1⟩
    · by_cases h2 : h = pageHead p
      · exact .inr ⟨p, (hpm p).2 (.inl rfl), .inl h2⟩
      · rw [if_neg h1, if_neg h2] at hh
        rcases I.only h hh with h3 | ⟨q, hq, h3⟩
        · exact .inl h3
        · exact .inr ⟨q, (hpm q).2 (.inr hq), h3⟩
  case nodup => exact List.nodup_cons.2 ⟨fun hm => hnew _ hm (by unfold In; simp only; omega), I.nodup⟩
  case disj =>
    intro b hb c hc hbc
    rcases List.mem_cons.1 hb with rfl | hb
    · rcases List.mem_cons.1 hc with rfl | hc
      · exact absurd rfl hbc
      · exact hfresh c hc
    · rcases List.mem_cons.1 hc with rfl | hc
      · have := hfresh b hb; unfold Disj at *; omega
      · exact I.disj b hb c hc hbc
  case pos =>
    intro b hb
    rcases List.mem_cons.1 hb with rfl | hb
    · exact ⟨hpos, by simp⟩
    · exact I.pos b hb
  case broot => exact List.mem_cons_of_mem _ I.broot
  case bpool =>
    intro q hq
    rcases (hpm q).1 hq with rfl | hq
    · exact List.mem_cons_self
    · exact List.mem_cons_of_mem _ (I.bpool q hq)
  case bpage =>
    intro q hq g hg
    rw [hpg] at hg
    rcases (hpm q).1 hq with rfl | hq
    · rw [if_pos rfl] at hg; cases hg
    · rw [if_neg (hne q hq)] at hg
      simp only [hpl q hq]
      exact List.mem_cons_of_mem _ (I.bpage q hq g hg)
  case sep =>
    intro q hq r hr
    rw [hpg]
    rcases (hpm r).1 hr with hr' | hr'
    · simp [hr']
    · rw [if_neg (hne r hr')]
      rcases (hpm q).1 hq with hq' | hq'
      · rw [hq']; exact (hIn 0 (by decide)).2 _ _ (I.apages r hr')
      · exact I.sep q hq' r hr'
  case epp =>
    intro q hq
    rcases (hpm q).1 hq with rfl | hq
    · simp only [hpp]; exact hP
    · simp only [hpl q hq]; exact I.epp q hq
  case ppool =>
    intro q hq g hg
    rw [hpg] at hg
    rcases (hpm q).1 hq with rfl | hq
    · rw [if_pos rfl] at hg; cases hg
    · rw [if_neg (hne q hq)] at hg; exact I.ppool q hq g hg
  case parent =>
    intro q hq g hg
    rw [hpg] at hg
    rcases (hpm q).1 hq with rfl | hq
    · rw [if_pos rfl] at hg; cases hg
    · rw [if_neg (hne q hq)] at hg; simp only [hpl q hq]; exact I.parent q hq g hg
  case freeSub =>
    intro q hq x hx
    rw [hfr] at hx
    rw [hpg]
    rcases (hpm q).1 hq with rfl | hq
    · rw [if_pos rfl] at hx; cases hx
    · rw [if_neg (hne q hq)] at hx ⊢; simp only [hpl q hq]; exact I.freeSub q hq x hx
  case nfree =>
    intro q hq g hg
    rw [hpg] at hg
    rcases (hpm q).1 hq with rfl | hq
    · rw [if_pos rfl] at hg; cases hg
    · rw [if_neg (hne q hq)] at hg; rw [hfr, if_neg (hne q hq)]; simp only [hpl q hq]; exact I.nfree q hq g hg
  case npages =>
    intro q hq
    rw [hpg]
    rcases (hpm q).1 hq with rfl | hq
    · simp only [hpp, if_true]; exact hc.1
    · rw [if_neg (hne q hq)]; simp only [hpl q hq]; exact I.npages q hq
  case nfreePages =>
    intro q hq
    rw [hpg]
    rcases (hpm q).1 hq with rfl | hq
    · simp only [hpp, if_true]; exact hc.2.1
    · rw [if_neg (hne q hq)]; simp only [hpl q hq]; exact I.nfreePages q hq
  case count =>
    intro q hq
    have hl : (S.fresh p).lost q = if q = p then 0 else S.lost q := rfl
    rw [hl]
    rcases (hpm q).1 hq with rfl | hq
    · simp only [hpp, if_true]; omega
    · rw [if_neg (hne q hq)]; simp only [hpl q hq]; exact I.count q hq
  case noleak =>
    intro b hb
    rcases List.mem_cons.1 hb with rfl | hb
    · exact .inr ⟨p, (hpm p).2 (.inl rfl), .inl rfl⟩
    · rcases I.noleak b hb with h | ⟨q, hq, h | ⟨g, hg, h⟩⟩
      · exact .inl h
      · exact .inr ⟨q, (hpm q).2 (.inr hq), .inl h⟩
      · refine .inr ⟨q, (hpm q).2 (.inr hq), .inr ⟨g, ?_, ?_⟩⟩
        · rw [hpg, if_neg (hne q hq)]; exact hg
        · simp only [hpl q hq]; exact h

theorem addPages_spec {al : Alloc} (G : Good al) {p : Addr} (n : Nat) : ∀ {M : Mem} {A : EList.Abs} {S : St}, Inv M A S → p ∈ S.pools →
    ∃ M' A' S', addPages al p n M = .ok M' ∧ Inv M' A' S' ∧ Keeps M M' S S' ∧ S'.lost = S.lost := by
  induction n with
  | zero => intro M A S I hp; exact ⟨M, A, S, rfl, I, .refl _ _, rfl⟩
  | succ n ih =>
      intro M A S I hp
      obtain ⟨g, M1, A1, e1, I1, hc1⟩ := addPage_spec G I hp
      have k1 : Keeps M M1 S (S.grow (M.pool p) p g) := ⟨rfl, rfl, hc1, fun q e => grow_live I hp I1 hc1 q e⟩
      obtain ⟨M2, A2, S2, e2, I2, k2, h2⟩ := ih I1 hp
      refine ⟨M2, A2, S2, ?_, I2, k1.trans k2, h2⟩
      rw [addPages, e1]; exact e2

theorem inv_link {M : Mem} {A : EList.Abs} {S : St} (I : Inv M A S) {p : Addr} (hp : p ∈ S.pools) (hl : p ∉ S.linked) :
    Inv { M with H := EList.addTail M.H poolsHead p } (A.set poolsHead (some (S.linked ++ [p]))) { S with linked := S.linked ++ [p] } := by
  have hInp : In (p, 160) p := by unfold In; simp only; omega
  have hF : EList.Free A p := by
    refine ⟨?_, ?_⟩
    · cases hx : A p with
      | none => rfl
      | some xs =>
          exfalso
          rcases I.only p (by rw [hx]; rfl) with rfl | ⟨q, hq, h⟩
          · have := I.same_block (I.bpool _ hp) I.broot hInp (by unfold In; simp only; omega)
            simp at this
          · have h' : p = pageHead q ∨ p = freeHead q := h
            have h1 := I.same_block (I.bpool p hp) (I.bpool q hq) hInp (by unfold pageHead freeHead at h'; unfold In; simp only; omega)
            unfold pageHead freeHead at h'
            injection h1; omega
    · intro h xs hh hm
      rcases I.only h (by rw [hh]; rfl) with rfl | ⟨q, hq, rfl | rfl⟩
      · rw [I.aroot] at hh; cases hh; exact hl hm
      · rw [I.apages q hq] at hh; cases hh; exact I.sep p hp q hq hm
      · rw [I.afree q hq] at hh; cases hh
        obtain ⟨g, hg, he⟩ := I.freeSub q hq p hm
        have h1 := I.same_block (I.bpool p hp) (I.bpage q hq g hg) hInp (I.elt_In hq he)
        have h2 : p = g := by injection h1
        subst h2
        exact I.sep p hp q hq hg
  have R := rep_append I.rep I.aroot hF
  have hh : ∀ q ∈ S.pools, pageHead q ≠ poolsHead ∧ freeHead q ≠ poolsHead := fun q hq => by
    have := I.heads hq hq; exact ⟨this.2.2.2.1.symm, this.2.2.2.2.symm⟩
  constructor
  case rep => exact R
  case aroot => simp [EList.set_eq]
  case linked =>
    intro q hq
    rcases List.mem_append.1 hq with h | h
    · exact I.linked q h
    · rw [List.mem_singleton.1 h]; exact hp
  case apages => intro q hq; rw [EList.set_eq, if_neg (hh q hq).1]; exact I.apages q hq
  case afree => intro q hq; rw [EList.set_eq, if_neg (hh q hq).2]; exact I.afree q hq
  case only =>
    intro h hA
    rw [EList.set_eq] at hA
    by_cases h1 : h = poolsHead
    · exact .inl h1
    · rw [if_neg h1] at hA; exact I.only h hA
  case nodup => exact I.nodup
  case disj => exact I.disj
  case pos => exact I.pos
  case broot => exact I.broot
  case bpool => exact I.bpool
  case bpage => exact I.bpage
  case sep => exact I.sep
  case epp => exact I.epp
  case ppool => exact I.ppool
  case parent => exact I.parent
  case freeSub => exact I.freeSub
  case nfree => exact I.nfree
  case npages => exact I.npages
  case nfreePages => exact I.nfreePages
  case count => exact I.count
  case noleak => exact I.noleak

theorem init_spec {al : Alloc} (G : Good al) {M : Mem} {A : EList.Abs} {S : St} (I : Inv M A S) (name : List Byte) {n : Int} {size : Nat}
    (test : Nat → Nat → Nat → Nat → Nat → Bool) (flags : Nat) (hfit : Fits n size) :
    ∃ p M' A' S', init al M name n size test flags = .ok (some p, M') ∧ Inv M' A' S' ∧ p ∉ S.pools ∧ S'.pools = p :: S.pools ∧ S'.linked = S.linked ++ [p] ∧
      (∀ q, S'.lost q = if q = p then 0 else S.lost q) ∧ (M'.pool p).eltSize = size ∧ (M'.pool p).name = name ∧ (∀ q, q ≠ p → SameCfg (M'.pool q) (M.pool q)) ∧
      (∀ q e, Live M' S' q e ↔ Live M S q e) := by
  obtain ⟨p, ha, hpos, hfresh⟩ := G M.tick M.blocks 160
  let pd := pageData (if n = 0 then 1 else n) size
  let P : Pool := ⟨name, (n % 2 ^ 64).toNat, pcacheOf n pd.2.1 pd.2.2 * pd.2.1 % 2 ^ 64, pcacheOf n pd.2.1 pd.2.2, 0, 0, pd.2.1, size, pd.1, 0, 0, test, flags⟩
  obtain ⟨I1, hpn⟩ := inv_newPool I hpos hfresh P (pageData_ok hfit) ⟨rfl, rfl, rfl, rfl⟩
  obtain ⟨M2, A2, S2, e2, I2, k, hl2⟩ := addPages_spec G pd.2.2 I1 (p := p) (by simp [St.fresh])
  have hp2 : p ∈ S2.pools := by rw [k.pools]; simp [St.fresh]
  have hl : S2.linked = S.linked := k.linked
  have hpl : p ∉ S2.linked := by rw [hl]; exact fun h => hpn (I.linked p h)
  have I3 := inv_link I2 hp2 hpl
  refine ⟨p, { M2 with H := EList.addTail M2.H poolsHead p }, _, _, ?_, I3, hpn, k.pools, by simp only [hl], ?_, ?_, ?_, ?_, ?_⟩
  · rw [init, malloc, ha]
    simp only
    refine Outcome.bind_eq_ok.2 ⟨_, e2, ?_⟩
    rfl
  · intro q; simp only [hl2]; rfl
  · have := (k.cfg p).2.1
    simp only [upd, if_true] at this
    exact this
  · have := (k.cfg p).2.2.2
    simp only [upd, if_true] at this
    exact this
  · intro q hq
    have := k.cfg q
    simp only [upd, if_neg hq] at this
    exact this
  · intro q e
    have h1 : Live { M2 with H := EList.addTail M2.H poolsHead p } { S2 with linked := S2.linked ++ [p] } q e ↔ Live M2 S2 q e := Iff.rfl
    rw [h1, k.live]
    unfold Live
    simp only [St.fresh, upd, List.mem_cons]
    by_cases hq : q = p
    · subst hq
      constructor
      · rintro ⟨_, g, hg, _⟩; simp at hg
      · rintro ⟨h, _⟩; exact absurd h hpn
    · simp [hq]

end ZT.MemPool
