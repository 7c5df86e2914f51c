import Verif.MemPool.Extra

/-!
# Settings of a pool (C104, C105)

What a pool was created with stays with it.
-/

namespace ZT.MemPool

open EList (Rep IsList)

/-- A pool without its counters. -/
def Pool.conf (P : Pool) : Pool := { P with nfreePages := 0, npages := 0, pageAllocs := 0, pageFrees := 0 }

/-- The two memories agree on every pool but for the counters. -/
def SameConf (M M' : Mem) : Prop := ∀ q, (M'.pool q).conf = (M.pool q).conf

theorem SameConf.refl (M : Mem) : SameConf M M := fun _ => rfl
theorem SameConf.trans {M1 M2 M3 : Mem} (h : SameConf M1 M2) (k : SameConf M2 M3) : SameConf M1 M3 := fun q => (k q).trans (h q)
theorem SameConf.of_pool {M M' : Mem} (h : M'.pool = M.pool) : SameConf M M' := fun q => by rw [h]

theorem conf_upd {M M' : Mem} {p : Addr} {P : Pool} (h : M'.pool = upd M.pool p P) (hc : P.conf = (M.pool p).conf) : SameConf M M' := by
  intro q
  rw [h]
  simp only [upd]
  split
  · rename_i hq; rw [hc, hq]
  · rfl

theorem fillLoop_pool {p page size : Addr} : ∀ (n : Nat) (e : Addr) {M M' : Mem}, fillLoop p page size n e M = .ok M' → M'.pool = M.pool := by
  intro n
  induction n with
  | zero => intro e M M' h; cases h; rfl
  | succ n ih =>
      intro e M M' h
      simp only [fillLoop] at h
      obtain ⟨_, _, h⟩ := Outcome.bind_eq_ok.1 h
      have h1 := ih _ h
      exact h1

theorem malloc_pool {al : Alloc} {M M' : Mem} {n a : Nat} (h : malloc al M n = some (a, M')) : M'.pool = M.pool := by
  unfold malloc at h
  split at h
  · cases h
  · cases h; rfl

theorem pageAlloc_conf {al : Alloc} {M M' : Mem} {p : Addr} {r : Option Addr} (h : pageAlloc al M p = .ok (r, M')) : SameConf M M' := by
  unfold pageAlloc at h
  simp only at h
  split at h
  · cases h; exact .refl _
  · rename_i page M1 e1
    obtain ⟨_, _, h⟩ := Outcome.bind_eq_ok.1 h
    obtain ⟨_, _, h⟩ := Outcome.bind_eq_ok.1 h
    obtain ⟨M2, e2, h⟩ := Outcome.bind_eq_ok.1 h
    cases h
    have := fillLoop_pool _ _ e2
    simp only at this
    refine (SameConf.of_pool (this.trans (malloc_pool e1))).trans (conf_upd rfl rfl)

theorem addPage_conf {al : Alloc} {M M' : Mem} {p : Addr} (h : addPage al M p = .ok M') : SameConf M M' := by
  unfold addPage at h
  obtain ⟨⟨r, M1⟩, e1, h⟩ := Outcome.bind_eq_ok.1 h
  simp only at h
  split at h
  · cases h
  · cases h
    exact (pageAlloc_conf e1).trans (conf_upd rfl rfl)

theorem addPages_conf {al : Alloc} {p : Addr} : ∀ (n : Nat) {M M' : Mem}, addPages al p n M = .ok M' → SameConf M M' := by
  intro n
  induction n with
  | zero => intro M M' h; cases h; exact .refl _
  | succ n ih =>
      intro M M' h
      simp only [addPages] at h
      obtain ⟨M1, e1, h⟩ := Outcome.bind_eq_ok.1 h
      exact (addPage_conf e1).trans (ih h)

theorem take_conf {M M' : Mem} {p d : Addr} (h : take M p = .ok (d, M')) : SameConf M M' := by
  unfold take at h
  obtain ⟨_, _, h⟩ := Outcome.bind_eq_ok.1 h
  obtain ⟨_, _, h⟩ := Outcome.bind_eq_ok.1 h
  simp only [Outcome.pure_eq, Outcome.ok.injEq, Prod.mk.injEq] at h
  obtain ⟨_, h⟩ := h
  split at h
  · subst h; exact conf_upd rfl rfl
  · subst h; exact .of_pool rfl

theorem alloc_conf {al : Alloc} {M M' : Mem} {p d : Addr} (h : alloc al M p = .ok (d, M')) : SameConf M M' := by
  unfold alloc at h
  obtain ⟨_, _, h⟩ := Outcome.bind_eq_ok.1 h
  split at h
  · obtain ⟨M1, e1, h⟩ := Outcome.bind_eq_ok.1 h
    exact (addPage_conf e1).trans (take_conf h)
  · exact take_conf h

theorem unlinkLoop_pool {size : Nat} : ∀ (n : Nat) (e : Addr) {M M' : Mem}, unlinkLoop size n e M = .ok M' → M'.pool = M.pool := by
  intro n
  induction n with
  | zero => intro e M M' h; cases h; rfl
  | succ n ih =>
      intro e M M' h
      simp only [unlinkLoop] at h
      obtain ⟨_, _, h⟩ := Outcome.bind_eq_ok.1 h
      rw [ih _ h]
      split <;> rfl

theorem dealloc_pool {M M' : Mem} {a : Addr} (h : dealloc M a = .ok M') : M'.pool = M.pool := by
  unfold dealloc at h
  split at h
  · cases h; rfl
  · cases h

theorem pageDestroy_conf {M M' : Mem} {g r : Nat} (h : pageDestroy M g = .ok (r, M')) : SameConf M M' := by
  unfold pageDestroy at h
  obtain ⟨_, _, h⟩ := Outcome.bind_eq_ok.1 h
  obtain ⟨_, _, h⟩ := Outcome.bind_eq_ok.1 h
  dsimp only at h
  split at h
  · cases h; exact .refl _
  · obtain ⟨M1, e1, h⟩ := Outcome.bind_eq_ok.1 h
    obtain ⟨M2, e2, h⟩ := Outcome.bind_eq_ok.1 h
    cases h
    have h1 := unlinkLoop_pool _ _ e1
    have h2 := dealloc_pool e2
    simp only at h1
    refine conf_upd (p := M.ppool g) (P := { M.pool (M.ppool g) with npages := dec (M.pool (M.ppool g)).npages, nfreePages := dec (M.pool (M.ppool g)).nfreePages }) ?_ rfl
    rw [h2, ← h1]
    split <;> rfl

theorem giveBack_conf (M : Mem) (p g e : Addr) : SameConf M (giveBack M p g e) := by
  unfold giveBack
  simp only
  split
  · exact conf_upd rfl rfl
  · exact .of_pool rfl

theorem release_conf {M M' : Mem} {d : Addr} (h : release M d = .ok M') : SameConf M M' := by
  unfold release at h
  obtain ⟨_, _, h⟩ := Outcome.bind_eq_ok.1 h
  dsimp only at h
  split at h
  · exact .of_pool (dealloc_pool h)
  · obtain ⟨_, _, h⟩ := Outcome.bind_eq_ok.1 h
    obtain ⟨_, _, h⟩ := Outcome.bind_eq_ok.1 h
    split at h
    · obtain ⟨⟨r, M1⟩, e1, h⟩ := Outcome.bind_eq_ok.1 h
      cases h
      exact ((giveBack_conf _ _ _ _).trans (pageDestroy_conf e1)).trans (conf_upd rfl rfl)
    · cases h; exact giveBack_conf _ _ _ _

theorem freePagesLoop_conf {p : Addr} : ∀ (fuel : Nat) (a b : Addr) {M M' : Mem}, freePagesLoop p fuel a b M = .ok M' → SameConf M M' := by
  intro fuel
  induction fuel with
  | zero => intro a b M M' h; cases h
  | succ n ih =>
      intro a b M M' h
      simp only [freePagesLoop] at h
      split at h
      · cases h; exact .refl _
      · obtain ⟨_, _, h⟩ := Outcome.bind_eq_ok.1 h
        split at h
        · obtain ⟨⟨r, M1⟩, e1, h⟩ := Outcome.bind_eq_ok.1 h
          obtain ⟨_, _, h⟩ := Outcome.bind_eq_ok.1 h
          exact (pageDestroy_conf e1).trans (ih _ _ h)
        · obtain ⟨_, _, h⟩ := Outcome.bind_eq_ok.1 h
          exact ih _ _ h

theorem releaseFreePages_conf {M M' : Mem} {p : Addr} (h : Runs (releaseFreePages M p) M') : SameConf M M' := by
  obtain ⟨n, h⟩ := h
  have h := h n (Nat.le_refl _)
  unfold releaseFreePages at h
  obtain ⟨_, _, h⟩ := Outcome.bind_eq_ok.1 h
  obtain ⟨_, _, h⟩ := Outcome.bind_eq_ok.1 h
  exact freePagesLoop_conf _ _ _ h

theorem destroyLoop_conf {p : Addr} : ∀ (fuel : Nat) (a b : Addr) {M M' : Mem} {r : Bool}, destroyLoop p fuel a b M = .ok (r, M') → SameConf M M' := by
  intro fuel
  induction fuel with
  | zero => intro a b M M' r h; cases h
  | succ n ih =>
      intro a b M M' r h
      simp only [destroyLoop] at h
      split at h
      · cases h; exact .refl _
      · obtain ⟨_, _, h⟩ := Outcome.bind_eq_ok.1 h
        split at h
        · cases h; exact .refl _
        · obtain ⟨⟨r, M1⟩, e1, h⟩ := Outcome.bind_eq_ok.1 h
          obtain ⟨_, _, h⟩ := Outcome.bind_eq_ok.1 h
          exact (pageDestroy_conf e1).trans (ih _ _ h)

theorem destroy_conf {M M' : Mem} {p : Addr} {r : Bool} (h : Runs (destroy M p) (r, M')) : SameConf M M' := by
  obtain ⟨n, h⟩ := h
  have h := h n (Nat.le_refl _)
  unfold destroy at h
  obtain ⟨_, _, h⟩ := Outcome.bind_eq_ok.1 h
  obtain ⟨_, _, h⟩ := Outcome.bind_eq_ok.1 h
  obtain ⟨⟨done, M1⟩, e1, h⟩ := Outcome.bind_eq_ok.1 h
  simp only at h
  split at h
  · obtain ⟨M2, e2, h⟩ := Outcome.bind_eq_ok.1 h
    cases h
    have h2 := dealloc_pool e2
    exact (destroyLoop_conf _ _ _ e1).trans (.of_pool h2)
  · cases h; exact destroyLoop_conf _ _ _ e1

end ZT.MemPool
