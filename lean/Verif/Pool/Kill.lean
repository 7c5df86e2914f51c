import Verif.Pool.Progress

/-!
# zt_threadpool_kill
-/

namespace ZT.Pool

variable {D : Type} [DecidableEq D] {c : Cfg D}

/-- After `kill` was set with no thread about to wait: every thread that waits will be woken by a broadcast still to come. -/
def Killing (s : St c) : Prop :=
  s.kill = true ∧ (∀ t q, s.pc t ≠ .wait q) ∧ ∀ u q, s.pc u = .waiting q → ∃ t, s.pc t = .kill1 ∨ (s.pc t = .kill2 ∧ q = .o)

theorem home_waiting (t : Tid c) (q : Q) : home t ≠ .waiting q := by cases t <;> simp [home]

theorem after_waiting (q' : Q) (r : D) (q : Q) : after c q' r ≠ .waiting q := by
  unfold after; split
  · simp
  · split
    · simp
    · split <;> simp

theorem wakeAll_waiting (q q' : Q) (p : PC c) : wakeAll q p = .waiting q' ↔ p = .waiting q' ∧ q' ≠ q := by
  cases p <;> simp only [wakeAll] <;> try simp
  split
  · rename_i e; subst e; simp; intro e; subst e; simp
  · rename_i e; simp; intro e2; subst e2; exact e

theorem wakeAll_kill1 (q : Q) (p : PC c) : wakeAll q p = .kill1 ↔ p = .kill1 := by
  cases p <;> simp only [wakeAll] <;> try simp
  split <;> simp

theorem wakeAll_kill2 (q : Q) (p : PC c) : wakeAll q p = .kill2 ↔ p = .kill2 := by
  cases p <;> simp only [wakeAll] <;> try simp
  split <;> simp

theorem Killing.move {s s' : St c} {t : Tid c} {p : PC c} (h : Killing s) (hk : s'.kill = true) (hp : s'.pc = upd s.pc t p) (h1 : s.pc t ≠ .kill1) (h2 : s.pc t ≠ .kill2) (h3 : ∀ q, p ≠ .wait q) (h4 : ∀ q, p ≠ .waiting q) : Killing s' := by
  refine ⟨hk, ?_, ?_⟩
  · intro u q
    rw [hp]
    by_cases e : u = t
    · subst e; rw [upd_same]; exact h3 q
    · rw [upd_ne _ _ e]; exact h.2.1 u q
  · intro u q hu
    rw [hp] at hu ⊢
    by_cases e : u = t
    · subst e; rw [upd_same] at hu; exact absurd hu (h4 q)
    · rw [upd_ne _ _ e] at hu
      obtain ⟨v, hv⟩ := h.2.2 u q hu
      refine ⟨v, ?_⟩
      have : v ≠ t := fun e => by
        subst e
        rcases hv with hv | hv
        · exact h1 hv
        · exact h2 hv.1
      rw [upd_ne _ _ this]; exact hv

theorem Killing.step {s s' : St c} {t : Tid c} (h : Killing s) (k : Step t s s') : Killing s' := by
  cases k with
  | seeEmpty h1 h2 h3 => rw [h.1] at h3; cases h3
  | wait h1 => exact absurd h1 (h.2.1 _ _)
  | @signalOne q u h1 h2 =>
    have a : Killing (s.goto t (.insUnlock q)) := h.move h.1 rfl (by rw [h1]; simp) (by rw [h1]; simp) (by simp) (by simp)
    have e : u ≠ t := fun e => by subst e; rw [h1] at h2; cases h2
    have b : (s.goto t (.insUnlock q)).pc u = .waiting q := by simp only [St.goto, upd_ne _ _ e, h2]
    exact a.move h.1 rfl (by rw [b]; simp) (by rw [b]; simp) (by simp) (by simp)
  | broadcastI h1 =>
    refine ⟨h.1, ?_, ?_⟩
    · intro u q
      by_cases e : u = t
      · subst e; simp only [upd_same]; simp
      · simp only [upd_ne _ _ e, ne_eq, wakeAll_wait]; exact h.2.1 u q
    · intro u q hu
      by_cases e : u = t
      · subst e; simp only [upd_same] at hu; cases hu
      · simp only [upd_ne _ _ e, wakeAll_waiting] at hu
        refine ⟨t, .inr ⟨by simp only [upd_same], ?_⟩⟩
        cases q
        · exact absurd rfl hu.2
        · rfl
  | broadcastO h1 =>
    refine ⟨h.1, ?_, ?_⟩
    · intro u q
      by_cases e : u = t
      · subst e; simp only [upd_same]; simp
      · simp only [upd_ne _ _ e, ne_eq, wakeAll_wait]; exact h.2.1 u q
    · intro u q hu
      by_cases e : u = t
      · subst e; simp only [upd_same] at hu; cases hu
      · simp only [upd_ne _ _ e, wakeAll_waiting] at hu
        obtain ⟨v, hv⟩ := h.2.2 u q hu.1
        rcases hv with hv | hv
        · have : v ≠ t := fun e => by subst e; rw [h1] at hv; cases hv
          exact ⟨v, .inl (by simp only [upd_ne _ _ this]; exact (wakeAll_kill1 _ _).2 hv)⟩
        · exact absurd hv.2 hu.2
  | setKill h1 => exact h.move rfl rfl (by rw [h1]; simp) (by rw [h1]; simp) (by simp) (by simp)
  | call r h1 h2 => exact h.move h.1 rfl (by rw [h1]; simp) (by rw [h1]; simp) (fun q => (after_ne _ _ q).1) (fun q => after_waiting _ _ q)
  | insUnlock h1 => exact h.move h.1 rfl (by rw [h1]; simp) (by rw [h1]; simp) (fun q => (home_ne _ q).1) (fun q => home_waiting _ q)
  | lock h1 _ | take h1 _ | seeKill h1 _ _ | relock h1 _ | again h1 | exit h1 | unlock h1 | skip h1 _ | fin h1 | insLock h1 _ | insert h1 | signalNone h1 _ | getLock h1 _ | getEmpty h1 _ | getFirst h1 _ | getUnlock h1 | join h1 _ | joined h1 =>
    exact h.move h.1 rfl (by rw [h1]; simp) (by rw [h1]; simp) (by simp) (by simp)

theorem Killing.call {s s' : St c} {t : Tid c} (h : Killing s) (k : Call t s s') : Killing s' := by
  cases k with
  | insert q d h1 => exact h.move h.1 rfl (by rw [h1]; simp) (by rw [h1]; simp) (by simp) (by simp)
  | get h1 => exact h.move h.1 rfl (by rw [h1]; simp) (by rw [h1]; simp) (by simp) (by simp)
  | kill h1 => exact h.move h.1 rfl (by rw [h1]; simp) (by rw [h1]; simp) (by simp) (by simp)

theorem Killing.wake {s s' : St c} {t : Tid c} (h : Killing s) (k : Wake t s s') : Killing s' := by
  cases k with
  | wake h1 => exact h.move h.1 rfl (by rw [h1]; simp) (by rw [h1]; simp) (by simp) (by simp)

/-- Executions, new calls included. -/
inductive Star : St c → St c → Prop
  | refl {s} : Star s s
  | step {s s' s''} : Star s s' → Any s' s'' → Star s s''

theorem Star.reachable {s s' : St c} (h : Star s s') (hr : Reachable s) : Reachable s' := by
  induction h with
  | refl => exact hr
  | step _ k ih => exact .step ih k

theorem Killing.star {s s' : St c} (h : Killing s) (k : Star s s') : Killing s' := by
  induction k with
  | refl => exact h
  | step _ k ih =>
    obtain ⟨t, k | k | k⟩ := k
    · exact ih.step k
    · exact ih.call k
    · exact ih.wake k

theorem Exec.star {s s' : St c} {n k : Nat} (h : Exec s n k s') : Star s s' := by
  induction h with
  | refl => exact .refl
  | step _ k ih => exact .step ih ⟨_, .inl k⟩
  | wake _ k ih => exact .step ih ⟨_, .inr (.inr k)⟩

/-- Setting `kill` while no thread is about to wait. -/
theorem Killing.start {s s1 : St c} {t : Tid c} (hk : s.pc t = .kill0) (k : Step t s s1) (hw : ∀ u q, s.pc u ≠ .wait q) : Killing s1 := by
  cases k <;> simp_all
  rename_i h1
  refine ⟨rfl, ?_, ?_⟩
  · intro u q
    by_cases e : u = t
    · subst e; simp [St.goto, upd_same]
    · simp only [St.goto, upd_ne _ _ e]; exact hw u q
  · intro u q _
    exact ⟨t, .inl (by simp [St.goto, upd_same])⟩

/-- With `Killing`, when nothing can go on all is over. -/
theorem Killing.quiet {s : St c} (h : Killing s) (hr : Reachable s) (hq : Quiet s) (t : Tid c) : s.pc t = .idle ∨ s.pc t = .done := by
  have noWait : ∀ u q, s.pc u ≠ .waiting q := by
    intro u q hu
    obtain ⟨v, hv⟩ := h.2.2 u q hu
    rcases hv with hv | ⟨hv, _⟩
    · rcases hq.pc hr.excl v with e | e | ⟨_, e⟩ | ⟨_, _, e, _⟩ <;> rw [hv] at e <;> cases e
    · rcases hq.pc hr.excl v with e | e | ⟨_, e⟩ | ⟨_, _, e, _⟩ <;> rw [hv] at e <;> cases e
  rcases hq.pc hr.excl t with e | e | ⟨q, e⟩ | ⟨u, l, e, hu⟩
  · exact .inl e
  · exact .inr e
  · exact absurd e (noWait t q)
  · exfalso
    have hs := hr.shape
    have ht := hs t
    rw [e] at ht
    have hsu := ht.2 u (by simp)
    have hsh := hs u
    rcases hq.pc hr.excl u with e | e | ⟨q, e⟩ | ⟨_, _, e, _⟩
    · rw [e] at hsh; exact hsu hsh
    · exact hu e
    · exact noWait u q e
    · rw [e] at hsh; exact hsu hsh.1

/-! ## The input queue is emptied -/

/-- A client is putting something into the input queue. -/
def inserting : PC c → Prop
  | .ins .i _ => True
  | .insHeld .i _ => True
  | _ => False

def Draining (s : St c) : Prop := (∀ t, ¬inserting (s.pc t)) ∧ ((∃ w, serves w = some .i ∧ s.pc w ≠ .done) ∨ s.queue .i = [])

theorem inserting_held (q : Q) (d : D) : inserting (c := c) (.insHeld q d) ↔ inserting (c := c) (.ins q d) := by cases q <;> simp [inserting]

theorem inserting_home (t : Tid c) : ¬inserting (home t) := by cases t <;> simp [home, inserting]

theorem inserting_after (q : Q) (r : D) : ¬inserting (after c q r) := by
  unfold after; split
  · simp [inserting]
  · split
    · simp [inserting]
    · split <;> simp [inserting]

theorem inserting_wakeAll (q : Q) (p : PC c) : inserting (wakeAll q p) ↔ inserting p := by
  cases p <;> simp only [wakeAll]
  split <;> simp [inserting]

theorem Draining.step {s s' : St c} {t : Tid c} (hr : Reachable s) (h : Draining s) (k : Step t s s') : Draining s' := by
  obtain ⟨h1, h2⟩ := h
  have ht := h1 t
  have hseen := hr.seen t .i
  have hs := hr.shape t
  constructor
  · intro u
    have hu := h1 u
    clear h1 h2 hseen
    cases k <;> simp only [St.goto, St.own, St.setq, St.ev, upd] <;> grind [inserting, inserting_held, inserting_home, inserting_after, inserting_wakeAll]
  · clear h1
    rcases h2 with ⟨w, hw, hd⟩ | h2
    · by_cases hx : s.pc t = .exit .i
      · right
        have := hseen (.inr hx)
        cases k <;> simp_all [St.goto, St.own]
      · left
        refine ⟨w, hw, ?_⟩
        clear hseen
        cases k <;> simp only [St.goto, St.own, St.setq, St.ev, upd] <;> grind [home_ne', after_ne', wakeAll_done, shape, serves]
    · right
      clear hseen hs
      cases k <;> simp only [St.goto, St.own, St.setq, St.ev, upd] <;> grind [inserting]

theorem Draining.wake {s s' : St c} {t : Tid c} (h : Draining s) (k : Wake t s s') : Draining s' := by
  obtain ⟨h1, h2⟩ := h
  cases k with
  | @wake q hp =>
    constructor
    · intro u
      by_cases e : u = t
      · subst e; simp [St.goto, upd_same, inserting]
      · simp only [St.goto, upd_ne _ _ e]; exact h1 u
    · rcases h2 with ⟨w, hw, hd⟩ | h2
      · refine .inl ⟨w, hw, ?_⟩
        by_cases e : w = t
        · subst e; simp [St.goto, upd_same]
        · simp only [St.goto, upd_ne _ _ e]; exact hd
      · exact .inr h2

theorem Draining.exec {s s' : St c} {n k : Nat} (h : Draining s) (hr : Reachable s) (x : Exec s n k s') : Draining s' := by
  induction x with
  | refl => exact h
  | step x k ih => exact ih.step (x.reachable hr) k
  | wake _ k ih => exact ih.wake k

end ZT.Pool
