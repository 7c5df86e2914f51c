import Verif.Pool.Inv

/-!
# Progress of the thread pool
-/

namespace ZT.Pool

variable {D : Type} [DecidableEq D] {c : Cfg D}

/-! ## What a thread that has found its queue empty knows -/

theorem home_ne (t : Tid c) (q : Q) : home t ≠ .wait q ∧ home t ≠ .exit q := by cases t <;> simp [home]

theorem after_ne (q' : Q) (r : D) (q : Q) : after c q' r ≠ .wait q ∧ after c q' r ≠ .exit q := by
  unfold after; split
  · simp
  · split
    · simp
    · split <;> simp

theorem wakeAll_wait (q q' : Q) (p : PC c) : wakeAll q p = .wait q' ↔ p = .wait q' := by
  cases p <;> simp only [wakeAll] <;> try simp
  split <;> simp

theorem wakeAll_exit (q q' : Q) (p : PC c) : wakeAll q p = .exit q' ↔ p = .exit q' := by
  cases p <;> simp only [wakeAll] <;> try simp
  split <;> simp

def Seen (s : St c) : Prop := ∀ t q, (s.pc t = .wait q ∨ s.pc t = .exit q) → s.queue q = []

theorem Seen.step {s s' : St c} {t : Tid c} (he : Excl s) (h : Seen s) (k : Step t s s') : Seen s' := by
  intro u q
  have hu := h u q
  have e1 := he t
  have e2 := he u q
  cases k <;> simp only [St.goto, St.own, St.setq, St.ev, upd] <;> grind [holds, home_ne, after_ne, wakeAll_wait, wakeAll_exit]

theorem Seen.call {s s' : St c} {t : Tid c} (h : Seen s) (k : Call t s s') : Seen s' := by
  intro u q
  have hu := h u q
  cases k <;> simp only [St.goto, upd] <;> grind

theorem Seen.wake {s s' : St c} {t : Tid c} (h : Seen s) (k : Wake t s s') : Seen s' := by
  intro u q
  have hu := h u q
  cases k <;> simp only [St.goto, upd] <;> grind

theorem Reachable.seen {s : St c} (h : Reachable s) : Seen s := by
  induction h with
  | init => intro t q h; cases t <;> simp [St.init, home] at h
  | step hr k ih =>
      obtain ⟨t, k | k | k⟩ := k
      · exact ih.step hr.excl k
      · exact ih.call k
      · exact ih.wake k

/-! ## No entry waits for threads that sleep -/

/-- The thread will look at its queue again without being woken. -/
def active : PC c → Prop
  | .wait _ => False
  | .waiting _ => False
  | .exit _ => False
  | .done => False
  | _ => True

/-- If there is something in a queue, then a thread of its loop is awake, or about to be woken, or all of them have ended. -/
def Live (s : St c) : Prop := ∀ q, s.queue q ≠ [] → (∃ w, serves w = some q ∧ active (s.pc w)) ∨ (∃ t, s.pc t = .insSig q) ∨ (∀ w, serves w = some q → s.pc w = .done)

theorem active_home (t : Tid c) : active (home t) := by cases t <;> trivial

theorem active_after (q : Q) (r : D) : active (after c q r) := by
  unfold after; split
  · trivial
  · split
    · trivial
    · split <;> trivial

theorem active_wakeAll (q : Q) {p : PC c} (h : active p) : active (wakeAll q p) := by cases p <;> first | exact h | cases h

theorem wakeAll_done (q : Q) (p : PC c) : wakeAll q p = .done ↔ p = .done := by
  cases p <;> simp only [wakeAll] <;> try simp
  split <;> simp

theorem wakeAll_insSig (q q' : Q) (p : PC c) : wakeAll q p = .insSig q' ↔ p = .insSig q' := by
  cases p <;> simp only [wakeAll] <;> try simp
  split <;> simp

theorem active_holds {q : Q} {p : PC c} (h : holds p ≠ some q) (hp : p ≠ .waiting q) (hd : p ≠ .done) {t : Tid c} (hs : shape t p) (ht : serves t = some q) : active p := by
  cases p <;> simp_all [active, holds, shape]

theorem Live.step {s s' : St c} {t : Tid c} (hr : Reachable s) (h : Live s) (k : Step t s s') : Live s' := by
  have he := hr.excl
  have hs := hr.shape
  have hseen := hr.seen
  intro q hq
  -- a thread other than `t` is where it was; `t` is awake afterwards
  have keep : (∀ u, u ≠ t → s'.pc u = s.pc u) → s.queue q ≠ [] → (active (s'.pc t) ∨ s'.pc t = s.pc t) → (s.pc t ≠ .insSig q) → (s.pc t ≠ .done) →
      ((∃ w, serves w = some q ∧ active (s'.pc w)) ∨ (∃ t, s'.pc t = .insSig q) ∨ (∀ w, serves w = some q → s'.pc w = .done)) := by
    intro h1 h2 h3 h4 h5
    rcases h q h2 with ⟨w, hw, ha⟩ | ⟨u, hu⟩ | hall
    · left
      by_cases e : w = t
      · subst e
        rcases h3 with h3 | h3
        · exact ⟨w, hw, h3⟩
        · exact ⟨w, hw, h3 ▸ ha⟩
      · exact ⟨w, hw, by rw [h1 w e]; exact ha⟩
    · right; left
      by_cases e : u = t
      · subst e; exact absurd hu h4
      · exact ⟨u, by rw [h1 u e]; exact hu⟩
    · right; right
      intro w hw
      by_cases e : w = t
      · subst e; exact absurd (hall w hw) h5
      · rw [h1 w e]; exact hall w hw
  -- `t` serves the other queue
  have keep2 : (∀ u, u ≠ t → s'.pc u = s.pc u) → s.queue q ≠ [] → (∃ q', serves t = some q' ∧ q ≠ q') → (s.pc t ≠ .insSig q) →
      ((∃ w, serves w = some q ∧ active (s'.pc w)) ∨ (∃ t, s'.pc t = .insSig q) ∨ (∀ w, serves w = some q → s'.pc w = .done)) := by
    intro h1 h2 ⟨q', h3, h4⟩ h5
    have hne : ∀ w, serves w = some q → w ≠ t := fun w hw e => h4 (by subst e; rw [hw] at h3; exact Option.some.inj h3)
    rcases h q h2 with ⟨w, hw, ha⟩ | ⟨u, hu⟩ | hall
    · exact .inl ⟨w, hw, by rw [h1 w (hne w hw)]; exact ha⟩
    · refine .inr (.inl ⟨u, ?_⟩)
      have : u ≠ t := fun e => h5 (e ▸ hu)
      rw [h1 u this]; exact hu
    · exact .inr (.inr fun w hw => by rw [h1 w (hne w hw)]; exact hall w hw)
  -- broadcasts
  have bc : ∀ (q' : Q) (p : PC c), (∀ u, s'.pc u = upd (fun u => wakeAll q' (s.pc u)) t p u) → s.queue q ≠ [] → serves t = none → s.pc t ≠ .insSig q →
      ((∃ w, serves w = some q ∧ active (s'.pc w)) ∨ (∃ t, s'.pc t = .insSig q) ∨ (∀ w, serves w = some q → s'.pc w = .done)) := by
    intro q' p h1 h2 h3 h5
    have hne : ∀ w, serves w = some q → w ≠ t := fun w hw e => by subst e; rw [hw] at h3; cases h3
    rcases h q h2 with ⟨w, hw, ha⟩ | ⟨u, hu⟩ | hall
    · exact .inl ⟨w, hw, by rw [h1 w, upd_ne _ _ (hne w hw)]; exact active_wakeAll _ ha⟩
    · refine .inr (.inl ⟨u, ?_⟩)
      have : u ≠ t := fun e => h5 (e ▸ hu)
      rw [h1 u, upd_ne _ _ this]; exact (wakeAll_insSig _ _ _).2 hu
    · exact .inr (.inr fun w hw => by rw [h1 w, upd_ne _ _ (hne w hw)]; exact (wakeAll_done _ _).2 (hall w hw))
  have ht := hs t
  have other : ∀ (p : PC c) (u : Tid c), u ≠ t → upd s.pc t p u = s.pc u := fun p u hu => upd_ne _ _ hu
  have self : ∀ (p : PC c), upd s.pc t p t = p := fun p => upd_same _ _ _
  cases k with
  | lock h1 h2 => exact keep (other _) hq (.inl (by simp only [St.own, St.goto, self]; trivial)) (by rw [h1]; simp) (by rw [h1]; simp)
  | @take q' d ds h1 h2 =>
      refine keep (other _) ?_ (.inl (by simp only [St.ev, St.setq, St.goto, self]; trivial)) (by rw [h1]; simp) (by rw [h1]; simp)
      by_cases e : q = q'
      · subst e; rw [h2]; simp
      · simpa only [St.ev, St.setq, St.goto, upd_ne _ _ e] using hq
  | @seeKill q' h1 h2 h3 =>
      have e : q ≠ q' := fun e => hq (by subst e; exact h2)
      rw [h1] at ht
      exact keep2 (other _) hq ⟨q', ht, e⟩ (by rw [h1]; simp)
  | @seeEmpty q' h1 h2 h3 =>
      have e : q ≠ q' := fun e => hq (by subst e; exact h2)
      rw [h1] at ht
      exact keep2 (other _) hq ⟨q', ht, e⟩ (by rw [h1]; simp)
  | @wait q' h1 =>
      have e : q ≠ q' := fun e => hq (by subst e; exact hseen t q (.inl h1))
      rw [h1] at ht
      exact keep2 (other _) hq ⟨q', ht, e⟩ (by rw [h1]; simp)
  | relock h1 h2 => exact keep (other _) hq (.inl (by simp only [St.own, St.goto, self]; trivial)) (by rw [h1]; simp) (by rw [h1]; simp)
  | again h1 => exact keep (other _) hq (.inl (by simp only [St.own, St.goto, self]; trivial)) (by rw [h1]; simp) (by rw [h1]; simp)
  | @exit q' h1 =>
      have e : q ≠ q' := fun e => hq (by subst e; exact hseen t q (.inr h1))
      rw [h1] at ht
      exact keep2 (other _) hq ⟨q', ht, e⟩ (by rw [h1]; simp)
  | unlock h1 => exact keep (other _) hq (.inl (by simp only [St.own, St.goto, self]; trivial)) (by rw [h1]; simp) (by rw [h1]; simp)
  | call r h1 h2 => exact keep (other _) hq (.inl (by simp only [St.ev, St.goto, self]; exact active_after _ _)) (by rw [h1]; simp) (by rw [h1]; simp)
  | skip h1 h2 => exact keep (other _) hq (.inl (by simp only [St.goto, self]; trivial)) (by rw [h1]; simp) (by rw [h1]; simp)
  | fin h1 => exact keep (other _) hq (.inl (by simp only [St.ev, St.goto, self]; trivial)) (by rw [h1]; simp) (by rw [h1]; simp)
  | insLock h1 h2 => exact keep (other _) hq (.inl (by simp only [St.own, St.goto, self]; trivial)) (by rw [h1]; simp) (by rw [h1]; simp)
  | @insert q' d h1 =>
      by_cases e : q = q'
      · right; left
        exact ⟨t, by simp only [St.ev, St.setq, St.goto, self, e]⟩
      · exact keep (other _) (by simpa only [St.ev, St.setq, St.goto, upd_ne _ _ e] using hq) (.inl (by simp only [St.ev, St.setq, St.goto, self]; trivial)) (by rw [h1]; simp) (by rw [h1]; simp)
  | @signalNone q' h1 h2 =>
      by_cases e : q = q'
      · subst e
        by_cases hd : ∀ w, serves w = some q → s.pc w = .done
        · right; right
          intro w hw
          have : w ≠ t := fun e => by subst e; have := hd w hw; rw [h1] at this; cases this
          simp only [St.goto, upd_ne _ _ this, hd w hw]
        · left
          simp only [Classical.not_forall] at hd
          obtain ⟨w, hw, hd⟩ := hd
          refine ⟨w, hw, ?_⟩
          by_cases e : w = t
          · subst e; simp only [St.goto, self]; trivial
          · simp only [St.goto, upd_ne _ _ e]
            refine active_holds (fun hh => e ?_) (h2 w) hd (hs w) hw
            have a := (he w q).2 hh
            have b := (he t q).2 (by rw [h1]; rfl)
            rw [a] at b
            exact Option.some.inj b
      · exact keep (other _) hq (.inl (by simp only [St.goto, self]; trivial)) (by rw [h1]; simpa using Ne.symm e) (by rw [h1]; simp)
  | @signalOne q' u h1 h2 =>
      have hu := hs u
      rw [h2] at hu
      by_cases e : q = q'
      · subst e
        exact .inl ⟨u, hu, by simp only [St.goto, upd_same]; trivial⟩
      · have hut : u ≠ t := fun e => by subst e; rw [h1] at h2; cases h2
        rcases h q hq with ⟨w, hw, ha⟩ | ⟨v, hv⟩ | hall
        · refine .inl ⟨w, hw, ?_⟩
          have : w ≠ u := fun e2 => by subst e2; rw [h2] at ha; cases ha
          simp only [St.goto, upd_ne _ _ this]
          by_cases e3 : w = t
          · subst e3; simp only [self]; trivial
          · rw [upd_ne _ _ e3]; exact ha
        · refine .inr (.inl ⟨v, ?_⟩)
          have a : v ≠ u := fun e2 => by subst e2; rw [h2] at hv; cases hv
          have b : v ≠ t := fun e2 => by subst e2; rw [h1] at hv; exact e (by simpa using hv.symm)
          simp only [St.goto, upd_ne _ _ a, upd_ne _ _ b, hv]
        · refine .inr (.inr fun w hw => ?_)
          have a : w ≠ u := fun e2 => by subst e2; have := hall w hw; rw [h2] at this; cases this
          have b : w ≠ t := fun e2 => by subst e2; have := hall w hw; rw [h1] at this; cases this
          simp only [St.goto, upd_ne _ _ a, upd_ne _ _ b, hall w hw]
  | insUnlock h1 => exact keep (other _) hq (.inl (by simp only [St.own, St.goto, self]; exact active_home t)) (by rw [h1]; simp) (by rw [h1]; simp)
  | getLock h1 h2 => exact keep (other _) hq (.inl (by simp only [St.own, St.goto, self]; trivial)) (by rw [h1]; simp) (by rw [h1]; simp)
  | getEmpty h1 h2 => exact keep (other _) hq (.inl (by simp only [St.goto, self]; trivial)) (by rw [h1]; simp) (by rw [h1]; simp)
  | getFirst h1 h2 =>
      refine keep (other _) ?_ (.inl (by simp only [St.ev, St.setq, St.goto, self]; trivial)) (by rw [h1]; simp) (by rw [h1]; simp)
      by_cases e : q = .o
      · subst e; rw [h2]; simp
      · simpa only [St.ev, St.setq, St.goto, upd_ne _ _ e] using hq
  | getUnlock h1 => exact keep (other _) hq (.inl (by simp only [St.ev, St.own, St.goto, self]; trivial)) (by rw [h1]; simp) (by rw [h1]; simp)
  | setKill h1 => exact keep (other _) hq (.inl (by simp only [St.goto, self]; trivial)) (by rw [h1]; simp) (by rw [h1]; simp)
  | broadcastI h1 => rw [h1] at ht; exact bc _ _ (fun u => rfl) hq ht (by rw [h1]; simp)
  | broadcastO h1 => rw [h1] at ht; exact bc _ _ (fun u => rfl) hq ht (by rw [h1]; simp)
  | join h1 h2 => exact keep (other _) hq (.inl (by simp only [St.goto, self]; trivial)) (by rw [h1]; simp) (by rw [h1]; simp)
  | joined h1 => exact keep (other _) hq (.inl (by simp only [St.ev, St.goto, self]; trivial)) (by rw [h1]; simp) (by rw [h1]; simp)

theorem Live.call {s s' : St c} {t : Tid c} (hs : Shape s) (h : Live s) (k : Call t s s') : Live s' := by
  intro q
  have hq := h q
  have ht := hs t
  clear h hs
  cases k <;> simp only [St.goto, upd] <;> grind [active, shape]

theorem Live.wake {s s' : St c} {t : Tid c} (h : Live s) (k : Wake t s s') : Live s' := by
  intro q
  have hq := h q
  clear h
  cases k <;> simp only [St.goto, upd] <;> grind [active]

theorem Reachable.live {s : St c} (h : Reachable s) : Live s := by
  induction h with
  | init => intro q hq; exact absurd rfl hq
  | step hr k ih =>
      obtain ⟨t, k | k | k⟩ := k
      · exact ih.step hr k
      · exact ih.call hr.shape k
      · exact ih.wake k

end ZT.Pool
