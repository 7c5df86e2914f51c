import Verif.Pool.Model

/-!
# Invariants of the thread pool
-/

namespace ZT.Pool

variable {D : Type} [DecidableEq D] {c : Cfg D}

/-- The mutex a thread has, from where it is. -/
def holds : PC c → Option Q
  | .test q => some q
  | .wait q => some q
  | .again q => some q
  | .exit q => some q
  | .got q _ => some q
  | .insHeld q _ => some q
  | .insSig q => some q
  | .insUnlock q => some q
  | .getHeld => some .o
  | .getUnlock _ => some .o
  | _ => none

/-- The queue a worker thread serves. -/
def serves : Tid c → Option Q
  | .iw _ => some .i
  | .ow _ => some .o
  | .cl _ => none

/-- Where threads of each kind can be. -/
def shape (t : Tid c) : PC c → Prop
  | .lock q => serves t = some q
  | .test q => serves t = some q
  | .wait q => serves t = some q
  | .waiting q => serves t = some q
  | .relock q => serves t = some q
  | .again q => serves t = some q
  | .exit q => serves t = some q
  | .done => serves t ≠ none
  | .got q _ => serves t = some q
  | .work q _ => serves t = some q
  | .fin _ => serves t = some .o
  | .ins q _ => serves t = none ∨ (serves t = some .i ∧ q = .o)
  | .insHeld q _ => serves t = none ∨ (serves t = some .i ∧ q = .o)
  | .insSig q => serves t = none ∨ (serves t = some .i ∧ q = .o)
  | .insUnlock q => serves t = none ∨ (serves t = some .i ∧ q = .o)
  | .join l => serves t = none ∧ ∀ u ∈ l, serves u ≠ none
  | _ => serves t = none

theorem shape_home (t : Tid c) : shape t (home t) := by cases t <;> simp [home, shape, serves]

theorem holds_home (t : Tid c) : holds (home t) = none := by cases t <;> simp [home, holds]

theorem holds_after (q : Q) (r : D) : holds (after c q r) = none := by
  unfold after
  split
  · rfl
  · split
    · rfl
    · split <;> rfl

theorem shape_after {t : Tid c} {q : Q} (h : serves t = some q) (r : D) : shape t (after c q r) := by
  unfold after
  split
  · exact h
  · cases q with
    | i => exact .inr ⟨h, rfl⟩
    | o => dsimp only; split <;> exact h

theorem holds_wakeAll (q : Q) (p : PC c) : holds (wakeAll q p) = holds p := by
  cases p <;> simp only [wakeAll]
  split <;> rfl

theorem shape_wakeAll {t : Tid c} (q : Q) {p : PC c} (h : shape t p) : shape t (wakeAll q p) := by
  cases p <;> simp only [wakeAll] <;> try exact h
  split
  · rename_i e; subst e; exact h
  · exact h

theorem serves_joinOrder : ∀ u ∈ joinOrder c, serves u ≠ none := by
  intro u hu
  simp only [joinOrder, List.mem_flatMap, List.mem_append] at hu
  obtain ⟨k, _, h | h⟩ := hu <;> split at h <;> simp at h <;> subst h <;> simp [serves]

theorem upd_same {α β : Type} [DecidableEq α] (f : α → β) (a : α) (b : β) : upd f a b a = b := by simp [upd]

theorem upd_ne {α β : Type} [DecidableEq α] (f : α → β) {a x : α} (b : β) (h : x ≠ a) : upd f a b x = f x := by simp [upd, h]

/-- Every thread is where its kind can be. -/
def Shape (s : St c) : Prop := ∀ t, shape t (s.pc t)

theorem Shape.goto {s : St c} (h : Shape s) {t : Tid c} {p : PC c} (hp : shape t p) : ∀ u, shape u (upd s.pc t p u) := by
  intro u
  by_cases e : u = t
  · subst e; rw [upd_same]; exact hp
  · rw [upd_ne _ _ e]; exact h u

theorem Shape.step {s s' : St c} {t : Tid c} (h : Shape s) (k : Step t s s') : Shape s' := by
  have ht := h t
  cases k with
  | lock h1 h2 => rw [h1] at ht; exact h.goto ht
  | take h1 h2 => rw [h1] at ht; exact h.goto ht
  | seeKill h1 h2 h3 => rw [h1] at ht; exact h.goto ht
  | seeEmpty h1 h2 h3 => rw [h1] at ht; exact h.goto ht
  | wait h1 => rw [h1] at ht; exact h.goto ht
  | relock h1 h2 => rw [h1] at ht; exact h.goto ht
  | again h1 => rw [h1] at ht; exact h.goto ht
  | exit h1 => rw [h1] at ht; exact h.goto (by simp only [shape] at ht ⊢; rw [ht]; simp)
  | unlock h1 => rw [h1] at ht; exact h.goto ht
  | call r h1 h2 => rw [h1] at ht; exact h.goto (shape_after ht r)
  | skip h1 h2 => rw [h1] at ht; exact h.goto ht
  | fin h1 => rw [h1] at ht; exact h.goto ht
  | insLock h1 h2 => rw [h1] at ht; exact h.goto ht
  | insert h1 => rw [h1] at ht; exact h.goto ht
  | signalNone h1 h2 => rw [h1] at ht; exact h.goto ht
  | signalOne u h1 h2 =>
      have hu := h u
      rw [h2] at hu
      rw [h1] at ht
      exact Shape.goto (s := s.goto t (.insUnlock _)) (p := .relock _) (h.goto (p := .insUnlock _) ht) hu
  | insUnlock h1 => exact h.goto (shape_home t)
  | getLock h1 h2 => rw [h1] at ht; exact h.goto ht
  | getEmpty h1 h2 => rw [h1] at ht; exact h.goto ht
  | getFirst h1 h2 => rw [h1] at ht; exact h.goto ht
  | getUnlock h1 => rw [h1] at ht; exact h.goto ht
  | setKill h1 => rw [h1] at ht; exact h.goto ht
  | broadcastI h1 =>
      rw [h1] at ht
      exact Shape.goto (s := { s with pc := fun u => wakeAll .i (s.pc u) }) (fun u => shape_wakeAll _ (h u)) ht
  | broadcastO h1 =>
      rw [h1] at ht
      exact Shape.goto (s := { s with pc := fun u => wakeAll .o (s.pc u) }) (fun u => shape_wakeAll _ (h u)) ⟨ht, serves_joinOrder⟩
  | join h1 h2 => rw [h1] at ht; exact h.goto ⟨ht.1, fun u hu => ht.2 u (List.mem_cons_of_mem _ hu)⟩
  | joined h1 => rw [h1] at ht; exact h.goto ht.1

theorem Shape.call {s s' : St c} {t : Tid c} (h : Shape s) (k : Call t s s') : Shape s' := by
  have ht := h t
  cases k with
  | insert q d h1 => rw [h1] at ht; exact h.goto (.inl ht)
  | get h1 => rw [h1] at ht; exact h.goto ht
  | kill h1 => rw [h1] at ht; exact h.goto ht

theorem Shape.wake {s s' : St c} {t : Tid c} (h : Shape s) (k : Wake t s s') : Shape s' := by
  have ht := h t
  cases k with
  | wake h1 => rw [h1] at ht; exact h.goto ht

theorem Reachable.shape {s : St c} (h : Reachable s) : Shape s := by
  induction h with
  | init => exact fun t => shape_home t
  | step _ k ih =>
      obtain ⟨t, k | k | k⟩ := k
      · exact ih.step k
      · exact ih.call k
      · exact ih.wake k

/-! ## Mutual exclusion -/

/-- A mutex is owned by the thread that is where the mutex is held, and by no other. -/
def Excl (s : St c) : Prop := ∀ t q, s.owner q = some t ↔ holds (s.pc t) = some q

theorem Excl.step {s s' : St c} {t : Tid c} (h : Excl s) (k : Step t s s') : Excl s' := by
  intro u q'
  have hu := h u
  have ht := h t
  have hq := fun v => h v q'
  cases k <;> simp only [St.goto, St.own, St.setq, St.ev] <;>
    first
    | grind [upd, holds, holds_home, holds_after]
    | grind [upd, holds, holds_home, holds_after, holds_wakeAll]

theorem Excl.call {s s' : St c} {t : Tid c} (h : Excl s) (k : Call t s s') : Excl s' := by
  intro u q'
  have hu := h u
  cases k <;> simp only [St.goto] <;> grind [upd, holds]

theorem Excl.wake {s s' : St c} {t : Tid c} (h : Excl s) (k : Wake t s s') : Excl s' := by
  intro u q'
  have hu := h u
  cases k <;> simp only [St.goto] <;> grind [upd, holds]

theorem Reachable.excl {s : St c} (h : Reachable s) : Excl s := by
  induction h with
  | init => intro t q; simp [St.init, holds_home]
  | step _ k ih =>
      obtain ⟨t, k | k | k⟩ := k
      · exact ih.step k
      · exact ih.call k
      · exact ih.wake k

end ZT.Pool
