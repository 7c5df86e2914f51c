import Verif.Pool.Live

/-!
# Which threads can go on, and for how long
-/

namespace ZT.Pool

variable {D : Type} [DecidableEq D] {c : Cfg D}

/-- No thread can go on by itself. -/
def Quiet (s : St c) : Prop := ∀ t s', ¬Step t s s'

/-- A thread with a mutex can go on. -/
theorem step_of_holds {s : St c} {t : Tid c} {q : Q} (h : holds (s.pc t) = some q) : ∃ s', Step t s s' := by
  generalize hp : s.pc t = p at h
  cases p <;> simp only [holds] at h <;> try (cases h; done)
  case test q' =>
    cases hq : s.queue q' with
    | cons d ds => exact ⟨_, .take hp hq⟩
    | nil =>
      cases hk : s.kill with
      | true => exact ⟨_, .seeKill hp hq hk⟩
      | false => exact ⟨_, .seeEmpty hp hq hk⟩
  case wait => exact ⟨_, .wait hp⟩
  case again => exact ⟨_, .again hp⟩
  case exit => exact ⟨_, .exit hp⟩
  case got => exact ⟨_, .unlock hp⟩
  case insHeld => exact ⟨_, .insert hp⟩
  case insSig q' =>
    by_cases hw : ∃ u, s.pc u = .waiting q'
    · obtain ⟨u, hu⟩ := hw
      exact ⟨_, .signalOne u hp hu⟩
    · exact ⟨_, .signalNone hp fun u hu => hw ⟨u, hu⟩⟩
  case insUnlock => exact ⟨_, .insUnlock hp⟩
  case getHeld =>
    cases hq : s.queue .o with
    | cons d ds => exact ⟨_, .getFirst hp hq⟩
    | nil => exact ⟨_, .getEmpty hp hq⟩
  case getUnlock => exact ⟨_, .getUnlock hp⟩

/-- Where a thread can be if no thread can go on. -/
theorem Quiet.pc {s : St c} (h : Quiet s) (he : Excl s) (t : Tid c) : s.pc t = .idle ∨ s.pc t = .done ∨ (∃ q, s.pc t = .waiting q) ∨ ∃ u l, s.pc t = .join (u :: l) ∧ s.pc u ≠ .done := by
  have free : ∀ q, s.owner q = none := by
    intro q
    cases ho : s.owner q with
    | none => rfl
    | some u =>
      obtain ⟨s', k⟩ := step_of_holds ((he u q).1 ho)
      exact absurd k (h u s')
  have nh : ∀ q, holds (s.pc t) ≠ some q := by
    intro q hq
    have := (he t q).2 hq
    rw [free] at this; cases this
  generalize hp : s.pc t = p at nh ⊢
  have no : ∀ {s'}, Step t s s' → False := fun k => h t _ k
  cases p with
  | lock q => exact (no (.lock hp (free _))).elim
  | test q => exact absurd rfl (nh q)
  | wait q => exact absurd rfl (nh q)
  | waiting q => exact .inr (.inr (.inl ⟨q, rfl⟩))
  | relock q => exact (no (.relock hp (free _))).elim
  | again q => exact absurd rfl (nh q)
  | exit q => exact absurd rfl (nh q)
  | done => exact .inr (.inl rfl)
  | got q d => exact absurd rfl (nh q)
  | work q d =>
    cases hw : c.worker q with
    | true => exact (no (.call c.null hp hw)).elim
    | false => exact (no (.skip hp hw)).elim
  | fin r => exact (no (.fin hp)).elim
  | ins q d => exact (no (.insLock hp (free _))).elim
  | insHeld q d => exact absurd rfl (nh q)
  | insSig q => exact absurd rfl (nh q)
  | insUnlock q => exact absurd rfl (nh q)
  | idle => exact .inl rfl
  | getLock => exact (no (.getLock hp (free _))).elim
  | getHeld => exact absurd rfl (nh .o)
  | getUnlock r => exact absurd rfl (nh .o)
  | kill0 => exact (no (.setKill hp)).elim
  | kill1 => exact (no (.broadcastI hp)).elim
  | kill2 => exact (no (.broadcastO hp)).elim
  | join l =>
    cases l with
    | nil => exact (no (.joined hp)).elim
    | cons u l => exact .inr (.inr (.inr ⟨u, l, rfl, fun hd => no (.join hp hd)⟩))

theorem quiet_of {s : St c} (h : ∀ t, s.pc t = .idle ∨ s.pc t = .done ∨ (∃ q, s.pc t = .waiting q) ∨ ∃ u l, s.pc t = .join (u :: l) ∧ s.pc u ≠ .done) : Quiet s := by
  intro t s' k
  have ht := h t
  cases k <;> simp_all

/-! ## Threads end only after zt_threadpool_kill -/

def Alive (s : St c) : Prop := s.kill = false → ∀ t q, s.pc t ≠ .done ∧ s.pc t ≠ .exit q ∧ (∀ l, s.pc t ≠ .join l) ∧ s.pc t ≠ .kill1 ∧ s.pc t ≠ .kill2

theorem home_ne' (t : Tid c) (q : Q) : home t ≠ .done ∧ home t ≠ .exit q ∧ (∀ l, home t ≠ .join l) ∧ home t ≠ .kill1 ∧ home t ≠ .kill2 := by cases t <;> simp [home]

theorem after_ne' (q' : Q) (r : D) (q : Q) : after c q' r ≠ .done ∧ after c q' r ≠ .exit q ∧ (∀ l, after c q' r ≠ .join l) ∧ after c q' r ≠ .kill1 ∧ after c q' r ≠ .kill2 := by
  unfold after; split
  · simp
  · split
    · simp
    · split <;> simp

theorem Alive.step {s s' : St c} {t : Tid c} (h : Alive s) (k : Step t s s') : Alive s' := by
  intro hk u q
  have hu := fun hk => h hk u q
  have ht := fun hk q => h hk t q
  clear h
  cases k
  case broadcastI h1 => exact absurd h1 (ht hk q).2.2.2.1
  case broadcastO h1 => exact absurd h1 (ht hk q).2.2.2.2
  all_goals simp only [St.goto, St.own, St.setq, St.ev, upd] at hk ⊢ <;> grind [home_ne', after_ne', wakeAll_done, wakeAll_exit]

theorem Reachable.alive {s : St c} (h : Reachable s) : Alive s := by
  induction h with
  | init => intro _ t q; exact home_ne' t q
  | step hr k ih =>
      obtain ⟨t, k | k | k⟩ := k
      · exact ih.step k
      · intro hk u q
        have hu := fun hk => ih hk u q
        cases k <;> simp only [St.goto, upd] at hk ⊢ <;> grind
      · intro hk u q
        have hu := fun hk => ih hk u q
        cases k <;> simp only [St.goto, upd] at hk ⊢ <;> grind

/-! ## Steps without new calls are bounded -/

/-- All threads. -/
def threads (c : Cfg D) : List (Tid c) := (List.finRange c.ni).map .iw ++ ((List.finRange c.no).map .ow ++ (List.finRange c.nc).map .cl)

theorem finRange_nodup (n : Nat) : (List.finRange n).Nodup := by
  induction n with
  | zero => simp [List.finRange]
  | succ n ih =>
    rw [List.finRange_succ]
    refine List.nodup_cons.2 ⟨by simp [Fin.succ_ne_zero], ?_⟩
    exact List.Pairwise.map _ (fun a b hab e => hab (Fin.succ_inj.1 e)) ih

theorem mem_threads (t : Tid c) : t ∈ threads c := by cases t <;> simp [threads]

theorem threads_nodup : (threads c).Nodup := by
  unfold threads
  refine List.nodup_append.2 ⟨List.Pairwise.map _ (by intro a b hab e; exact hab (Tid.iw.inj e)) (finRange_nodup _), List.nodup_append.2 ⟨List.Pairwise.map _ (by intro a b hab e; exact hab (Tid.ow.inj e)) (finRange_nodup _), List.Pairwise.map _ (by intro a b hab e; exact hab (Tid.cl.inj e)) (finRange_nodup _), ?_⟩, ?_⟩
  · intro a ha b hb; simp at ha hb; obtain ⟨x, rfl⟩ := ha; obtain ⟨y, rfl⟩ := hb; simp
  · intro a ha b hb; simp at ha hb; obtain ⟨x, rfl⟩ := ha; rcases hb with ⟨y, rfl⟩ | ⟨y, rfl⟩ <;> simp

/-- What an entry of a queue can still cause. -/
def costQ : Q → Nat
  | .i => 18
  | .o => 5

/-- What a thread can still do by itself. -/
def cost (c : Cfg D) : PC c → Nat
  | .lock _ => 3
  | .test _ => 2
  | .wait _ => 1
  | .waiting _ => 0
  | .relock _ => 5
  | .again _ => 4
  | .exit _ => 1
  | .done => 0
  | .got .i _ => 19
  | .got .o _ => 6
  | .work .i _ => 18
  | .work .o _ => 5
  | .fin _ => 4
  | .ins q _ => 12 + costQ q
  | .insHeld q _ => 11 + costQ q
  | .insSig _ => 10
  | .insUnlock _ => 4
  | .idle => 0
  | .getLock => 3
  | .getHeld => 2
  | .getUnlock _ => 1
  | .kill0 => (joinOrder c).length + 10 * (threads c).length + 4
  | .kill1 => (joinOrder c).length + 10 * (threads c).length + 3
  | .kill2 => (joinOrder c).length + 5 * (threads c).length + 2
  | .join l => l.length + 1

def total (l : List (Tid c)) (f : Tid c → Nat) : Nat := (l.map f).sum

def bound (s : St c) : Nat := total (threads c) (fun t => cost c (s.pc t)) + 18 * (s.queue .i).length + 5 * (s.queue .o).length

theorem total_upd_notin {l : List (Tid c)} {t : Tid c} (h : t ∉ l) (f : Tid c → PC c) (p : PC c) : total l (fun u => cost c (upd f t p u)) = total l (fun u => cost c (f u)) := by
  unfold total
  congr 1
  apply List.map_congr_left
  intro u hu
  have : u ≠ t := fun e => h (e ▸ hu)
  rw [upd_ne f p this]

theorem total_upd {l : List (Tid c)} (hn : l.Nodup) {t : Tid c} (h : t ∈ l) (f : Tid c → PC c) (p : PC c) :
    total l (fun u => cost c (upd f t p u)) + cost c (f t) = total l (fun u => cost c (f u)) + cost c p := by
  induction l with
  | nil => cases h
  | cons a l ih =>
    obtain ⟨ha, hn⟩ := List.nodup_cons.1 hn
    by_cases e : a = t
    · subst e
      have := total_upd_notin ha f p
      simp only [total, List.map_cons, List.sum_cons, upd_same] at this ⊢
      omega
    · have := ih hn (by rcases List.mem_cons.1 h with e2 | h2; exact absurd e2.symm e; exact h2)
      simp only [total, List.map_cons, List.sum_cons, upd_ne _ _ e] at this ⊢
      omega

theorem total_thr (f : Tid c → PC c) (t : Tid c) (p : PC c) : total (threads c) (fun u => cost c (upd f t p u)) + cost c (f t) = total (threads c) (fun u => cost c (f u)) + cost c p :=
  total_upd threads_nodup (mem_threads t) f p

theorem cost_wakeAll (q : Q) (p : PC c) : cost c (wakeAll q p) ≤ cost c p + 5 := by
  cases p <;> simp only [wakeAll] <;> try omega
  split <;> simp [cost]

theorem total_wakeAll (q : Q) (f : Tid c → PC c) (l : List (Tid c)) : total l (fun u => cost c (wakeAll q (f u))) ≤ total l (fun u => cost c (f u)) + 5 * l.length := by
  induction l with
  | nil => simp [total]
  | cons a l ih =>
    have := cost_wakeAll q (f a)
    simp only [total, List.map_cons, List.sum_cons, List.length_cons] at ih ⊢
    omega

theorem cost_home (t : Tid c) : cost c (home t) ≤ 3 := by cases t <;> simp [home, cost]

theorem cost_after (q : Q) (r d : D) : cost c (after c q r) < cost c (.work q d) := by
  unfold after
  split
  · cases q <;> simp [cost]
  · cases q with
    | i => simp [cost, costQ]
    | o => dsimp only; split <;> simp [cost]

theorem bound_simple {s s' : St c} {t : Tid c} {p : PC c} (hq : s'.queue = s.queue) (hp : s'.pc = upd s.pc t p) (h : cost c p < cost c (s.pc t)) : ZT.Pool.bound s' < ZT.Pool.bound s := by
  have := total_thr s.pc t p
  simp only [ZT.Pool.bound, hq, hp]
  omega

theorem Step.bound {s s' : St c} {t : Tid c} (k : Step t s s') : ZT.Pool.bound s' < ZT.Pool.bound s := by
  have key := total_thr s.pc t
  cases k with
  | @take q d ds h1 h2 =>
    have := key (.got q d)
    simp only [ZT.Pool.bound, St.goto, St.setq, St.ev] at this ⊢
    rw [h1] at this
    cases q <;> simp only [cost, upd, h2, List.length_cons, reduceCtorEq, if_true, if_false] at this ⊢ <;> omega
  | @call q d r h1 h2 =>
    have := key (after c q r)
    have := cost_after (c := c) q r d
    simp only [ZT.Pool.bound, St.goto, St.ev] at this ⊢
    rw [h1] at *
    omega
  | @skip q d h1 h2 =>
    have := key (.lock q)
    simp only [ZT.Pool.bound, St.goto] at this ⊢
    rw [h1] at this
    cases q <;> simp only [cost] at this ⊢ <;> omega
  | @unlock q d h1 =>
    have := key (.work q d)
    simp only [ZT.Pool.bound, St.goto, St.own] at this ⊢
    rw [h1] at this
    cases q <;> simp only [cost] at this ⊢ <;> omega
  | @insert q d h1 =>
    have := key (.insSig q)
    simp only [ZT.Pool.bound, St.goto, St.setq, St.ev] at this ⊢
    rw [h1] at this
    cases q <;> simp only [cost, costQ, upd, List.length_append, List.length_singleton, reduceCtorEq, if_true, if_false] at this ⊢ <;> omega
  | @signalOne q u h1 h2 =>
    have a := key (.insUnlock q)
    have b := total_thr (upd s.pc t (.insUnlock q)) u (.relock q)
    have hut : u ≠ t := fun e => by subst e; rw [h1] at h2; cases h2
    rw [upd_ne _ _ hut, h2] at b
    rw [h1] at a
    simp only [ZT.Pool.bound, St.goto, cost] at a b ⊢
    omega
  | insUnlock h1 =>
    have a := key (home t)
    have b := cost_home t
    rw [h1] at a
    simp only [ZT.Pool.bound, St.goto, St.own, cost] at a b ⊢
    omega
  | @getFirst d ds h1 h2 =>
    have := key (.getUnlock (some d))
    simp only [ZT.Pool.bound, St.goto, St.setq, St.ev] at this ⊢
    rw [h1] at this
    simp only [cost, upd, h2, List.length_cons, reduceCtorEq, if_true, if_false] at this ⊢
    omega
  | broadcastI h1 =>
    have a := total_thr (fun u => wakeAll .i (s.pc u)) t .kill2
    have b := total_wakeAll .i s.pc (threads c)
    have e : wakeAll .i (s.pc t) = .kill1 := by rw [h1]; rfl
    simp only [e] at a
    simp only [ZT.Pool.bound, cost] at a b ⊢
    omega
  | broadcastO h1 =>
    have a := total_thr (fun u => wakeAll .o (s.pc u)) t (.join (joinOrder c))
    have b := total_wakeAll .o s.pc (threads c)
    have e : wakeAll .o (s.pc t) = .kill2 := by rw [h1]; rfl
    simp only [e] at a
    simp only [ZT.Pool.bound, cost] at a b ⊢
    omega
  | lock h1 _ => exact bound_simple rfl rfl (by rw [h1]; simp [cost])
  | seeKill h1 _ _ => exact bound_simple rfl rfl (by rw [h1]; simp [cost])
  | seeEmpty h1 _ _ => exact bound_simple rfl rfl (by rw [h1]; simp [cost])
  | wait h1 => exact bound_simple rfl rfl (by rw [h1]; simp [cost])
  | relock h1 _ => exact bound_simple rfl rfl (by rw [h1]; simp [cost])
  | again h1 => exact bound_simple rfl rfl (by rw [h1]; simp [cost])
  | exit h1 => exact bound_simple rfl rfl (by rw [h1]; simp [cost])
  | fin h1 => exact bound_simple rfl rfl (by rw [h1]; simp [cost])
  | insLock h1 _ => exact bound_simple rfl rfl (by rw [h1]; simp [cost])
  | signalNone h1 _ => exact bound_simple rfl rfl (by rw [h1]; simp [cost])
  | getLock h1 _ => exact bound_simple rfl rfl (by rw [h1]; simp [cost])
  | getEmpty h1 _ => exact bound_simple rfl rfl (by rw [h1]; simp [cost])
  | getUnlock h1 => exact bound_simple rfl rfl (by rw [h1]; simp [cost])
  | setKill h1 => exact bound_simple rfl rfl (by rw [h1]; simp [cost])
  | join h1 _ => exact bound_simple rfl rfl (by rw [h1]; simp [cost])
  | joined h1 => exact bound_simple rfl rfl (by rw [h1]; simp [cost])

theorem Wake.bound {s s' : St c} {t : Tid c} (k : Wake t s s') : ZT.Pool.bound s' ≤ ZT.Pool.bound s + 5 := by
  cases k with
  | @wake q h1 =>
    have a := total_thr s.pc t (.relock q)
    rw [h1] at a
    simp only [ZT.Pool.bound, St.goto, cost] at a ⊢
    omega

/-- Executions without new calls: `n` steps and `k` wake-ups for no reason. -/
inductive Exec : St c → Nat → Nat → St c → Prop
  | refl {s} : Exec s 0 0 s
  | step {s s' s'' n k t} : Exec s n k s' → Step t s' s'' → Exec s (n + 1) k s''
  | wake {s s' s'' n k t} : Exec s n k s' → Wake t s' s'' → Exec s n (k + 1) s''

theorem Exec.bound {s s' : St c} {n k : Nat} (h : Exec s n k s') : n + ZT.Pool.bound s' ≤ ZT.Pool.bound s + 5 * k := by
  induction h with
  | refl => omega
  | step _ k ih => have := k.bound; omega
  | wake _ k ih => have := k.bound; omega

theorem Exec.reachable {s s' : St c} {n k : Nat} (h : Exec s n k s') (hr : Reachable s) : Reachable s' := by
  induction h with
  | refl => exact hr
  | step _ k ih => exact .step ih ⟨_, .inl k⟩
  | wake _ k ih => exact .step ih ⟨_, .inr (.inr k)⟩

end ZT.Pool
