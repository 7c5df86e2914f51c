import Verif.Pool.Log
import Verif.Pool.Kill

/-!
# C48: the thread pool

All theorems are for any number of threads, any callbacks, any schedule and any calls by any number of client threads.
-/

namespace ZT.Pool

variable {D : Type} [DecidableEq D] {c : Cfg D}

/-- C48: no two threads are ever inside the critical sections of one queue at the same time. -/
theorem c48_exclusion {s : St c} (h : Reachable s) {t u : Tid c} {q : Q} (ht : holds (s.pc t) = some q) (hu : holds (s.pc u) = some q) : t = u := by
  have a := (h.excl t q).2 ht
  have b := (h.excl u q).2 hu
  rw [a] at b
  exact Option.some.inj b

/-- C48: whatever was put into a queue is taken out of it in the same order, each entry once; what was put and not yet taken is what the queue holds. -/
theorem c48_fifo {s : St c} (h : Reachable s) (q : Q) : puts q s.log = takes q s.log ++ s.queue q := h.fifo q

/-- C48: each thread of a loop calls its worker with every entry it took, in order and once each, up to one entry it has just taken. -/
theorem c48_once {s : St c} (h : Reachable s) (t : Tid c) (q : Q) (ht : serves t = some q) (hw : c.worker q = true) : UpToOne (takesBy t s.log) (callsBy t s.log) := by
  refine ⟨_, h.localInv.calls t q ht hw, ?_⟩
  generalize s.pc t = p
  cases p <;> simp [inHand]

/-- C48: every result of an input worker that is not NULL is put into the output queue, in order and once, up to one still on its way; and input threads put nothing else there. -/
theorem c48_results {s : St c} (h : Reachable s) (t : Tid c) (ht : serves t = some .i) : UpToOne (resultsBy t s.log) (putsBy t s.log) := by
  refine ⟨_, h.localInv.results t ht, ?_⟩
  generalize s.pc t = p
  cases p <;> simp [inFlight]

/-- C48: every result of an output worker that is not NULL is given to `finalize`, in order and once. -/
theorem c48_finals {s : St c} (h : Reachable s) (hf : c.finalize = true) (t : Tid c) (ht : serves t = some .o) : UpToOne (resultsBy t s.log) (finalsBy t s.log) := by
  refine ⟨_, h.localInv.finals hf t ht, ?_⟩
  generalize s.pc t = p
  cases p <;> simp [toFinal]

/-- C48: whatever a call of zt_threadpool_get_oput took from the output queue it returns, in order and once. -/
theorem c48_gets {s : St c} (h : Reachable s) (t : Tid c) (ht : serves t = none) : UpToOne (takesBy t s.log) (gaveBy t s.log) := by
  refine ⟨_, h.localInv.gets t ht, ?_⟩
  generalize s.pc t = p
  cases p <;> simp [toGive]
  rename_i r
  cases r <;> simp

/-- C48: from any state, without further calls, the threads take only boundedly many steps, apart from those after wake-ups for no reason: the pool comes to rest and does not spin. -/
theorem c48_rest (s : St c) : ∃ B, ∀ n k s', Exec s n k s' → n ≤ B + 5 * k := ⟨bound s, fun n k s' h => by have := h.bound; omega⟩

/-- C48: no wake-up is lost by zt_threadpool_insert_iput and zt_threadpool_insert_oput: when the pool has come to rest, a queue served by a thread that has not ended is empty, everything put into it has been taken and every
worker call for it has returned; and all calls of insert and get have returned. -/
theorem c48_no_lost_entry {s : St c} (h : Reachable s) (hq : Quiet s) {w : Tid c} {q : Q} (hw : serves w = some q) (hd : s.pc w ≠ .done) :
    s.queue q = [] ∧ takes q s.log = puts q s.log ∧ (c.worker q = true → ∀ t, serves t = some q → callsBy t s.log = takesBy t s.log) := by
  have e : s.queue q = [] := by
    refine Classical.byContradiction fun hne => ?_
    rcases h.live q hne with ⟨v, hv, ha⟩ | ⟨t, ht⟩ | hall
    · rcases hq.pc h.excl v with e | e | ⟨_, e⟩ | ⟨_, _, e, _⟩
      · have := h.shape v; rw [e] at this; simp [shape, hv] at this
      · rw [e] at ha; cases ha
      · rw [e] at ha; cases ha
      · have := h.shape v; rw [e] at this; simp [shape, hv] at this
    · rcases hq.pc h.excl t with e | e | ⟨_, e⟩ | ⟨_, _, e, _⟩ <;> rw [ht] at e <;> cases e
    · exact hd (hall w hw)
  refine ⟨e, ?_, ?_⟩
  · have := h.fifo q
    rw [e, List.append_nil] at this
    exact this.symm
  · intro hk t ht
    have := h.localInv.calls t q ht hk
    have hp : inHand (s.pc t) = [] := by rcases hq.pc h.excl t with e | e | ⟨_, e⟩ | ⟨_, _, e, _⟩ <;> rw [e] <;> rfl
    rw [hp, List.append_nil] at this
    exact this.symm

/-- C48: before zt_threadpool_kill is called no worker thread ends, so that with at least one thread per loop both queues are empty whenever the pool is at rest, and no thread is in a call of insert, get or kill. -/
theorem c48_all_processed {s : St c} (h : Reachable s) (hq : Quiet s) (hk : s.kill = false) :
    (∀ w q, serves w = some q → s.pc w = .waiting q) ∧ (∀ u, serves u = none → s.pc u = .idle) ∧ (0 < c.ni → s.queue .i = []) ∧ (0 < c.no → s.queue .o = []) := by
  have hd := fun t => (h.alive hk t .i).1
  refine ⟨?_, ?_, ?_, ?_⟩
  · intro w q hw
    have hs := h.shape w
    rcases hq.pc h.excl w with e | e | ⟨q', e⟩ | ⟨_, _, e, _⟩
    · rw [e] at hs; simp [shape, hw] at hs
    · exact absurd e (hd w)
    · rw [e] at hs; simp only [shape, hw] at hs; rw [e, Option.some.inj hs]
    · rw [e] at hs; simp [shape, hw] at hs
  · intro u hu
    have hs := h.shape u
    rcases hq.pc h.excl u with e | e | ⟨q', e⟩ | ⟨_, _, e, _⟩
    · exact e
    · exact absurd e (hd u)
    · rw [e] at hs; simp [shape, hu] at hs
    · exact absurd e ((h.alive hk u .i).2.2.1 _)
  · intro hn; exact (c48_no_lost_entry h hq (w := .iw ⟨0, hn⟩) (q := .i) rfl (hd _)).1
  · intro hn; exact (c48_no_lost_entry h hq (w := .ow ⟨0, hn⟩) (q := .o) rfl (hd _)).1

/-- C48 (partial: for a call of zt_threadpool_kill that does not meet a thread which has seen `kill` clear and has not begun to wait yet; without that, see `c48_lost_kill_violation`): when the pool comes to rest, which by
`c48_rest` it does, every worker thread has ended and every call of every client, zt_threadpool_kill included, has returned. Calls made by other clients meanwhile are allowed. -/
theorem c48_kill_partial {s s1 s' : St c} {t : Tid c} (h : Reachable s) (ht : s.pc t = .kill0) (k : Step t s s1) (hw : ∀ u q, s.pc u ≠ .wait q) (x : Star s1 s') (hq : Quiet s') :
    (∀ w q, serves w = some q → s'.pc w = .done) ∧ ∀ u, serves u = none → s'.pc u = .idle := by
  have hr : Reachable s' := x.reachable (.step h ⟨t, .inl k⟩)
  have hk := (Killing.start ht k hw).star x
  constructor
  · intro w q hs
    rcases hk.quiet hr hq w with e | e
    · have := hr.shape w; rw [e] at this; simp [shape, hs] at this
    · exact e
  · intro u hu
    rcases hk.quiet hr hq u with e | e
    · exact e
    · have := hr.shape u; rw [e] at this; exact absurd hu this

/-- C48 (partial, as `c48_kill_partial`): the first zt_threadpool_kill lets the input queue be emptied: if no client is putting anything into it then every entry has been taken and the worker was called for it before the
threads ended. -/
theorem c48_drain_partial {s s1 s' : St c} {t : Tid c} {n j : Nat} (h : Reachable s) (ht : s.pc t = .kill0) (hk : s.kill = false) (hn : 0 < c.ni) (hi : ∀ u, ¬inserting (s.pc u)) (k : Step t s s1)
    (x : Exec s1 n j s') (hq : Quiet s') :
    takes .i s'.log = puts .i s'.log ∧ (c.worker .i = true → ∀ w, serves w = some .i → callsBy w s'.log = takesBy w s'.log) ∧ ∀ w, serves w = some .i → resultsBy w s'.log = putsBy w s'.log := by
  have hr1 : Reachable s1 := .step h ⟨t, .inl k⟩
  have hr : Reachable s' := x.reachable hr1
  have h0 : Draining s := ⟨hi, .inl ⟨.iw ⟨0, hn⟩, rfl, (h.alive hk _ .i).1⟩⟩
  have hD := (h0.step h k).exec hr1 x
  have e : s'.queue .i = [] := by
    rcases hD.2 with ⟨w, hw, hd⟩ | e
    · exact (c48_no_lost_entry hr hq hw hd).1
    · exact e
  refine ⟨?_, ?_, ?_⟩
  · have := hr.fifo .i
    rw [e, List.append_nil] at this
    exact this.symm
  · intro hwk w hw
    have := hr.localInv.calls w .i hw hwk
    have hp : inHand (s'.pc w) = [] := by rcases hq.pc hr.excl w with e | e | ⟨_, e⟩ | ⟨_, _, e, _⟩ <;> rw [e] <;> rfl
    rw [hp, List.append_nil] at this
    exact this.symm
  · intro w hw
    have := hr.localInv.results w hw
    have hp : inFlight (s'.pc w) = [] := by rcases hq.pc hr.excl w with e | e | ⟨_, e⟩ | ⟨_, _, e, _⟩ <;> rw [e] <;> rfl
    rw [hp, List.append_nil] at this
    exact this

end ZT.Pool
