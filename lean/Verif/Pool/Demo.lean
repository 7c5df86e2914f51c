import Verif.Pool.Props

/-!
# C48: concrete executions

One input thread, one output thread, one client.
-/

namespace ZT.Pool

/-- Both workers set, `finalize` set, NULL is 0. -/
def demo : Cfg Nat := ⟨1, 1, 1, 0, fun _ => true, true⟩

abbrev I : Tid demo := .iw ⟨0, by decide⟩
abbrev O : Tid demo := .ow ⟨0, by decide⟩
abbrev C : Tid demo := .cl ⟨0, by decide⟩

theorem demo_all {P : Tid demo → Prop} (hi : P I) (ho : P O) (hc : P C) (t : Tid demo) : P t := by
  match t with
  | .iw ⟨0, _⟩ => exact hi
  | .ow ⟨0, _⟩ => exact ho
  | .cl ⟨0, _⟩ => exact hc

def tag : PC demo → Nat
  | .waiting _ => 1
  | .done => 2
  | _ => 0

theorem ne1 {p q : PC demo} (h : tag p ≠ tag q) : p ≠ q := fun e => h (congrArg tag e)

theorem Star.trans {D : Type} [DecidableEq D] {c : Cfg D} {s s' s'' : St c} (h : Star s s') (k : Star s' s'') : Star s s'' := by
  induction k with
  | refl => exact h
  | step _ k ih => exact .step ih k

/-- The client has put 5 into the input queue and the input thread has it; then the client calls zt_threadpool_kill. -/
theorem demo_before : ∃ s : St demo, Reachable s ∧ s.kill = false ∧ s.pc I = .work .i 5 ∧ s.pc O = .lock .o ∧ s.pc C = .kill0 ∧ (∀ q, s.queue q = []) ∧ (∀ q, s.owner q = none) ∧
    s.log = [.put C .i 5, .take I .i 5] := by
  have r0 : Reachable (St.init demo) := .init
  have r1 := r0.step ⟨C, .inr (.inl (.insert .i 5 rfl))⟩
  have r2 := r1.step ⟨C, .inl (.insLock (q := .i) (d := 5) rfl rfl)⟩
  have r3 := r2.step ⟨C, .inl (.insert (q := .i) (d := 5) rfl)⟩
  have r4 := r3.step ⟨C, .inl (.signalNone (q := .i) rfl (demo_all (ne1 (by decide)) (ne1 (by decide)) (ne1 (by decide))))⟩
  have r5 := r4.step ⟨C, .inl (.insUnlock (q := .i) rfl)⟩
  have r6 := r5.step ⟨I, .inl (.lock (q := .i) rfl rfl)⟩
  have r7 := r6.step ⟨I, .inl (.take (q := .i) (d := 5) (ds := []) rfl rfl)⟩
  have r8 := r7.step ⟨I, .inl (.unlock (q := .i) (d := 5) rfl)⟩
  have r9 := r8.step ⟨C, .inr (.inl (.kill rfl))⟩
  refine ⟨_, r9, rfl, rfl, rfl, rfl, ?_, ?_, rfl⟩
  · intro q; cases q <;> rfl
  · intro q; cases q <;> rfl

/-- The hypotheses of `c48_kill_partial` and `c48_drain_partial` are met by a pool with an entry being worked on. -/
example : ∃ s s1 : St demo, Reachable s ∧ s.pc C = .kill0 ∧ s.kill = false ∧ 0 < demo.ni ∧ Step C s s1 ∧ (∀ u q, s.pc u ≠ .wait q) ∧ (∀ u, ¬inserting (s.pc u)) := by
  obtain ⟨s, h, hk, hi, ho, hc, _⟩ := demo_before
  refine ⟨s, _, h, hc, hk, by decide, .setKill hc, demo_all ?_ ?_ ?_, demo_all ?_ ?_ ?_⟩
  · intro q; rw [hi]; simp
  · intro q; rw [ho]; simp
  · intro q; rw [hc]; simp
  · rw [hi]; simp [inserting]
  · rw [ho]; simp [inserting]
  · rw [hc]; simp [inserting]

/-- C48, violated: zt_threadpool_kill does not drain the output queue. The output thread finds its queue empty and `kill` set and ends while the input thread is still working; the result put afterwards stays in the queue
although zt_threadpool_kill has returned and all threads have ended. (The lost wake-up of `c48_lost_kill_violation` is not involved.) -/
theorem c48_output_left_violation : ∃ s : St demo, Reachable s ∧ Quiet s ∧ (∀ w q, serves w = some q → s.pc w = .done) ∧ .killed C ∈ s.log ∧ puts .o s.log = [7] ∧ takes .o s.log = [] := by
  have a0 : Reachable (St.init demo) := .init
  have a1 := a0.step ⟨C, .inr (.inl (.insert .i 5 rfl))⟩
  have a2 := a1.step ⟨C, .inl (.insLock (q := .i) (d := 5) rfl rfl)⟩
  have a3 := a2.step ⟨C, .inl (.insert (q := .i) (d := 5) rfl)⟩
  have a4 := a3.step ⟨C, .inl (.signalNone (q := .i) rfl (demo_all (ne1 (by decide)) (ne1 (by decide)) (ne1 (by decide))))⟩
  have a5 := a4.step ⟨C, .inl (.insUnlock (q := .i) rfl)⟩
  have a6 := a5.step ⟨I, .inl (.lock (q := .i) rfl rfl)⟩
  have a7 := a6.step ⟨I, .inl (.take (q := .i) (d := 5) (ds := []) rfl rfl)⟩
  have a8 := a7.step ⟨I, .inl (.unlock (q := .i) (d := 5) rfl)⟩
  have a9 := a8.step ⟨C, .inr (.inl (.kill rfl))⟩
  have r1 := a9.step ⟨C, .inl (.setKill rfl)⟩
  have r2 := r1.step ⟨C, .inl (.broadcastI rfl)⟩
  have r3 := r2.step ⟨C, .inl (.broadcastO rfl)⟩
  have r4 := r3.step ⟨O, .inl (.lock (q := .o) rfl rfl)⟩
  have r5 := r4.step ⟨O, .inl (.seeKill (q := .o) rfl rfl rfl)⟩
  have r6 := r5.step ⟨O, .inl (.exit (q := .o) rfl)⟩
  have r7 := r6.step ⟨I, .inl (.call (q := .i) (d := 5) 7 rfl rfl)⟩
  have r8 := r7.step ⟨I, .inl (.insLock (q := .o) (d := 7) rfl rfl)⟩
  have r9 := r8.step ⟨I, .inl (.insert (q := .o) (d := 7) rfl)⟩
  have r10 := r9.step ⟨I, .inl (.signalNone (q := .o) rfl (demo_all (ne1 (by decide)) (ne1 (by decide)) (ne1 (by decide))))⟩
  have r11 := r10.step ⟨I, .inl (.insUnlock (q := .o) rfl)⟩
  have r12 := r11.step ⟨I, .inl (.lock (q := .i) rfl rfl)⟩
  have r13 := r12.step ⟨I, .inl (.seeKill (q := .i) rfl rfl rfl)⟩
  have r14 := r13.step ⟨I, .inl (.exit (q := .i) rfl)⟩
  have r15 := r14.step ⟨C, .inl (.join (u := I) (l := [O]) rfl rfl)⟩
  have r16 := r15.step ⟨C, .inl (.join (u := O) (l := []) rfl rfl)⟩
  have r17 := r16.step ⟨C, .inl (.joined rfl)⟩
  refine ⟨_, r17, quiet_of (demo_all (.inr (.inl rfl)) (.inr (.inl rfl)) (.inl rfl)), demo_all (fun _ _ => rfl) (fun _ _ => rfl) (fun q h => ?_), ?_, rfl, rfl⟩
  · simp [serves] at h
  · simp [St.ev]

/-- C48, violated: zt_threadpool_kill can block forever. It sets `kill` and broadcasts without the mutex; a thread that has seen `kill` clear and has not begun to wait yet misses both, and waits for ever; zt_threadpool_kill
waits for it. No thread can go on. -/
theorem c48_lost_kill_violation : ∃ s : St demo, Reachable s ∧ Quiet s ∧ s.kill = true ∧ s.pc I = .waiting .i ∧ (∃ l, s.pc C = .join (I :: l)) := by
  have r0 : Reachable (St.init demo) := .init
  have r1 := r0.step ⟨I, .inl (.lock (q := .i) rfl rfl)⟩
  have r2 := r1.step ⟨I, .inl (.seeEmpty (q := .i) rfl rfl rfl)⟩
  have r3 := r2.step ⟨C, .inr (.inl (.kill rfl))⟩
  have r4 := r3.step ⟨C, .inl (.setKill rfl)⟩
  have r5 := r4.step ⟨C, .inl (.broadcastI rfl)⟩
  have r6 := r5.step ⟨C, .inl (.broadcastO rfl)⟩
  have r7 := r6.step ⟨I, .inl (.wait (q := .i) rfl)⟩
  have r8 := r7.step ⟨O, .inl (.lock (q := .o) rfl rfl)⟩
  have r9 := r8.step ⟨O, .inl (.seeKill (q := .o) rfl rfl rfl)⟩
  have r10 := r9.step ⟨O, .inl (.exit (q := .o) rfl)⟩
  exact ⟨_, r10, quiet_of (demo_all (.inr (.inr (.inl ⟨.i, rfl⟩))) (.inr (.inl rfl)) (.inr (.inr (.inr ⟨I, [O], rfl, ne1 (by decide)⟩)))), rfl, rfl, [O], rfl⟩

/-- A pool at rest before any kill, with one entry processed by both loops: meets the hypotheses of `c48_no_lost_entry` and `c48_all_processed`. -/
example : ∃ s : St demo, Reachable s ∧ Quiet s ∧ s.kill = false ∧ serves I = some .i ∧ s.pc I ≠ .done ∧ callsBy I s.log = [5] ∧ callsBy O s.log = [7] ∧ finalsBy O s.log = [9] := by
  have r0 : Reachable (St.init demo) := .init
  have r1 := r0.step ⟨I, .inl (.lock (q := .i) rfl rfl)⟩
  have r2 := r1.step ⟨I, .inl (.seeEmpty (q := .i) rfl rfl rfl)⟩
  have r3 := r2.step ⟨I, .inl (.wait (q := .i) rfl)⟩
  have r4 := r3.step ⟨C, .inr (.inl (.insert .i 5 rfl))⟩
  have r5 := r4.step ⟨C, .inl (.insLock (q := .i) (d := 5) rfl rfl)⟩
  have r6 := r5.step ⟨C, .inl (.insert (q := .i) (d := 5) rfl)⟩
  have r7 := r6.step ⟨C, .inl (.signalOne (q := .i) I rfl rfl)⟩
  have r8 := r7.step ⟨C, .inl (.insUnlock (q := .i) rfl)⟩
  have r9 := r8.step ⟨I, .inl (.relock (q := .i) rfl rfl)⟩
  have r10 := r9.step ⟨I, .inl (.again (q := .i) rfl)⟩
  have r11 := r10.step ⟨I, .inl (.lock (q := .i) rfl rfl)⟩
  have r12 := r11.step ⟨I, .inl (.take (q := .i) (d := 5) (ds := []) rfl rfl)⟩
  have r13 := r12.step ⟨I, .inl (.unlock (q := .i) (d := 5) rfl)⟩
  have r14 := r13.step ⟨I, .inl (.call (q := .i) (d := 5) 7 rfl rfl)⟩
  have r15 := r14.step ⟨I, .inl (.insLock (q := .o) (d := 7) rfl rfl)⟩
  have r16 := r15.step ⟨I, .inl (.insert (q := .o) (d := 7) rfl)⟩
  have r17 := r16.step ⟨I, .inl (.signalNone (q := .o) rfl (demo_all (ne1 (by decide)) (ne1 (by decide)) (ne1 (by decide))))⟩
  have r18 := r17.step ⟨I, .inl (.insUnlock (q := .o) rfl)⟩
  have r19 := r18.step ⟨O, .inl (.lock (q := .o) rfl rfl)⟩
  have r20 := r19.step ⟨O, .inl (.take (q := .o) (d := 7) (ds := []) rfl rfl)⟩
  have r21 := r20.step ⟨O, .inl (.unlock (q := .o) (d := 7) rfl)⟩
  have r22 := r21.step ⟨O, .inl (.call (q := .o) (d := 7) 9 rfl rfl)⟩
  have r23 := r22.step ⟨O, .inl (.fin (r := 9) rfl)⟩
  have r24 := r23.step ⟨O, .inl (.lock (q := .o) rfl rfl)⟩
  have r25 := r24.step ⟨O, .inl (.seeEmpty (q := .o) rfl rfl rfl)⟩
  have r26 := r25.step ⟨O, .inl (.wait (q := .o) rfl)⟩
  have r27 := r26.step ⟨I, .inl (.lock (q := .i) rfl rfl)⟩
  have r28 := r27.step ⟨I, .inl (.seeEmpty (q := .i) rfl rfl rfl)⟩
  have r29 := r28.step ⟨I, .inl (.wait (q := .i) rfl)⟩
  exact ⟨_, r29, quiet_of (demo_all (.inr (.inr (.inl ⟨.i, rfl⟩))) (.inr (.inr (.inl ⟨.o, rfl⟩))) (.inl rfl)), rfl, rfl, ne1 (by decide), rfl, rfl, rfl⟩

end ZT.Pool
