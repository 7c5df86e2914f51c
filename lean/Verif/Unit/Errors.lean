import Verif.Unit.Props

/-!
# C71: the list of errors
-/

namespace ZT.Unit

variable {W : Type}

/-- The errors reported, in order: the name of the test and the text. -/
def errs : List Ev → List (Str × Option Str) := List.filterMap fun
  | .error n t => some (n, t)
  | _ => none

/-- The text that belongs to the end of a test function. -/
def Ended.message : Ended → Str
  | .returned => []
  | .failed m => m
  | .threw (some m) => "unhandled exception: ".toUTF8.toList ++ m
  | .threw none => "unhandled exception: NULL".toUTF8.toList
  | .threwOther => "unhandled exception: unknown".toUTF8.toList

/-- The failures among the jobs, in order: the name of the job and its error. -/
def failures : List (Job W) → W → List (Str × Option Str)
  | [], _ => []
  | j :: js, w => (if j.passes w then [] else [(j.name, some (j.fn (j.before w)).2.2.message)]) ++ failures js (j.after w)

/-- The tests of a suite that are marked as failed. -/
def marked (ts : List (Test W)) : List (Str × Option Str) := (ts.filter fun t => t.success ≠ 1).map fun t => (t.name, t.error)

theorem errs_append (a b : List Ev) : errs (a ++ b) = errs a ++ errs b := by simp [errs]

theorem runTest_error (s : Suite W) (t : Test W) (w : W) (h : (job s t).fine) :
    ∃ t' es, runTest s t w = .ok (t', (job s t).after w, es) ∧ errs es = [] ∧ t'.name = t.name ∧ t'.success = (if (job s t).passes w then 1 else 0) ∧
      ((job s t).passes w = false → t'.error = some ((job s t).fn ((job s t).before w)).2.2.message) := by
  unfold runTest tryTest
  simp only [Job.after, Job.passes, Job.before, job, Job.fine] at h ⊢
  obtain ⟨w', n, e, hf⟩ : ∃ w' n e, t.fn (call s.setup w) = (w', n, e) := ⟨_, _, _, rfl⟩
  simp only [hf, Outcome.pure_eq]
  have hc : (∀ m, e ≠ .failed m) → e ≠ .returned → s.cpp = true := by
    intro h1 h2
    rcases h with h | h
    · exact h
    · have := h (call s.setup w)
      rw [hf] at this
      rcases this with h3 | ⟨m, h3⟩
      · exact absurd h3 h2
      · exact absurd h3 (h1 m)
  cases e with
  | returned => exact ⟨_, _, rfl, rfl, rfl, rfl, fun h => absurd h (by decide)⟩
  | failed m => exact ⟨_, _, rfl, rfl, rfl, rfl, fun _ => rfl⟩
  | threw m =>
      have hc := hc (by simp) (by simp)
      simp only [hc, if_true]
      refine ⟨_, _, rfl, rfl, rfl, rfl, fun _ => ?_⟩
      cases m with
      | none => exact congrArg some (by decide +kernel)
      | some m =>
          have : UNHANDLED = "unhandled exception: ".toUTF8.toList := by decide +kernel
          simp [Ended.message, this]
  | threwOther =>
      have hc := hc (by simp) (by simp)
      simp only [hc, if_true]
      exact ⟨_, _, rfl, rfl, rfl, rfl, fun _ => congrArg some (by decide +kernel)⟩

theorem runTests_errors (ts : List (Test W)) (s : Suite W) (c : Counters) (w : W) (h : ∀ t ∈ ts, (job s t).fine) (ts' : List (Test W)) (s' : Suite W) (c' : Counters) (w' : W) (es : List Ev)
    (e : runTests ts s c w = .ok (ts', s', c', w', es)) : marked ts' = failures (ts.map (job s)) w ∧ errs es = [] := by
  induction ts generalizing s c w ts' es with
  | nil => cases e; exact ⟨rfl, rfl⟩
  | cons t ts ih =>
      obtain ⟨t1, es1, e1, n1, n2, n3, n4⟩ := runTest_error s t w (h t (by simp))
      rw [runTests] at e
      simp only [e1, Outcome.ok_bind] at e
      have k := countTest_spec s { c with tests := add c.tests 1 } t1 ((job s t).passes w) 0 n3
      obtain ⟨-, -, f2, f3, f4, -⟩ := k
      generalize countTest s { c with tests := add c.tests 1 } t1 = d at e f2 f3 f4
      have hj := job_congr f2 f3 f4
      obtain ⟨⟨ts2, s2, c2, w2, es2⟩, e2, e3⟩ := Outcome.bind_eq_ok.1 e
      obtain ⟨q1, q2⟩ := ih d.1 d.2 ((job s t).after w) (by rw [hj]; exact fun t ht => h t (by simp [ht])) ts2 es2 (by
        simp only [Outcome.pure_eq, Outcome.ok.injEq, Prod.mk.injEq] at e3
        obtain ⟨-, rfl, rfl, rfl, -⟩ := e3
        exact e2)
      rw [hj] at q1
      simp only [Outcome.pure_eq, Outcome.ok.injEq, Prod.mk.injEq] at e3
      obtain ⟨rfl, -, -, -, rfl⟩ := e3
      refine ⟨?_, by rw [errs_append, n1, q2]; rfl⟩
      simp only [List.map_cons, failures, ← q1, marked, List.filter_cons]
      cases hp : (job s t).passes w with
      | true => rw [hp] at n3; simp only [if_true] at n3; simp [n3]
      | false =>
          rw [hp] at n3
          simp only [Bool.false_eq_true, if_false] at n3
          simp only [n3, n2, n4 hp, show ¬ ((0 : Int) = 1) by decide, ne_eq, not_false_eq_true, decide_true, if_true, List.map_cons, Bool.false_eq_true, if_false, List.cons_append, List.nil_append]
          rfl

theorem errs_errorLines (s : Suite W) (h : s.failed = 0 → marked s.tests = []) : errs (errorLines s) = marked s.tests := by
  unfold errorLines
  split
  · simp only [errs, marked, List.filterMap_cons, List.filterMap_map, Function.comp_def, List.filterMap_eq_map']
  · next h0 => rw [h (by simpa using h0)]; rfl

theorem failures_length (js : List (Job W)) (w : W) : (failures js w).length = (play js w).1.countP (!·.1) := by
  induction js generalizing w with
  | nil => rfl
  | cons j js ih =>
      cases hp : j.passes w <;> simp [failures, play, hp, ih, Nat.add_comm]

theorem runSuite_errors (c : Counters) (s : Suite W) (w : W) (h : s.fine) (s' : Suite W) (c' : Counters) (w' : W) (es : List Ev)
    (e : runSuite c s w = .ok (s', c', w', es)) : errs es = failures (jobs s) w ∧ w' = (play (jobs s) w).2 := by
  have hf : ∀ t ∈ s.tests, (job s t).fine := fun t ht => h _ (List.mem_map.2 ⟨t, ht, rfl⟩)
  obtain ⟨ts, s1, c1, es1, e1, r, -⟩ := runTests_spec s.tests s { c with suites := add c.suites 1 } w hf
  obtain ⟨m1, m2⟩ := runTests_errors s.tests s _ w hf _ _ _ _ _ e1
  unfold runSuite at e
  simp only [e1, Outcome.ok_bind, Outcome.pure_eq, Outcome.ok.injEq, Prod.mk.injEq] at e
  obtain ⟨rfl, rfl, rfl, rfl⟩ := e
  refine ⟨?_, rfl⟩
  rw [show ∀ (a : Ev) (l m : List Ev), a :: l ++ m = [a] ++ (l ++ m) from fun _ _ _ => rfl, errs_append, errs_append, m2, errs_errorLines]
  · simp [errs, m1, jobs_eq]
  · intro h0
    have h1 := r.failed
    rw [h0] at h1
    have h2 : (play (s.tests.map (job s)) w).1.countP (!·.1) = 0 := by omega
    rw [m1]
    apply List.eq_nil_of_length_eq_zero
    rw [failures_length, h2]

theorem failures_append (a b : List (Job W)) (w : W) : failures (a ++ b) w = failures a w ++ failures b (play a w).2 := by
  induction a generalizing w with
  | nil => rfl
  | cons j js ih => simp [failures, play, ih]

theorem runSuites_errors (ss : List (Suite W)) (c : Counters) (w : W) (h : ∀ s ∈ ss, s.fine) (ss' : List (Suite W)) (c' : Counters) (w' : W) (es : List Ev)
    (e : runSuites ss c w = .ok (ss', c', w', es)) : errs es = failures (ss.flatMap jobs) w := by
  induction ss generalizing c w ss' c' w' es with
  | nil => cases e; rfl
  | cons s ss ih =>
      rw [runSuites] at e
      obtain ⟨⟨s1, c1, w1, es1⟩, e1, e2⟩ := Outcome.bind_eq_ok.1 e
      obtain ⟨⟨ss2, c2, w2, es2⟩, e3, e4⟩ := Outcome.bind_eq_ok.1 e2
      obtain ⟨q1, rfl⟩ := runSuite_errors c s w (h s (by simp)) _ _ _ _ e1
      have q2 := ih _ _ (fun x hx => h x (by simp [hx])) _ _ _ _ e3
      simp only [Outcome.pure_eq, Outcome.ok.injEq, Prod.mk.injEq] at e4
      obtain ⟨-, -, -, rfl⟩ := e4
      rw [errs_append, q1, q2, List.flatMap_cons, failures_append]

theorem errs_stats (u : UnitT W) : errs (globalStats u) = [] := by
  unfold globalStats
  have h : ∀ l : List (Suite W), errs (l.flatMap fun s => if s.empty > 0 then (s.tests.filter fun t => t.assertions = 0 ∧ t.exceptions = 0).map fun t => Ev.empty t.name else []) = [] := by
    intro l
    induction l with
    | nil => rfl
    | cons s ss ih =>
        rw [List.flatMap_cons, errs_append, ih, List.append_nil]
        split
        · simp [errs, List.filterMap_map, Function.comp_def]
        · rfl
  split
  · rw [show ∀ (a : Ev) (l : List Ev), a :: l = [a] ++ l from fun _ _ => rfl, errs_append, h]; rfl
  · rfl

/-- **C71 (the errors reported).** A run lists exactly the tests that failed in this run, in order, each with the text of its failed assertion or of the exception it threw; whatever happened in earlier runs. -/
theorem c71_errors (u : UnitT W) (w : W) (hf : Fine u) : ∃ u' w' es, run u w = .ok (0, u', w', es) ∧ errs es = failures (u.suites.flatMap jobs) w := by
  obtain ⟨u', es, e, -⟩ := c71_run u w hf
  refine ⟨u', _, es, e, ?_⟩
  unfold run at e
  obtain ⟨⟨ss, c, w1, es1⟩, e1, e2⟩ := Outcome.bind_eq_ok.1 e
  simp only [Outcome.pure_eq, Outcome.ok.injEq, Prod.mk.injEq] at e2
  obtain ⟨-, -, -, rfl⟩ := e2
  rw [errs_append, errs_stats, List.append_nil]
  exact runSuites_errors _ _ _ (fun s hs => hf.suite hs) _ _ _ _ e1

example : failures (demo.suites.flatMap jobs) 0 = [([98], some [120])] := rfl

end ZT.Unit
