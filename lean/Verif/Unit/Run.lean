import Verif.Unit.Spec

/-!
# Running tests and suites
-/

namespace ZT.Unit

variable {W : Type}

/-- The job made of a test of a suite. -/
def job (s : Suite W) (t : Test W) : Job W := { name := t.name, cpp := s.cpp, setup := s.setup, fn := t.fn, teardown := s.teardown }

theorem jobs_eq (s : Suite W) : jobs s = s.tests.map (job s) := rfl

theorem runTest_spec (s : Suite W) (t : Test W) (w : W) (h : (job s t).fine) :
    ∃ t' x, runTest s t w = .ok (t', (job s t).after w, [Ev.test t.name, .result (t.assertions + (job s t).asserts w) x ((job s t).passes w)]) ∧
      t'.name = t.name ∧ t'.fn = t.fn ∧ t'.assertions = t.assertions + (job s t).asserts w ∧ t'.success = (if (job s t).passes w then 1 else 0) := by
  unfold runTest tryTest
  simp only [Job.after, Job.asserts, Job.passes, Job.before, job, Job.fine] at h ⊢
  obtain ⟨w', n, e, hf⟩ : ∃ w' n e, t.fn (call s.setup w) = (w', n, e) := ⟨_, _, _, rfl⟩
  simp only [hf, Outcome.pure_eq]
  cases e with
  | returned => exact ⟨_, _, rfl, rfl, rfl, rfl, rfl⟩
  | failed m => exact ⟨_, _, rfl, rfl, rfl, rfl, rfl⟩
  | threw m =>
      have hc : s.cpp = true := by
        rcases h with h | h
        · exact h
        · have := h (call s.setup w)
          rw [hf] at this; simp at this
      simp only [hc, if_true]
      exact ⟨_, _, rfl, rfl, rfl, rfl, rfl⟩
  | threwOther =>
      have hc : s.cpp = true := by
        rcases h with h | h
        · exact h
        · have := h (call s.setup w)
          rw [hf] at this; simp at this
      simp only [hc, if_true]
      exact ⟨_, _, rfl, rfl, rfl, rfl, rfl⟩

/-- The counters after runs with these results, the tests being counted or not. -/
structure Counted (c c' : Counters) (rs : List (Bool × Nat)) (tests suites : Nat) : Prop where
  suites : c'.suites % 2 ^ 32 = (c.suites + suites) % 2 ^ 32
  tests : c'.tests % 2 ^ 32 = (c.tests + tests) % 2 ^ 32
  successes : c'.successes % 2 ^ 32 = (c.successes + rs.countP (·.1)) % 2 ^ 32
  failures : c'.failures % 2 ^ 32 = (c.failures + rs.countP (!·.1)) % 2 ^ 32

theorem Counted.trans {c c' c'' : Counters} {rs qs : List (Bool × Nat)} {a b d e : Nat} (h : Counted c c' rs a b) (k : Counted c' c'' qs d e) : Counted c c'' (rs ++ qs) (a + d) (b + e) := by
  obtain ⟨h1, h2, h3, h4⟩ := h
  obtain ⟨k1, k2, k3, k4⟩ := k
  constructor <;> (try rw [List.countP_append]) <;> omega

theorem Counted.refl (c : Counters) : Counted c c [] 0 0 := by constructor <;> simp

theorem add_mod (a n : Nat) : add a n % 2 ^ 32 = (a + n) % 2 ^ 32 := by unfold add; omega

theorem countTest_spec (s : Suite W) (c : Counters) (t : Test W) (b : Bool) (n : Nat) (h : t.success = if b then 1 else 0) :
    Counted { c with tests := add c.tests 1 } (countTest s { c with tests := add c.tests 1 } t).2 [(b, n)] 0 0 ∧ (countTest s c t).1.name = s.name ∧ (countTest s c t).1.setup = s.setup ∧
      (countTest s c t).1.teardown = s.teardown ∧ (countTest s c t).1.cpp = s.cpp ∧ (countTest s c t).1.tests = s.tests ∧
      (countTest s c t).2.assertions % 2 ^ 32 = (c.assertions + t.assertions) % 2 ^ 32 ∧ (countTest s c t).1.failed = s.failed + (if b then 0 else 1) := by
  unfold countTest
  refine ⟨⟨?_, ?_, ?_, ?_⟩, ?_⟩ <;> cases b <;> simp only [h, Bool.false_eq_true, if_true, if_false] <;> simp only [show ¬ ((0:Int) = 1) by decide, ne_eq, not_true_eq_false, not_false_eq_true, if_true, if_false] <;>
    by_cases e : t.assertions = 0 ∧ t.exceptions = 0 <;> simp [e, add]

theorem play_append (a b : List (Job W)) (w : W) : play (a ++ b) w = ((play a w).1 ++ (play b (play a w).2).1, (play b (play a w).2).2) := by
  induction a generalizing w with
  | nil => simp [play]
  | cons j js ih => simp [play, ih]

theorem play_length (a : List (Job W)) (w : W) : (play a w).1.length = a.length := by
  induction a generalizing w with
  | nil => rfl
  | cons j js ih => simp [play, ih]

/-- Assertions reported for the runs: those of earlier runs of a test are reported again. -/
def recount : List (Test W) → List (Bool × Nat) → Nat
  | t :: ts, r :: rs => t.assertions + r.2 + recount ts rs
  | _, _ => 0

/-- The state after running a list of tests. -/
structure Ran (s s' : Suite W) (ts ts' : List (Test W)) (c c' : Counters) (rs : List (Bool × Nat)) : Prop where
  name : s'.name = s.name
  setup : s'.setup = s.setup
  teardown : s'.teardown = s.teardown
  cpp : s'.cpp = s.cpp
  failed : s'.failed = s.failed + rs.countP (!·.1)
  jobs : ts'.map (job s) = ts.map (job s)
  success : ts'.map (·.success) = rs.map fun r => if r.1 then 1 else 0
  asserts : ts'.map (·.assertions) = (ts.zip rs).map fun p => p.1.assertions + p.2.2
  counted : Counted c c' rs ts.length 0
  total : c'.assertions % 2 ^ 32 = (c.assertions + recount ts rs) % 2 ^ 32

theorem job_congr {s s' : Suite W} (h1 : s'.setup = s.setup) (h2 : s'.teardown = s.teardown) (h3 : s'.cpp = s.cpp) : job s' = job s := by
  funext t; simp [job, h1, h2, h3]

theorem runTests_spec (ts : List (Test W)) (s : Suite W) (c : Counters) (w : W) (h : ∀ t ∈ ts, (job s t).fine) :
    ∃ ts' s' c' es, runTests ts s c w = .ok (ts', s', c', (play (ts.map (job s)) w).2, es) ∧ Ran s s' ts ts' c c' (play (ts.map (job s)) w).1 ∧
      reported es = ts.map (·.name) ∧ results es = (play (ts.map (job s)) w).1.map (·.1) ∧ missing es = [] := by
  induction ts generalizing s c w with
  | nil => exact ⟨[], s, c, [], rfl, ⟨rfl, rfl, rfl, rfl, by simp [play], rfl, by simp [play], by simp [play], Counted.refl c, by simp [recount]⟩, rfl, rfl, rfl⟩
  | cons t ts ih =>
      obtain ⟨t', x, e1, n1, n2, n3, n4⟩ := runTest_spec s t w (h t (by simp))
      have k := countTest_spec s { c with tests := add c.tests 1 } t' ((job s t).passes w) ((job s t).asserts w) n4
      have k1 := (countTest_spec s c t' ((job s t).passes w) ((job s t).asserts w) n4).1
      obtain ⟨-, f1, f2, f3, f4, -, f6, f7⟩ := k
      generalize hd : countTest s { c with tests := add c.tests 1 } t' = d at k1 f1 f2 f3 f4 f6 f7
      have hj := job_congr f2 f3 f4
      obtain ⟨ts', s', c', es, e2, r, p1, p2, p3⟩ := ih d.1 d.2 ((job s t).after w) (by rw [hj]; exact fun t ht => h t (by simp [ht]))
      rw [hj] at e2 r p2
      refine ⟨t' :: ts', s', c', [Ev.test t.name, .result (t.assertions + (job s t).asserts w) x ((job s t).passes w)] ++ es, ?_, ?_, ?_, ?_, ?_⟩
      · rw [runTests]
        refine Outcome.bind_eq_ok.2 ⟨_, e1, ?_⟩
        simp only [hd]
        exact Outcome.bind_eq_ok.2 ⟨_, e2, rfl⟩
      · obtain ⟨r1, r2, r3, r4, r5, r6, r7, r8, r9, r10⟩ := r
        have hjt : job s t' = job s t := by simp [job, n1, n2]
        refine ⟨r1.trans f1, r2.trans f2, r3.trans f3, r4.trans f4, ?_, ?_, ?_, ?_, ?_, ?_⟩
        · rw [r5, f7]
          cases hp : (job s t).passes w <;> simp [play, hp, List.countP_cons] <;> omega
        · rw [hj] at r6
          simp [hjt, r6]
        · simp [play, r7, n4]
        · simp [play, r8, n3]
        · have := Counted.trans (Counted.trans (c := c) (c' := { c with tests := add c.tests 1 }) (rs := []) (a := 1) (b := 0) ⟨by simp, by simp [add], by simp, by simp⟩ k1) r9
          simpa [play, Nat.add_comm] using this
        · simp only [List.map_cons, play, recount]
          rw [r10, Nat.add_mod, f6]
          simp only [n3]
          omega
      · simp [reported] at p1 ⊢; exact p1
      · simp [results, play] at p2 ⊢; exact p2
      · simp [missing] at p3 ⊢; exact p3

theorem errorLines_silent (s : Suite W) : reported (errorLines s) = [] ∧ results (errorLines s) = [] ∧ missing (errorLines s) = [] := by
  unfold errorLines
  split
  · simp only [reported, results, missing]
    simp [List.filterMap_map, Function.comp_def]
  · exact ⟨rfl, rfl, rfl⟩

theorem reported_append (a b : List Ev) : reported (a ++ b) = reported a ++ reported b := by simp [reported]
theorem results_append (a b : List Ev) : results (a ++ b) = results a ++ results b := by simp [results]
theorem missing_append (a b : List Ev) : missing (a ++ b) = missing a ++ missing b := by simp [missing]

/-- What the events say. -/
structure Says (es : List Ev) (names : List Str) (rs : List (Bool × Nat)) (miss : List Str) : Prop where
  names : reported es = names
  results : results es = rs.map (·.1)
  missing : missing es = miss

theorem Says.append {a b : List Ev} {n m : List Str} {rs qs : List (Bool × Nat)} {x y : List Str} (h : Says a n rs x) (k : Says b m qs y) : Says (a ++ b) (n ++ m) (rs ++ qs) (x ++ y) :=
  ⟨by rw [reported_append, h.names, k.names], by rw [results_append, h.results, k.results, List.map_append], by rw [missing_append, h.missing, k.missing]⟩

/-- All tests of the suite may run. -/
def Suite.fine (s : Suite W) : Prop := ∀ j ∈ jobs s, j.fine

/-- Assertions reported for a suite. -/
theorem runSuite_spec (c : Counters) (s : Suite W) (w : W) (h : s.fine) :
    ∃ s' c' es, runSuite c s w = .ok (s', c', (play (jobs s) w).2, es) ∧ s'.name = s.name ∧ jobs s' = jobs s ∧ s'.tests.map (·.success) = (play (jobs s) w).1.map (fun r => if r.1 then 1 else 0) ∧
      Counted c c' (play (jobs s) w).1 (jobs s).length 1 ∧ c'.assertions % 2 ^ 32 = (c.assertions + recount s.tests (play (jobs s) w).1) % 2 ^ 32 ∧ Says es ((jobs s).map (·.name)) (play (jobs s) w).1 [] := by
  have hf : ∀ t ∈ s.tests, (job s t).fine := fun t ht => h _ (List.mem_map.2 ⟨t, ht, rfl⟩)
  obtain ⟨ts, s', c', es, e, r, p1, p2, p3⟩ := runTests_spec s.tests s { c with suites := add c.suites 1 } w hf
  have hq := errorLines_silent { s' with tests := ts }
  refine ⟨{ s' with tests := ts }, c', .suite s.name :: es ++ errorLines { s' with tests := ts }, ?_, r.name, ?_, r.success, ?_, r.total, ?_, ?_, ?_⟩
  · unfold runSuite
    exact Outcome.bind_eq_ok.2 ⟨_, e, rfl⟩
  · have := job_congr (s := s) (s' := { s' with tests := ts }) r.setup r.teardown r.cpp
    rw [jobs_eq, jobs_eq, this]
    exact r.jobs
  · have k := r.counted
    have := Counted.trans (c := c) (c' := { c with suites := add c.suites 1 }) (rs := []) (a := 0) (b := 1) ⟨by simp [add], by simp, by simp, by simp⟩ k
    simpa [jobs_eq] using this
  · rw [List.cons_append, show ∀ (a : Ev) (l : List Ev), a :: l = [a] ++ l from fun _ _ => rfl, reported_append, reported_append, hq.1, p1]
    simp [reported, jobs_eq, job, Function.comp_def]
  · rw [List.cons_append, show ∀ (a : Ev) (l : List Ev), a :: l = [a] ++ l from fun _ _ => rfl, results_append, results_append, hq.2.1, p2]
    simp [results, jobs_eq]
  · rw [List.cons_append, show ∀ (a : Ev) (l : List Ev), a :: l = [a] ++ l from fun _ _ => rfl, missing_append, missing_append, hq.2.2, p3]
    simp [missing]

/-- Assertions reported for a list of suites. -/
def recountAll : List (Suite W) → W → Nat
  | [], _ => 0
  | s :: ss, w => recount s.tests (play (jobs s) w).1 + recountAll ss (play (jobs s) w).2

theorem runSuites_spec (ss : List (Suite W)) (c : Counters) (w : W) (h : ∀ s ∈ ss, s.fine) :
    ∃ ss' c' es, runSuites ss c w = .ok (ss', c', (play (ss.flatMap jobs) w).2, es) ∧ ss'.map (fun s => (s.name, jobs s)) = ss.map (fun s => (s.name, jobs s)) ∧
      ss'.flatMap (fun s => s.tests.map (·.success)) = (play (ss.flatMap jobs) w).1.map (fun r => if r.1 then 1 else 0) ∧
      Counted c c' (play (ss.flatMap jobs) w).1 (ss.flatMap jobs).length ss.length ∧ c'.assertions % 2 ^ 32 = (c.assertions + recountAll ss w) % 2 ^ 32 ∧ Says es ((ss.flatMap jobs).map (·.name)) (play (ss.flatMap jobs) w).1 [] := by
  induction ss generalizing c w with
  | nil => exact ⟨[], c, [], rfl, rfl, rfl, Counted.refl c, rfl, rfl, rfl, rfl⟩
  | cons s ss ih =>
      obtain ⟨s', c', es, e, n, j, su, k, t, sy⟩ := runSuite_spec c s w (h s (by simp))
      obtain ⟨ss', c'', es', e', j', su', k', t', sy'⟩ := ih c' (play (jobs s) w).2 (fun x hx => h x (by simp [hx]))
      refine ⟨s' :: ss', c'', es ++ es', ?_, ?_, ?_, ?_, ?_, ?_⟩
      · rw [runSuites]
        refine Outcome.bind_eq_ok.2 ⟨_, e, ?_⟩
        refine Outcome.bind_eq_ok.2 ⟨_, e', ?_⟩
        simp [play_append]
      · simp [n, j, j']
      · simp [play_append, su, su']
      · have := k.trans k'
        simpa [play_append, Nat.add_comm] using this
      · simp only [recountAll]; omega
      · have := sy.append sy'
        simpa [play_append] using this

theorem globalStats_silent (u : UnitT W) : Says (globalStats u) [] [] [] := by
  have h : ∀ (l : List (Suite W)), Says (l.flatMap fun s => if s.empty > 0 then (s.tests.filter fun t => t.assertions = 0 ∧ t.exceptions = 0).map fun t => Ev.empty t.name else []) [] [] [] := by
    intro l
    induction l with
    | nil => exact ⟨rfl, rfl, rfl⟩
    | cons s ss ih =>
        have : Says (if s.empty > 0 then (s.tests.filter fun t => t.assertions = 0 ∧ t.exceptions = 0).map fun t => Ev.empty t.name else []) [] [] [] := by
          split
          · constructor <;> simp only [reported, results, missing] <;> simp [List.filterMap_map, Function.comp_def]
          · exact ⟨rfl, rfl, rfl⟩
        exact this.append ih
  unfold globalStats
  have k := h u.suites
  split
  · exact Says.append (a := [.stats u.c]) (rs := []) ⟨rfl, rfl, rfl⟩ k
  · exact ⟨rfl, rfl, rfl⟩

end ZT.Unit
