import Verif.Unit.Report

/-!
# C103: the events of the first run of a unit
-/

namespace ZT.Unit.Report

variable {W : Type}

/-- The events of the tests. -/
def evTests : List (Job W) → W → List Ev
  | [], _ => []
  | j :: js, w => [.test j.name, .result (j.asserts w) (excs j w) (j.passes w)] ++ evTests js (j.after w)

def evErrors (fs : List (Str × Option Str)) : List Ev := if fs = [] then [] else .errors :: fs.map fun p => .error p.1 p.2

def evSuites : List (Str × List (Job W)) → W → List Ev
  | [], _ => []
  | (n, js) :: p, w => (.suite n :: (evTests js w ++ evErrors (failures js w))) ++ evSuites p (play js w).2

/-- The counters as they are stored. -/
def wrap (k : Counters) : Counters :=
  { suites := k.suites % 2 ^ 32, tests := k.tests % 2 ^ 32, successes := k.successes % 2 ^ 32, failures := k.failures % 2 ^ 32, assertions := k.assertions % 2 ^ 32,
    exceptions := k.exceptions % 2 ^ 32, empty := k.empty % 2 ^ 32 }

def isIdle (j : Job W) (w : W) : Bool := j.asserts w == 0 && excs j w == 0

/-- The counters after one test. -/
def kTest (j : Job W) (w : W) (k : Counters) : Counters :=
  { k with tests := k.tests + 1, successes := k.successes + (if j.passes w then 1 else 0), failures := k.failures + (if j.passes w then 0 else 1), assertions := k.assertions + j.asserts w,
           exceptions := k.exceptions + excs j w, empty := k.empty + (if isIdle j w then 1 else 0) }

def kTests : List (Job W) → W → Counters → Counters
  | [], _, k => k
  | j :: js, w, k => kTests js (j.after w) (kTest j w k)

def kSuites : List (Str × List (Job W)) → W → Counters → Counters
  | [], _, k => k
  | (_, js) :: p, w, k => kSuites p (play js w).2 (kTests js w { k with suites := k.suites + 1 })

/-- The tests without assertions and exceptions. -/
def idles (ts : List (Test W)) : List Str := (ts.filter fun t => t.assertions = 0 ∧ t.exceptions = 0).map (·.name)

theorem runTest_exact (s : Suite W) (t : Test W) (w : W) (h : (job s t).fine) (h0 : t.assertions = 0 ∧ t.exceptions = 0) :
    ∃ t', runTest s t w = .ok (t', (job s t).after w, [Ev.test t.name, .result ((job s t).asserts w) (excs (job s t) w) ((job s t).passes w)]) ∧
      t'.name = t.name ∧ t'.success = (if (job s t).passes w then 1 else 0) ∧ t'.assertions = (job s t).asserts w ∧ t'.exceptions = excs (job s t) w ∧
      ((job s t).passes w = false → t'.error = some ((job s t).fn ((job s t).before w)).2.2.message) := by
  obtain ⟨t1, es, e, -, -, -, he⟩ := runTest_error s t w h
  suffices hs : ∃ t', runTest s t w = .ok (t', (job s t).after w, [Ev.test t.name, .result ((job s t).asserts w) (excs (job s t) w) ((job s t).passes w)]) ∧
      t'.name = t.name ∧ t'.success = (if (job s t).passes w then 1 else 0) ∧ t'.assertions = (job s t).asserts w ∧ t'.exceptions = excs (job s t) w by
    obtain ⟨t', e', a, b, c, d⟩ := hs
    rw [e] at e'
    cases e'
    exact ⟨_, e, a, b, c, d, he⟩
  clear e he
  unfold runTest tryTest
  simp only [Job.after, Job.asserts, Job.passes, Job.before, job, Job.fine, excs] at h ⊢
  obtain ⟨w', n, e, hf⟩ : ∃ w' n e, t.fn (call s.setup w) = (w', n, e) := ⟨_, _, _, rfl⟩
  simp only [hf, Outcome.pure_eq, h0.1, h0.2, Nat.zero_add]
  cases e with
  | returned => exact ⟨_, rfl, rfl, rfl, rfl, rfl⟩
  | failed m => exact ⟨_, rfl, rfl, rfl, rfl, rfl⟩
  | threw m =>
      have hc : s.cpp = true := by
        rcases h with h | h
        · exact h
        · have := h (call s.setup w)
          rw [hf] at this; simp at this
      simp only [hc, if_true]
      exact ⟨_, rfl, rfl, rfl, rfl, rfl⟩
  | threwOther =>
      have hc : s.cpp = true := by
        rcases h with h | h
        · exact h
        · have := h (call s.setup w)
          rw [hf] at this; simp at this
      simp only [hc, if_true]
      exact ⟨_, rfl, rfl, rfl, rfl, rfl⟩

theorem add_wrap (a n : Nat) : add (a % 4294967296) n = (a + n) % 4294967296 := by unfold add; omega

theorem countTest_exact (s : Suite W) (k : Counters) (t : Test W) (j : Job W) (w : W) (h1 : t.success = if j.passes w then 1 else 0) (h2 : t.assertions = j.asserts w) (h3 : t.exceptions = excs j w) :
    (countTest s { wrap k with tests := add (wrap k).tests 1 } t).2 = wrap (kTest j w k) ∧
    (countTest s { wrap k with tests := add (wrap k).tests 1 } t).1.failed = s.failed + (if j.passes w then 0 else 1) ∧
    (countTest s { wrap k with tests := add (wrap k).tests 1 } t).1.empty = s.empty + (if isIdle j w then 1 else 0) ∧
    (countTest s { wrap k with tests := add (wrap k).tests 1 } t).1.setup = s.setup ∧ (countTest s { wrap k with tests := add (wrap k).tests 1 } t).1.teardown = s.teardown ∧
    (countTest s { wrap k with tests := add (wrap k).tests 1 } t).1.cpp = s.cpp ∧ (countTest s { wrap k with tests := add (wrap k).tests 1 } t).1.name = s.name := by
  have hi : (isIdle j w = true) ↔ (t.assertions = 0 ∧ t.exceptions = 0) := by simp [isIdle, h2, h3]
  unfold countTest
  by_cases e : t.assertions = 0 ∧ t.exceptions = 0
  · have hi := hi.2 e
    simp only [if_pos e, hi, if_true]
    cases hp : j.passes w <;> simp [h1, hp, wrap, kTest, add_wrap, h2, h3, hi]
  · have hi : isIdle j w = false := by rw [← Bool.not_eq_true, hi]; exact e
    simp only [if_neg e, hi]
    cases hp : j.passes w <;> simp [h1, hp, wrap, kTest, add_wrap, h2, h3, hi]

theorem runTests_exact (ts : List (Test W)) (s : Suite W) (k : Counters) (w : W) (h : ∀ t ∈ ts, (job s t).fine) (h0 : ∀ t ∈ ts, t.assertions = 0 ∧ t.exceptions = 0) :
    ∃ ts' s', runTests ts s (wrap k) w = .ok (ts', s', wrap (kTests (ts.map (job s)) w k), (play (ts.map (job s)) w).2, evTests (ts.map (job s)) w) ∧
      marked ts' = failures (ts.map (job s)) w ∧ idles ts' = idle (ts.map (job s)) w ∧ s'.failed = s.failed + (failures (ts.map (job s)) w).length ∧
      s'.empty = s.empty + (idle (ts.map (job s)) w).length ∧ s'.name = s.name := by
  induction ts generalizing s k w with
  | nil => exact ⟨[], s, rfl, rfl, rfl, rfl, rfl, rfl⟩
  | cons t ts ih =>
      obtain ⟨t', e1, n1, n2, n3, n4, n5⟩ := runTest_exact s t w (h t (by simp)) (h0 t (by simp))
      obtain ⟨c1, c2, c3, c4, c5, c6, c7⟩ := countTest_exact s k t' (job s t) w n2 n3 n4
      generalize hd : countTest s { wrap k with tests := add (wrap k).tests 1 } t' = d at c1 c2 c3 c4 c5 c6 c7
      have hj := job_congr c4 c5 c6
      obtain ⟨ts', s', e2, m1, m2, m3, m4, m5⟩ := ih d.1 (kTest (job s t) w k) ((job s t).after w) (by rw [hj]; exact fun t ht => h t (by simp [ht])) (fun t ht => h0 t (by simp [ht]))
      rw [hj] at e2 m1 m2 m3 m4
      refine ⟨t' :: ts', s', ?_, ?_, ?_, ?_, ?_, m5.trans c7⟩
      · rw [runTests]
        refine Outcome.bind_eq_ok.2 ⟨_, e1, ?_⟩
        simp only [hd, c1]
        exact Outcome.bind_eq_ok.2 ⟨_, e2, rfl⟩
      · simp only [List.map_cons, failures, ← m1, marked, List.filter_cons]
        cases hp : (job s t).passes w with
        | true => rw [hp] at n2; simp only [if_true] at n2; simp [n2]
        | false =>
            rw [hp] at n2
            simp only [Bool.false_eq_true, if_false] at n2
            simp only [n2, n1, n5 hp, show ¬ ((0 : Int) = 1) by decide, ne_eq, not_false_eq_true, decide_true, if_true, List.map_cons, Bool.false_eq_true, if_false, List.cons_append, List.nil_append]
            rfl
      · simp only [List.map_cons, idle, ← m2, idles, List.filter_cons, n3, n4]
        by_cases e : (job s t).asserts w = 0 ∧ excs (job s t) w = 0
        · simp only [e, and_self, decide_true, if_true, List.map_cons, n1, List.cons_append, List.nil_append]; rfl
        · rw [if_neg (by simpa using e), if_neg e]; rfl
      · rw [m3, c2, List.map_cons, failures]
        cases (job s t).passes w <;> simp <;> omega
      · rw [m4, c3, List.map_cons, idle]
        by_cases e : (job s t).asserts w = 0 ∧ excs (job s t) w = 0
        · have : isIdle (job s t) w = true := by simp [isIdle, e]
          rw [if_pos e, if_pos this]; simp; omega
        · have : isIdle (job s t) w = false := by rw [← Bool.not_eq_true]; simpa [isIdle] using e
          rw [if_neg e, this]; simp

theorem runSuite_exact (s : Suite W) (k : Counters) (w : W) (h : s.fine) (h0 : ∀ t ∈ s.tests, t.assertions = 0 ∧ t.exceptions = 0) (hz : s.failed = 0 ∧ s.empty = 0) :
    ∃ s', runSuite (wrap k) s w = .ok (s', wrap (kTests (jobs s) w { k with suites := k.suites + 1 }), (play (jobs s) w).2, .suite s.name :: (evTests (jobs s) w ++ evErrors (failures (jobs s) w))) ∧
      (if s'.empty > 0 then idles s'.tests else []) = idle (jobs s) w := by
  have hf : ∀ t ∈ s.tests, (job s t).fine := fun t ht => h _ (List.mem_map.2 ⟨t, ht, rfl⟩)
  obtain ⟨ts, s', e, m1, m2, m3, m4, m5⟩ := runTests_exact s.tests s { k with suites := k.suites + 1 } w hf h0
  have hw : { wrap k with suites := add (wrap k).suites 1 } = wrap { k with suites := k.suites + 1 } := by simp [wrap, add_wrap]
  refine ⟨{ s' with tests := ts }, ?_, ?_⟩
  · unfold runSuite
    simp only [hw]
    refine Outcome.bind_eq_ok.2 ⟨_, e, ?_⟩
    simp only [Outcome.pure_eq, List.cons_append, ← jobs_eq]
    congr 5
    unfold errorLines evErrors
    rw [jobs_eq, ← m1]
    simp only [m3, hz.1, Nat.zero_add]
    rw [← m1]
    by_cases hm : marked ts = []
    · simp [hm]
    · have : (marked ts).length ≠ 0 := fun e => hm (List.eq_nil_of_length_eq_zero e)
      rw [if_pos this, if_neg hm]
      simp [marked, Function.comp_def]
  · show (if s'.empty > 0 then idles ts else []) = _
    rw [hz.2, Nat.zero_add, ← m2] at m4
    rw [m4, jobs_eq, ← m2]
    by_cases hm : idles ts = []
    · simp [hm]
    · exact if_pos (List.length_pos_iff.2 hm)

theorem idle_append (a b : List (Job W)) (w : W) : idle (a ++ b) w = idle a w ++ idle b (play a w).2 := by
  induction a generalizing w with
  | nil => rfl
  | cons j js ih => simp [idle, play, ih]

/-- A suite as it is registered: nothing has been counted yet. -/
def NewSuite (s : Suite W) : Prop := s.failed = 0 ∧ s.empty = 0 ∧ ∀ t ∈ s.tests, t.assertions = 0 ∧ t.exceptions = 0

theorem runSuites_exact (ss : List (Suite W)) (k : Counters) (w : W) (h : ∀ s ∈ ss, s.fine) (h0 : ∀ s ∈ ss, NewSuite s) :
    ∃ ss', runSuites ss (wrap k) w = .ok (ss', wrap (kSuites (ss.map fun s => (s.name, jobs s)) w k), (play (ss.flatMap jobs) w).2, evSuites (ss.map fun s => (s.name, jobs s)) w) ∧
      (ss'.flatMap fun s => if s.empty > 0 then idles s.tests else []) = idle (ss.flatMap jobs) w := by
  induction ss generalizing k w with
  | nil => exact ⟨[], rfl, rfl⟩
  | cons s ss ih =>
      obtain ⟨z1, z2, z3⟩ := h0 s (by simp)
      obtain ⟨s', e1, i1⟩ := runSuite_exact s k w (h s (by simp)) z3 ⟨z1, z2⟩
      obtain ⟨ss', e2, i2⟩ := ih (kTests (jobs s) w { k with suites := k.suites + 1 }) (play (jobs s) w).2 (fun x hx => h x (by simp [hx])) (fun x hx => h0 x (by simp [hx]))
      refine ⟨s' :: ss', ?_, ?_⟩
      · rw [runSuites]
        refine Outcome.bind_eq_ok.2 ⟨_, e1, ?_⟩
        refine Outcome.bind_eq_ok.2 ⟨_, e2, ?_⟩
        simp [play_append, evSuites, kSuites]
      · rw [List.flatMap_cons, List.flatMap_cons, i1, i2, idle_append]

theorem kTests_eq (js : List (Job W)) (w : W) (k : Counters) : kTests js w k =
    { k with tests := k.tests + js.length, successes := k.successes + (play js w).1.countP (·.1), failures := k.failures + (play js w).1.countP (!·.1),
             assertions := k.assertions + ((play js w).1.map (·.2)).sum, exceptions := k.exceptions + excsOf js w, empty := k.empty + (idle js w).length } := by
  induction js generalizing w k with
  | nil => simp [kTests, play, excsOf, idle]
  | cons j js ih =>
      rw [kTests, ih]
      have hi : (isIdle j w = true) ↔ (j.asserts w = 0 ∧ excs j w = 0) := by simp [isIdle]
      simp only [kTest, play, excsOf, idle, List.length_cons, List.map_cons, List.sum_cons, List.countP_cons, List.length_append]
      congr 1
      · omega
      · cases j.passes w <;> simp <;> omega
      · cases j.passes w <;> simp <;> omega
      · omega
      · omega
      · by_cases e : j.asserts w = 0 ∧ excs j w = 0
        · rw [if_pos e, if_pos (hi.2 e)]; simp; omega
        · rw [if_neg e, if_neg (fun x => e (hi.1 x))]; simp

theorem excsOf_append (a b : List (Job W)) (w : W) : excsOf (a ++ b) w = excsOf a w + excsOf b (play a w).2 := by
  induction a generalizing w with
  | nil => simp [excsOf, play]
  | cons j js ih => simp [excsOf, play, ih, Nat.add_assoc]

theorem kSuites_eq (p : List (Str × List (Job W))) (w : W) (k : Counters) : kSuites p w k =
    { k with suites := k.suites + p.length, tests := k.tests + (p.flatMap (·.2)).length, successes := k.successes + (play (p.flatMap (·.2)) w).1.countP (·.1),
             failures := k.failures + (play (p.flatMap (·.2)) w).1.countP (!·.1), assertions := k.assertions + ((play (p.flatMap (·.2)) w).1.map (·.2)).sum,
             exceptions := k.exceptions + excsOf (p.flatMap (·.2)) w, empty := k.empty + (idle (p.flatMap (·.2)) w).length } := by
  induction p generalizing w k with
  | nil => simp [kSuites, play, excsOf, idle]
  | cons x p ih =>
      obtain ⟨n, js⟩ := x
      rw [kSuites, ih, kTests_eq]
      simp only [List.flatMap_cons, play_append, excsOf_append, idle_append, List.length_append, List.length_cons, List.countP_append, List.map_append, List.sum_append]
      congr 1 <;> omega

/-- A unit in which nothing has run yet. -/
def New (u : UnitT W) : Prop := u.c = {} ∧ ∀ s ∈ u.suites, NewSuite s

/-- The counters after the first run. -/
def finalCounters (p : List (Str × List (Job W))) (w : W) : Counters := wrap (kSuites p w {})

theorem run_exact (u : UnitT W) (w : W) (hf : Fine u) (hn : New u) (hi : (idle ((plan u).flatMap (·.2)) w).length < 2 ^ 32) :
    ∃ u' w', run u w = .ok (0, u', w', evSuites (plan u) w ++ .stats (finalCounters (plan u) w) :: (idle ((plan u).flatMap (·.2)) w).map .empty) := by
  obtain ⟨ss, e, i⟩ := runSuites_exact u.suites {} w (fun s hs => hf.suite hs) hn.2
  have hj : (plan u).flatMap (·.2) = u.suites.flatMap jobs := by simp [plan, List.flatMap_map]
  have e' : runSuites u.suites u.c w = .ok (ss, finalCounters (plan u) w, (play (u.suites.flatMap jobs) w).2, evSuites (plan u) w) := by rw [hn.1]; exact e
  refine ⟨{ suites := ss, c := finalCounters (plan u) w }, (play (u.suites.flatMap jobs) w).2, Outcome.bind_eq_ok.2 ⟨_, e', ?_⟩⟩
  simp only [Outcome.pure_eq]
  congr 5
  have hc : (finalCounters (plan u) w).empty = (idle ((plan u).flatMap (·.2)) w).length := by
    show (kSuites (plan u) w {}).empty % 2 ^ 32 = _
    rw [kSuites_eq]
    show (0 + _) % _ = _
    omega
  unfold globalStats
  simp only [hc]
  have hm : (ss.flatMap fun s => if s.empty > 0 then (s.tests.filter fun t => t.assertions = 0 ∧ t.exceptions = 0).map fun t => Ev.empty t.name else []) =
      (ss.flatMap fun s => if s.empty > 0 then idles s.tests else []).map .empty := by
    rw [List.map_flatMap]
    congr 1
    funext s
    split
    · simp [idles, Function.comp_def]
    · rfl
  rw [hm, i, hj]
  by_cases he : idle (u.suites.flatMap jobs) w = []
  · simp [he]
  · rw [if_pos (List.length_pos_iff.2 he)]

end ZT.Unit.Report
