import Verif.Unit.Names

/-!
# C71-C73: what a test program reports
-/

namespace ZT.Unit

variable {W : Type}

/-- Only C++ tests throw exceptions. -/
def Fine (u : UnitT W) : Prop := ∀ p ∈ plan u, ∀ j ∈ p.2, j.fine

theorem Fine.suite {u : UnitT W} (h : Fine u) {s : Suite W} (hs : s ∈ u.suites) : s.fine := fun j hj => h (s.name, jobs s) (List.mem_map.2 ⟨s, hs, rfl⟩) j hj

theorem Fine.congr {u u' : UnitT W} (h : Fine u) (e : plan u' = plan u) : Fine u' := by unfold Fine; rw [e]; exact h

theorem map_set_same {α β : Type} {f : α → β} {l : List α} {i : Nat} {x y : α} (hi : l[i]? = some x) (e : f y = f x) : (l.set i y).map f = l.map f := by
  apply List.ext_getElem?
  intro k
  simp only [List.getElem?_map, List.getElem?_set]
  split
  · rename_i h
    subst h
    rw [List.getElem?_eq_some_iff] at hi
    obtain ⟨hlt, hi⟩ := hi
    simp [hlt, hi, e]
  · rfl

/-- What a run of the jobs `js` does to the unit. -/
structure Done (u u' : UnitT W) (js : List (Job W)) (w w' : W) (es : List Ev) : Prop where
  plan : plan u' = plan u
  world : w' = (play js w).2
  counted : ∃ a b, Counted u.c u'.c (play js w).1 a b
  says : Says es (js.map (·.name)) (play js w).1 []

theorem runIn_suite {u : UnitT W} (hf : Fine u) {v : List Str} {i : Nat} {s : Suite W} (hi : u.suites[i]? = some s) (w : W) :
    ∃ u' w' es, runIn u v 1 i w = .ok (0, u', w', es) ∧ Done u u' (jobs s) w w' es := by
  obtain ⟨s', c', es, e, n, j, -, k, -, sy⟩ := runSuite_spec u.c s w (hf.suite (List.mem_of_getElem? hi))
  refine ⟨{ suites := u.suites.set i s', c := c' }, _, es, ?_, ?_, rfl, ⟨_, _, k⟩, sy⟩
  · unfold runIn
    simp only [hi, if_true]
    exact Outcome.bind_eq_ok.2 ⟨_, e, rfl⟩
  · exact map_set_same hi (by simp [n, j])

theorem runOne_spec {u : UnitT W} (hf : Fine u) {i j : Nat} {s : Suite W} {t : Test W} (hi : u.suites[i]? = some s) (hj : s.tests[j]? = some t) (w : W) :
    ∃ u' w' es, runOne u i s j w = .ok (0, u', w', es) ∧ Done u u' [job s t] w w' es := by
  have hfine : (job s t).fine := hf.suite (List.mem_of_getElem? hi) _ (List.mem_map.2 ⟨t, List.mem_of_getElem? hj, rfl⟩)
  obtain ⟨t', x, e, n1, n2, -, n4⟩ := runTest_spec s t w hfine
  refine ⟨{ suites := u.suites.set i { s with tests := s.tests.set j t' }, c := if t'.success = 0 then { u.c with failures := add u.c.failures 1 } else { u.c with successes := add u.c.successes 1 } },
    (job s t).after w, [Ev.test t.name, .result (t.assertions + (job s t).asserts w) x ((job s t).passes w)], ?_, ?_, rfl, ⟨0, 0, ?_⟩, ?_⟩
  · unfold runOne
    simp only [hj]
    exact Outcome.bind_eq_ok.2 ⟨_, e, rfl⟩
  · refine map_set_same hi ?_
    have : (s.tests.set j t').map (job s) = s.tests.map (job s) := map_set_same hj (by simp [job, n1, n2])
    exact congrArg (Prod.mk s.name) this
  · simp only [n4, play]
    cases h : (job s t).passes w <;> constructor <;> simp [add]
  · refine ⟨?_, ?_, ?_⟩ <;> simp [reported, results, missing, play, job]

theorem part_zero {n : Str} {v : List Str} : part (n :: v) 0 = .ok n := rfl

/-- Running by a proper name: the jobs selected are run, or there are none and nothing happens. -/
theorem runByName_spec {u : UnitT W} (hf : Fine u) {n : Str} (hn : Proper n) (w : W) :
    (∃ js u' w' es, Selects (plan u) n js ∧ runByName u n w = .ok (0, u', w', es) ∧ Done u u' js w w' es) ∨
      ((∀ js, ¬ Selects (plan u) n js) ∧ runByName u n w = .ok (-1, u, w, [])) := by
  unfold runByName
  by_cases h0 : n.count 46 = 0
  · have hd : (46 : Byte) ∉ n := fun hm => absurd (List.count_pos_iff.2 hm) (by omega)
    rw [split_plain hd, if_neg hn.1]
    simp only [show ¬ ((1 : Nat) ≤ 0 ∨ 1 > 2) by decide, if_false, part_zero, Outcome.ok_bind]
    cases hs : findSuite n u.suites with
    | none =>
        right
        refine ⟨?_, rfl⟩
        intro js k
        cases k with
        | suite _ s k1 k2 => exact not_first (f := fun (s : Suite W) => (s.name, jobs s)) (name := fun x => x.1) (fun x hx => findSuite_none hs x hx) _ k2
        | test a b s j k1 => simp at hd
    | some i =>
        left
        obtain ⟨s, hi, hname, hbef⟩ := findSuite_some hs
        obtain ⟨u', w', es, e, d⟩ := runIn_suite hf (v := [n]) hi w
        refine ⟨jobs s, u', w', es, ?_, e, d⟩
        exact Selects.suite n (s.name, jobs s) hd (first_map (f := fun (s : Suite W) => (s.name, jobs s)) (name := fun x => x.1) hi hname (fun k y hk hy => hbef k y hk hy))
  · by_cases h1 : n.count 46 = 1
    · obtain ⟨a, b, rfl, ha, hb⟩ := one_dot h1
      obtain ⟨p1, p2⟩ := hn.2 h1
      have ea : a ≠ [] := by intro e; subst e; simp at p1
      have eb : b ≠ [] := by
        intro e; subst e
        simp at p2
      rw [split_pair ha hb]
      have hv : [a, b].filter (· ≠ []) = [a, b] := by simp [ea, eb]
      simp only [hv, show ¬ ((2 : Nat) ≤ 0 ∨ 2 > 2) by decide, if_false, part_zero, Outcome.ok_bind]
      cases hs : findSuite a u.suites with
      | none =>
          right
          refine ⟨?_, rfl⟩
          intro js k
          generalize hm : a ++ 46 :: b = m at k
          cases k with
          | suite _ s k1 k2 => subst hm; simp at k1
          | test a' b' s j k1 k2 k3 k4 =>
              obtain ⟨e1, e2⟩ := dot_inj hm ha k1
              subst e1 e2
              exact not_first (f := fun (s : Suite W) => (s.name, jobs s)) (name := fun x => x.1) (fun x hx => findSuite_none hs x hx) _ k3
      | some i =>
          obtain ⟨s, hi, hname, hbef⟩ := findSuite_some hs
          have hfst : First (plan u) (·.1) a (s.name, jobs s) := first_map (f := fun (s : Suite W) => (s.name, jobs s)) (name := fun x => x.1) hi hname (fun k y hk hy => hbef k y hk hy)
          simp only [runIn, hi, show ¬ ((2 : Nat) = 1) by decide, if_false]
          simp only [show part [a, b] 1 = .ok b from rfl, Outcome.ok_bind]
          cases ht : findTest b s.tests with
          | none =>
              right
              refine ⟨?_, rfl⟩
              intro js k
              generalize hm : a ++ 46 :: b = m at k
              cases k with
              | suite _ s k1 k2 => subst hm; simp at k1
              | test a' b' s' j k1 k2 k3 k4 =>
                  obtain ⟨e1, e2⟩ := dot_inj hm ha k1
                  subst e1 e2
                  have := hfst.unique k3
                  subst this
                  exact not_first (f := job s) (name := (·.name)) (fun x hx => findTest_none ht x hx) _ k4
          | some j =>
              left
              obtain ⟨t, hj, tname, tbef⟩ := findTest_some ht
              obtain ⟨u', w', es, e, d⟩ := runOne_spec hf hi hj w
              refine ⟨[job s t], u', w', es, ?_, e, d⟩
              exact Selects.test a b (s.name, jobs s) (job s t) ha hb hfst (first_map (f := job s) (name := (·.name)) hj tname (fun k y hk hy => tbef k y hk hy))
    · right
      have hc : (strSplit n 46).2 = 1 + n.count 46 := countLoop_eq 46 n 1
      refine ⟨?_, ?_⟩
      · intro js k
        cases k with
        | suite _ s k1 k2 => exact h0 (List.count_eq_zero_of_not_mem k1)
        | test a b s j k1 k2 => exact h1 (by simp [List.count_eq_zero_of_not_mem k1, List.count_eq_zero_of_not_mem k2])
      · simp only [hc]
        rw [if_pos (by omega)]
        rfl

open Classical in
/-- The jobs a name selects. -/
noncomputable def sel (p : List (Str × List (Job W))) (n : Str) : Option (List (Job W)) := if h : ∃ js, Selects p n js then some (choose h) else none

theorem sel_iff (p : List (Str × List (Job W))) (n : Str) (js : List (Job W)) : sel p n = some js ↔ Selects p n js := by
  unfold sel
  split
  · rename_i h
    have k := Classical.choose_spec h
    constructor
    · intro e; cases e; exact k
    · intro e; rw [e.unique k]
  · rename_i h
    simp only [reduceCtorEq, false_iff]
    exact fun e => h ⟨js, e⟩

theorem sel_none {p : List (Str × List (Job W))} {n : Str} (h : ∀ js, ¬ Selects p n js) : sel p n = none := by
  cases e : sel p n with
  | none => rfl
  | some js => exact absurd ((sel_iff p n js).1 e) (h js)

theorem runNames_spec : ∀ (args : List Str) (r : Int) (u : UnitT W) (w : W), Fine u → (∀ a ∈ args, Proper a) →
    ∃ u' es, runNames args r u w = .ok (if ∀ a ∈ args, sel (plan u) a ≠ none then r else -1, u', (play (args.flatMap fun a => (sel (plan u) a).getD []) w).2, es) ∧ plan u' = plan u ∧
      (∃ a b, Counted u.c u'.c (play (args.flatMap fun a => (sel (plan u) a).getD []) w).1 a b) ∧
      Says es ((args.flatMap fun a => (sel (plan u) a).getD []).map (·.name)) (play (args.flatMap fun a => (sel (plan u) a).getD []) w).1 (args.filter fun a => sel (plan u) a = none) := by
  intro args
  induction args with
  | nil => intro r u w _ _; exact ⟨u, [], by simp [runNames, play], rfl, ⟨0, 0, Counted.refl u.c⟩, rfl, rfl, rfl⟩
  | cons a as ih =>
      intro r u w hf hp
      rcases runByName_spec hf (hp a (by simp)) w with ⟨js, u1, w1, e1, hs, e, d⟩ | ⟨hs, e⟩
      · have hsel := (sel_iff _ _ _).2 hs
        obtain ⟨u', es, e', p', ⟨x, y, k'⟩, sy⟩ := ih r u1 w1 (hf.congr d.plan) (fun b hb => hp b (by simp [hb]))
        rw [d.plan] at e' p' k' sy
        rw [d.world] at k' sy
        have hw := d.world
        obtain ⟨x0, y0, k⟩ := d.counted
        refine ⟨u', e1 ++ es, ?_, p', ⟨x0 + x, y0 + y, ?_⟩, ?_⟩
        · rw [runNames]
          refine Outcome.bind_eq_ok.2 ⟨_, e, ?_⟩
          simp only [show ¬ ((0 : Int) < 0) by decide, if_false]
          refine Outcome.bind_eq_ok.2 ⟨_, e', ?_⟩
          simp [hsel, play_append, hw]
        · have := k.trans k'
          simpa [hsel, play_append] using this
        · have := d.says.append sy
          simpa [hsel, play_append] using this
      · have hsel := sel_none hs
        obtain ⟨u', es, e', p', k', sy⟩ := ih (-1) u w hf (fun b hb => hp b (by simp [hb]))
        refine ⟨u', [Ev.notFound a] ++ es, ?_, p', ?_, ?_⟩
        · rw [runNames]
          refine Outcome.bind_eq_ok.2 ⟨_, e, ?_⟩
          simp only [show ((-1 : Int) < 0) by decide, if_true]
          refine Outcome.bind_eq_ok.2 ⟨_, e', ?_⟩
          simp [hsel]
        · simpa [hsel] using k'
        · have := Says.append (a := [Ev.notFound a]) (n := []) (rs := []) (x := [a]) ⟨rfl, rfl, rfl⟩ sy
          simpa [hsel] using this

/-! ## C71: every test runs once -/

/-- C71. Running a unit runs each test of each suite once, in order of registration, between the setup and the teardown of its suite; it reports each test and its result, marks it, and counts suites, tests, successes
and failures (modulo 2^32, the size of the counters). The unit still has the same suites and tests. -/
theorem c71_run (u : UnitT W) (w : W) (hf : Fine u) :
    ∃ u' es, run u w = .ok (0, u', (play (u.suites.flatMap jobs) w).2, es) ∧ plan u' = plan u ∧
      reported es = (u.suites.flatMap jobs).map (·.name) ∧ results es = (play (u.suites.flatMap jobs) w).1.map (·.1) ∧
      u'.suites.flatMap (fun s => s.tests.map (·.success)) = (play (u.suites.flatMap jobs) w).1.map (fun r => if r.1 then 1 else 0) ∧
      u'.c.suites % 2 ^ 32 = (u.c.suites + u.suites.length) % 2 ^ 32 ∧ u'.c.tests % 2 ^ 32 = (u.c.tests + (u.suites.flatMap jobs).length) % 2 ^ 32 ∧
      u'.c.successes % 2 ^ 32 = (u.c.successes + (play (u.suites.flatMap jobs) w).1.countP (·.1)) % 2 ^ 32 ∧
      u'.c.failures % 2 ^ 32 = (u.c.failures + (play (u.suites.flatMap jobs) w).1.countP (!·.1)) % 2 ^ 32 := by
  obtain ⟨ss, c, es, e, p, su, k, -, sy⟩ := runSuites_spec u.suites u.c w (fun s hs => hf.suite hs)
  have hg := globalStats_silent { suites := ss, c := c }
  have hs := sy.append hg
  simp only [List.append_nil] at hs
  refine ⟨{ suites := ss, c := c }, es ++ globalStats { suites := ss, c := c }, ?_, p, hs.names, hs.results, su, k.suites, k.tests, k.successes, k.failures⟩
  unfold run
  exact Outcome.bind_eq_ok.2 ⟨_, e, rfl⟩

theorem recount_fresh {ts : List (Test W)} {rs : List (Bool × Nat)} (h : ∀ t ∈ ts, t.assertions = 0) (hl : rs.length = ts.length) : recount ts rs = (rs.map (·.2)).sum := by
  induction ts generalizing rs with
  | nil => cases rs with
    | nil => rfl
    | cons => simp at hl
  | cons t ts ih =>
      cases rs with
      | nil => simp at hl
      | cons r rs => simp [recount, h t (by simp), ih (fun t ht => h t (by simp [ht])) (by simpa using hl)]

theorem recountAll_fresh : ∀ (ss : List (Suite W)) (w : W), (∀ s ∈ ss, ∀ t ∈ s.tests, t.assertions = 0 ∧ t.exceptions = 0) → recountAll ss w = ((play (ss.flatMap jobs) w).1.map (·.2)).sum := by
  intro ss
  induction ss with
  | nil => intro w _; rfl
  | cons s ss ih =>
      intro w h
      rw [recountAll, ih _ (fun s hs => h s (by simp [hs])), recount_fresh (fun t ht => (h s (by simp) t ht).1) (by rw [play_length, jobs_eq]; simp)]
      simp [play_append]

/-- C71. In the first run of a unit the assertions counted are those that held. -/
theorem c71_assertions (u : UnitT W) (w : W) (hf : Fine u) (h : Fresh u) :
    ∃ u' w' es, run u w = .ok (0, u', w', es) ∧ u'.c.assertions % 2 ^ 32 = (u.c.assertions + ((play (u.suites.flatMap jobs) w).1.map (·.2)).sum) % 2 ^ 32 := by
  obtain ⟨ss, c, es, e, p, su, k, t, sy⟩ := runSuites_spec u.suites u.c w (fun s hs => hf.suite hs)
  refine ⟨{ suites := ss, c := c }, (play (u.suites.flatMap jobs) w).2, es ++ globalStats { suites := ss, c := c }, ?_, ?_⟩
  · unfold run
    exact Outcome.bind_eq_ok.2 ⟨_, e, rfl⟩
  · rw [← recountAll_fresh u.suites w h]; exact t

/-! ## C72: the exit status -/

/-- No argument is an option of the test program. -/
def NoOptions (args : List Str) : Prop := ∀ a ∈ args, a ≠ H ∧ a ≠ HELP ∧ a ≠ L ∧ a ≠ LIST

theorem options_none {u : UnitT W} {args : List Str} (h : NoOptions args) : options u args = none := by
  induction args with
  | nil => rfl
  | cons a as ih =>
      obtain ⟨h1, h2, h3, h4⟩ := h a (by simp)
      rw [options, if_neg (by simp [h1, h2]), if_neg (by simp [h3, h4])]
      exact ih fun b hb => h b (by simp [hb])

theorem countP_lt {rs : List (Bool × Nat)} {n : Nat} (h : rs.length < n) : rs.countP (!·.1) < n := Nat.lt_of_le_of_lt List.countP_le_length h

theorem countP_zero (rs : List (Bool × Nat)) : rs.countP (!·.1) = 0 ↔ ∀ r ∈ rs, r.1 = true := by
  rw [List.countP_eq_zero]
  simp

theorem add_lt (a n : Nat) : add a n < 2 ^ 32 := Nat.mod_lt _ (by decide)

/-- The counters as the code leaves them are in range. -/
def InRange (c : Counters) : Prop := c.failures < 2 ^ 32

theorem countTest_range (s : Suite W) (c : Counters) (t : Test W) (h : InRange c) : InRange (countTest s c t).2 := by
  unfold countTest InRange at *
  by_cases h1 : t.success ≠ 1
  · rw [if_pos h1]
    by_cases h2 : t.assertions = 0 ∧ t.exceptions = 0
    · simp only [if_pos h2]; exact add_lt _ _
    · simp only [if_neg h2]; exact add_lt _ _
  · rw [if_neg h1]
    by_cases h2 : t.assertions = 0 ∧ t.exceptions = 0
    · simp only [if_pos h2]; exact h
    · simp only [if_neg h2]; exact h

theorem runTests_range : ∀ (ts : List (Test W)) (s : Suite W) (c : Counters) (w : W) ts' s' c' w' es, InRange c → runTests ts s c w = .ok (ts', s', c', w', es) → InRange c' := by
  intro ts
  induction ts with
  | nil => intro s c w ts' s' c' w' es h e; cases e; exact h
  | cons t ts ih =>
      intro s c w ts' s' c' w' es h e
      rw [runTests] at e
      obtain ⟨⟨t1, w1, e1⟩, -, e⟩ := Outcome.bind_eq_ok.1 e
      obtain ⟨⟨ts2, s2, c2, w2, es2⟩, k, e⟩ := Outcome.bind_eq_ok.1 e
      cases e
      exact ih _ _ _ _ _ _ _ _ (countTest_range s { c with tests := add c.tests 1 } t1 h) k

theorem runSuite_range {c : Counters} {s : Suite W} {w : W} {s' : Suite W} {c' : Counters} {w' : W} {es : List Ev} (h : InRange c) (e : runSuite c s w = .ok (s', c', w', es)) : InRange c' := by
  unfold runSuite at e
  obtain ⟨⟨ts2, s2, c2, w2, es2⟩, k, e⟩ := Outcome.bind_eq_ok.1 e
  cases e
  exact runTests_range s.tests s { c with suites := add c.suites 1 } w _ _ _ _ _ h k

theorem runSuites_range : ∀ (ss : List (Suite W)) (c : Counters) (w : W) ss' c' w' es, InRange c → runSuites ss c w = .ok (ss', c', w', es) → InRange c' := by
  intro ss
  induction ss with
  | nil => intro c w ss' c' w' es h e; cases e; exact h
  | cons s ss ih =>
      intro c w ss' c' w' es h e
      rw [runSuites] at e
      obtain ⟨⟨s1, c1, w1, e1⟩, k1, e⟩ := Outcome.bind_eq_ok.1 e
      obtain ⟨⟨ss2, c2, w2, es2⟩, k, e⟩ := Outcome.bind_eq_ok.1 e
      cases e
      exact ih _ _ _ _ _ _ (runSuite_range h k1) k

theorem runByName_range {u : UnitT W} {n : Str} {w : W} {r : Int} {u' : UnitT W} {w' : W} {es : List Ev} (h : InRange u.c) (e : runByName u n w = .ok (r, u', w', es)) : InRange u'.c := by
  unfold runByName at e
  simp only at e
  split at e
  · cases e; exact h
  · obtain ⟨p, -, e⟩ := Outcome.bind_eq_ok.1 e
    split at e
    · cases e; exact h
    · unfold runIn at e
      split at e
      · cases e
      · split at e
        · obtain ⟨⟨s1, c1, w1, e1⟩, k1, e⟩ := Outcome.bind_eq_ok.1 e
          cases e
          exact runSuite_range h k1
        · obtain ⟨p, -, e⟩ := Outcome.bind_eq_ok.1 e
          split at e
          · cases e; exact h
          · unfold runOne at e
            split at e
            · cases e
            · obtain ⟨⟨t1, w1, e1⟩, -, e⟩ := Outcome.bind_eq_ok.1 e
              cases e
              simp only [InRange] at *
              split
              · exact add_lt _ _
              · exact h

theorem runNames_range : ∀ (args : List Str) (r : Int) (u : UnitT W) (w : W) r' u' w' es, InRange u.c → runNames args r u w = .ok (r', u', w', es) → InRange u'.c := by
  intro args
  induction args with
  | nil => intro r u w r' u' w' es h e; cases e; exact h
  | cons a as ih =>
      intro r u w r' u' w' es h e
      rw [runNames] at e
      obtain ⟨⟨x1, u1, w1, e1⟩, k1, e⟩ := Outcome.bind_eq_ok.1 e
      simp only at e
      obtain ⟨⟨r2, u2, w2, es2⟩, k, e⟩ := Outcome.bind_eq_ok.1 e
      cases e
      exact ih _ _ _ _ _ _ _ (runByName_range h k1) k

/-- C72. Without arguments the exit status is 0 if every test passed and -1 otherwise (fewer than 2^32 tests). -/
theorem c72_all (u : UnitT W) (w : W) (hf : Fine u) (hc : u.c.failures = 0) (hn : (u.suites.flatMap jobs).length < 2 ^ 32) :
    ∃ u' es, main u [] w = .ok (if ∀ r ∈ (play (u.suites.flatMap jobs) w).1, r.1 = true then 0 else -1, u', (play (u.suites.flatMap jobs) w).2, es) := by
  obtain ⟨ss, c, es, e, p, su, k, -, sy⟩ := runSuites_spec u.suites u.c w (fun s hs => hf.suite hs)
  have hr : InRange c := runSuites_range _ _ _ _ _ _ _ (by simp [InRange, hc]) e
  refine ⟨{ suites := ss, c := c }, es ++ globalStats { suites := ss, c := c }, ?_⟩
  have e1 : run u w = .ok (0, { suites := ss, c := c }, (play (u.suites.flatMap jobs) w).2, es ++ globalStats { suites := ss, c := c }) := by
    unfold run
    exact Outcome.bind_eq_ok.2 ⟨_, e, rfl⟩
  unfold main
  simp only [options]
  simp only [ne_eq, not_true_eq_false, if_false]
  refine Outcome.bind_eq_ok.2 ⟨_, e1, ?_⟩
  simp only [show ¬ ((0 : Int) < 0) by decide, if_false, Outcome.pure_eq]
  have hlt := countP_lt (rs := (play (u.suites.flatMap jobs) w).1) (n := 2 ^ 32) (by rw [play_length]; exact hn)
  have hfail : c.failures = (play (u.suites.flatMap jobs) w).1.countP (!·.1) := by
    have := k.failures
    rw [hc, Nat.zero_add, Nat.mod_eq_of_lt hlt, Nat.mod_eq_of_lt hr] at this
    exact this
  have hz := countP_zero (play (u.suites.flatMap jobs) w).1
  unfold status
  simp only [if_true, hfail]
  by_cases hall : ∀ r ∈ (play (u.suites.flatMap jobs) w).1, r.1 = true
  · rw [if_pos hall, hz.2 hall]; rfl
  · rw [if_neg hall, if_pos (Nat.pos_of_ne_zero fun h => hall (hz.1 h))]

/-- C72. With names as arguments: the jobs selected by each name are run, in order; names that select nothing are reported; the exit status is 0 exactly if every name selected something and every test that was run passed. -/
theorem c72_names (u : UnitT W) (args : List Str) (w : W) (hf : Fine u) (hc : u.c.failures = 0) (hne : args ≠ []) (ho : NoOptions args) (hp : ∀ a ∈ args, Proper a)
    (sel : Str → Option (List (Job W))) (hsel : ∀ a js, sel a = some js ↔ Selects (plan u) a js) (hn : (args.flatMap fun a => (sel a).getD []).length < 2 ^ 32) :
    ∃ u' es, main u args w = .ok (if (∀ a ∈ args, sel a ≠ none) ∧ ∀ r ∈ (play (args.flatMap fun a => (sel a).getD []) w).1, r.1 = true then 0 else -1, u', (play (args.flatMap fun a => (sel a).getD []) w).2, es) ∧
      reported es = (args.flatMap fun a => (sel a).getD []).map (·.name) ∧ results es = (play (args.flatMap fun a => (sel a).getD []) w).1.map (·.1) ∧ missing es = args.filter fun a => sel a = none := by
  have hs : sel = Unit.sel (plan u) := by
    funext a
    cases e : sel a with
    | none =>
        exact (sel_none fun js k => by rw [← hsel, e] at k; cases k).symm
    | some js => exact ((sel_iff _ _ _).2 ((hsel a js).1 e)).symm
  subst hs
  obtain ⟨u', es, e, -, ⟨x, y, k⟩, sy⟩ := runNames_spec args 0 u w hf hp
  have hr : InRange u'.c := runNames_range _ _ _ _ _ _ _ _ (by simp [InRange, hc]) e
  refine ⟨u', es, ?_, sy.names, sy.results, sy.missing⟩
  unfold main
  simp only [options_none ho]
  rw [if_pos hne]
  refine Outcome.bind_eq_ok.2 ⟨_, e, ?_⟩
  simp only [Outcome.pure_eq]
  generalize args.flatMap (fun a => (Unit.sel (plan u) a).getD []) = js at *
  have hlt := countP_lt (rs := (play js w).1) (n := 2 ^ 32) (by rw [play_length]; exact hn)
  have hfail : u'.c.failures = (play js w).1.countP (!·.1) := by
    have := k.failures
    rw [hc, Nat.zero_add, Nat.mod_eq_of_lt hlt, Nat.mod_eq_of_lt hr] at this
    exact this
  have hz := countP_zero (play js w).1
  unfold status
  simp only [hfail]
  by_cases ha : ∀ a ∈ args, Unit.sel (plan u) a ≠ none
  · rw [if_pos ha]
    by_cases hall : ∀ r ∈ (play js w).1, r.1 = true
    · have hb : (∀ a ∈ args, Unit.sel (plan u) a ≠ none) ∧ ∀ r ∈ (play js w).1, r.1 = true := ⟨ha, hall⟩
      rw [if_pos hb, hz.2 hall]; rfl
    · have hb : ¬ ((∀ a ∈ args, Unit.sel (plan u) a ≠ none) ∧ ∀ r ∈ (play js w).1, r.1 = true) := fun h => hall h.2
      have hpos : (play js w).1.countP (!·.1) > 0 := Nat.pos_of_ne_zero fun h => hall (hz.1 h)
      rw [if_neg hb, if_pos rfl, if_pos hpos]
  · have hb : ¬ ((∀ a ∈ args, Unit.sel (plan u) a ≠ none) ∧ ∀ r ∈ (play js w).1, r.1 = true) := fun h => ha h.1
    rw [if_neg ha, if_neg hb]
    rfl

/-- C72. Names select at most one list of jobs, so a `sel` as required by `c72_names` exists. -/
theorem c72_selects (p : List (Str × List (Job W))) : ∃ sel : Str → Option (List (Job W)), ∀ a js, sel a = some js ↔ Selects p a js := ⟨Unit.sel p, sel_iff p⟩

/-! ## C73: improper names, counters -/

/-- C73 (violation). The empty name dereferences NULL. -/
theorem c73_empty_violation (u : UnitT W) (w : W) : runByName u [] w = .ub := rfl

/-- C73 (violation). The name of an existing suite followed or preceded by a dot dereferences NULL. -/
theorem c73_dot_violation (u : UnitT W) (w : W) (s : Suite W) (hs : s ∈ u.suites) (hd : (46 : Byte) ∉ s.name) (he : s.name ≠ []) :
    runByName u (s.name ++ [46]) w = .ub ∧ runByName u (46 :: s.name) w = .ub := by
  have hex : ∃ i t, findSuite s.name u.suites = some i ∧ u.suites[i]? = some t := by
    cases h : findSuite s.name u.suites with
    | none => exact absurd rfl (findSuite_none h s hs)
    | some i =>
        obtain ⟨t, ht, -⟩ := findSuite_some h
        exact ⟨i, t, rfl, ht⟩
  obtain ⟨i, t, h1, h2⟩ := hex
  constructor
  · unfold runByName
    rw [split_pair (b := []) hd (by simp)]
    simp [he, part_zero, h1, runIn, h2, part]
  · unfold runByName
    rw [show (46 :: s.name : Str) = [] ++ 46 :: s.name from rfl, split_pair (a := []) (by simp) hd]
    simp [he, part_zero, h1, runIn, h2, part]

/-- C73 (violation). A single dot always dereferences NULL. -/
theorem c73_single_dot_violation (u : UnitT W) (w : W) : runByName u [46] w = .ub := rfl

/-- A test that passes with one assertion, and one that fails. -/
def good : Test Nat := { name := [103], fn := fun w => (w + 1, 1, .returned) }
def bad : Test Nat := { name := [98], fn := fun w => (w + 1, 0, .failed [120]) }
def demo : UnitT Nat := { suites := [{ name := [115], tests := [good, bad] }] }

/-- C73 (violation). A test run by its name is counted as success or failure but not as a test. -/
theorem c73_tests_violation : ∃ u' w' es, main demo [[115, 46, 103]] 0 = .ok (0, u', w', es) ∧ u'.c.successes = 1 ∧ u'.c.tests = 0 := ⟨_, _, _, rfl, rfl, rfl⟩

/-- C73 (violation). Running a suite twice counts the assertions of the first run again: 3 instead of 2. -/
theorem c73_assertions_violation : ∃ u' w' es, main { demo with suites := [{ name := [115], tests := [good] }] } [[115], [115]] 0 = .ok (0, u', w', es) ∧ w' = 2 ∧ u'.c.assertions = 3 := ⟨_, _, _, rfl, rfl, rfl⟩

/-- C73. All runs without names count consistently. -/
theorem c73_consistent (u : UnitT W) (w : W) (hf : Fine u) (h : u.c.tests = u.c.successes + u.c.failures) :
    ∃ u' w' es, run u w = .ok (0, u', w', es) ∧ u'.c.tests % 2 ^ 32 = (u'.c.successes + u'.c.failures) % 2 ^ 32 := by
  obtain ⟨u', es, e, -, -, -, -, -, h2, h3, h4⟩ := c71_run u w hf
  refine ⟨u', _, es, e, ?_⟩
  have hlen := play_length (u.suites.flatMap jobs) w
  have hsum : (play (u.suites.flatMap jobs) w).1.countP (·.1) + (play (u.suites.flatMap jobs) w).1.countP (!·.1) = (play (u.suites.flatMap jobs) w).1.length := by
    generalize (play (u.suites.flatMap jobs) w).1 = l
    induction l with
    | nil => rfl
    | cons r l ih => cases hr : r.1 <;> simp [List.countP_cons, hr] <;> omega
  omega

example : Fine demo := by
  intro p hp j hj
  simp [plan, demo, jobs] at hp
  subst hp
  simp [good, bad] at hj
  rcases hj with rfl | rfl
  · exact Or.inr fun w => Or.inl rfl
  · exact Or.inr fun w => Or.inr ⟨_, rfl⟩

example : ∃ u' es, main demo [] 0 = .ok (-1, u', 2, es) := ⟨_, _, rfl⟩
example : Proper [115] ∧ Proper [115, 46, 103] ∧ NoOptions [[115]] := by
  refine ⟨by simp [Proper], by simp [Proper], ?_⟩
  intro a ha
  simp at ha
  subst ha
  decide
example : Selects (plan demo) [115, 46, 103] [{ name := [103], cpp := false, setup := none, fn := good.fn, teardown := none }] :=
  Selects.test [115] [103] ([115], jobs { name := [115], tests := [good, bad] }) _ (by decide) (by decide) ⟨[], [], rfl, rfl, by simp⟩ ⟨[], [_], rfl, rfl, by simp⟩
example : Fresh demo := by
  intro s hs t ht
  simp [demo] at hs
  subst hs
  simp [good, bad] at ht
  rcases ht with rfl | rfl <;> simp

end ZT.Unit
