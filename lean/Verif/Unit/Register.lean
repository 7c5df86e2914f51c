import Verif.Unit.ReportProps

/-!
# C71: registration, and the help text (C103)
-/

namespace ZT.Unit.Report

variable {W : Type}

/-- What was registered as a suite: its name, functions and language, and its tests in order. -/
structure Decl (W : Type) where
  name : Str
  setup : Option (W → W)
  teardown : Option (W → W)
  cpp : Bool
  tests : List (Str × (W → W × Nat × Ended))

/-- Its entry in the plan. -/
def Decl.entry (d : Decl W) : Str × List (Job W) := (d.name, d.tests.map fun t => ⟨t.1, d.cpp, d.setup, t.2, d.teardown⟩)

/-- The units of a program that registers suites and tests, with what was registered. zt_unit_register_suite returns the suite to which zt_unit_register_test adds tests; suites are numbered here. -/
inductive Registered : UnitT W → List (Decl W) → Prop
  | init : Registered init []
  | suite {u p} (name : Str) (setup teardown : Option (W → W)) (cpp : Bool) : Registered u p → Registered (registerSuite u name setup teardown cpp) (p ++ [⟨name, setup, teardown, cpp, []⟩])
  | test {u p} (i : Nat) (s : Suite W) (d : Decl W) (name : Str) (fn : W → W × Nat × Ended) : Registered u p → u.suites[i]? = some s → p[i]? = some d →
      Registered { u with suites := u.suites.set i (registerTest s name fn) } (p.set i { d with tests := d.tests ++ [(name, fn)] })

/-- The declaration of a suite. -/
def declOf (s : Suite W) : Decl W := ⟨s.name, s.setup, s.teardown, s.cpp, s.tests.map fun t => (t.name, t.fn)⟩

theorem declOf_entry (s : Suite W) : (declOf s).entry = (s.name, jobs s) := by simp [declOf, Decl.entry, jobs]

theorem registered_inv {u : UnitT W} {p : List (Decl W)} (h : Registered u p) : u.suites.map declOf = p ∧ New u := by
  induction h with
  | init => exact ⟨rfl, rfl, by simp [Unit.init]⟩
  | suite name setup teardown cpp h ih =>
      obtain ⟨e, n0, n⟩ := ih
      refine ⟨by simp [registerSuite, declOf, ← e], n0, fun s hs => ?_⟩
      simp only [registerSuite, List.mem_append, List.mem_singleton] at hs
      rcases hs with hs | rfl
      · exact n s hs
      · exact ⟨rfl, rfl, by simp⟩
  | test i s x name fn h hs hx ih =>
      obtain ⟨e, n0, n⟩ := ih
      subst e
      have hx' : x = declOf s := by
        simp only [List.getElem?_map, hs, Option.map_some, Option.some.injEq] at hx
        exact hx.symm
      subst hx'
      refine ⟨by simp [List.map_set, registerTest, declOf], n0, fun s' hs' => ?_⟩
      rcases List.mem_or_eq_of_mem_set hs' with h1 | rfl
      · exact n s' h1
      · obtain ⟨a, b, c⟩ := n s (List.mem_of_getElem? hs)
        refine ⟨a, b, fun t ht => ?_⟩
        simp only [registerTest, List.mem_append, List.mem_singleton] at ht
        rcases ht with ht | rfl
        · exact c t ht
        · exact ⟨rfl, rfl⟩

/-- **C71 (registration).** The unit has what was registered and nothing else: the suites in the order of their registration, each with its tests in the order of theirs, to be run between the setup and the teardown function given for
the suite; and nothing has been run or counted. -/
theorem c71_registered {u : UnitT W} {p : List (Decl W)} (h : Registered u p) : plan u = p.map Decl.entry ∧ New u ∧ Fresh u := by
  obtain ⟨a, b⟩ := registered_inv h
  refine ⟨?_, b, fun s hs t ht => (b.2 s hs).2.2 t ht⟩
  rw [← a, plan, List.map_map]
  exact List.map_congr_left fun s _ => (declOf_entry s).symm

/-- **C71 (registration).** Running it runs each registered test once, in that order. -/
theorem c71_registered_run {u : UnitT W} {p : List (Decl W)} (h : Registered u p) (hf : ∀ d ∈ p, ∀ j ∈ d.entry.2, j.fine) (w : W) :
    ∃ u' es, run u w = .ok (0, u', (play (p.flatMap (·.entry.2)) w).2, es) ∧ reported es = p.flatMap (fun d => d.tests.map (·.1)) ∧ results es = (play (p.flatMap (·.entry.2)) w).1.map (·.1) := by
  obtain ⟨e, -⟩ := c71_registered h
  have hf' : Fine u := by
    unfold Fine; rw [e]
    intro x hx j hj
    obtain ⟨d, hd, rfl⟩ := List.mem_map.1 hx
    exact hf d hd j hj
  obtain ⟨u', es, h1, -, h2, h3, -⟩ := c71_run u w hf'
  have hj : u.suites.flatMap jobs = p.flatMap (·.entry.2) := by
    have : u.suites.flatMap jobs = (plan u).flatMap (·.2) := by simp [plan, List.flatMap_map]
    rw [this, e, List.flatMap_map]
  rw [hj] at h1 h2 h3
  refine ⟨u', es, h1, ?_, h3⟩
  rw [h2, List.map_flatMap]
  simp [Decl.entry, Function.comp_def]

/-- Two suites, the first with two tests of which the second was registered after the second suite. -/
example : Registered (W := Nat) { suites := [{ name := [97], tests := [⟨[120], fun w => (w + 1, 1, .returned), -1, none, 0, 0⟩, ⟨[121], fun w => (w, 0, .failed [48]), -1, none, 0, 0⟩] }, { name := [98], setup := some (· + 5) }] }
    [⟨[97], none, none, false, [([120], fun w => (w + 1, 1, .returned)), ([121], fun w => (w, 0, .failed [48]))]⟩, ⟨[98], some (· + 5), none, false, []⟩] := by
  have h0 : Registered (W := Nat) Unit.init [] := .init
  have h1 := Registered.suite [97] none none false h0
  have h2 := Registered.test 0 _ _ [120] (fun w => (w + 1, 1, .returned)) h1 rfl rfl
  have h3 := Registered.suite [98] (some (· + 5)) none false h2
  have h4 := Registered.test 0 _ _ [121] (fun w => (w, 0, .failed [48])) h3 rfl rfl
  exact h4

/-- **C103 (the help).** `-h` or `--help` prints how to call the program, with its name, and runs nothing. -/
theorem c103_help (u : UnitT W) (w : W) (a : Str) (args : List Str) (ha : a = ascii "-h" ∨ a = ascii "--help") (prog : List Byte) :
    ∃ es, main u (a :: args) w = .ok (0, u, w, es) ∧ printAll prog es = .ok (prog ++ ascii " [options] <suite | suite.test> ...\n\nOptions:\n     -h, --help               This help text\n     -l, --list               list suites and test (default disabled)\n") := by
  have l1 : ascii "-h" = H := by decide +kernel
  have l2 : ascii "--help" = HELP := by decide +kernel
  rw [l1, l2] at ha
  refine ⟨[.help], ?_, ?_⟩
  · unfold main; rw [options, if_pos ha]
  · have e : [32] ++ MSG = ascii " [options] <suite | suite.test> ...\n\nOptions:\n     -h, --help               This help text\n     -l, --list               list suites and test (default disabled)\n" := by decide +kernel
    rw [← e, ← List.append_assoc]
    unfold printAll
    refine Outcome.bind_eq_ok.2 ⟨_, rfl, Outcome.bind_eq_ok.2 ⟨_, rfl, ?_⟩⟩
    rw [List.append_nil]; rfl

end ZT.Unit.Report
