import Verif.Unit.Model

/-!
# Specification of the test runner

A unit is a plan: named suites of jobs, where a job is a test together with the setup and teardown functions of its suite. The effect of running a list of jobs is fixed without reference to the code: one after the other,
each between its setup and its teardown; a job passes if its function returns. A name selects the first suite or the first test of the first suite that bears it.
-/

namespace ZT.Unit

variable {W : Type}

/-- A test to be run. -/
structure Job (W : Type) where
  name : Str
  cpp : Bool
  setup : Option (W → W)
  fn : W → W × Nat × Ended
  teardown : Option (W → W)

/-- The jobs of a suite, in order of registration. -/
def jobs (s : Suite W) : List (Job W) := s.tests.map fun t => { name := t.name, cpp := s.cpp, setup := s.setup, fn := t.fn, teardown := s.teardown }

/-- The suites of a unit with their jobs. -/
def plan (u : UnitT W) : List (Str × List (Job W)) := u.suites.map fun s => (s.name, jobs s)

/-- The world in which the function of the job runs. -/
def Job.before (j : Job W) (w : W) : W := call j.setup w
/-- The world after the job. -/
def Job.after (j : Job W) (w : W) : W := call j.teardown (j.fn (j.before w)).1
/-- The job passes if its function returns. -/
def Job.passes (j : Job W) (w : W) : Bool := (j.fn (j.before w)).2.2 == .returned
/-- The number of assertions that held. -/
def Job.asserts (j : Job W) (w : W) : Nat := (j.fn (j.before w)).2.1
/-- The job may throw exceptions only if it is C++. -/
def Job.fine (j : Job W) : Prop := j.cpp = true ∨ ∀ w, (j.fn w).2.2 = .returned ∨ ∃ m, (j.fn w).2.2 = .failed m

/-- One entry for each job: did it pass, and the number of assertions that held in it. -/
def play : List (Job W) → W → List (Bool × Nat) × W
  | [], w => ([], w)
  | j :: js, w => ((j.passes w, j.asserts w) :: (play js (j.after w)).1, (play js (j.after w)).2)

/-- The first entry of `l` with the name `n`. -/
def First {α : Type} (l : List α) (name : α → Str) (n : Str) (x : α) : Prop := ∃ a b, l = a ++ x :: b ∧ name x = n ∧ ∀ y ∈ a, name y ≠ n

/-- The name selects these jobs: all of the first suite with the name, or for `suite.test` one test. -/
inductive Selects (p : List (Str × List (Job W))) : Str → List (Job W) → Prop
  | suite (n : Str) (s : Str × List (Job W)) : 46 ∉ n → First p (·.1) n s → Selects p n s.2
  | test (a b : Str) (s : Str × List (Job W)) (j : Job W) : 46 ∉ a → 46 ∉ b → First p (·.1) a s → First s.2 (·.name) b j → Selects p (a ++ 46 :: b) [j]

/-- Names of the form `x`, `x.y` with non-empty parts, or with more than one dot. -/
def Proper (n : Str) : Prop := n ≠ [] ∧ (n.count 46 = 1 → n.head? ≠ some 46 ∧ n.getLast? ≠ some 46)

/-- The tests reported, in order. -/
def reported : List Ev → List Str := List.filterMap fun
  | .test n => some n
  | _ => none

/-- The results reported, in order. -/
def results : List Ev → List Bool := List.filterMap fun
  | .result _ _ b => some b
  | _ => none

/-- The names reported as not found. -/
def missing : List Ev → List Str := List.filterMap fun
  | .notFound n => some n
  | _ => none

/-- No test of the unit has run yet. -/
def Fresh (u : UnitT W) : Prop := ∀ s ∈ u.suites, ∀ t ∈ s.tests, t.assertions = 0 ∧ t.exceptions = 0

end ZT.Unit
