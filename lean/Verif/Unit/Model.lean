import Verif.Mem

/-!
# zt_unit.c, zt_unit_cpp.cpp: running unit tests

Strings are their bytes up to the NUL. The lists of suites and tests (zt_elist, see `Verif.EList`) are lists in order of registration. Test, setup and teardown functions act on an arbitrary world `W` and do not call
back into zt_unit except through the ZT_UNIT_ASSERT family and exceptions. `unsigned` counters of the unit wrap at 2^32; the `int` and `long` counters of suites and tests are unbounded here (2^31 test runs are needed to
overflow them). What is printed is a list of events; their bytes are in `Verif.Unit.Print`. Not modelled: memory (names and error texts are copied, zt_unit_release frees them).
-/

namespace ZT.Unit

abbrev Str := List Byte

/-- How a test function ends. zt_unit.h 66-92 -/
inductive Ended where
  /-- by returning -/
  | returned
  /-- by a failed ZT_UNIT_ASSERT or by ZT_UNIT_FAIL, which set `error` and leave by longjmp or by throwing zt_unit_exceptT -/
  | failed (error : Str)
  /-- by any other exception (C++): `char *` with its text (`none` for NULL), or something else -/
  | threw (text : Option Str)
  | threwOther
  deriving Repr, DecidableEq

/-- zt_unit.h 48-57 `struct zt_unit_test`. `fn` gives the world after the call, the number of assertions that held and how it ended. -/
structure Test (W : Type) where
  name : Str
  fn : W → W × Nat × Ended
  success : Int := -1
  error : Option Str := none
  assertions : Nat := 0
  exceptions : Nat := 0

/-- zt_unit.h 33-46 `struct zt_unit_suite`; `cpp`: the suite was registered from C++ (zt_unit.h 121-127). -/
structure Suite (W : Type) where
  name : Str
  setup : Option (W → W) := none
  teardown : Option (W → W) := none
  cpp : Bool := false
  tests : List (Test W) := []
  succeeded : Nat := 0
  failed : Nat := 0
  exceptions : Nat := 0
  assertions : Nat := 0
  empty : Nat := 0

/-- zt_unit.h 21-31, the counters of `struct zt_unit`. -/
structure Counters where
  suites : Nat := 0
  tests : Nat := 0
  successes : Nat := 0
  failures : Nat := 0
  assertions : Nat := 0
  exceptions : Nat := 0
  empty : Nat := 0
  deriving Repr, DecidableEq

/-- zt_unit.h 21-31 `struct zt_unit` -/
structure UnitT (W : Type) where
  suites : List (Suite W) := []
  c : Counters := {}

/-- What is printed. -/
inductive Ev where
  | suite (name : Str)
  | test (name : Str)
  | result (assertions exceptions : Nat) (success : Bool)
  | errors
  | error (name : Str) (text : Option Str)
  | stats (c : Counters)
  | empty (name : Str)
  | notFound (name : Str)
  | help
  | listHead
  | listSuite (name : Str)
  | listTest (name : Str)
  deriving Repr, DecidableEq

variable {W : Type}

/-- `unsigned += n` -/
def add (a n : Nat) : Nat := (a + n) % 2 ^ 32

/-- zt_unit.c 41-57 -/
def init : UnitT W := {}

/-- zt_unit.c 78-106 -/
def registerSuite (u : UnitT W) (name : Str) (setup teardown : Option (W → W)) (cpp : Bool) : UnitT W :=
  { u with suites := u.suites ++ [{ name := name, setup := setup, teardown := teardown, cpp := cpp }] }

/-- zt_unit.c 132-153 -/
def registerTest (s : Suite W) (name : Str) (fn : W → W × Nat × Ended) : Suite W :=
  { s with tests := s.tests ++ [{ name := name, fn := fn }] }

/-- "unhandled exception: " -/
def UNHANDLED : Str := [117, 110, 104, 97, 110, 100, 108, 101, 100, 32, 101, 120, 99, 101, 112, 116, 105, 111, 110, 58, 32]
/-- "NULL" -/
def NULLTXT : Str := [78, 85, 76, 76]
/-- "unknown" -/
def UNKNOWN : Str := [117, 110, 107, 110, 111, 119, 110]

/-- zt_unit.c 247-255 zt_unit_try_c and zt_unit_cpp.cpp 7-28 zt_unit_try_cpp: run the test function; true if it returned. An exception thrown through the C version is undefined. -/
def tryTest (cpp : Bool) (t : Test W) (w : W) : Outcome (Bool × Test W × W) :=
  let (w', n, e) := t.fn w
  let t := { t with assertions := t.assertions + n }
  match e with
  | .returned => .ok (true, t, w')
  | .failed m => .ok (false, { t with error := some m }, w')
  | .threw m => if cpp then .ok (false, { t with error := some (UNHANDLED ++ m.getD NULLTXT), exceptions := t.exceptions + 1 }, w') else .ub
  | .threwOther => if cpp then .ok (false, { t with error := some (UNHANDLED ++ UNKNOWN), exceptions := t.exceptions + 1 }, w') else .ub

/-- A setup or teardown function that may be NULL. -/
def call (f : Option (W → W)) (w : W) : W :=
  match f with
  | some g => g w
  | none => w

/-- zt_unit.c 257-288 zt_unit_run_test. The result is the field `success`. -/
def runTest (s : Suite W) (t : Test W) (w : W) : Outcome (Test W × W × List Ev) := do
  let t := { t with success := 0 }
  let w := call s.setup w
  let (r, t, w) ← tryTest s.cpp t w
  let t := if r then { t with success := 1 } else t
  let w := call s.teardown w
  pure (t, w, [Ev.test t.name, .result t.assertions t.exceptions (t.success == 1)])

/-- zt_unit.c 206-224, one iteration: the test, then the counters of the suite and of the unit. -/
def countTest (s : Suite W) (c : Counters) (t : Test W) : Suite W × Counters :=
  let (s, c) := if t.success ≠ 1 then ({ s with failed := s.failed + 1 }, { c with failures := add c.failures 1 })
    else ({ s with succeeded := s.succeeded + 1 }, { c with successes := add c.successes 1 })
  let (s, c) := if t.assertions = 0 ∧ t.exceptions = 0 then ({ s with empty := s.empty + 1 }, { c with empty := add c.empty 1 }) else (s, c)
  ({ s with assertions := s.assertions + t.assertions, exceptions := s.exceptions + t.exceptions },
   { c with assertions := add c.assertions t.assertions, exceptions := add c.exceptions t.exceptions })

/-- zt_unit.c 205-225: the tests of the list, in order. `s` carries the counters of the suite. -/
def runTests : List (Test W) → Suite W → Counters → W → Outcome (List (Test W) × Suite W × Counters × W × List Ev)
  | [], s, c, w => .ok ([], s, c, w, [])
  | t :: ts, s, c, w => do
      let c := { c with tests := add c.tests 1 }
      let (t, w, e) ← runTest s t w
      let (s, c) := countTest s c t
      let (ts, s, c, w, es) ← runTests ts s c w
      pure (t :: ts, s, c, w, e ++ es)

/-- zt_unit.c 227-235: the errors of the tests that failed. -/
def errorLines (s : Suite W) : List Ev :=
  if s.failed ≠ 0 then .errors :: (s.tests.filter fun t => t.success ≠ 1).map fun t => .error t.name t.error else []

/-- zt_unit.c 192-237 zt_unit_run_suite (it always returns 0) -/
def runSuite (c : Counters) (s : Suite W) (w : W) : Outcome (Suite W × Counters × W × List Ev) := do
  let c := { c with suites := add c.suites 1 }
  let (ts, s', c, w, es) ← runTests s.tests s c w
  let s' := { s' with tests := ts }
  pure (s', c, w, .suite s.name :: es ++ errorLines s')

/-- zt_unit.c 181-186 -/
def runSuites : List (Suite W) → Counters → W → Outcome (List (Suite W) × Counters × W × List Ev)
  | [], c, w => .ok ([], c, w, [])
  | s :: ss, c, w => do
      let (s, c, w, e) ← runSuite c s w
      let (ss, c, w, es) ← runSuites ss c w
      pure (s :: ss, c, w, e ++ es)

/-- zt_unit.c 432-465 zt_unit_test_global_stats -/
def globalStats (u : UnitT W) : List Ev :=
  .stats u.c :: if u.c.empty > 0 then
    u.suites.flatMap fun s => if s.empty > 0 then (s.tests.filter fun t => t.assertions = 0 ∧ t.exceptions = 0).map fun t => .empty t.name else []
  else []

/-- zt_unit.c 174-189 zt_unit_run; it always returns 0 -/
def run (u : UnitT W) (w : W) : Outcome (Int × UnitT W × W × List Ev) := do
  let (ss, c, w, es) ← runSuites u.suites u.c w
  let u := { suites := ss, c := c }
  pure (0, u, w, es ++ globalStats u)

/-- zt_unit.c 304-312: counting the delimiters found by strpbrk, starting from `argc`. -/
def countLoop (delim : Byte) : Str → (argc : Nat) → Nat
  | [], argc => argc
  | b :: p, argc => if b = delim then (if p = [] then argc + 1 else countLoop delim p (argc + 1)) else countLoop delim p argc

/-- strsep: the text up to the next delimiter and what follows it (`none`: no more). -/
def strsep (delim : Byte) (s : Str) : Str × Option Str :=
  (s.takeWhile (· != delim), if s.contains delim then some ((s.dropWhile (· != delim)).drop 1) else none)

/-- zt_unit.c 328-335: the non-empty parts, at most `argc` of them. `fuel` bounds the number of strsep calls, of which there are at most one per character and one more. -/
def splitLoop (delim : Byte) : (fuel : Nat) → (tmp : Option Str) → (argc : Nat) → List Str
  | 0, _, _ => []
  | _ + 1, none, _ => []
  | fuel + 1, some s, argc =>
      let (p, rest) := strsep delim s
      if p ≠ [] then p :: (if argc - 1 = 0 then [] else splitLoop delim fuel rest (argc - 1)) else splitLoop delim fuel rest argc

/-- zt_unit.c 291-338 str_split: the vector up to its NULL, and `*elts`. -/
def strSplit (s : Str) (delim : Byte) : List Str × Nat :=
  let argc := countLoop delim s 1
  (splitLoop delim (s.length + 1) (some s) argc, argc)

/-- `strlen(targetv[i])`: NULL behind the parts is dereferenced. -/
def part (v : List Str) (i : Nat) : Outcome Str :=
  match v[i]? with
  | some s => .ok s
  | none => .ub

/-- zt_unit.c 365-373: position of the first suite with this name. -/
def findSuite (name : Str) (ss : List (Suite W)) : Option Nat := ss.findIdx? fun s => s.name.length = name.length ∧ s.name = name

/-- zt_unit.c 386-394 -/
def findTest (name : Str) (ts : List (Test W)) : Option Nat := ts.findIdx? fun t => t.name.length = name.length ∧ t.name = name

/-- zt_unit.c 401-405: one test, only counted as success or failure of the unit. -/
def runOne (u : UnitT W) (i : Nat) (s : Suite W) (j : Nat) (w : W) : Outcome (Int × UnitT W × W × List Ev) :=
  match s.tests[j]? with
  | none => .ub
  | some t => do
      let (t, w, e) ← runTest s t w
      let c := if t.success = 0 then { u.c with failures := add u.c.failures 1 } else { u.c with successes := add u.c.successes 1 }
      pure (0, { suites := u.suites.set i { s with tests := s.tests.set j t }, c := c }, w, e)

/-- zt_unit.c 380-405, the suite found. -/
def runIn (u : UnitT W) (v : List Str) (count : Nat) (i : Nat) (w : W) : Outcome (Int × UnitT W × W × List Ev) :=
  match u.suites[i]? with
  | none => .ub
  | some s =>
      if count = 1 then do
        let (s, c, w, e) ← runSuite u.c s w
        pure (0, { suites := u.suites.set i s, c := c }, w, e)
      else do
        let n ← part v 1
        match findTest n s.tests with
        | none => pure (-1, u, w, [])
        | some j => runOne u i s j w

/-- zt_unit.c 345-410 zt_unit_run_by_name -/
def runByName (u : UnitT W) (name : Str) (w : W) : Outcome (Int × UnitT W × W × List Ev) := do
  let (v, count) := strSplit name 46
  if count ≤ 0 ∨ count > 2 then pure (-1, u, w, []) else do
    let n ← part v 0
    match findSuite n u.suites with
    | none => pure (-1, u, w, [])
    | some i => runIn u v count i w

/-- zt_unit.c 412-430 zt_unit_list -/
def list (u : UnitT W) : List Ev := .listHead :: u.suites.flatMap fun s => .listSuite s.name :: s.tests.map fun t => .listTest t.name

/-- "-h" "--help" "-l" "--list" -/
def H : Str := [45, 104]
def HELP : Str := [45, 45, 104, 101, 108, 112]
def L : Str := [45, 108]
def LIST : Str := [45, 45, 108, 105, 115, 116]

/-- zt_unit.c 481-491: the first option among the arguments. -/
def options (u : UnitT W) : List Str → Option (List Ev)
  | [] => none
  | a :: as => if a = H ∨ a = HELP then some [.help] else if a = L ∨ a = LIST then some (list u) else options u as

/-- zt_unit.c 494-499; `r` is `result`. -/
def runNames : List Str → Int → UnitT W → W → Outcome (Int × UnitT W × W × List Ev)
  | [], r, u, w => .ok (r, u, w, [])
  | a :: as, r, u, w => do
      let (x, u, w, e) ← runByName u a w
      let (r, e) := if x < 0 then (-1, e ++ [Ev.notFound a]) else (r, e)
      let (r, u, w, es) ← runNames as r u w
      pure (r, u, w, e ++ es)

/-- zt_unit.c 506-511 -/
def status (r : Int) (u : UnitT W) : Int := if r = 0 then (if u.c.failures > 0 then -1 else r) else r

/-- zt_unit.c 467-512 zt_unit_main; `args` is argv without the program's name. -/
def main (u : UnitT W) (args : List Str) (w : W) : Outcome (Int × UnitT W × W × List Ev) :=
  match options u args with
  | some e => .ok (0, u, w, e)
  | none =>
      if args ≠ [] then do
        let (r, u, w, e) ← runNames args 0 u w
        pure (status r u, u, w, e)
      else do
        let (r, u, w, e) ← run u w
        if r < 0 then pure (r, u, w, e) else pure (status r u, u, w, e)

end ZT.Unit
