import Verif.Unit.Errors
import Verif.Macros.Props
import Verif.Numeral

/-!
# zt_unit.c: the bytes of the report

What zt_unit prints for each event of `Verif.Unit.Model`. `%ld` and `%d` print the decimal text of their argument; `%d` is given an `unsigned int` and shows it as an `int`. printf does not fail and returns the number
of bytes, which must be an `int`. What the tests print themselves is not part of the report.
-/

namespace ZT.Unit

/-- The bytes of a text (used for the constants of the code). -/
def bytes (s : String) : List Byte := s.toUTF8.toList

/-- zt_unit.c 7-8 `yaml_dict(name, offt)` -/
def yamlDict (name : List Byte) (offt : Int) : Outcome (List Byte) := do
  let n ← Macros.INDENT_TO 32 offt 2 0
  pure (Macros.blank n ++ name ++ [58, 10])

/-- zt_unit.c 10-11 `yaml_list_elt(value, "%s", offt)` -/
def yamlListElt (value : List Byte) (offt : Int) : Outcome (List Byte) := do
  let n ← Macros.INDENT_TO 32 offt 2 0
  pure (Macros.blank n ++ [45, 32] ++ value ++ [10])

/-- zt_unit.c 13-18 `yaml_value(name, offt_1, value_fmt, value)`; `v` is the text of the value. -/
def yamlValue (name : List Byte) (offt1 : Int) (v : List Byte) : Outcome (List Byte) := do
  let n ← Macros.INDENT_TO 32 offt1 2 0
  let offt ← Macros.signed 32 (Macros.blank n ++ name).length
  let m ← Macros.INDENT_TO 32 30 2 offt
  pure (Macros.blank n ++ name ++ Macros.blank m ++ [58, 32] ++ v ++ [10])

/-- `%d` of an unsigned int below 2^32 -/
def fmtD (n : Nat) : List Byte := Num.signed (if n < 2 ^ 31 then (n : Int) else n - 2 ^ 32)

/-- `%ld` of a count -/
def fmtL (n : Nat) : List Byte := Num.digits 10 n

/-- zt_unit.c 280-282 -/
def printExceptions (e : Nat) : Outcome (List Byte) := if e ≠ 0 then yamlValue (bytes "unhandled_exceptions") 6 (fmtL e) else .ok []

/-- zt_unit.c 279-285: the result of one test. -/
def printResult (a e : Nat) (ok : Bool) : Outcome (List Byte) := do
  let x ← yamlValue (bytes "assertions") 6 (fmtL a)
  let y ← printExceptions e
  let z ← yamlValue (bytes "result") 6 (bytes (if ok then "success" else "failure"))
  pure (x ++ y ++ z)

/-- zt_unit.c 446-451 -/
def printEmptyHead (n : Nat) : Outcome (List Byte) := if n > 0 then yamlDict (bytes "empty tests") 2 else .ok []

/-- zt_unit.c 437-451: the counters, and the heading of the empty tests. -/
def printStats (c : Counters) : Outcome (List Byte) := do
  let h ← yamlDict (bytes "Global Stats") 0
  let x1 ← yamlValue (bytes "suites") 2 (fmtD c.suites)
  let x2 ← yamlValue (bytes "tests") 2 (fmtD c.tests)
  let x3 ← yamlValue (bytes "successes") 2 (fmtD c.successes)
  let x4 ← yamlValue (bytes "exceptions") 2 (fmtD c.exceptions)
  let x5 ← yamlValue (bytes "assertions") 2 (fmtD c.assertions)
  let x6 ← yamlValue (bytes "failures") 2 (fmtD c.failures)
  let y ← printEmptyHead c.empty
  pure (bytes "\n---\n" ++ h ++ x1 ++ x2 ++ x3 ++ x4 ++ x5 ++ x6 ++ y)

/-- zt_unit.c 475-479 `msg` -/
def MSG : List Byte := bytes "[options] <suite | suite.test> ...\n\nOptions:\n     -h, --help               This help text\n     -l, --list               list suites and test (default disabled)\n"

/-- The bytes of one event; `prog` is argv[0]. zt_unit.c 201-202 (suite), 265 (test), 279-285 (result), 228 and 232 (errors), 435-451 (stats), 459 (empty), 497 (not found), 484 (help), 419-426 (list). -/
def print (prog : List Byte) : Ev → Outcome (List Byte)
  | .suite n => do
      let t ← yamlDict (bytes "Tests") 2
      pure (bytes "---\n" ++ n ++ [58, 10] ++ t)
  | .test n => yamlDict n 4
  | .result a e s => printResult a e s
  | .errors => yamlDict (bytes "Errors") 2
  | .error n t => yamlValue n 4 ([39] ++ t.getD (bytes "No Error Text") ++ [39])
  | .stats c => printStats c
  | .empty n => yamlListElt n 4
  | .notFound n => pure (bytes "Suite or Test \"" ++ n ++ bytes "\" not found\n")
  | .help => pure (prog ++ [32] ++ MSG)
  | .listHead => yamlDict (bytes "Test Suites") 0
  | .listSuite n => yamlDict n 2
  | .listTest n => yamlListElt n 4

/-- Everything printed, in order. -/
def printAll (prog : List Byte) : List Ev → Outcome (List Byte)
  | [] => .ok []
  | e :: es => do
      let a ← print prog e
      let b ← printAll prog es
      pure (a ++ b)

end ZT.Unit
