import Verif.Unit.Errors
import Verif.Numeral

/-!
# Specification of the report

How a reader takes a report apart, line by line, in the manner of YAML; and which lines the report of a run is to have, in terms of the tests alone.
-/

namespace ZT.Unit.Report

variable {W : Type}

/-- What stands on a line behind its indentation. -/
inductive Item where
  /-- `---`, the beginning of a document -/
  | document
  | blank
  /-- `key:` -/
  | heading (key : List Byte)
  /-- `key: value` -/
  | value (key v : List Byte)
  /-- `key: 'text'` -/
  | quoted (key text : List Byte)
  /-- `- v` -/
  | entry (v : List Byte)
  | other
  deriving DecidableEq, Repr

/-- The lines of a text. -/
def lines : List Byte → List (List Byte)
  | [] => []
  | c :: r => if c = 10 then [] :: lines r else match lines r with
    | [] => [[c]]
    | l :: ls => (c :: l) :: ls

/-- A key ends at the first colon that is followed by a blank or by the end of the line; what follows the blank is the value. -/
def splitKey : List Byte → Option (List Byte × Option (List Byte))
  | [] => none
  | [c] => if c = 58 then some ([], none) else none
  | c :: d :: r => if c = 58 ∧ d = 32 then some ([], some r) else (splitKey (d :: r)).map fun p => (c :: p.1, p.2)

/-- The text without the blanks at its end. -/
def trimEnd (s : List Byte) : List Byte := (s.reverse.dropWhile (· == 32)).reverse

/-- A value in quotes in which no quote occurs. -/
def unquote : List Byte → Option (List Byte)
  | 39 :: r => if r.getLast? = some 39 ∧ 39 ∉ r.dropLast then some r.dropLast else none
  | _ => none

/-- What stands on a line without indentation. -/
def readBody (b : List Byte) : Item :=
  if b = [] then .blank
  else if b = [45, 45, 45] then .document
  else match b with
    | 45 :: 32 :: v => .entry v
    | b => match splitKey b with
      | none => .other
      | some (k, none) => .heading k
      | some (k, some v) => match unquote v with
        | some t => .quoted (trimEnd k) t
        | none => .value (trimEnd k) v

/-- The indentation of a line and its contents. -/
def readLine (l : List Byte) : Nat × Item := ((l.takeWhile (· == 32)).length, readBody (l.dropWhile (· == 32)))

/-- The whole report. -/
def read (s : List Byte) : List (Nat × Item) := (lines s).map readLine

/-- Names that a reader can tell from the rest of a line: not empty, no line break, no blank at either end, no colon at the end or before a blank, and not beginning like an entry of a list. -/
structure Plain (n : List Byte) : Prop where
  nonempty : n ≠ []
  line : 10 ∉ n
  first : n.head? ≠ some 32
  last : n.getLast? ≠ some 32 ∧ n.getLast? ≠ some 58
  colon : ¬ [58, 32] <:+: n
  entry : n ≠ [45] ∧ ¬ [45, 32] <+: n

/-- Error texts without line breaks and quotes. -/
def Clean (t : List Byte) : Prop := 10 ∉ t ∧ 39 ∉ t

/-- The ASCII bytes of a text. -/
def ascii (s : String) : List Byte := s.toList.map fun c => UInt8.ofNat c.toNat

/-- The decimal numeral of a count. -/
def dec (n : Nat) : List Byte := Num.digits 10 n

/-- 1 if the job ends by an exception of its own. -/
def excs (j : Job W) (w : W) : Nat := match (j.fn (j.before w)).2.2 with
  | .threw _ | .threwOther => 1
  | _ => 0

/-- The lines of one test. -/
def testLines (j : Job W) (w : W) : List (Nat × Item) :=
  [(4, .heading j.name), (6, .value (ascii "assertions") (dec (j.asserts w)))] ++
  (if excs j w = 0 then [] else [(6, .value (ascii "unhandled_exceptions") (dec (excs j w)))]) ++
  [(6, .value (ascii "result") (if j.passes w then ascii "success" else ascii "failure"))]

/-- The lines of the tests of a suite, each run in the world its predecessor left. -/
def testsLines : List (Job W) → W → List (Nat × Item)
  | [], _ => []
  | j :: js, w => testLines j w ++ testsLines js (j.after w)

/-- The failed tests with their texts. -/
def errorsLines (js : List (Job W)) (w : W) : List (Nat × Item) :=
  if failures js w = [] then [] else (2, .heading (ascii "Errors")) :: (failures js w).map fun p => (4, .quoted p.1 (p.2.getD []))

/-- The lines of a suite. -/
def suiteLines (name : List Byte) (js : List (Job W)) (w : W) : List (Nat × Item) :=
  [(0, .document), (0, .heading name), (2, .heading (ascii "Tests"))] ++ testsLines js w ++ errorsLines js w

/-- The lines of all suites. -/
def suitesLines : List (Str × List (Job W)) → W → List (Nat × Item)
  | [], _ => []
  | (n, js) :: p, w => suiteLines n js w ++ suitesLines p (play js w).2

/-- The tests that end without an exception and in which no assertion held. -/
def idle : List (Job W) → W → List Str
  | [], _ => []
  | j :: js, w => (if j.asserts w = 0 ∧ excs j w = 0 then [j.name] else []) ++ idle js (j.after w)

/-- The number of exceptions. -/
def excsOf : List (Job W) → W → Nat
  | [], _ => 0
  | j :: js, w => excs j w + excsOf js (j.after w)

/-- The figures at the end. -/
def statsLines (p : List (Str × List (Job W))) (w : W) : List (Nat × Item) :=
  let js := p.flatMap (·.2)
  let rs := (play js w).1
  [(0, .blank), (0, .document), (0, .heading (ascii "Global Stats")),
   (2, .value (ascii "suites") (dec p.length)), (2, .value (ascii "tests") (dec js.length)), (2, .value (ascii "successes") (dec (rs.countP (·.1)))),
   (2, .value (ascii "exceptions") (dec (excsOf js w))), (2, .value (ascii "assertions") (dec (rs.map (·.2)).sum)), (2, .value (ascii "failures") (dec (rs.countP (!·.1))))] ++
  (if idle js w = [] then [] else (2, .heading (ascii "empty tests")) :: (idle js w).map fun n => (4, .entry n))

/-- The report of a run of all tests. -/
def report (p : List (Str × List (Job W))) (w : W) : List (Nat × Item) := suitesLines p w ++ statsLines p w

end ZT.Unit.Report
