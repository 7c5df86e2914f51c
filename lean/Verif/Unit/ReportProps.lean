import Verif.Unit.ReportRun

/-!
# C103: the report of a test program
-/

namespace ZT.Unit.Report

variable {W : Type}

/-! ## The constants of the report are plain -/

instance (n : List Byte) : Decidable (Plain n) :=
  decidable_of_iff (n ≠ [] ∧ 10 ∉ n ∧ n.head? ≠ some 32 ∧ (n.getLast? ≠ some 32 ∧ n.getLast? ≠ some 58) ∧ ¬ [58, 32] <:+: n ∧ (n ≠ [45] ∧ ¬ [45, 32] <+: n))
    ⟨fun ⟨a, b, c, d, e, f⟩ => ⟨a, b, c, d, e, f⟩, fun ⟨a, b, c, d, e, f⟩ => ⟨a, b, c, d, e, f⟩⟩

theorem bytes_eq : bytes "assertions" = ascii "assertions" ∧ bytes "unhandled_exceptions" = ascii "unhandled_exceptions" ∧ bytes "result" = ascii "result" ∧ bytes "Tests" = ascii "Tests" ∧
    bytes "Errors" = ascii "Errors" ∧ bytes "Global Stats" = ascii "Global Stats" ∧ bytes "suites" = ascii "suites" ∧ bytes "tests" = ascii "tests" ∧ bytes "successes" = ascii "successes" ∧
    bytes "exceptions" = ascii "exceptions" ∧ bytes "failures" = ascii "failures" ∧ bytes "empty tests" = ascii "empty tests" ∧ bytes "Test Suites" = ascii "Test Suites" ∧
    bytes "success" = ascii "success" ∧ bytes "failure" = ascii "failure" := by decide +kernel

theorem plain_const : ∀ s ∈ ["assertions", "unhandled_exceptions", "result", "Tests", "Errors", "Global Stats", "suites", "tests", "successes", "exceptions", "failures", "empty tests", "Test Suites"],
    Plain (ascii s) ∧ (ascii s).length < 100 := by decide +kernel

theorem digits_char {n : Nat} {c : Byte} (h : c ∈ dec n) : 48 ≤ c.toNat ∧ c.toNat ≤ 57 := by
  unfold dec Num.digits at h
  obtain ⟨d, hd, rfl⟩ := List.mem_map.1 h
  have := Nat.isDigit_of_mem_toDigits (by decide) (by decide) hd
  simp only [Char.isDigit, Bool.and_eq_true, decide_eq_true_eq] at this
  have h1 : 48 ≤ d.toNat := this.1
  have h2 : d.toNat ≤ 57 := this.2
  simp only [Num.byte, UInt8.toNat_ofNat']
  omega

theorem dec_line (n : Nat) : 10 ∉ dec n := fun h => absurd (digits_char h).1 (by decide)

theorem dec_quote (n : Nat) : (dec n).head? ≠ some 39 := fun h => absurd (digits_char (List.mem_of_mem_head? h)).1 (by decide)

theorem fmtD_small {n : Nat} (h : n < 2 ^ 31) : fmtD n = dec n := by
  unfold fmtD dec
  rw [if_pos h, Num.signed, if_neg (by omega)]
  simp

/-! ## Each event is shown as its lines -/

theorem shows_nil : Shows (.ok []) [] := ⟨[], rfl, fun _ => rfl⟩

theorem shows_text {o : List Byte} {ls : List (Nat × Item)} (h : ∀ r, read (o ++ r) = ls ++ read r) : Shows (.ok o) ls := ⟨o, rfl, h⟩

theorem printAll_ok {prog : List Byte} {a b : List Ev} {o p : List Byte} (h : printAll prog a = .ok o) (k : printAll prog b = .ok p) : printAll prog (a ++ b) = .ok (o ++ p) := by
  induction a generalizing o with
  | nil => cases h; exact k
  | cons e a ih =>
      rw [printAll] at h
      obtain ⟨o1, f1, h⟩ := Outcome.bind_eq_ok.1 h
      obtain ⟨o2, f2, h⟩ := Outcome.bind_eq_ok.1 h
      cases h
      rw [List.cons_append, printAll]
      refine Outcome.bind_eq_ok.2 ⟨_, f1, ?_⟩
      refine Outcome.bind_eq_ok.2 ⟨_, ih f2, ?_⟩
      simp

theorem printAll_append {prog : List Byte} {a b : List Ev} {x y : List (Nat × Item)} (h : Shows (printAll prog a) x) (k : Shows (printAll prog b) y) : Shows (printAll prog (a ++ b)) (x ++ y) := by
  obtain ⟨o, e1, h1⟩ := h
  obtain ⟨p, e2, h2⟩ := k
  refine ⟨o ++ p, printAll_ok e1 e2, fun r => ?_⟩
  rw [List.append_assoc, h1, h2, List.append_assoc]

theorem printAll_one {prog : List Byte} {e : Ev} {x : List (Nat × Item)} (h : Shows (print prog e) x) : Shows (printAll prog [e]) x := by
  obtain ⟨o, e1, h1⟩ := h
  refine ⟨o, ?_, h1⟩
  rw [printAll]
  refine Outcome.bind_eq_ok.2 ⟨_, e1, ?_⟩
  refine Outcome.bind_eq_ok.2 ⟨_, rfl, ?_⟩
  simp

theorem printAll_map {α : Type} {prog : List Byte} {f : α → Ev} {g : α → Nat × Item} {l : List α} (h : ∀ a ∈ l, Shows (print prog (f a)) [g a]) : Shows (printAll prog (l.map f)) (l.map g) := by
  induction l with
  | nil => exact shows_nil
  | cons a l ih =>
      exact printAll_append (a := [f a]) (x := [g a]) (printAll_one (h a (by simp))) (ih fun b hb => h b (by simp [hb]))

/-- The lengths that printf can report. -/
def Short (n : List Byte) : Prop := n.length < 2 ^ 31 - 100

theorem shows_const_dict {s : String} (hs : s ∈ ["assertions", "unhandled_exceptions", "result", "Tests", "Errors", "Global Stats", "suites", "tests", "successes", "exceptions", "failures", "empty tests", "Test Suites"])
    (he : bytes s = ascii s) {k : Nat} (hk : Macros.INDENT_TO 32 k 2 0 = .ok (k : Int)) : Shows (yamlDict (bytes s) k) [(k, .heading (ascii s))] := by
  rw [he]; exact shows_dict (plain_const s hs).1 hk

theorem shows_const_value {s : String} (hs : s ∈ ["assertions", "unhandled_exceptions", "result", "Tests", "Errors", "Global Stats", "suites", "tests", "successes", "exceptions", "failures", "empty tests", "Test Suites"])
    (he : bytes s = ascii s) {k : Nat} (hk : Macros.INDENT_TO 32 k 2 0 = .ok (k : Int)) (hb : k < 100) {v : List Byte} (hv : 10 ∉ v) (hq : v.head? ≠ some 39) :
    Shows (yamlValue (bytes s) k v) [(k, .value (ascii s) v)] := by
  rw [he]; exact shows_value (plain_const s hs).1 hk (by have := (plain_const s hs).2; omega) hv hq

theorem shows_result (a e : Nat) (b : Bool) (prog : List Byte) : Shows (print prog (.result a e b))
    ((6, .value (ascii "assertions") (dec a)) :: ((if e = 0 then [] else [(6, .value (ascii "unhandled_exceptions") (dec e))]) ++ [(6, .value (ascii "result") (if b then ascii "success" else ascii "failure"))])) := by
  obtain ⟨b1, b2, b3, -, -, -, -, -, -, -, -, -, -, b14, b15⟩ := bytes_eq
  have h1 : Shows (yamlValue (bytes "assertions") 6 (fmtL a)) [(6, .value (ascii "assertions") (dec a))] :=
    shows_const_value (k := 6) (by simp) b1 rfl (by decide) (dec_line a) (dec_quote a)
  have h2 : Shows (printExceptions e) (if e = 0 then [] else [(6, .value (ascii "unhandled_exceptions") (dec e))]) := by
    unfold printExceptions
    by_cases he : e = 0
    · rw [if_neg (by simpa using he), if_pos he]; exact shows_nil
    · rw [if_pos he, if_neg he]; exact shows_const_value (k := 6) (by simp) b2 rfl (by decide) (dec_line e) (dec_quote e)
  have h3 : Shows (yamlValue (bytes "result") 6 (bytes (if b then "success" else "failure"))) [(6, .value (ascii "result") (if b then ascii "success" else ascii "failure"))] := by
    cases b
    · exact shows_const_value (k := 6) (v := bytes "failure") (by simp) b3 rfl (by decide) (by decide +kernel) (by decide +kernel) |> fun h => by rw [b15] at h; simpa [b15] using h
    · exact shows_const_value (k := 6) (v := bytes "success") (by simp) b3 rfl (by decide) (by decide +kernel) (by decide +kernel) |> fun h => by rw [b14] at h; simpa [b14] using h
  obtain ⟨o1, e1, r1⟩ := h1
  obtain ⟨o2, e2, r2⟩ := h2
  obtain ⟨o3, e3, r3⟩ := h3
  refine ⟨o1 ++ o2 ++ o3, ?_, fun r => ?_⟩
  · show printResult a e b = _
    unfold printResult
    rw [e1, e2, e3]; rfl
  · rw [List.append_assoc, List.append_assoc, r1, r2, r3]; simp

theorem shows_stats {c : Counters} (hc : c.suites < 2 ^ 31 ∧ c.tests < 2 ^ 31 ∧ c.successes < 2 ^ 31 ∧ c.exceptions < 2 ^ 31 ∧ c.assertions < 2 ^ 31 ∧ c.failures < 2 ^ 31) (prog : List Byte) :
    Shows (print prog (.stats c)) ([(0, .blank), (0, .document), (0, .heading (ascii "Global Stats")),
   (2, .value (ascii "suites") (dec c.suites)), (2, .value (ascii "tests") (dec c.tests)), (2, .value (ascii "successes") (dec c.successes)),
   (2, .value (ascii "exceptions") (dec c.exceptions)), (2, .value (ascii "assertions") (dec c.assertions)), (2, .value (ascii "failures") (dec c.failures))] ++
   (if c.empty = 0 then [] else [(2, .heading (ascii "empty tests"))])) := by
  obtain ⟨c1, c2, c3, c4, c5, c6⟩ := hc
  obtain ⟨b1, -, -, -, -, b6, b7, b8, b9, b10, b11, b12, -⟩ := bytes_eq
  obtain ⟨o0, e0, r0⟩ : Shows (yamlDict (bytes "Global Stats") 0) [(0, .heading (ascii "Global Stats"))] := shows_const_dict (k := 0) (by simp) b6 rfl
  have hv : ∀ s, s ∈ ["assertions", "unhandled_exceptions", "result", "Tests", "Errors", "Global Stats", "suites", "tests", "successes", "exceptions", "failures", "empty tests", "Test Suites"] → bytes s = ascii s → ∀ n < 2 ^ 31,
      Shows (yamlValue (bytes s) 2 (fmtD n)) [(2, .value (ascii s) (dec n))] := by
    intro s hs he n hn
    rw [fmtD_small hn]
    exact shows_const_value (k := 2) hs he rfl (by decide) (dec_line n) (dec_quote n)
  obtain ⟨o1, e1, r1⟩ := hv "suites" (by simp) b7 _ c1
  obtain ⟨o2, e2, r2⟩ := hv "tests" (by simp) b8 _ c2
  obtain ⟨o3, e3, r3⟩ := hv "successes" (by simp) b9 _ c3
  obtain ⟨o4, e4, r4⟩ := hv "exceptions" (by simp) b10 _ c4
  obtain ⟨o5, e5, r5⟩ := hv "assertions" (by simp) b1 _ c5
  obtain ⟨o6, e6, r6⟩ := hv "failures" (by simp) b11 _ c6
  obtain ⟨o7, e7, r7⟩ : Shows (printEmptyHead c.empty) (if c.empty = 0 then [] else [(2, .heading (ascii "empty tests"))]) := by
    unfold printEmptyHead
    by_cases he : c.empty = 0
    · rw [if_neg (by omega), if_pos he]; exact shows_nil
    · rw [if_pos (by omega), if_neg he]; exact shows_const_dict (k := 2) (by simp) b12 rfl
  refine ⟨bytes "\n---\n" ++ o0 ++ o1 ++ o2 ++ o3 ++ o4 ++ o5 ++ o6 ++ o7, ?_, fun r => ?_⟩
  · show printStats c = _
    unfold printStats
    rw [e0, e1, e2, e3, e4, e5, e6, e7]; rfl
  · have eb : bytes "\n---\n" = [10, 45, 45, 45, 10] := by decide +kernel
    have e : (bytes "\n---\n" ++ o0 ++ o1 ++ o2 ++ o3 ++ o4 ++ o5 ++ o6 ++ o7) ++ r = [] ++ 10 :: ([45, 45, 45] ++ 10 :: (o0 ++ (o1 ++ (o2 ++ (o3 ++ (o4 ++ (o5 ++ (o6 ++ (o7 ++ r))))))))) := by
      rw [eb]; simp
    rw [e, read_line (by simp), read_line (by decide), r0, r1, r2, r3, r4, r5, r6, r7]
    simp [readLine, readBody]

theorem shows_suite {n : List Byte} (h : Plain n) (prog : List Byte) : Shows (print prog (.suite n)) [(0, .document), (0, .heading n), (2, .heading (ascii "Tests"))] := by
  obtain ⟨o, e, r⟩ : Shows (yamlDict (bytes "Tests") 2) [(2, .heading (ascii "Tests"))] := shows_const_dict (k := 2) (by simp) bytes_eq.2.2.2.1 rfl
  refine ⟨bytes "---\n" ++ n ++ [58, 10] ++ o, ?_, fun t => ?_⟩
  · show (yamlDict (bytes "Tests") 2 >>= _) = _
    rw [e]; rfl
  · have eb : bytes "---\n" = [45, 45, 45, 10] := by decide +kernel
    have e : (bytes "---\n" ++ n ++ [58, 10] ++ o) ++ t = [45, 45, 45] ++ 10 :: ((List.replicate 0 32 ++ (n ++ [58])) ++ 10 :: (o ++ t)) := by rw [eb]; simp
    rw [e, read_line (by decide), read_line, r, readLine_indent (head_more h _), read_heading h]
    · simp [readLine, readBody]
    · simpa using h.line

theorem shows_tests (js : List (Job W)) (w : W) (h : ∀ j ∈ js, Plain j.name) (prog : List Byte) : Shows (printAll prog (evTests js w)) (testsLines js w) := by
  induction js generalizing w with
  | nil => exact shows_nil
  | cons j js ih =>
      refine printAll_append ?_ (ih _ fun i hi => h i (by simp [hi]))
      have h1 : Shows (print prog (.test j.name)) [(4, .heading j.name)] := shows_dict (k := 4) (h j (by simp)) rfl
      have := printAll_append (a := [.test j.name]) (b := [_]) (printAll_one h1) (printAll_one (shows_result (j.asserts w) (excs j w) (j.passes w) prog))
      simpa [testLines] using this

theorem failures_some (js : List (Job W)) (w : W) : ∀ p ∈ failures js w, (∃ j ∈ js, p.1 = j.name) ∧ ∃ t, p.2 = some t := by
  induction js generalizing w with
  | nil => simp [failures]
  | cons j js ih =>
      intro p hp
      rw [failures, List.mem_append] at hp
      rcases hp with hp | hp
      · split at hp
        · simp at hp
        · simp only [List.mem_singleton] at hp
          rw [hp]
          exact ⟨⟨j, by simp, rfl⟩, _, rfl⟩
      · obtain ⟨⟨i, hi, e⟩, k⟩ := ih _ p hp
        exact ⟨⟨i, by simp [hi], e⟩, k⟩

theorem shows_errors (js : List (Job W)) (w : W) (h : ∀ j ∈ js, Plain j.name ∧ Short j.name) (hc : ∀ p ∈ failures js w, Clean (p.2.getD [])) (prog : List Byte) :
    Shows (printAll prog (evErrors (failures js w))) (errorsLines js w) := by
  unfold evErrors errorsLines
  by_cases hf : failures js w = []
  · rw [if_pos hf, if_pos hf]; exact shows_nil
  · rw [if_neg hf, if_neg hf]
    refine printAll_append (a := [.errors]) (x := [_]) (printAll_one (shows_const_dict (k := 2) (by simp) bytes_eq.2.2.2.2.1 rfl)) (printAll_map fun p hp => ?_)
    obtain ⟨⟨j, hj, e⟩, t, et⟩ := failures_some js w p hp
    have hc := hc p hp
    rw [et] at hc
    show Shows (yamlValue p.1 4 ([39] ++ p.2.getD (bytes "No Error Text") ++ [39])) _
    rw [et, e]
    obtain ⟨h1, h2⟩ := h j hj
    exact shows_quoted (k := 4) h1 rfl (by unfold Short at h2; omega) hc

/-- The names of the suites and tests are plain, and no failure of the run has a text that breaks its line. -/
structure Readable (p : List (Str × List (Job W))) (w : W) : Prop where
  suites : ∀ x ∈ p, Plain x.1
  tests : ∀ x ∈ p, ∀ j ∈ x.2, Plain j.name ∧ Short j.name
  texts : ∀ f ∈ failures (p.flatMap (·.2)) w, Clean (f.2.getD [])

theorem shows_suites (p : List (Str × List (Job W))) (w : W) (h : Readable p w) (prog : List Byte) : Shows (printAll prog (evSuites p w)) (suitesLines p w) := by
  induction p generalizing w with
  | nil => exact shows_nil
  | cons x p ih =>
      obtain ⟨n, js⟩ := x
      have ht := h.tests (n, js) (by simp)
      have hc : ∀ f ∈ failures js w ++ failures (p.flatMap (·.2)) (play js w).2, Clean (f.2.getD []) := by
        have := h.texts
        rwa [List.flatMap_cons, failures_append] at this
      refine printAll_append ?_ (ih _ ⟨fun x hx => h.suites x (by simp [hx]), fun x hx => h.tests x (by simp [hx]), fun f hf => hc f (by simp [hf])⟩)
      have k := printAll_append (a := [.suite n]) (printAll_one (shows_suite (h.suites (n, js) (by simp)) prog))
        (printAll_append (shows_tests js w (fun j hj => (ht j hj).1) prog) (shows_errors js w ht (fun f hf => hc f (by simp [hf])) prog))
      simpa [suiteLines] using k

/-- The figures of the run fit into an `int`. -/
structure Countable (p : List (Str × List (Job W))) (w : W) : Prop where
  suites : p.length < 2 ^ 31
  tests : (p.flatMap (·.2)).length < 2 ^ 31
  assertions : ((play (p.flatMap (·.2)) w).1.map (·.2)).sum < 2 ^ 31

theorem excsOf_le (js : List (Job W)) (w : W) : excsOf js w ≤ js.length := by
  induction js generalizing w with
  | nil => simp [excsOf]
  | cons j js ih =>
      have : excs j w ≤ 1 := by unfold excs; split <;> omega
      have := ih (j.after w)
      simp only [excsOf, List.length_cons]; omega

theorem idle_le (js : List (Job W)) (w : W) : (idle js w).length ≤ js.length := by
  induction js generalizing w with
  | nil => simp [idle]
  | cons j js ih =>
      have := ih (j.after w)
      rw [idle, List.length_append]
      split <;> simp <;> omega

theorem idle_names (js : List (Job W)) (w : W) : ∀ n ∈ idle js w, ∃ j ∈ js, n = j.name := by
  induction js generalizing w with
  | nil => simp [idle]
  | cons j js ih =>
      intro n hn
      rw [idle, List.mem_append] at hn
      rcases hn with hn | hn
      · split at hn
        · exact ⟨j, by simp, by simpa using hn⟩
        · simp at hn
      · obtain ⟨i, hi, e⟩ := ih _ n hn
        exact ⟨i, by simp [hi], e⟩

theorem read_all {x : Outcome (List Byte)} {ls : List (Nat × Item)} (h : Shows x ls) : ∃ o, x = .ok o ∧ read o = ls := by
  obtain ⟨o, e, r⟩ := h
  have := r []
  rw [List.append_nil] at this
  exact ⟨o, e, by rw [this]; simp [read, lines]⟩

/-- **C103 (the report).** Missing: names and texts that break their line, and figures from 2^31 on, where it fails (see the violations below). What a test program prints when it runs all its tests for the first time can be read back: line for line it is the report that belongs to the tests, with a document for each suite, the number of
assertions, the exceptions and the result of each test, the failed tests with their texts, and the figures. -/
theorem c103_report_partial (u : UnitT W) (w : W) (hf : Fine u) (hn : New u) (hr : Readable (plan u) w) (hc : Countable (plan u) w) (prog : List Byte) :
    ∃ u' w' es out, run u w = .ok (0, u', w', es) ∧ printAll prog es = .ok out ∧ read out = report (plan u) w := by
  have hi := idle_le ((plan u).flatMap (·.2)) w
  have hx := excsOf_le ((plan u).flatMap (·.2)) w
  have ht := hc.tests
  obtain ⟨u', w', e⟩ := run_exact u w hf hn (by omega)
  refine ⟨u', w', evSuites (plan u) w ++ .stats (finalCounters (plan u) w) :: (idle ((plan u).flatMap (·.2)) w).map .empty, ?_⟩
  suffices hs : Shows (printAll prog (evSuites (plan u) w ++ .stats (finalCounters (plan u) w) :: (idle ((plan u).flatMap (·.2)) w).map .empty)) (report (plan u) w) by
    obtain ⟨o, e1, e2⟩ := read_all hs
    exact ⟨o, e, e1, e2⟩
  have hl := play_length ((plan u).flatMap (·.2)) w
  have h1 : (play ((plan u).flatMap (·.2)) w).1.countP (·.1) ≤ ((plan u).flatMap (·.2)).length := hl ▸ List.countP_le_length
  have h2 : (play ((plan u).flatMap (·.2)) w).1.countP (!·.1) ≤ ((plan u).flatMap (·.2)).length := hl ▸ List.countP_le_length
  have hk : finalCounters (plan u) w = ⟨(plan u).length, ((plan u).flatMap (·.2)).length, (play ((plan u).flatMap (·.2)) w).1.countP (·.1), (play ((plan u).flatMap (·.2)) w).1.countP (!·.1),
      ((play ((plan u).flatMap (·.2)) w).1.map (·.2)).sum, excsOf ((plan u).flatMap (·.2)) w, (idle ((plan u).flatMap (·.2)) w).length⟩ := by
    have hs := hc.suites
    have ha := hc.assertions
    unfold finalCounters
    rw [kSuites_eq]
    simp only [wrap, Nat.zero_add]
    congr 1 <;> exact Nat.mod_eq_of_lt (by omega)
  refine printAll_append (shows_suites (plan u) w hr prog) ?_
  have hst := shows_stats (c := finalCounters (plan u) w) (by rw [hk]; exact ⟨hc.suites, ht, by simp only; omega, by simp only; omega, hc.assertions, by simp only; omega⟩) prog
  have hem : Shows (printAll prog ((idle ((plan u).flatMap (·.2)) w).map .empty)) ((idle ((plan u).flatMap (·.2)) w).map fun n => (4, .entry n)) := by
    refine printAll_map fun n hn => ?_
    obtain ⟨j, hj, rfl⟩ := idle_names _ w n hn
    obtain ⟨x, hx, hj⟩ := List.mem_flatMap.1 hj
    exact shows_elt (k := 4) (hr.tests x hx j hj).1.line rfl
  have := printAll_append (a := [.stats (finalCounters (plan u) w)]) (printAll_one hst) hem
  rw [hk] at this
  rw [hk]
  have he : statsLines (plan u) w = ([(0, .blank), (0, .document), (0, .heading (ascii "Global Stats")),
   (2, .value (ascii "suites") (dec (plan u).length)), (2, .value (ascii "tests") (dec ((plan u).flatMap (·.2)).length)), (2, .value (ascii "successes") (dec ((play ((plan u).flatMap (·.2)) w).1.countP (·.1)))),
   (2, .value (ascii "exceptions") (dec (excsOf ((plan u).flatMap (·.2)) w))), (2, .value (ascii "assertions") (dec ((play ((plan u).flatMap (·.2)) w).1.map (·.2)).sum)), (2, .value (ascii "failures") (dec ((play ((plan u).flatMap (·.2)) w).1.countP (!·.1))))] ++
   (if (idle ((plan u).flatMap (·.2)) w).length = 0 then [] else [(2, .heading (ascii "empty tests"))])) ++ (idle ((plan u).flatMap (·.2)) w).map (fun n => (4, .entry n)) := by
    unfold statsLines
    by_cases h0 : idle ((plan u).flatMap (·.2)) w = []
    · simp [h0]
    · simp [h0]
  rw [he]
  exact this

/-! ## What the report tells -/

/-- The results told by a report. -/
def verdicts (ls : List (Nat × Item)) : List Bool := ls.filterMap fun
  | (6, .value k v) => if k = ascii "result" then some (v == ascii "success") else none
  | _ => none

/-- The errors told by a report: names and texts. -/
def told (ls : List (Nat × Item)) : List (List Byte × List Byte) := ls.filterMap fun
  | (_, .quoted k t) => some (k, t)
  | _ => none

theorem verdicts_append (a b : List (Nat × Item)) : verdicts (a ++ b) = verdicts a ++ verdicts b := by simp [verdicts]
theorem told_append (a b : List (Nat × Item)) : told (a ++ b) = told a ++ told b := by simp [told]

theorem tells_test (j : Job W) (w : W) : verdicts (testLines j w) = [j.passes w] ∧ told (testLines j w) = [] := by
  have h1 : ¬ ascii "assertions" = ascii "result" := by decide +kernel
  have h2 : ¬ ascii "unhandled_exceptions" = ascii "result" := by decide +kernel
  have h3 : (ascii "failure" == ascii "success") = false := by decide +kernel
  unfold testLines
  rw [verdicts_append, verdicts_append, told_append, told_append]
  constructor
  · by_cases he : excs j w = 0 <;> cases hp : j.passes w <;> simp [verdicts, he, h1, h2, h3]
  · by_cases he : excs j w = 0 <;> simp [told, he]

theorem tells_tests (js : List (Job W)) (w : W) : verdicts (testsLines js w) = (play js w).1.map (·.1) ∧ told (testsLines js w) = [] := by
  induction js generalizing w with
  | nil => exact ⟨rfl, rfl⟩
  | cons j js ih =>
      rw [testsLines, verdicts_append, told_append, (tells_test j w).1, (tells_test j w).2, (ih _).1, (ih _).2]
      simp [play]

theorem tells_errors (js : List (Job W)) (w : W) : verdicts (errorsLines js w) = [] ∧ told (errorsLines js w) = (failures js w).map fun p => (p.1, p.2.getD []) := by
  unfold errorsLines
  split
  · next h => rw [h]; exact ⟨rfl, rfl⟩
  · constructor
    · simp [verdicts, List.filterMap_map, Function.comp_def]
    · simp [told, List.filterMap_map, Function.comp_def]

theorem tells_suites (p : List (Str × List (Job W))) (w : W) : verdicts (suitesLines p w) = (play (p.flatMap (·.2)) w).1.map (·.1) ∧
    told (suitesLines p w) = (failures (p.flatMap (·.2)) w).map fun f => (f.1, f.2.getD []) := by
  induction p generalizing w with
  | nil => exact ⟨rfl, rfl⟩
  | cons x p ih =>
      obtain ⟨n, js⟩ := x
      rw [suitesLines, suiteLines, List.flatMap_cons, play_append, failures_append]
      simp only [verdicts_append, told_append, (tells_tests js w).1, (tells_tests js w).2, (tells_errors js w).1, (tells_errors js w).2, (ih _).1, (ih _).2]
      exact ⟨by simp [verdicts], by simp [told]⟩

theorem tells_stats (p : List (Str × List (Job W))) (w : W) : verdicts (statsLines p w) = [] ∧ told (statsLines p w) = [] := by
  unfold statsLines
  simp only [verdicts_append, told_append]
  refine ⟨?_, ?_⟩
  · split
    · rfl
    · simp [verdicts, List.filterMap_map, Function.comp_def]
  · split
    · rfl
    · simp [told, List.filterMap_map, Function.comp_def]

/-- **C103 (what the report tells).** The results in the report are those of the tests, in order, and the errors are those of the failed tests with their texts, and no others. -/
theorem c103_tells (p : List (Str × List (Job W))) (w : W) : verdicts (report p w) = (play (p.flatMap (·.2)) w).1.map (·.1) ∧
    told (report p w) = (failures (p.flatMap (·.2)) w).map fun f => (f.1, f.2.getD []) := by
  unfold report
  rw [verdicts_append, told_append, (tells_suites p w).1, (tells_suites p w).2, (tells_stats p w).1, (tells_stats p w).2]
  simp

/-! ## The list of tests -/

/-- **C103 (the list).** `-l` or `--list` lists every suite and every test, in order, and runs nothing. -/
theorem c103_list (u : UnitT W) (w : W) (a : Str) (args : List Str) (ha : a = ascii "-l" ∨ a = ascii "--list") (hs : ∀ s ∈ u.suites, Plain s.name ∧ ∀ t ∈ s.tests, 10 ∉ t.name) (prog : List Byte) :
    ∃ es out, main u (a :: args) w = .ok (0, u, w, es) ∧ printAll prog es = .ok out ∧
      read out = (0, .heading (ascii "Test Suites")) :: (plan u).flatMap fun x => (2, .heading x.1) :: x.2.map fun j => (4, .entry j.name) := by
  have ho : options u (a :: args) = some (list u) := by
    have l1 : ascii "-l" = L := by decide +kernel
    have l2 : ascii "--list" = LIST := by decide +kernel
    have l3 : ¬ (L = H ∨ L = HELP) ∧ ¬ (LIST = H ∨ LIST = HELP) := by decide +kernel
    rw [l1, l2] at ha
    rw [options]
    rcases ha with rfl | rfl
    · rw [if_neg l3.1, if_pos (Or.inl rfl)]
    · rw [if_neg l3.2, if_pos (Or.inr rfl)]
  refine ⟨list u, ?_⟩
  have e : main u (a :: args) w = .ok (0, u, w, list u) := by unfold main; rw [ho]
  suffices h : Shows (printAll prog (list u)) ((0, .heading (ascii "Test Suites")) :: (plan u).flatMap fun x => (2, .heading x.1) :: x.2.map fun j => (4, .entry j.name)) by
    obtain ⟨o, e1, e2⟩ := read_all h
    exact ⟨o, e, e1, e2⟩
  refine printAll_append (a := [.listHead]) (x := [_]) (printAll_one (shows_const_dict (k := 0) (by simp) bytes_eq.2.2.2.2.2.2.2.2.2.2.2.2.1 rfl)) ?_
  unfold plan
  generalize u.suites = ss at hs
  clear ho e
  induction ss with
  | nil => exact shows_nil
  | cons s ss ih =>
      obtain ⟨h1, h2⟩ := hs s (by simp)
      simp only [List.map_cons, List.flatten_cons]
      refine printAll_append ?_ (ih fun x hx => hs x (by simp [hx]))
      refine printAll_append (a := [.listSuite s.name]) (x := [_]) (printAll_one (shows_dict (k := 2) h1 rfl)) ?_
      have := printAll_map (prog := prog) (f := fun t : Test W => Ev.listTest t.name) (g := fun t => (4, .entry t.name)) (l := s.tests) fun t ht => shows_elt (k := 4) (h2 t ht) rfl
      simpa [jobs, Function.comp_def] using this

/-! ## The column of the values -/

/-- **C103 (the column).** As long as the name ends before column 30, all values stand in the same column: the colon is at 30. -/
theorem c103_column (n v : List Byte) (k : Nat) (hk : k = 2 ∨ k = 4 ∨ k = 6) (h : k + n.length ≤ 30) :
    ∃ a, yamlValue n k v = .ok (a ++ [58, 32] ++ v ++ [10]) ∧ a.length = 30 ∧ (List.replicate k 32 ++ n) <+: a := by
  have hi : Macros.INDENT_TO 32 k 2 0 = .ok (k : Int) := by rcases hk with rfl | rfl | rfl <;> rfl
  refine ⟨_, value_bytes hi (by omega), ?_, List.prefix_append _ _⟩
  simp only [List.length_append, List.length_replicate]
  omega

/-- Violation of C103: after a longer name the colon stands further to the right the longer the name is, twice as far as need be. -/
theorem c103_column_violation (n v : List Byte) (h : 26 < n.length) (h2 : n.length < 2 ^ 31 - 100) :
    ∃ a, yamlValue n 4 v = .ok (a ++ [58, 32] ++ v ++ [10]) ∧ a.length = 2 * (4 + n.length) - 30 := by
  refine ⟨_, value_bytes (k := 4) rfl (by omega), ?_⟩
  simp only [List.length_append, List.length_replicate]
  omega

/-! ## Violations -/

/-- One failed test `t` with this text. -/
def failing (m : Str) : UnitT Unit := { suites := [{ name := [115], tests := [{ name := [116], fn := fun w => (w, 1, .failed m) }] }] }

def failingOut (m : Str) : Outcome (List Byte) := do
  let (_, _, _, es) ← run (failing m) ()
  printAll [] es

/-- The lines of the report. -/
def failingLines (m : Str) : Outcome (List (Nat × Item)) := do
  let o ← failingOut m
  pure (read o)

/-- Violation of C103: the text of an assertion with a character constant, `c == 'a'`, closes its own quotes. -/
theorem c103_quote_violation : (∃ ls, failingLines (ascii "c == 'a'") = .ok ls ∧ told ls = [] ∧ (4, .value [116] (ascii "'c == 'a''")) ∈ ls) := by
  have : failingLines (ascii "c == 'a'") = .ok [(0, .document), (0, .heading [115]), (2, .heading (ascii "Tests")), (4, .heading [116]), (6, .value (ascii "assertions") [49]), (6, .value (ascii "result") (ascii "failure")),
      (2, .heading (ascii "Errors")), (4, .value [116] (ascii "'c == 'a''")), (0, .blank), (0, .document), (0, .heading (ascii "Global Stats")), (2, .value (ascii "suites") [49]), (2, .value (ascii "tests") [49]),
      (2, .value (ascii "successes") [48]), (2, .value (ascii "exceptions") [48]), (2, .value (ascii "assertions") [49]), (2, .value (ascii "failures") [49])] := by decide +kernel
  exact ⟨_, this, by decide +kernel, by decide +kernel⟩

/-- Violation of C103: a line break in a text forges lines of the report; here the error of a test that does not exist. -/
theorem c103_forged_violation : (∃ ls, failingLines (ascii "x'\n    other: 'y") = .ok ls ∧ told ls = [([116], [120]), (ascii "other", [121])]) := by
  have : failingLines (ascii "x'\n    other: 'y") = .ok [(0, .document), (0, .heading [115]), (2, .heading (ascii "Tests")), (4, .heading [116]), (6, .value (ascii "assertions") [49]), (6, .value (ascii "result") (ascii "failure")),
      (2, .heading (ascii "Errors")), (4, .quoted [116] [120]), (4, .quoted (ascii "other") [121]), (0, .blank), (0, .document), (0, .heading (ascii "Global Stats")), (2, .value (ascii "suites") [49]), (2, .value (ascii "tests") [49]),
      (2, .value (ascii "successes") [48]), (2, .value (ascii "exceptions") [48]), (2, .value (ascii "assertions") [49]), (2, .value (ascii "failures") [49])] := by decide +kernel
  exact ⟨_, this, by decide +kernel⟩

/-- Violation of C103: the counters are unsigned but printed with `%d`: from 2^31 on the figures are negative. -/
theorem c103_negative_violation (n : Nat) (h1 : 2 ^ 31 ≤ n) (h2 : n < 2 ^ 32) : fmtD n = 45 :: dec (2 ^ 32 - n) := by
  unfold fmtD dec
  rw [if_neg (by omega), Num.signed, if_pos (by omega)]
  have : ((n : Int) - 2 ^ 32).natAbs = 2 ^ 32 - n := by omega
  rw [this]; rfl

/-! ## A unit with two suites meets the hypotheses -/

def shown : UnitT Nat := { suites := [
  { name := ascii "list", tests := [{ name := ascii "add", fn := fun w => (w + 1, 3, .returned) }, { name := ascii "remove:all", fn := fun w => (w, 1, .failed (ascii "n == 0 : list.c:7")) }] },
  { name := ascii "tree", cpp := true, tests := [{ name := ascii "walk", fn := fun w => (w, 0, .threw none) }, { name := ascii "todo", fn := fun w => (w, 0, .returned) }] }] }

instance (t : List Byte) : Decidable (Clean t) := by unfold Clean; infer_instance

example : New shown ∧ Readable (plan shown) 0 ∧ Countable (plan shown) 0 := by
  refine ⟨⟨rfl, by intro s hs; simp [shown] at hs; rcases hs with rfl | rfl <;> exact ⟨rfl, rfl, by simp⟩⟩, ⟨?_, ?_, ?_⟩, ⟨by decide, by decide, by decide +kernel⟩⟩
  · show ∀ x ∈ (plan shown), _
    intro x hx
    have : x.1 ∈ (plan shown).map (·.1) := List.mem_map_of_mem hx
    exact (show ∀ n ∈ (plan shown).map (·.1), Plain n by decide +kernel) _ this
  · intro x hx j hj
    have : j.name ∈ (plan shown).flatMap fun x => x.2.map (·.name) := List.mem_flatMap.2 ⟨x, hx, List.mem_map_of_mem hj⟩
    exact (show ∀ n ∈ ((plan shown).flatMap fun x => x.2.map (·.name)), Plain n ∧ n.length < 2 ^ 31 - 100 by decide +kernel) _ this
  · show ∀ f ∈ failures ((plan shown).flatMap (·.2)) 0, Clean (f.2.getD [])
    decide +kernel

example : Fine shown := by
  intro x hx j hj
  simp [plan, shown, jobs] at hx
  rcases hx with rfl | rfl
  · simp at hj
    rcases hj with rfl | rfl
    · exact Or.inr fun w => Or.inl rfl
    · exact Or.inr fun w => Or.inr ⟨_, rfl⟩
  · simp at hj
    rcases hj with rfl | rfl <;> exact Or.inl rfl

end ZT.Unit.Report
