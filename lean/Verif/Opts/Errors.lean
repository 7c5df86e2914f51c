import Verif.Opts.Help
import Verif.Numeral

/-!
# C101: reporting option errors (zt_opts.c)

A report has a code and a message, which is what vasprintf makes of the format and its arguments (`none`: the format is NULL). Allocations succeed.
-/

namespace ZT.Opts

open Help

/-- `error: { code: ` -/
def errHead : Str := "error: { code: ".toList.map Num.byte
/-- `, string: "` -/
def errMid : Str := ", string: \"".toList.map Num.byte
/-- `" }` -/
def errTail : Str := "\" }".toList.map Num.byte

/-- zt_opts.c 44-59 `zt_opt_verror_str`; printing a NULL string (no format) with `%s` is undefined. -/
def verrorStr (strerror : Int → Str) (code : Int) : Option Str → Outcome Str
  | none => .ub
  | some m => .ok (errHead ++ Num.signed code ++ errMid ++ (if code = 0 then [] else strerror code) ++ [58, 32] ++ m ++ errTail)

/-- zt_opts.c 62-74 `zt_opt_verror_default`: the value returned and the standard error output. -/
def verrorDefault (strerror : Int → Str) (code : Int) (m : Option Str) (err : Str) : Outcome (Int × Str) :=
  if code = 0 ∧ m = none then .ok (-1, err)
  else do
    let t ← verrorStr strerror code m
    pure (code, err ++ t ++ [10])

/-- What follows a report: the program goes on with a value, or it has ended with an exit status (what a parent process sees of the argument of exit). -/
inductive Ended where
  | value (v : Int)
  | exit (status : Nat)
  deriving DecidableEq, Repr

/-- exit(v): POSIX hands on the low 8 bits. -/
def exitStatus (v : Int) : Nat := (v % 256).toNat

/-- zt_opts.c 441-454 `_zt_opt_error_wrapper`, the handler used when the program gives none. -/
def wrapper (strerror : Int → Str) (code : Int) (m : Option Str) (err : Str) : Outcome (Ended × Str) := do
  let (ret, err) ← verrorDefault strerror code m err
  pure (if ret ≠ 0 then .exit (exitStatus ret) else .value ret, err)

/-- `Programmer Error: must have a short or long opt at least` -/
def programmerError : Str := "Programmer Error: must have a short or long opt at least".toList.map Num.byte

/-- zt_opts.c 368-382 `zt_opt_help_stdout` with the handler `wrapper`: the printing is that of zt_opt_usage, then errors are reported. Results: what becomes of the program, standard output, standard error. -/
def helpStdout (strerror : Int → Str) (name : Str) (help : Option Str) (opts : List Opt) (err : Str) (fuel : Nat) : Outcome (Ended × Str × Str) := do
  let (r, out) ← usage name help opts fuel
  if r < 0 then do
    let (_, err) ← wrapper strerror 0 (some programmerError) err
    pure (.value (-1), out, err)
  else do
    let (e, err) ← wrapper strerror 0 none err
    match e with
    | .exit s => pure (.exit s, out, err)
    | .value _ => pure (.value 0, out, err)

/-! ## Numerals -/

theorem digit_byte {c : Byte} {n : Nat} (h : c ∈ Num.digits 10 n) : 48 ≤ c.toNat ∧ c.toNat ≤ 57 := by
  obtain ⟨d, hd, rfl⟩ := List.mem_map.1 h
  have := Nat.isDigit_of_mem_toDigits (by omega) (by omega) hd
  simp only [Char.isDigit, Bool.and_eq_true, decide_eq_true_eq] at this
  have h1 : 48 ≤ d.toNat := this.1
  have h2 : d.toNat ≤ 57 := this.2
  simp only [Num.byte, UInt8.toNat_ofNat']
  omega

theorem digits_inj {a b : Nat} (h : Num.digits 10 a = Num.digits 10 b) : a = b := by
  have h1 := Num.value_digits (b := 10) (n := a) (by omega) (by omega)
  rw [h, Num.value_digits (by omega) (by omega)] at h1
  exact h1.symm

theorem signed_byte {v : Int} {c : Byte} (h : c ∈ Num.signed v) : c ≠ 44 := by
  intro e
  subst e
  rw [Num.signed] at h
  rcases List.mem_append.1 h with h | h
  · split at h
    · revert h; decide
    · cases h
  · have := digit_byte h
    revert this; decide

theorem signed_inj {v w : Int} (h : Num.signed v = Num.signed w) : v = w := by
  have hd : ∀ (n : Nat) (t : Str), Num.digits 10 n ≠ Num.byte '-' :: t := by
    intro n t e
    have := digit_byte (c := Num.byte '-') (n := n) (by rw [e]; simp)
    revert this; decide
  rw [Num.signed, Num.signed] at h
  by_cases c1 : v < 0 <;> by_cases c2 : w < 0 <;> simp only [c1, c2, if_true, if_false, List.nil_append, List.cons_append] at h
  · have := digits_inj (List.cons.inj h).2; omega
  · exact absurd h.symm (hd _ _)
  · exact absurd h (hd _ _)
  · have := digits_inj h; omega

theorem append_inj_at {x y : Byte} {a a' : Str} {b b' : Str} (h : a ++ x :: b = a' ++ y :: b') (hx : x = y) (ha : ∀ c ∈ a, c ≠ x) (ha' : ∀ c ∈ a', c ≠ x) : a = a' ∧ b = b' := by
  subst hx
  induction a generalizing a' with
  | nil =>
      cases a' with
      | nil => simpa using h
      | cons c a' => simp only [List.nil_append, List.cons_append, List.cons.injEq] at h; exact absurd h.1.symm (ha' c (by simp))
  | cons c a ih =>
      cases a' with
      | nil => simp only [List.nil_append, List.cons_append, List.cons.injEq] at h; exact absurd h.1 (ha c (by simp))
      | cons c' a' =>
          simp only [List.cons_append, List.cons.injEq] at h
          obtain ⟨h1, h2⟩ := ih (fun z hz => ha z (by simp [hz])) (fun z hz => ha' z (by simp [hz])) h.2
          exact ⟨by rw [h.1, h1], h2⟩

/-! ## Theorems -/

/-- **C101 (text).** The text of an error, for every code and message, whatever bytes the message has. -/
theorem c101_text (strerror : Int → Str) (code : Int) (m : Str) : ∃ t, verrorStr strerror code (some m) = .ok t ∧
    t = "error: { code: ".toList.map Num.byte ++ Num.signed code ++ ", string: \"".toList.map Num.byte ++ (if code = 0 then [] else strerror code) ++ ": ".toList.map Num.byte ++ m ++ "\" }".toList.map Num.byte :=
  ⟨_, rfl, rfl⟩

/-- **C101 (the text tells errors apart).** Two reports with the same text have the same code and the same message. -/
theorem c101_distinct (strerror : Int → Str) {c1 c2 : Int} {m1 m2 t : Str} (h1 : verrorStr strerror c1 (some m1) = .ok t) (h2 : verrorStr strerror c2 (some m2) = .ok t) : c1 = c2 ∧ m1 = m2 := by
  rw [verrorStr, Outcome.ok.injEq] at h1 h2
  have h := h1.trans h2.symm
  simp only [List.append_assoc] at h
  have h := List.append_cancel_left h
  have e : errMid = 44 :: (errMid.drop 1) := by decide
  rw [e] at h
  simp only [List.cons_append] at h
  obtain ⟨h3, h4⟩ := append_inj_at h rfl (fun c hc => signed_byte hc) (fun c hc => signed_byte hc)
  have hc := signed_inj h3
  subst hc
  have h4 := List.append_cancel_left h4
  have h4 := List.append_cancel_left h4
  simp only [List.cons_append, List.nil_append, List.cons.injEq, true_and] at h4
  exact ⟨rfl, List.append_cancel_right h4⟩

/-- **C101 (exit status, proved for codes up to 255).** Reporting an error with the default handler writes one line to the standard error output and ends the program with the code as its status. -/
theorem c101_exit_partial (strerror : Int → Str) (code : Int) (h : 0 < code ∧ code < 256) (m err : Str) :
    ∃ t, verrorStr strerror code (some m) = .ok t ∧ wrapper strerror code (some m) err = .ok (.exit code.toNat, err ++ t ++ [10]) ∧ code.toNat ≠ 0 := by
  refine ⟨_, rfl, ?_, by omega⟩
  unfold wrapper verrorDefault verrorStr
  rw [if_neg (by simp)]
  simp only [Outcome.ok_bind, Outcome.pure_eq]
  rw [if_pos (by omega), exitStatus, Int.emod_eq_of_lt (by omega) h.2]

/-- **C101 (warnings).** A report with code 0 writes its line, and the program goes on. -/
theorem c101_warning (strerror : Int → Str) (m err : Str) : ∃ t, verrorStr strerror 0 (some m) = .ok t ∧ wrapper strerror 0 (some m) err = .ok (.value 0, err ++ t ++ [10]) := ⟨_, rfl, rfl⟩

/-- **C101 (help text).** For every table of named options whose help texts have words below 50 bytes, asking for help prints the usage and ends the program, with nothing on the standard error output. Not proved, since false:
success (`c101_help_violation`). -/
theorem c101_help_partial (strerror : Int → Str) (name : Str) (help : Option Str) (opts : List Opt) (err : Str) (h : ∀ d ∈ opts, (d.sopt ≠ NSO ∨ d.lopt ≠ none) ∧ ShortWords d) :
    ∃ ts : List Str, ts.length = opts.length ∧ (∀ (k : Nat) d t, opts[k]? = some d → ts[k]? = some t → Shown d t) ∧
      ∃ s, Runs (helpStdout strerror name help opts err) (.exit s, banner name help ++ ts.flatten, err) := by
  obtain ⟨ts, h1, h2, n, h3⟩ := c86_usage_partial name help opts h
  refine ⟨ts, h1, h2, 255, n, fun fuel hf => ?_⟩
  unfold helpStdout
  rw [h3 fuel hf]
  rfl

/-- Violation of C101: whenever help is asked for and given, the exit status is 255, that of a failure. -/
theorem c101_help_violation (strerror : Int → Str) (name : Str) (help : Option Str) (opts : List Opt) (err : Str) (h : ∀ d ∈ opts, (d.sopt ≠ NSO ∨ d.lopt ≠ none) ∧ ShortWords d) :
    ∃ out, Runs (helpStdout strerror name help opts err) (.exit 255, out, err) := by
  obtain ⟨ts, h1, h2, n, h3⟩ := c86_usage_partial name help opts h
  refine ⟨banner name help ++ ts.flatten, n, fun fuel hf => ?_⟩
  unfold helpStdout
  rw [h3 fuel hf]
  rfl

/-- **C101 (help for a faulty table).** An option without a name is reported, and the callback returns -1. -/
theorem c101_nameless (strerror : Int → Str) (name : Str) (help : Option Str) (opts : List Opt) (err : Str) (h : ∀ d ∈ opts, (d.sopt ≠ NSO ∨ d.lopt ≠ none) ∧ ShortWords d) (d : Opt) (rest : List Opt)
    (hd : d.sopt = NSO ∧ d.lopt = none) :
    ∃ out t, verrorStr strerror 0 (some programmerError) = .ok t ∧ Runs (helpStdout strerror name help (opts ++ d :: rest) err) (.value (-1), out, err ++ t ++ [10]) := by
  obtain ⟨ts, h1, h2, n, h3⟩ := c86_nameless name help opts h d rest hd
  refine ⟨banner name help ++ ts.flatten, _, rfl, n, fun fuel hf => ?_⟩
  unfold helpStdout
  rw [h3 fuel hf]
  rfl

/-- Violation of C101: an error whose code is a multiple of 256 ends the program with status 0, that of success. -/
theorem c101_status_violation (strerror : Int → Str) (k : Int) (hk : k ≠ 0) (m err : Str) : ∃ e, wrapper strerror (256 * k) (some m) err = .ok (.exit 0, e) := by
  unfold wrapper verrorDefault verrorStr
  rw [if_neg (by simp)]
  simp only [Outcome.ok_bind, Outcome.pure_eq]
  rw [if_pos (by omega), exitStatus, Int.mul_emod_right]
  exact ⟨_, rfl⟩

/-- Violation of C101: an error without a message is undefined. -/
theorem c101_null_violation (strerror : Int → Str) (code : Int) (h : code ≠ 0) (err : Str) : wrapper strerror code none err = .ub := by
  unfold wrapper verrorDefault verrorStr
  rw [if_neg (by simp [h])]
  rfl

/-- A concrete report. -/
example : wrapper (fun _ => "Invalid argument".toList.map Num.byte) 22 (some ("'x'".toList.map Num.byte)) [] = .ok (.exit 22, "error: { code: 22, string: \"Invalid argument: 'x'\" }\n".toList.map Num.byte) := by decide +kernel

end ZT.Opts
