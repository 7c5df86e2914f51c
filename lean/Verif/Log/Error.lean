import Verif.Log.Props
import Verif.Cstr.Paths

/-!
# C100: logging system errors and failed assertions, and the syslog logger (zt_log.c, zt_assert.c, zt_log/log_syslog.c)

A message is a format and its arguments. The message printed is `printf` of both (`Verif.Log.Fmt`).
-/

namespace ZT.Log

open Cstr (IsStr Splits)

/-- A format and its arguments. -/
abbrev Msg := Str × List Arg

/-- ": " -/
def sep : Str := [58, 32]

/-- What a call of strerror_r does: whether its value is not 0, and the text it writes to the start of the buffer with a terminator (`none`: it does not touch the buffer). -/
structure StrerrorR where
  nonzero : Bool
  text : Option Str

/-- The function of POSIX when it succeeds: 0 and the text in the buffer. -/
def posix (e : Str) : StrerrorR := ⟨false, some e⟩

/-- The function of the GNU library, which zt.h 9 asks for by defining _GNU_SOURCE: it returns a pointer to the text; the buffer is used only for numbers it does not know. -/
def gnu (known : Bool) (e : Str) : StrerrorR := ⟨true, if known then none else some e⟩

/-- Storing bytes at an offset of a block whose bytes may be uninitialised (`none`). -/
def store (b : List (Option Byte)) (k : Nat) (s : Str) : Outcome (List (Option Byte)) :=
  if k + s.length ≤ b.length then .ok (b.take k ++ s.map some ++ b.drop (k + s.length)) else .ub

/-- Reading a C string: undefined when an uninitialised byte or the end of the block is reached. -/
def readStr : List (Option Byte) → Outcome Str
  | [] => .ub
  | none :: _ => .ub
  | some c :: b => if c = 0 then .ok [] else do
      let s ← readStr b
      pure (c :: s)

/-- strerror_r(errnum, b + k, 253) -/
def callStrerror (b : List (Option Byte)) (k : Nat) : Option Str → Outcome (List (Option Byte))
  | none => .ok b
  | some e => store b k (e ++ [0])

/-- zt_log.c 282-288: the new format in a block of `llen + 256` bytes. -/
def nfmt (fmt : Str) (r : StrerrorR) : Outcome (List (Option Byte)) := do
  let b ← store (List.replicate (fmt.length + 256) none) 0 fmt
  let b ← store b fmt.length [58]
  let b ← store b (fmt.length + 1) [32]
  callStrerror b (fmt.length + 2) r.text

/-- "Could not capture error string" -/
def notCaptured : Str := "Could not capture error string".toList.map Num.byte

/-- zt_log.c 288-290 -/
def complain (σ : State Msg) (t l : Nat) (b : Bool) : Outcome (State Msg) := if b then lprintf σ t (some l) 2 (notCaptured, []) else .ok σ

/-- zt_log.c 266-298 `zt_log_lstrerror`; `r` is what strerror_r does. -/
def lstrerror (σ : State Msg) (t : Nat) (log : Option Nat) (level : Nat) (r : StrerrorR) (fmt : Str) (as : List Arg) : Outcome (State Msg) := do
  let (σ, l) := resolve σ log
  let x ← deref σ l
  if level > x.level then pure (resetDebug σ t)
  else do
    let b ← nfmt fmt r
    let σ ← complain σ t l r.nonzero
    let f ← readStr b
    lvprintf σ t (some l) level (f, as)

/-! ## Specification -/

/-- The line logged for a message by logger `l`. -/
def lineOf (l level opts : Nat) (c : Ctx) (m : Msg) : Line Msg := ⟨l, level, opts, c, m⟩

/-- The context of a call without debug information. -/
def noCtx : Ctx := ⟨none, -1, none⟩

/-! ## Proofs -/

theorem store_at {a : List (Option Byte)} {k n : Nat} {s : Str} (ha : a.length = k) (hs : s.length ≤ n) :
    store (a ++ List.replicate n none) k s = .ok (a ++ s.map some ++ List.replicate (n - s.length) none) := by
  unfold store
  rw [if_pos (by simp [ha]; omega)]
  congr 1
  have h1 : (a ++ List.replicate n (none : Option Byte)).take k = a := by rw [← ha]; simp
  have h2 : (a ++ List.replicate n (none : Option Byte)).drop (k + s.length) = List.replicate (n - s.length) none := by
    rw [← ha, List.drop_append, List.drop_replicate]
    simp
  rw [h1, h2]

theorem readStr_text {s : Str} (h : NoNul s) (b : List (Option Byte)) : readStr (s.map some ++ some 0 :: b) = .ok s := by
  induction s with
  | nil => simp [readStr]
  | cons c s ih =>
      rw [List.map_cons, List.cons_append, readStr, if_neg (h c (by simp)), ih (fun x hx => h x (by simp [hx]))]
      rfl

theorem readStr_none {s : Str} (h : NoNul s) (b : List (Option Byte)) : readStr (s.map some ++ none :: b) = .ub := by
  induction s with
  | nil => simp [readStr]
  | cons c s ih =>
      rw [List.map_cons, List.cons_append, readStr, if_neg (h c (by simp)), ih (fun x hx => h x (by simp [hx]))]
      rfl

theorem nfmt_head (fmt : Str) (r : StrerrorR) : nfmt fmt r = callStrerror ((fmt ++ sep).map some ++ List.replicate 254 none) (fmt.length + 2) r.text := by
  unfold nfmt
  have e1 := store_at (a := []) (k := 0) (n := fmt.length + 256) (s := fmt) rfl (by omega)
  rw [List.nil_append, List.nil_append] at e1
  rw [e1, Outcome.ok_bind]
  have n1 : fmt.length + 256 - fmt.length = 256 := by omega
  rw [n1]
  have e2 := store_at (a := fmt.map some) (k := fmt.length) (n := 256) (s := [58]) (by simp) (by simp)
  rw [e2, Outcome.ok_bind]
  have e3 := store_at (a := fmt.map some ++ ([58] : Str).map some) (k := fmt.length + 1) (n := 255) (s := [32]) (by simp) (by simp)
  have e4 : List.map some fmt ++ List.map some [58] ++ List.replicate (256 - ([58] : Str).length) none = fmt.map some ++ ([58] : Str).map some ++ List.replicate 255 (none : Option Byte) := rfl
  rw [e4, e3, Outcome.ok_bind]
  have n2 : 255 - ([32] : Str).length = 254 := rfl
  rw [n2]
  generalize List.replicate 254 (none : Option Byte) = R
  congr 1
  simp [sep]

/-- The block is big enough for every text that strerror_r may write to 253 bytes, and holds the message, ": " and this text. -/
theorem nfmt_text {fmt e : Str} (hf : NoNul fmt) (he : NoNul e) (hl : e.length < 253) (z : Bool) : ∃ b, nfmt fmt ⟨z, some e⟩ = .ok b ∧ readStr b = .ok (fmt ++ sep ++ e) := by
  rw [nfmt_head]
  refine ⟨_, store_at (by simp [sep]) (by simp; omega), ?_⟩
  have : ((fmt ++ sep).map some ++ (e ++ [0]).map some ++ List.replicate (254 - (e ++ [0]).length) none : List (Option Byte)) =
      (fmt ++ sep ++ e).map some ++ some 0 :: List.replicate (254 - (e ++ [0]).length) none := by simp
  rw [this]
  refine readStr_text ?_ _
  exact noNul_append (noNul_append hf (by decide)) he

theorem lprintf_eq {σ : State Msg} {l : Nat} {x : Logger} (hx : σ.loggers l = some x) (t level : Nat) (m : Msg) :
    lprintf σ t (some l) level m = .ok (resetDebug (if level > x.level then σ else { σ with out := σ.out ++ [lineOf l level x.opts (σ.ctx t) m] }) t) := by
  simp only [lprintf, lvprintf, resolve, deref, hx, Outcome.ok_bind, Outcome.pure_eq]
  by_cases c : level > x.level
  · simp [c]
  · simp only [if_neg c]; rfl

theorem lvprintf_eq {σ : State Msg} {l : Nat} {x : Logger} (hx : σ.loggers l = some x) (t level : Nat) (m : Msg) :
    lvprintf σ t (some l) level m = .ok (resetDebug (if level > x.level then σ else { σ with out := σ.out ++ [lineOf l level x.opts (σ.ctx t) m] }) t) := by
  simp only [lvprintf, resolve, deref, hx, Outcome.ok_bind, Outcome.pure_eq]
  by_cases c : level > x.level
  · simp [c]
  · simp only [if_neg c]; rfl

theorem resetDebug_loggers (σ : State Msg) (t : Nat) : (resetDebug σ t).loggers = σ.loggers := rfl
theorem resetDebug_out (σ : State Msg) (t : Nat) : (resetDebug σ t).out = σ.out := rfl
theorem resetDebug_ctx (σ : State Msg) (t : Nat) : (resetDebug σ t).ctx t = noCtx := by simp [resetDebug, setDebug, setCtx, noCtx]

/-- **C100 (system errors, exactly what is logged whenever strerror_r leaves a text).** A message above the level of the logger is not logged. Otherwise the message, ": " and the text of the
error is logged; before it, a complaint is logged when strerror_r does not return 0 (and the logger takes critical messages), which uses up the debug information. -/
theorem c100_exact {σ : State Msg} {log : Option Nat} {σ1 : State Msg} {l : Nat} {x : Logger} (hr : resolve σ log = (σ1, l)) (hx : σ1.loggers l = some x) (t level : Nat) {fmt e : Str}
    (hf : NoNul fmt) (he : NoNul e) (hl : e.length < 253) (z : Bool) (as : List Arg) :
    ∃ σ', lstrerror σ t log level ⟨z, some e⟩ fmt as = .ok σ' ∧ σ'.ctx t = noCtx ∧
      σ'.out = σ1.out ++ if level > x.level then [] else
        (if z ∧ 2 ≤ x.level then [lineOf l 2 x.opts (σ1.ctx t) (notCaptured, [])] else []) ++ [lineOf l level x.opts (if z then noCtx else σ1.ctx t) (fmt ++ sep ++ e, as)] := by
  unfold lstrerror
  simp only [hr, deref, hx, Outcome.ok_bind]
  by_cases c : level > x.level
  · rw [if_pos c, if_pos c]
    exact ⟨_, rfl, resetDebug_ctx _ _, by rw [resetDebug_out]; simp⟩
  · rw [if_neg c, if_neg c]
    obtain ⟨b, e1, e2⟩ := nfmt_text hf he hl z
    rw [e1, Outcome.ok_bind]
    cases z with
    | false =>
        simp only [complain, Bool.false_eq_true, if_false, Outcome.ok_bind, e2, false_and]
        refine ⟨_, lvprintf_eq hx _ _ _, resetDebug_ctx _ _, ?_⟩
        rw [resetDebug_out, if_neg c]; simp
    | true =>
        simp only [complain, if_true, true_and]
        rw [lprintf_eq hx, Outcome.ok_bind, e2, Outcome.ok_bind]
        refine ⟨_, lvprintf_eq (x := x) ?_ _ _ _, resetDebug_ctx _ _, ?_⟩
        · rw [resetDebug_loggers]; split <;> exact hx
        · rw [resetDebug_out, if_neg c, resetDebug_out, resetDebug_ctx]
          by_cases c2 : 2 > x.level
          · rw [if_pos c2, if_neg (by omega)]; simp
          · rw [if_neg c2, if_pos (by omega)]; simp

/-- **C100 (system errors, proved for the function of POSIX and texts without percent signs).** One line, which prints as the message, ": " and the text of the error. -/
theorem c100_strerror_partial {σ : State Msg} {log : Option Nat} {σ1 : State Msg} {l : Nat} {x : Logger} (hr : resolve σ log = (σ1, l)) (hx : σ1.loggers l = some x) (t level : Nat) {fmt e : Str}
    (hf : NoNul fmt) (he : NoNul e) (hl : e.length < 253) (hp : (37 : Byte) ∉ e) {as : List Arg} {m : Str} (hm : printf fmt as = some m) :
    ∃ σ' f, lstrerror σ t log level (posix e) fmt as = .ok σ' ∧ σ'.out = σ1.out ++ (if level > x.level then [] else [lineOf l level x.opts (σ1.ctx t) (f, as)]) ∧
      printf f as = some (m ++ sep ++ e) ∧ σ'.ctx t = noCtx := by
  obtain ⟨σ', e1, e2, e3⟩ := c100_exact hr hx t level hf he hl false as
  refine ⟨σ', fmt ++ sep ++ e, e1, ?_, ?_, e2⟩
  · simpa using e3
  · have h : (37 : Byte) ∉ sep ++ e := by
      intro h
      rcases List.mem_append.1 h with h | h
      · revert h; decide
      · exact hp h
    rw [List.append_assoc, List.append_assoc]
    exact printf_append h _ _ _ _ (Nat.le_refl _) hm

/-- Violation of C100: for every error that the GNU library knows, the call reads uninitialised memory: nothing about the result is certain. -/
theorem c100_gnu_violation {σ : State Msg} {log : Option Nat} {σ1 : State Msg} {l : Nat} {x : Logger} (hr : resolve σ log = (σ1, l)) (hx : σ1.loggers l = some x) (t level : Nat) (hlev : level ≤ x.level)
    {fmt : Str} (e : Str) (hf : NoNul fmt) (as : List Arg) : lstrerror σ t log level (gnu true e) fmt as = .ub := by
  unfold lstrerror
  simp only [hr, deref, hx, Outcome.ok_bind]
  rw [if_neg (by omega), nfmt_head]
  simp only [gnu, if_true, callStrerror, Outcome.ok_bind, complain]
  rw [lprintf_eq hx, Outcome.ok_bind]
  have : ((fmt ++ sep).map some ++ List.replicate 254 none : List (Option Byte)) = (fmt ++ sep).map some ++ none :: List.replicate 253 none := rfl
  rw [this, readStr_none (noNul_append hf (by decide))]
  rfl

/-- Violation of C100: for an error that the GNU library does not know there are two lines, and the second has lost its place in the source. -/
theorem c100_unknown_violation {σ : State Msg} {log : Option Nat} {σ1 : State Msg} {l : Nat} {x : Logger} (hr : resolve σ log = (σ1, l)) (hx : σ1.loggers l = some x) (t level : Nat) (hlev : level ≤ x.level)
    (hcrit : 2 ≤ x.level) {fmt e : Str} (hf : NoNul fmt) (he : NoNul e) (hl : e.length < 253) (as : List Arg) :
    ∃ σ', lstrerror σ t log level (gnu false e) fmt as = .ok σ' ∧
      σ'.out = σ1.out ++ [lineOf l 2 x.opts (σ1.ctx t) (notCaptured, []), lineOf l level x.opts noCtx (fmt ++ sep ++ e, as)] := by
  obtain ⟨σ', e1, _, e3⟩ := c100_exact hr hx t level hf he hl true as
  refine ⟨σ', e1, ?_⟩
  rw [e3, if_neg (by omega), if_pos ⟨rfl, hcrit⟩]
  simp

/-- Violation of C100: an error text with a percent sign is taken as a format. -/
theorem c100_percent_violation : printf [120] [] = some [120] ∧ ∃ f, (nfmt [120] (posix [37, 115]) >>= readStr) = .ok f ∧ printf f [] = none := by
  obtain ⟨b, e1, e2⟩ := nfmt_text (fmt := [120]) (e := [37, 115]) (by decide) (by decide) (by decide) false
  exact ⟨by decide, _, Outcome.bind_eq_ok.2 ⟨b, e1, e2⟩, by decide⟩

/-! ## Assertions -/

/-- `"Assertion Failed: \"%s\": %s[%d:%s]"` and the other formats of zt_assert.c. -/
def fAssert (func : Bool) : Str := (if func then "Assertion Failed: \"%s\": %s[%d:%s]" else "Assertion Failed: \"%s\": %s[%d]").toList.map Num.byte
def fAbort (func : Bool) : Str := (if func then "Exiting: \"%s\": %s[%d:%s]" else "Exiting: \"%s\": %s[%d]").toList.map Num.byte

def noAssertion : Str := "no assertion given".toList.map Num.byte
def noMessage : Str := "no message given".toList.map Num.byte

/-- The arguments of the message. -/
def args (s b : Str) (line : Int) : Option Str → List Arg
  | some f => [.str s, .str b, .int line, .str f]
  | none => [.str s, .str b, .int line]

/-- Reading the string in an initialised block. -/
def readBlock (b : List Byte) : Outcome Str := readStr (b.map some)

/-- zt_assert.c 26-45 `_zt_log_assertion`; `bname` is the array as it was found on the stack (PATH_MAX bytes). -/
def logAssertion (bname : List Byte) (σ : State Msg) (t : Nat) (s : Option Str) (file : Str) (line : Int) (func : Option Str) : Outcome (State Msg) := do
  let b ← Cstr.basename bname 4096 (file ++ [0]) none
  let b ← readBlock b
  lprintf σ t none 3 (fAssert func.isSome, args (s.getD noAssertion) b line func)

/-- zt_assert.c 47-67 `_zt_log_abort` -/
def logAbort (bname : List Byte) (σ : State Msg) (t : Nat) (s : Option Str) (file : Str) (line : Int) (func : Option Str) : Outcome (State Msg) := do
  let b ← Cstr.basename bname 4096 (file ++ [0]) none
  let b ← readBlock b
  lprintf σ t none 2 (fAbort func.isSome, args (s.getD noMessage) b line func)

/-- What becomes of a program that runs one of the assertion macros: it goes on behind the macro, returns from the function, or aborts. -/
inductive After where
  | next
  | ret
  | abort
  deriving DecidableEq, Repr

/-- zt_assert.h 50-66: zt_assert and zt_assert_always (`.abort`), zt_assert_nf (`.next`), zt_assert_return and zt_assert_returnV (`.ret`), without NDEBUG; `c` is the condition, an expression. -/
def assertMacro (kind : After) (bname : List Byte) (t : Nat) (c : State Msg → Outcome (Bool × State Msg)) (text file : Str) (line : Int) (func : Option Str) (σ : State Msg) : Outcome (State Msg × After) := do
  let (v, σ) ← c σ
  if v then pure (σ, .next)
  else do
    let σ ← logAssertion bname σ t (some text) file line func
    pure (σ, kind)

/-- `"C": B[L:F]` -/
def place (s b : Str) (line : Int) : Option Str → Str
  | some f => [34] ++ s ++ [34, 58, 32] ++ b ++ [91] ++ Num.signed line ++ [58] ++ f ++ [93]
  | none => [34] ++ s ++ [34, 58, 32] ++ b ++ [91] ++ Num.signed line ++ [93]

theorem printf_assert (s b : Str) (line : Int) (func : Option Str) : printf (fAssert func.isSome) (args s b line func) = some ("Assertion Failed: ".toList.map Num.byte ++ place s b line func) := by
  cases func <;> simp [fAssert, args, place, printf, conversion, Num.byte]

theorem printf_abort (s b : Str) (line : Int) (func : Option Str) : printf (fAbort func.isSome) (args s b line func) = some ("Exiting: ".toList.map Num.byte ++ place s b line func) := by
  cases func <;> simp [fAbort, args, place, printf, conversion, Num.byte]

theorem base_ok {bname : List Byte} (hb : bname.length = 4096) {file d b : Str} (hf : NoNul file) (hs : Splits file d b) (hl : b.length < 4096) :
    ∃ r, Cstr.basename bname 4096 (file ++ [0]) none = .ok r ∧ readBlock r = .ok b := by
  obtain ⟨r, e, hr, _⟩ := Cstr.c42_basename_partial (m := file ++ [0]) ⟨hf, [], rfl⟩ hs bname 4096 (by omega) hl
  refine ⟨r, e, ?_⟩
  obtain ⟨h1, rest, rfl⟩ := hr
  unfold readBlock
  rw [List.map_append, List.map_cons]
  exact readStr_text h1 _

theorem resolve_none (σ : State Msg) (h : Inv σ) : ∃ σ1 l x, resolve σ none = (σ1, l) ∧ σ1.loggers l = some x ∧ σ1.out = σ.out ∧ σ1.ctx = σ.ctx := by
  unfold resolve getLogger
  cases e : σ.dflt with
  | none => exact ⟨_, _, ⟨MAX, WITH_LEVEL⟩, rfl, by simp [new, setLogger], rfl, rfl⟩
  | some l =>
      obtain ⟨x, hx⟩ := h.dflt l e
      exact ⟨_, _, x, rfl, hx, rfl, rfl⟩

/-- **C100 (assertions).** In every state that a program can reach, for every condition text, file and function: one line goes to the default logger (if it takes errors), and it prints as the
condition, the last component of the file name, the line and the function. Percent signs in any of them do no harm. -/
theorem c100_assertion {σ : State Msg} (h : Reach σ) {bname : List Byte} (hb : bname.length = 4096) (t : Nat) (s : Option Str) {file d b : Str} (hf : NoNul file) (hs : Splits file d b)
    (hl : b.length < 4096) (line : Int) (func : Option Str) :
    ∃ σ1 l x, resolve σ none = (σ1, l) ∧ σ1.loggers l = some x ∧
    (∃ σ' f as, logAssertion bname σ t s file line func = .ok σ' ∧ σ'.out = σ.out ++ (if 3 > x.level then [] else [lineOf l 3 x.opts (σ.ctx t) (f, as)]) ∧
      printf f as = some ("Assertion Failed: ".toList.map Num.byte ++ place (s.getD noAssertion) b line func)) ∧
    ∃ σ' f as, logAbort bname σ t s file line func = .ok σ' ∧ σ'.out = σ.out ++ (if 2 > x.level then [] else [lineOf l 2 x.opts (σ.ctx t) (f, as)]) ∧
      printf f as = some ("Exiting: ".toList.map Num.byte ++ place (s.getD noMessage) b line func) := by
  obtain ⟨σ1, l, x, e1, e2, e3, e4⟩ := resolve_none σ h.inv
  obtain ⟨r, e5, e6⟩ := base_ok hb hf hs hl
  have key : ∀ level (m : Msg), ∃ σ', lprintf σ t none level m = .ok σ' ∧ σ'.out = σ.out ++ (if level > x.level then [] else [lineOf l level x.opts (σ.ctx t) m]) := by
    intro level m
    have hp : lprintf σ t none level m = lprintf σ1 t (some l) level m := by
      have hr : resolve σ1 (some l) = (σ1, l) := rfl
      simp only [lprintf, e1, hr]
    rw [hp, lprintf_eq e2]
    refine ⟨_, rfl, ?_⟩
    rw [resetDebug_out, e4, e3]
    split <;> simp [e3]
  refine ⟨σ1, l, x, e1, e2, ?_, ?_⟩
  · obtain ⟨σ', k1, k2⟩ := key 3 (fAssert func.isSome, args (s.getD noAssertion) b line func)
    exact ⟨σ', _, _, by simp only [logAssertion, e5, e6, Outcome.ok_bind, k1], k2, printf_assert _ _ _ _⟩
  · obtain ⟨σ', k1, k2⟩ := key 2 (fAbort func.isSome, args (s.getD noMessage) b line func)
    exact ⟨σ', _, _, by simp only [logAbort, e5, e6, Outcome.ok_bind, k1], k2, printf_abort _ _ _ _⟩

/-- **C100 (assertion macros).** A condition that holds has its own effects only and the program goes on; one that does not hold is logged, and then the program aborts, returns or goes on. The
condition is evaluated once in both cases. -/
theorem c100_macro (kind : After) {bname : List Byte} (hb : bname.length = 4096) (t : Nat) {c : State Msg → Outcome (Bool × State Msg)} {σ σ1 : State Msg} {v : Bool} (hc : c σ = .ok (v, σ1)) (h : Reach σ1)
    (text : Str) {file d b : Str} (hf : NoNul file) (hs : Splits file d b) (hl : b.length < 4096) (line : Int) (func : Option Str) :
    if v then assertMacro kind bname t c text file line func σ = .ok (σ1, .next)
    else ∃ σ', assertMacro kind bname t c text file line func σ = .ok (σ', kind) ∧ logAssertion bname σ1 t (some text) file line func = .ok σ' := by
  unfold assertMacro
  rw [hc, Outcome.ok_bind]
  cases v with
  | true => rfl
  | false =>
      obtain ⟨_, _, _, _, _, ⟨σ', _, _, e, _⟩, _⟩ := c100_assertion h hb t (some text) hf hs hl line func
      simp only [Bool.false_eq_true, if_false, e, Outcome.ok_bind]
      exact ⟨σ', rfl, rfl⟩

/-! ## The syslog logger -/

/-- zt_log/log_syslog.c 36-64: LOG_EMERG to LOG_DEBUG are 0 to 7 (syslog.h). -/
def syslogPriority (level : Nat) : Nat :=
  match level with
  | 0 => 0
  | 1 => 1
  | 2 => 2
  | 3 => 3
  | 4 => 4
  | 5 => 5
  | 6 => 6
  | 7 => 7
  | _ => 3

/-- zt_log/log_syslog.c 31-72 `print`: priority and text given to syslog. vsyslog is taken as printf; its conversion `%m` is not modelled. -/
def syslogPrint (junk : Byte) (env : Env) (fmt : Str) (as : List Arg) (file : Option Str) (line : Int) (func : Option Str) (level opts : Nat) : Outcome (Nat × Str) := do
  let s ← printLine junk env fmt as file line func level (if has opts WITH_LEVEL then WITH_LEVEL else 0)
  pure (syslogPriority level, s)

/-- **C100 (syslog).** Every message reaches syslog with the priority of its level (LOG_ERR if the level is none of the eight), and its text is the message with the level's name in front, if the logger has this option, and the place behind. -/
theorem c100_syslog_partial (junk : Byte) (env : Env) (he : env.Ok) (fmt : Str) (hf : NoNul fmt) (as : List Arg) (t : Str) (ht : printf fmt as = some t) (file func : Option Str) (line : Int) (hm : line < 2 ^ 31)
    (hfile : ∀ f, file = some f → NoNul f) (hfunc : ∀ f, func = some f → NoNul f) (level opts : Nat) (hlev : level < 8 ∨ has opts WITH_LEVEL = false) (h2 : (37 : Byte) ∉ footer file line func) :
    syslogPrint junk env fmt as file line func level opts = .ok (if level < 8 then level else 3, (if has opts WITH_LEVEL then desc.getD level [] ++ sep else []) ++ t ++ footer file line func ++ [10]) := by
  have hh : header env level (if has opts WITH_LEVEL then WITH_LEVEL else 0) = if has opts WITH_LEVEL then desc.getD level [] ++ sep else [] := by
    cases hw : has opts WITH_LEVEL
    · simp [header, has]
    · have k1 : has WITH_LEVEL WITH_DATE = false := by decide
      have k2 : has WITH_LEVEL WITH_SYSNAME = false := by decide
      have k3 : has WITH_LEVEL WITH_PROGNAME = false := by decide
      have k4 : has WITH_LEVEL WITH_PID = false := by decide
      have k5 : has WITH_LEVEL WITH_LEVEL = true := by decide
      have k6 : WITH_LEVEL ≠ 0 := by decide
      have hlev : level < 8 := hlev.resolve_right (by rw [hw]; decide)
      simp only [header, if_true, k1, k2, k3, k4, k5, hlev, sep]
      simp [k6]
  have hq : (37 : Byte) ∉ header env level (if has opts WITH_LEVEL then WITH_LEVEL else 0) := by
    rw [hh]
    cases hw : has opts WITH_LEVEL
    · simp
    · have hlev : level < 8 := hlev.resolve_right (by rw [hw]; decide)
      have : ∀ k : Fin 8, (37 : Byte) ∉ desc.getD k.val [] ++ sep := by decide
      exact this ⟨level, hlev⟩
  have := c75_line_partial junk env he fmt hf as t ht file func line hm hfile hfunc level _ hq h2
  unfold syslogPrint
  rw [this, Outcome.ok_bind, hh, Outcome.pure_eq]
  congr 2
  match level with
  | 0 | 1 | 2 | 3 | 4 | 5 | 6 | 7 => rfl
  | n + 8 => rw [if_neg (by omega)]; rfl

/-- The hypotheses are met: a new program, an unknown error, an assertion. -/
example : ∃ σ' : State Msg, lstrerror .init 0 none 3 (posix [66, 97, 100]) [120] [] = .ok σ' ∧ σ'.out = [lineOf 0 3 WITH_LEVEL ⟨none, 0, none⟩ ([120, 58, 32, 66, 97, 100], [])] := by
  obtain ⟨σ', e1, _, e2⟩ := c100_exact (σ := .init) (log := none) (t := 0) (level := 3) (fmt := [120]) (e := [66, 97, 100]) rfl rfl (by decide) (by decide) (by decide) false []
  exact ⟨σ', e1, e2⟩

example : Splits [115, 114, 99, 47, 97, 46, 99] [115, 114, 99, 47] [97, 46, 99] := ⟨rfl, .inr rfl, by decide, by decide⟩

end ZT.Log
