import Verif.Cstr.Lemmas
import Verif.Numeral

/-!
# zt_log/log_private.c: the format of a log line

Blocks are lists of bytes (see `Verif.Mem`); `zt_realloc` keeps the contents and adds arbitrary bytes (`junk`), allocation does not fail, `size_t` does not wrap. What the system supplies is in `Env`. -/

namespace ZT.Log

open Cstr (IsStr)

abbrev Str := List Byte

/-- What the system supplies, as texts. -/
structure Env where
  /-- strftime(sbuf, 254, "%b %d %H:%M:%S ", localtime(&now)) -/
  date : Str
  /-- gethostname(sbuf, 254), `none` on failure -/
  host : Option Str
  /-- zt_progname(NULL, 0) -/
  prog : Str
  /-- getpid() printed as unsigned -/
  pid : Nat

/-- zt_log.h 23-29 -/
def WITH_DATE : Nat := 1
def WITH_LEVEL : Nat := 2
def WITH_SYSNAME : Nat := 4
def WITH_PROGNAME : Nat := 8
def WITH_PID : Nat := 16

/-- `opts & flag` for a flag of one bit. -/
def has (opts flag : Nat) : Bool := opts / flag % 2 == 1

/-- log_private.c 37-47 -/
def desc : List Str := ["Emergency", "Alert", "Critical", "Error", "Warning", "Notice", "Info", "Debug"].map fun s => s.toList.map Num.byte

/-- `strcat(b, s)` -/
def strcat (b : List Byte) (s : Str) : Outcome (List Byte) := do
  let n ← strlen b
  if n + s.length + 1 ≤ b.length then pure (b.take n ++ s ++ 0 :: b.drop (n + s.length + 1)) else .ub

/-- `sprintf` of the text `s` to the block `b`. -/
def sprintf (b : List Byte) (s : Str) : Outcome (List Byte) :=
  if s.length + 1 ≤ b.length then pure (s ++ 0 :: b.drop (s.length + 1)) else .ub

/-- zt_realloc -/
def realloc (junk : Byte) (b : List Byte) (len : Nat) : List Byte := b.take len ++ List.replicate (len - b.length) junk

/-- zt_calloc -/
def calloc (len : Nat) : List Byte := List.replicate len 0

/-- `len` and `buff` -/
abbrev Buf := Nat × List Byte

/-- `len += n; buff = zt_realloc(char, buff, len);` -/
def grow (junk : Byte) (x : Buf) (n : Nat) : Buf := (x.1 + n, realloc junk x.2 (x.1 + n))

def cat (x : Buf) (s : Str) : Outcome Buf := do
  let b ← strcat x.2 s
  pure (x.1, b)

/-- log_private.c 73-81 -/
def addDate (junk : Byte) (env : Env) (opts : Nat) (x : Buf) : Outcome Buf :=
  if has opts WITH_DATE then do
    let x := grow junk x env.date.length
    let b ← sprintf x.2 env.date
    pure (x.1, b)
  else pure x

/-- "*hostname*" -/
def HOSTNAME : Str := "*hostname*".toList.map Num.byte

/-- log_private.c 83-100; the name is cut at its first dot. -/
def addHost (junk : Byte) (env : Env) (opts : Nat) (x : Buf) : Outcome Buf :=
  if has opts WITH_SYSNAME then do
    let s := (env.host.getD HOSTNAME).takeWhile (· ≠ 46)
    let x := grow junk x (s.length + 1)
    let x ← cat x s
    if opts > WITH_SYSNAME then cat x [32] else pure x
  else pure x

/-- log_private.c 102-106 -/
def addProg (junk : Byte) (env : Env) (opts : Nat) (x : Buf) : Outcome Buf :=
  if has opts WITH_PROGNAME then cat (grow junk x env.prog.length) env.prog else pure x

/-- log_private.c 108-116; sbuf has 13 bytes. -/
def addPid (junk : Byte) (env : Env) (opts : Nat) (x : Buf) : Outcome Buf :=
  if has opts WITH_PID then do
    let s := [91] ++ Num.digits 10 env.pid ++ [93]
    let _ ← sprintf (List.replicate 13 junk) s
    cat (grow junk x s.length) s
  else pure x

/-- log_private.c 118-127; `level` is of an unsigned type. -/
def addLevel (junk : Byte) (opts level : Nat) (x : Buf) : Outcome Buf :=
  if has opts WITH_LEVEL then
    if level < 8 then do
      let d ← rd desc level
      let x := grow junk x (d.length + 2)
      let x ← if opts ≠ WITH_LEVEL then cat x [58, 32] else pure x
      cat x d
    else pure x
  else pure x

/-- log_private.c 128-131 -/
def addFmt (opts : Nat) (fmt : Str) (x : Buf) : Outcome Buf := do
  let x ← if opts ≠ 0 then cat x [58, 32] else pure x
  cat x fmt

/-- ": in %s at (%s:%d)" -/
def location (file : Str) (line : Int) (func : Str) : Str := [58, 32, 105, 110, 32] ++ func ++ [32, 97, 116, 32, 40] ++ file ++ [58] ++ Num.signed line ++ [41]

/-- log_private.c 132-145 -/
def addLocation (junk : Byte) (file : Option Str) (line : Int) (func : Option Str) (x : Buf) : Outcome Buf :=
  match file, func with
  | some file, some func =>
      if line > -1 then do
        let nlen := 13 + file.length + func.length + 10
        let nb ← sprintf (calloc nlen) (location file line func)
        cat (grow junk x nlen) (Cstr.cstr nb)
      else pure x
  | _, _ => pure x

/-- log_private.c 65-148 zt_log_gen_fmt: the block returned -/
def genFmt (junk : Byte) (env : Env) (fmt : Str) (file : Option Str) (line : Int) (func : Option Str) (level opts : Nat) : Outcome (List Byte) := do
  let len := fmt.length + 4
  let x ← addDate junk env opts (len, calloc len)
  let x ← addHost junk env opts x
  let x ← addProg junk env opts x
  let x ← addPid junk env opts x
  let x ← addLevel junk opts level x
  let x ← addFmt opts fmt x
  let x ← addLocation junk file line func x
  let x ← cat x [10]
  pure x.2

/-! ## Specification -/

/-- What stands in front of the message. -/
def header (env : Env) (level opts : Nat) : Str :=
  (if has opts WITH_DATE then env.date else []) ++
  (if has opts WITH_SYSNAME then (env.host.getD HOSTNAME).takeWhile (· ≠ 46) ++ (if opts > WITH_SYSNAME then [32] else []) else []) ++
  (if has opts WITH_PROGNAME then env.prog else []) ++
  (if has opts WITH_PID then [91] ++ Num.digits 10 env.pid ++ [93] else []) ++
  (if has opts WITH_LEVEL ∧ level < 8 then (if opts ≠ WITH_LEVEL then [58, 32] else []) ++ desc.getD level [] else []) ++
  (if opts ≠ 0 then [58, 32] else [])

/-- What stands behind the message. -/
def footer (file : Option Str) (line : Int) (func : Option Str) : Str :=
  match file, func with
  | some file, some func => if line > -1 then location file line func else []
  | _, _ => []

abbrev NoNul (s : Str) : Prop := ∀ b ∈ s, b ≠ 0

/-- The texts of the environment are texts, and the process number fits into `unsigned`. -/
structure Env.Ok (env : Env) : Prop where
  date : NoNul env.date
  host : ∀ h, env.host = some h → NoNul h
  prog : NoNul env.prog
  pid : env.pid < 2 ^ 32

/-! ## Proof -/

/-- The buffer holds the text `s`, its size is what `len` says, and there is room for `r` more bytes. -/
structure Holds (x : Buf) (s : Str) (r : Nat) : Prop where
  str : IsStr x.2 s
  size : x.2.length = x.1
  room : s.length + r + 1 ≤ x.1

theorem noNul_append {a b : Str} (h : NoNul a) (k : NoNul b) : NoNul (a ++ b) := by
  intro x hx
  rcases List.mem_append.1 hx with hx | hx
  · exact h x hx
  · exact k x hx

theorem Holds.grow {x : Buf} {s : Str} {r : Nat} (h : Holds x s r) (junk : Byte) (n : Nat) : Holds (grow junk x n) s (r + n) := by
  obtain ⟨⟨hs, rest, e⟩, hz, hr⟩ := h
  obtain ⟨len, b⟩ := x
  simp only at e hz hr
  refine ⟨⟨hs, rest ++ List.replicate n junk, ?_⟩, ?_, ?_⟩
  · simp only [Log.grow, realloc, hz]
    rw [List.take_of_length_le (by omega), e]
    simp
  · simp only [Log.grow, realloc, List.length_append, List.length_take, List.length_replicate, hz]; omega
  · simp only [Log.grow]; omega

theorem Holds.cat {x : Buf} {s t : Str} {r : Nat} (h : Holds x s (t.length + r)) (ht : NoNul t) : ∃ y, cat x t = .ok y ∧ Holds y (s ++ t) r := by
  obtain ⟨hs, hz, hr⟩ := h
  have hl := hs.strlen
  obtain ⟨hn, rest, e⟩ := hs
  obtain ⟨len, b⟩ := x
  simp only at e hz hr hl
  refine ⟨(len, b.take s.length ++ t ++ 0 :: b.drop (s.length + t.length + 1)), ?_, ?_, ?_, ?_⟩
  · unfold Log.cat strcat
    simp only [hl, Outcome.ok_bind]
    rw [if_pos (by omega)]
    rfl
  · refine ⟨noNul_append hn ht, b.drop (s.length + t.length + 1), ?_⟩
    simp [e]
  · simp only [List.length_append, List.length_take, List.length_cons, List.length_drop]; omega
  · simp only [List.length_append]; omega

theorem holds_calloc (fmt : Str) : Holds (fmt.length + 4, calloc (fmt.length + 4)) [] (fmt.length + 3) := by
  refine ⟨⟨by simp, List.replicate (fmt.length + 3) 0, ?_⟩, by simp [calloc], by simp⟩
  simp [calloc, List.replicate_succ]

theorem holds_date {x : Buf} {r : Nat} (h : Holds x [] r) (junk : Byte) {env : Env} (hd : NoNul env.date) (opts : Nat) :
    ∃ y, addDate junk env opts x = .ok y ∧ Holds y (if has opts WITH_DATE then env.date else []) r := by
  unfold addDate
  split
  · have k := h.grow junk env.date.length
    obtain ⟨hs, hz, hr⟩ := k
    generalize grow junk x env.date.length = g at *
    obtain ⟨len, b⟩ := g
    simp only [List.length_nil] at hz hr
    refine ⟨(len, env.date ++ 0 :: b.drop (env.date.length + 1)), ?_, ⟨hd, _, rfl⟩, ?_, ?_⟩
    · simp only [sprintf]
      rw [if_pos (by omega)]
      rfl
    · simp only [List.length_append, List.length_cons, List.length_drop]; omega
    · simp only; omega
  · exact ⟨x, rfl, h⟩

theorem host_noNul {env : Env} (h : env.Ok) : NoNul ((env.host.getD HOSTNAME).takeWhile (· ≠ 46)) := by
  intro b hb
  have hb := (List.takeWhile_sublist _).mem hb
  cases e : env.host with
  | none => rw [e] at hb; exact (show NoNul HOSTNAME by decide) b hb
  | some t => rw [e] at hb; exact h.host t e b hb

theorem holds_host {x : Buf} {s : Str} {r : Nat} (h : Holds x s r) (junk : Byte) {env : Env} (he : env.Ok) (opts : Nat) :
    ∃ y, addHost junk env opts x = .ok y ∧ Holds y (s ++ if has opts WITH_SYSNAME then (env.host.getD HOSTNAME).takeWhile (· ≠ 46) ++ (if opts > WITH_SYSNAME then [32] else []) else []) r := by
  unfold addHost
  split
  · have hh := host_noNul he
    generalize (env.host.getD HOSTNAME).takeWhile (· ≠ 46) = t at *
    have k := h.grow junk (t.length + 1)
    obtain ⟨y, e1, h1⟩ := Holds.cat (t := t) (r := r + 1) (by rw [show t.length + (r + 1) = r + (t.length + 1) by omega]; exact k) hh
    simp only [e1, Outcome.ok_bind]
    split
    · obtain ⟨z, e2, h2⟩ := Holds.cat (t := [32]) (r := r) (by rw [show ([32] : Str).length + r = r + 1 by simp; omega]; exact h1) (by decide)
      exact ⟨z, e2, by simpa using h2⟩
    · exact ⟨y, rfl, by simpa using ⟨h1.str, h1.size, by have := h1.room; omega⟩⟩
  · exact ⟨x, rfl, by simpa using h⟩

theorem holds_prog {x : Buf} {s : Str} {r : Nat} (h : Holds x s r) (junk : Byte) {env : Env} (he : env.Ok) (opts : Nat) :
    ∃ y, addProg junk env opts x = .ok y ∧ Holds y (s ++ if has opts WITH_PROGNAME then env.prog else []) r := by
  unfold addProg
  split
  · exact Holds.cat (by rw [Nat.add_comm]; exact h.grow junk env.prog.length) he.prog
  · exact ⟨x, rfl, by simpa using h⟩

theorem digits_noNul (n : Nat) : NoNul (Num.digits 10 n) := by
  intro b hb
  unfold Num.digits at hb
  obtain ⟨c, hc, rfl⟩ := List.mem_map.1 hb
  have := Nat.isDigit_of_mem_toDigits (by omega) (by omega) hc
  simp only [Char.isDigit, Bool.and_eq_true, decide_eq_true_eq] at this
  have h2 : c.toNat ≤ 57 := this.2
  have h1 : 48 ≤ c.toNat := this.1
  intro e
  have := congrArg UInt8.toNat e
  simp [Num.byte] at this
  omega

theorem pid_length {n : Nat} (h : n < 2 ^ 32) : (Num.digits 10 n).length ≤ 10 := (Num.digits_length_le (by omega) (by omega)).2 (by omega)

theorem holds_pid {x : Buf} {s : Str} {r : Nat} (h : Holds x s r) (junk : Byte) {env : Env} (he : env.Ok) (opts : Nat) :
    ∃ y, addPid junk env opts x = .ok y ∧ Holds y (s ++ if has opts WITH_PID then [91] ++ Num.digits 10 env.pid ++ [93] else []) r := by
  unfold addPid
  split
  · have hn : NoNul ([91] ++ Num.digits 10 env.pid ++ [93]) := noNul_append (noNul_append (by decide) (digits_noNul _)) (by decide)
    have hl : ([91] ++ Num.digits 10 env.pid ++ [93]).length ≤ 12 := by
      have := pid_length he.pid
      simp; omega
    simp only
    generalize [91] ++ Num.digits 10 env.pid ++ [93] = t at *
    have e1 : sprintf (List.replicate 13 junk) t = .ok (t ++ 0 :: (List.replicate 13 junk).drop (t.length + 1)) := by
      unfold sprintf; rw [if_pos (by rw [List.length_replicate]; omega)]; rfl
    simp only [e1, Outcome.ok_bind]
    exact Holds.cat (by rw [Nat.add_comm]; exact h.grow junk t.length) hn
  · exact ⟨x, rfl, by simpa using h⟩

theorem desc_noNul : ∀ l : Fin 8, NoNul (desc.getD l.val []) := by decide

theorem holds_level {x : Buf} {s : Str} {r : Nat} (h : Holds x s r) (junk : Byte) (opts level : Nat) :
    ∃ y, addLevel junk opts level x = .ok y ∧ Holds y (s ++ if has opts WITH_LEVEL ∧ level < 8 then (if opts ≠ WITH_LEVEL then [58, 32] else []) ++ desc.getD level [] else []) r := by
  unfold addLevel
  by_cases ho : has opts WITH_LEVEL = true
  · by_cases hl : level < 8
    · rw [if_pos ho, if_pos hl]
      have hd : rd desc level = .ok (desc.getD level []) := by
        have h8 : level < desc.length := hl
        rw [rd_lt h8]
        simp [List.getD_eq_getElem?_getD, h8]
      have hn := desc_noNul ⟨level, hl⟩
      simp only [hd, Outcome.ok_bind]
      simp only [ho, hl, and_self, if_true]
      simp only at hn
      generalize desc.getD level [] = t at *
      have k := h.grow junk (t.length + 2)
      by_cases hw : opts ≠ WITH_LEVEL
      · simp only [hw, ne_eq, not_false_eq_true, if_true]
        obtain ⟨y, e1, h1⟩ := Holds.cat (t := [58, 32]) (r := r + t.length) (by rw [show ([58, 32] : Str).length + (r + t.length) = r + (t.length + 2) by simp; omega]; exact k) (by decide)
        simp only [e1, Outcome.ok_bind]
        obtain ⟨z, e2, h2⟩ := Holds.cat (t := t) (r := r) (by rw [Nat.add_comm]; exact h1) hn
        exact ⟨z, e2, by simpa using h2⟩
      · simp only [hw, if_false, Outcome.pure_eq, Outcome.ok_bind]
        obtain ⟨z, e2, h2⟩ := Holds.cat (t := t) (r := r + 2) (by rw [show t.length + (r + 2) = r + (t.length + 2) by omega]; exact k) hn
        exact ⟨z, e2, by simpa using h2.str, h2.size, by have := h2.room; simp at this ⊢; omega⟩
    · rw [if_pos ho, if_neg hl]
      exact ⟨x, rfl, by simpa [hl] using h⟩
  · rw [if_neg ho]
    exact ⟨x, rfl, by simpa [ho] using h⟩

theorem holds_fmt {x : Buf} {s fmt : Str} {r : Nat} (h : Holds x s (fmt.length + 2 + r)) (hf : NoNul fmt) (opts : Nat) :
    ∃ y, addFmt opts fmt x = .ok y ∧ Holds y (s ++ (if opts ≠ 0 then [58, 32] else []) ++ fmt) r := by
  unfold addFmt
  by_cases ho : opts ≠ 0
  · simp only [ho, ne_eq, not_false_eq_true, if_true]
    obtain ⟨y, e1, h1⟩ := Holds.cat (t := [58, 32]) (r := fmt.length + r) (by rw [show ([58, 32] : Str).length + (fmt.length + r) = fmt.length + 2 + r by simp; omega]; exact h) (by decide)
    simp only [e1, Outcome.ok_bind]
    exact Holds.cat h1 hf
  · simp only [ho, if_false, Outcome.pure_eq, Outcome.ok_bind]
    obtain ⟨z, e2, h2⟩ := Holds.cat (t := fmt) (r := r + 2) (by rw [show fmt.length + (r + 2) = fmt.length + 2 + r by omega]; exact h) hf
    exact ⟨z, e2, by simpa using h2.str, h2.size, by have := h2.room; simp at this ⊢; omega⟩

theorem location_noNul {file func : Str} {line : Int} (hl : line > -1) (hf : NoNul file) (hg : NoNul func) : NoNul (location file line func) := by
  have hs : NoNul (Num.signed line) := by
    unfold Num.signed
    rw [if_neg (by omega)]
    exact digits_noNul _
  unfold location
  exact noNul_append (noNul_append (noNul_append (noNul_append (noNul_append (noNul_append (by decide) hg) (by decide)) hf) (by decide)) hs) (by decide)

theorem location_length {file func : Str} {line : Int} (hl : line > -1) (hm : line < 2 ^ 31) : (location file line func).length + 1 ≤ 13 + file.length + func.length + 10 := by
  have : (Num.signed line).length ≤ 10 := by
    unfold Num.signed
    rw [if_neg (by omega)]
    simp only [List.nil_append]
    exact (Num.digits_length_le (by omega) (by omega)).2 (by omega)
  simp [location]
  omega

theorem holds_location {x : Buf} {s : Str} {r : Nat} (h : Holds x s r) (junk : Byte) {file func : Option Str} {line : Int} (hm : line < 2 ^ 31) (hf : ∀ f, file = some f → NoNul f) (hg : ∀ f, func = some f → NoNul f) :
    ∃ y, addLocation junk file line func x = .ok y ∧ Holds y (s ++ footer file line func) r := by
  unfold addLocation footer
  cases file with
  | none => exact ⟨x, rfl, by simpa using h⟩
  | some f =>
      cases func with
      | none => exact ⟨x, rfl, by simpa using h⟩
      | some g =>
          simp only
          by_cases hl : line > -1
          · rw [if_pos hl, if_pos hl]
            have hn := location_noNul (line := line) hl (hf f rfl) (hg g rfl)
            have hlen := location_length (file := f) (func := g) hl hm
            generalize location f line g = t at *
            generalize 13 + f.length + g.length + 10 = n at *
            have e1 : sprintf (calloc n) t = .ok (t ++ 0 :: (calloc n).drop (t.length + 1)) := by
              unfold sprintf; rw [if_pos (by simp [calloc]; omega)]; rfl
            have e2 : Cstr.cstr (t ++ 0 :: (calloc n).drop (t.length + 1)) = t := IsStr.cstr ⟨hn, _, rfl⟩
            simp only [e1, Outcome.ok_bind, e2]
            have k := h.grow junk n
            obtain ⟨z, e3, h3⟩ := Holds.cat (t := t) (r := r) ⟨k.str, k.size, by have := k.room; omega⟩ hn
            exact ⟨z, e3, h3⟩
          · rw [if_neg hl, if_neg hl]
            exact ⟨x, rfl, by simpa using h⟩

/-- C74. For every message, options, level, location and environment the format of a log line is built within its buffers, and is the header, the message, the location and a newline, NUL-terminated. -/
theorem c74_genFmt (junk : Byte) (env : Env) (he : env.Ok) (fmt : Str) (hf : NoNul fmt) (file func : Option Str) (line : Int) (hm : line < 2 ^ 31)
    (hfile : ∀ f, file = some f → NoNul f) (hfunc : ∀ f, func = some f → NoNul f) (level opts : Nat) :
    ∃ m, genFmt junk env fmt file line func level opts = .ok m ∧ IsStr m (header env level opts ++ fmt ++ footer file line func ++ [10]) := by
  obtain ⟨x1, e1, h1⟩ := holds_date (holds_calloc fmt) junk he.date opts
  obtain ⟨x2, e2, h2⟩ := holds_host h1 junk he opts
  obtain ⟨x3, e3, h3⟩ := holds_prog h2 junk he opts
  obtain ⟨x4, e4, h4⟩ := holds_pid h3 junk he opts
  obtain ⟨x5, e5, h5⟩ := holds_level h4 junk opts level
  obtain ⟨x6, e6, h6⟩ := holds_fmt (r := 1) (by rw [show fmt.length + 2 + 1 = fmt.length + 3 by omega]; exact h5) hf opts
  obtain ⟨x7, e7, h7⟩ := holds_location h6 junk hm hfile hfunc
  obtain ⟨x8, e8, h8⟩ := Holds.cat (t := [10]) (r := 0) (by simpa using h7) (by decide)
  refine ⟨x8.2, ?_, ?_⟩
  · unfold genFmt
    simp only [e1, e2, e3, e4, e5, e6, e7, e8, Outcome.ok_bind, Outcome.pure_eq]
  · have := h8.str
    unfold header
    simpa [List.append_assoc] using this

/-! ## What is printed -/

/-- An argument of printf. -/
inductive Arg where
  | str (s : Str)
  | int (v : Int)
  deriving Repr, DecidableEq

/-- The text of one conversion (`%%`, `%s`, `%d`) and the arguments left; `none`: undefined (missing or wrong argument, unknown conversion). -/
def conversion (d : Byte) (as : List Arg) : Option (Str × List Arg) :=
  if d = 37 then some ([37], as) else
    match as with
    | .str s :: as => if d = 115 then some (s, as) else none
    | .int v :: as => if d = 100 then some (Num.signed v, as) else none
    | [] => none

/-- The C standard's printf for formats made of ordinary characters, `%%`, `%s` and `%d`; `none`: undefined. -/
def printf : Str → List Arg → Option Str
  | [], _ => some []
  | [c], _ => if c = 37 then none else some [c]
  | c :: d :: f, as => if c = 37 then (conversion d as).bind fun x => (printf f x.2).map (x.1 ++ ·) else (printf (d :: f) as).map (c :: ·)

theorem printf_cons {c : Byte} (hc : c ≠ 37) (f : Str) (as : List Arg) : printf (c :: f) as = (printf f as).map (c :: ·) := by
  cases f with
  | nil => simp [printf, hc]
  | cons d f => rw [printf, if_neg hc]

theorem printf_plain {s : Str} (h : (37 : Byte) ∉ s) (f : Str) (as : List Arg) : printf (s ++ f) as = (printf f as).map (s ++ ·) := by
  induction s with
  | nil => simp
  | cons c s ih =>
      have hc : c ≠ 37 := by intro e; exact h (by simp [e])
      rw [List.cons_append, printf_cons hc, ih (fun k => h (by simp [k]))]
      cases printf f as <;> simp

theorem printf_append {g : Str} (h : (37 : Byte) ∉ g) : ∀ (n : Nat) (f : Str) (as : List Arg) (t : Str), f.length ≤ n → printf f as = some t → printf (f ++ g) as = some (t ++ g) := by
  intro n
  induction n with
  | zero =>
      intro f as t hn e
      cases f with
      | nil => cases e; have := printf_plain h [] as; simpa [printf] using this
      | cons => simp at hn
  | succ n ih =>
      intro f as t hn e
      cases f with
      | nil => cases e; have := printf_plain h [] as; simpa [printf] using this
      | cons c f =>
          simp only [List.length_cons] at hn
          by_cases hc : c = 37
          · subst hc
            cases f with
            | nil => simp [printf] at e
            | cons d f =>
                simp only [List.length_cons] at hn
                rw [printf, if_pos rfl] at e
                obtain ⟨x, ex, e⟩ := Option.bind_eq_some_iff.1 e
                obtain ⟨u, eu, rfl⟩ := Option.map_eq_some_iff.1 e
                rw [List.cons_append, List.cons_append, printf, if_pos rfl, ex]
                simp [ih f x.2 u (by omega) eu]
          · rw [printf_cons hc] at e
            obtain ⟨u, eu, rfl⟩ := Option.map_eq_some_iff.1 e
            rw [List.cons_append, printf_cons hc, ih f as u (by omega) eu]; rfl

/-- log_stderr.c 31-46, log_file.c 46-66: what a logger prints, vfprintf of the generated format with the arguments of the message. -/
def printLine (junk : Byte) (env : Env) (fmt : Str) (as : List Arg) (file : Option Str) (line : Int) (func : Option Str) (level opts : Nat) : Outcome Str := do
  let m ← genFmt junk env fmt file line func level opts
  match printf (Cstr.cstr m) as with
  | some t => pure t
  | none => .ub

/-- C75. A message that printf prints as `t` gives the line header, `t`, location, newline, if header and location have no percent sign. -/
theorem c75_line_partial (junk : Byte) (env : Env) (he : env.Ok) (fmt : Str) (hf : NoNul fmt) (as : List Arg) (t : Str) (ht : printf fmt as = some t) (file func : Option Str) (line : Int) (hm : line < 2 ^ 31)
    (hfile : ∀ f, file = some f → NoNul f) (hfunc : ∀ f, func = some f → NoNul f) (level opts : Nat) (h1 : (37 : Byte) ∉ header env level opts) (h2 : (37 : Byte) ∉ footer file line func) :
    printLine junk env fmt as file line func level opts = .ok (header env level opts ++ t ++ footer file line func ++ [10]) := by
  obtain ⟨m, e, k⟩ := c74_genFmt junk env he fmt hf file func line hm hfile hfunc level opts
  unfold printLine
  simp only [e, Outcome.ok_bind, k.cstr]
  have h3 : (37 : Byte) ∉ footer file line func ++ [10] := by
    intro hh
    rcases List.mem_append.1 hh with hh | hh
    · exact h2 hh
    · simp at hh
  have := printf_plain h1 (fmt ++ (footer file line func ++ [10])) as
  rw [printf_append h3 _ fmt as t (Nat.le_refl _) ht] at this
  simp only [List.append_assoc] at this ⊢
  rw [this]
  rfl

/-- An environment whose program is called "100%d". -/
def percentEnv : Env := { date := [], host := none, prog := [49, 48, 48, 37, 100], pid := 1 }

/-- C75 (violation). A percent sign in the program's name (or in the host, file or function name) is taken as a conversion: the harmless message "hi" is undefined. -/
theorem c75_percent_violation : printf [104, 105] [] = some [104, 105] ∧ printLine 0 percentEnv [104, 105] [] none 0 none 3 WITH_PROGNAME = .ub := by decide +kernel

/-- C75 (violation). Two percent signs in the file name are printed as one. -/
theorem c75_file_violation : printf [37, 37] [] = some [37] ∧ printLine 0 percentEnv [120] [] (some [97, 37, 37, 98]) 5 (some [102]) 3 0 = .ok ([120, 58, 32, 105, 110, 32, 102, 32, 97, 116, 32, 40, 97, 37, 98, 58, 53, 41, 10]) := by decide +kernel

/-- "Jan 01 00:00:00 ", host "h.example", program "prog", process 42 -/
def exampleEnv : Env := { date := "Jan 01 00:00:00 ".toList.map Num.byte, host := some ("h.example".toList.map Num.byte), prog := "prog".toList.map Num.byte, pid := 42 }

example : exampleEnv.Ok := ⟨by decide, by intro h e; cases e; decide, by decide, by decide⟩
example : header exampleEnv 3 31 = "Jan 01 00:00:00 h prog[42]: Error: ".toList.map Num.byte := by decide +kernel
example : printLine 7 exampleEnv ("n=%d".toList.map Num.byte) [.int 5] (some ("f.c".toList.map Num.byte)) 12 (some ("g".toList.map Num.byte)) 3 31 =
    .ok ("Jan 01 00:00:00 h prog[42]: Error: n=5: in g at (f.c:12)\n".toList.map Num.byte) := by decide +kernel

end ZT.Log
