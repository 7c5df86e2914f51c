import Verif.Log.Fmt

/-!
# zt_log.c: loggers

Each call of the interface is atomic (zt_log.c 41-56 protects the default logger by a mutex; its unlocked first check is not modelled). Loggers are numbers; a closed logger is gone, and using it is undefined. `print` of the
logger's vtable is represented by what it is given (`Line`): `Verif.Log.Fmt` models how it is printed. Messages are of an arbitrary type `M` (format and arguments). `int line` is an integer. zt_log_level is unsigned
(gcc's choice for an enum without negative constants). The debug context belongs to the calling thread.
-/

namespace ZT.Log

/-- log_private.h 33-44, without the vtable. -/
structure Logger where
  level : Nat
  opts : Nat
  deriving Repr, DecidableEq

/-- zt_log.c 58-63 -/
structure Ctx where
  file : Option Str
  line : Int
  func : Option Str
  deriving Repr, DecidableEq

/-- What the `print` function of a logger is called with. -/
structure Line (M : Type) where
  logger : Nat
  level : Nat
  opts : Nat
  ctx : Ctx
  msg : M
  deriving Repr, DecidableEq

/-- The loggers that exist, the next number, the default logger (`log_default_ptr`), the exit callbacks (the latest first), the contexts of the threads and what was printed (the latest last). -/
structure State (M : Type) where
  loggers : Nat → Option Logger
  next : Nat
  dflt : Option Nat
  atexit : List Nat
  ctx : Nat → Ctx
  out : List (Line M)

variable {M : Type}

/-- zt_log.h 42: zt_log_max -/
def MAX : Nat := 8

/-- Start of the program. zt_calloc clears a new context (zt_log.c 78). -/
def State.init : State M := { loggers := fun _ => none, next := 0, dflt := none, atexit := [], ctx := fun _ => ⟨none, 0, none⟩, out := [] }

/-- `*log` -/
def deref (σ : State M) (l : Nat) : Outcome Logger :=
  match σ.loggers l with
  | some x => .ok x
  | none => .ub

def setLogger (σ : State M) (l : Nat) (x : Option Logger) : State M := { σ with loggers := fun k => if k = l then x else σ.loggers k }

def setCtx (σ : State M) (t : Nat) (c : Ctx) : State M := { σ with ctx := fun k => if k = t then c else σ.ctx k }

/-- log_private.c 49-63 zt_log_new, log_stderr.c 56-67 zt_log_stderr, log_file.c 75-100 zt_log_file -/
def new (σ : State M) (opts : Nat) : State M × Nat := ({ setLogger σ σ.next (some { level := MAX, opts := opts }) with next := σ.next + 1 }, σ.next)

/-- zt_log.c 90-113 zt_log_get_logger -/
def getLogger (σ : State M) : State M × Nat :=
  match σ.dflt with
  | some l => (σ, l)
  | none =>
      let (σ, l) := new σ WITH_LEVEL
      ({ σ with dflt := some l, atexit := l :: σ.atexit }, l)

/-- `if (!log) log = zt_log_get_logger()` -/
def resolve (σ : State M) (log : Option Nat) : State M × Nat :=
  match log with
  | some l => (σ, l)
  | none => getLogger σ

/-- zt_log.c 115-149 zt_log_logger -/
def logger (σ : State M) (log : Option Nat) : State M × Option Nat :=
  match log, σ.dflt with
  | none, none => let (σ, l) := getLogger σ; (σ, some l)
  | log, last => ({ σ with dflt := log }, last)

/-- zt_log.c 151-162 zt_log_set_level -/
def setLevel (σ : State M) (log : Option Nat) (level : Nat) : Outcome (State M × Nat) := do
  let (σ, l) := resolve σ log
  let x ← deref σ l
  pure (setLogger σ l (some { x with level := level }), x.level)

/-- zt_log.c 164-171 zt_log_get_level -/
def getLevel (σ : State M) (log : Option Nat) : Outcome (State M × Nat) := do
  let (σ, l) := resolve σ log
  let x ← deref σ l
  pure (σ, x.level)

/-- zt_log.c 173-184 zt_log_set_opts -/
def setOpts (σ : State M) (log : Option Nat) (opts : Nat) : Outcome (State M × Nat) := do
  let (σ, l) := resolve σ log
  let x ← deref σ l
  pure (setLogger σ l (some { x with opts := opts }), x.opts)

/-- zt_log.c 186-192 zt_log_get_opts -/
def getOpts (σ : State M) (log : Option Nat) : Outcome (State M × Nat) := do
  let (σ, l) := resolve σ log
  let x ← deref σ l
  pure (σ, x.opts)

/-- zt_log.c 194-205 zt_log_set_debug_info -/
def setDebug (σ : State M) (t : Nat) (file : Option Str) (line : Int) (func : Option Str) : State M := setCtx σ t ⟨file, line, func⟩

/-- zt_log.c 207-221 zt_log_get_debug_info -/
def getDebug (σ : State M) (t : Nat) : Ctx := σ.ctx t

/-- zt_log.c 262: the debug info is only valid for a single call. -/
def resetDebug (σ : State M) (t : Nat) : State M := setDebug σ t none (-1) none

/-- zt_log.c 241-263 zt_log_lvprintf -/
def lvprintf (σ : State M) (t : Nat) (log : Option Nat) (level : Nat) (msg : M) : Outcome (State M) := do
  let (σ, l) := resolve σ log
  let x ← deref σ l
  if level > x.level then pure (resetDebug σ t)
  else pure (resetDebug { σ with out := σ.out ++ [{ logger := l, level := level, opts := x.opts, ctx := getDebug σ t, msg := msg }] } t)

/-- zt_log.c 223-239 zt_log_lprintf -/
def lprintf (σ : State M) (t : Nat) (log : Option Nat) (level : Nat) (msg : M) : Outcome (State M) := do
  let (σ, l) := resolve σ log
  let x ← deref σ l
  if level > x.level then pure (resetDebug σ t) else lvprintf σ t (some l) level msg

/-- zt_log.c 300-313 zt_log_close with the destructors of log_stderr.c 21-29 and log_file.c 31-44, which free the logger. -/
def close (σ : State M) (log : Option Nat) : Outcome (State M) :=
  match log with
  | none => pure σ
  | some l => do
      let σ := if σ.dflt = some l then { σ with dflt := none } else σ
      let _ ← deref σ l
      pure (setLogger σ l none)

/-- zt_log.c 32-39 log_atexit for each callback, the latest first (`Verif.Atexit`). -/
def exit_ (σ : State M) : Outcome (State M) := σ.atexit.foldlM (fun σ l => close σ (some l)) σ

/-- The calls of a program; `t` is the calling thread. -/
inductive Call (M : Type) where
  | new (opts : Nat)
  | logger (log : Option Nat)
  | setLevel (log : Option Nat) (level : Nat)
  | getLevel (log : Option Nat)
  | setOpts (log : Option Nat) (opts : Nat)
  | getOpts (log : Option Nat)
  | setDebug (t : Nat) (c : Ctx)
  | print (t : Nat) (log : Option Nat) (level : Nat) (msg : M)
  | vprint (t : Nat) (log : Option Nat) (level : Nat) (msg : M)
  | close (log : Option Nat)

/-- What the call returns: a logger, a level, options or nothing. -/
inductive Ret where
  | logger (l : Option Nat)
  | num (n : Nat)
  | none
  deriving Repr, DecidableEq

def wrap (x : Outcome (State M × Nat)) : Outcome (State M × Ret) := do
  let (σ, n) ← x
  pure (σ, .num n)

def wrapU (x : Outcome (State M)) : Outcome (State M × Ret) := do
  let σ ← x
  pure (σ, .none)

/-- One call. -/
def call (σ : State M) : Call M → Outcome (State M × Ret)
  | .new opts => let (σ, l) := new σ opts; .ok (σ, .logger (some l))
  | .logger log => let (σ, l) := logger σ log; .ok (σ, .logger l)
  | .setLevel log level => wrap (setLevel σ log level)
  | .getLevel log => wrap (getLevel σ log)
  | .setOpts log opts => wrap (setOpts σ log opts)
  | .getOpts log => wrap (getOpts σ log)
  | .setDebug t c => .ok (setDebug σ t c.file c.line c.func, .none)
  | .print t log level msg => wrapU (lprintf σ t log level msg)
  | .vprint t log level msg => wrapU (lvprintf σ t log level msg)
  | .close log => wrapU (close σ log)

/-- A history of calls. -/
def calls (σ : State M) : List (Call M) → Outcome (State M × List Ret)
  | [] => .ok (σ, [])
  | c :: cs => do
      let (σ, r) ← call σ c
      let (σ, rs) ← calls σ cs
      pure (σ, r :: rs)

end ZT.Log
