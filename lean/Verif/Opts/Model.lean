import Verif.Mem
import Verif.Cfg.Model

/-!
# zt_opts.c

Strings are their bytes up to the NUL; a pointer into a string is what follows it, and moving a pointer past the NUL and reading there is undefined. `argv` is a list of strings with NULL after the last. `int` does not
overflow here (`*argc` and what callbacks return are small). `char` is a byte; ZT_OPT_NSO (-1) is 0xFF. An error handler either exits or returns. Callbacks do not change `*argc` and `argv`. Not modelled here: messages and the
help printer (see `Help`).
-/

namespace ZT.Opts

abbrev Str := List Byte

/-- zt_opts.h 27-34 `struct zt_opt_def`, without `arg` and `cb_data`; the callbacks are given apart. -/
structure Def where
  sopt : Byte
  lopt : Option Str
  help : Bool
  deriving Repr, DecidableEq

/-- zt_opts.h 20 -/
def NSO : Byte := 0xFF

/-- `*p` -/
def hd (p : Str) : Byte := p.headD 0

/-- `++p`, to be read afterwards. -/
def next : Str → Outcome Str
  | [] => .ub
  | _ :: t => .ok t

/-- `argv[n]` -/
def arg (argv : List Str) (n : Nat) : Outcome (Option Str) :=
  if n < argv.length then .ok argv[n]? else if n = argv.length then .ok none else .ub

/-- Dereferencing what may be NULL. -/
def deref {α : Type} : Option α → Outcome α
  | some a => .ok a
  | none => .ub

/-- What a call of the error handler does: `none` for exit. -/
abbrev Handler (σ : Type) := σ → Option σ

/-- How a function of this file ends. -/
inductive Res (α σ : Type) where
  | ret (a : α) (s : σ)
  | exit
  deriving Repr, DecidableEq

/-- A callback: argn, defn and the state to the number of arguments consumed. -/
abbrev Callback (σ : Type) := Nat → Nat → σ → Outcome (Res Int σ)

/-- zt_opts.c 490-493: does this definition match? `len` is 0 for short options. strncmp compares up to `len` bytes. -/
def matchDef (d : Def) (len : Nat) (p : Str) : Bool :=
  (len == 0 && d.sopt != NSO && hd p == d.sopt) ||
    (match d.lopt with
     | none => false
     | some l => l.length == len && p.take len == l.take len)

/-- zt_opts.c 489, the index at which the search stops: the first definition that matches from `x` on. -/
def search (len : Nat) (p : Str) : List Def → Nat → Option Nat
  | [], _ => none
  | d :: ds, x => if matchDef d len p then some x else search len p ds (x + 1)

/-- Where the processing of one argument ends. -/
inductive One (σ : Type) where
  /-- zt_opts.c 499 -/
  | error (code : Int) (s : σ)
  /-- falling out of the loop over the definitions (with `found` not set if `unknown`), or `break` -/
  | next (i : Nat) (unknown : Bool) (s : σ)
  | exit
  deriving Repr, DecidableEq

section
variable {σ : Type} (defs : List Def) (cb : Callback σ)

/-- zt_opts.c 488-516 from AGAIN; `p` is what is left of the argument. -/
def again (len : Nat) (combined long : Bool) (i : Nat) : Str → Bool → σ → Outcome (One σ)
  | p, found, s =>
    match search len p defs 0 with
    | none => .ok (.next i (!found) s)
    | some x => do
      let r ← cb i x s
      match r with
      | .exit => .ok .exit
      | .ret consumed s =>
        if consumed < 0 then .ok (.error consumed s)
        else
          let i' := if combined then i else i + consumed.toNat
          if consumed = 0 ∧ long = false then
            match p with
            | [] => .ub
            | _ :: t => if hd t ≠ 0 then again len combined long i t true s else .ok (.next i' false s)
          else .ok (.next i' false s)

/-- zt_opts.c 478-480: the length of the name. -/
def nameLen : Str → Nat
  | [] => 0
  | b :: t => if b = 0x3D then 0 else nameLen t + 1

/-- zt_opts.c 467-520, one argument `a` that begins with '-'; 0x3D is '='. -/
def one (i : Nat) (a : Str) (s : σ) : Outcome (One σ) := do
  let p ← next a
  if hd p = 0x2D then
    let p ← next p
    let len := nameLen p
    again defs cb len (hd (p.drop len) == 0x3D) true i p false s
  else again defs cb 0 false false i p false s

/-- zt_opts.c 466-524; `n` bounds the number of iterations. Returns the value of `i`. -/
def loop (argv : List Str) (argc : Nat) (err : Handler σ) : Nat → Nat → σ → Outcome (Res (Int × Nat) σ)
  | 0, _, _ => .ub
  | n + 1, i, s =>
    if i < argc then do
      let a ← arg argv i
      let a ← deref a
      if hd a = 0x2D then do
        let r ← one defs cb i a s
        match r with
        | .exit => .ok .exit
        | .error code s => .ok (.ret (code, argc) s)
        | .next i' unknown s =>
          if unknown then
            match err s with
            | none => .ok .exit
            | some s => loop argv argc err n (i' + 1) s
          else loop argv argc err n (i' + 1) s
      else .ok (.ret (0, i) s)
    else .ok (.ret (0, i) s)

/-- zt_opts.c 458-529 `zt_opt_process_args`: the value returned and `*argc` afterwards. -/
def process (argv : List Str) (argc : Nat) (validate : List Def → Handler σ) (err : Handler σ) (s : σ) : Outcome (Res (Int × Nat) σ) :=
  match validate defs s with
  | none => .ok .exit
  | some s => loop defs cb argv argc err (argc + 1) 1 s

end

/-! ## Validation -/

/-- zt_opts.c 416-419 -/
def badShort (b : Byte) : Bool := b != NSO && (b < 0x30 || b > 0x39) && (b < 0x41 || b > 0x5A) && (b < 0x61 || b > 0x7A)

/-- zt_opts.c 424-437: the number of calls of `error` for definition `i`; `x` counts the definitions `ds`. -/
def duplicates (d : Def) (i : Nat) : List Def → Nat → Nat
  | [], _ => 0
  | e :: ds, x =>
    if x = i then duplicates d i ds (x + 1)
    else (if e.sopt != NSO && e.sopt == d.sopt then 1 else 0) + (if e.lopt.isSome && d.lopt.isSome && e.lopt == d.lopt then 1 else 0) + duplicates d i ds (x + 1)

/-- zt_opts.c 407-438: the number of calls of `error` for the definitions from `i` on. -/
def problems (all : List Def) : List Def → Nat → Nat
  | [], _ => 0
  | d :: ds, i =>
    (if d.sopt == NSO && d.lopt == none then 1 else 0) + (if d.help then 0 else 1) + (if badShort d.sopt then 1 else 0) + duplicates d i all 0 + problems all ds (i + 1)

/-- Calling the error handler `n` times. -/
def errors {σ : Type} (err : Handler σ) : Nat → Handler σ
  | 0, s => some s
  | n + 1, s => match err s with
    | none => none
    | some s => errors err n s

/-- zt_opts.c 403-439 `zt_opt_validate_default`. -/
def validateDefault {σ : Type} (err : Handler σ) (defs : List Def) : Handler σ := errors err (problems defs defs 0)

/-- zt_opts.c 442-455 `_zt_opt_error_wrapper`, for the non-zero codes it is called with here: exits. -/
def exits {σ : Type} : Handler σ := fun _ => none

/-! ## Values -/

/-- zt_opts.c 101-106: what follows the first '='. -/
def afterEq : Str → Option Str
  | [] => none
  | b :: t => if b = 0x3D then some t else afterEq t

/-- zt_opts.c 98 -/
def skipDashes : Str → Str
  | [] => []
  | b :: t => if b = 0x2D then skipDashes t else b :: t

/-- zt_opts.c 89-133 `zt_opt_get_value`: the value and `*args_consumed`. -/
def getValue {σ : Type} (defs : List Def) (argv : List Str) (err : Handler σ) (argn defn : Nat) (s : σ) : Outcome (Res (Option Str × Nat) σ) := do
  let a ← arg argv argn
  let a ← deref a
  let d ← rd defs defn
  let p := skipDashes a
  let r ← (match afterEq p with
    | some v => .ok (some v, 0)
    | none => do
      let l ← deref d.lopt
      if l = p then do
        let v ← arg argv (argn + 1)
        pure (v, 1)
      else do
        let pp ← next p
        if hd pp ≠ 0 then pure (some pp, 0)
        else do
          let v ← arg argv (argn + 1)
          pure (v, 1) : Outcome (Option Str × Nat))
  match r.1 with
  | some _ => .ok (.ret r s)
  | none => match err s with
    | none => .ok .exit
    | some s => .ok (.ret r s)

/-! ## The callbacks -/

/-- What `cb_data` of a definition points to. The array of zt_opt_string_array is a block of pointers, or NULL. -/
inductive Cell where
  /-- `cb_data` is NULL -/
  | null
  | int (n : Int)
  /-- `long` or `intmax_t`: both 64 bits -/
  | long (n : Int)
  | str (s : Option Str)
  | arr (block : Option (List (Option Str)))
  deriving Repr, DecidableEq

/-- The cells, by definition. -/
abbrev Store := Nat → Cell

def Store.set (s : Store) (x : Nat) (c : Cell) : Store := fun y => if y = x then c else s y

/-- The callbacks of this file. -/
inductive Kind where
  | null
  | flag
  | bool
  | string
  | array
  /-- zt_opt_long, and zt_opt_intmax, which does the same -/
  | long
  deriving Repr, DecidableEq

/-- ASCII lower case, as strcasecmp compares. -/
def lower (b : Byte) : Byte := if 0x41 ≤ b ∧ b ≤ 0x5A then b + 0x20 else b

/-- zt_opts.c 204-235: `none` for what is not a boolean expression. -/
def parseBool (a : Str) : Option Int :=
  if a.length = 1 then
    (if hd a = 0x74 ∨ hd a = 0x54 ∨ hd a = 0x79 ∨ hd a = 0x59 then some 1
     else if hd a = 0x66 ∨ hd a = 0x46 ∨ hd a = 0x6E ∨ hd a = 0x4E then some 0
     else none)
  else if a.map lower = [0x74, 0x72, 0x75, 0x65] ∨ a.map lower = [0x79, 0x65, 0x73] then some 1
  else if a.map lower = [0x66, 0x61, 0x6C, 0x73, 0x65] ∨ a.map lower = [0x6E, 0x6F] then some 0
  else none

/-- strtol(s, &end, 0) and strtoimax (as in glibc): the number before it is limited to 64 bits, and `end`. -/
def numberOf (s : Str) : Int × Str :=
  let t := s.dropWhile Cfg.isSpace
  let (neg, u) := match t with
    | 0x2D :: u => (true, u)
    | 0x2B :: u => (false, u)
    | u => (false, u)
  match Cfg.strtolBody u with
  | none => (0, s)
  | some (n, r) => (if neg then -(n : Int) else n, r)

/-- Calling the error handler if `b`. -/
def report {σ : Type} (err : Handler σ) (b : Bool) (s : σ) : Option σ := if b then err s else some s

/-- zt_opts.c 278: the index after the first NULL. -/
def countArr : List (Option Str) → Outcome Nat
  | [] => .ub
  | none :: _ => .ok 1
  | some _ :: t => do
    let n ← countArr t
    pure (n + 1)

/-- realloc to `n` pointers; new ones are indeterminate (here: some other string). -/
def grow (b : List (Option Str)) (n : Nat) : List (Option Str) := (b ++ List.replicate n (some [0x21])).take n

/-- zt_opts.c 271-293 -/
def appendArr (cur : Option (List (Option Str))) (v : Str) : Outcome (List (Option Str)) := do
  let so ← (match cur with
    | none => .ok (1, 0)
    | some b => do
      let i ← countArr b
      pure (i, i - 1) : Outcome (Nat × Nat))
  let new := grow (cur.getD []) (so.1 + 1)
  let new ← wr new so.2 (some v)
  wr new (so.2 + 1) none

/-- zt_opts.c 135-297: the callbacks. A cell of another type than the callback expects is undefined. -/
def builtin (kind : Nat → Kind) (defs : List Def) (argv : List Str) (err : Handler Store) : Callback Store := fun argn defn s =>
  match kind defn with
  | .null => .ok (.ret 0 s)
  | .flag =>
    match s defn with
    | .null => .ok (.ret 0 s)
    | .int n => .ok (.ret 0 (s.set defn (.int (n + 1))))
    | _ => .ub
  | .bool => do
    let r ← getValue defs argv err argn defn s
    match r with
    | .exit => .ok .exit
    | .ret (v, consumed) s => do
      let v ← deref v
      match parseBool v with
      | none => match err s with
        | none => .ok .exit
        | some s => .ok (.ret 0 s)
      | some n =>
        match s defn with
        | .null => .ok (.ret consumed s)
        | .int _ => .ok (.ret consumed (s.set defn (.int n)))
        | _ => .ub
  | .string => do
    let r ← getValue defs argv err argn defn s
    match r with
    | .exit => .ok .exit
    | .ret (none, consumed) s => .ok (.ret consumed s)
    | .ret (some v, consumed) s =>
      match s defn with
      | .str _ => .ok (.ret consumed (s.set defn (.str (some v))))
      | _ => .ub
  | .array => do
    let r ← getValue defs argv err argn defn s
    match r with
    | .exit => .ok .exit
    | .ret (none, consumed) s => .ok (.ret consumed s)
    | .ret (some v, consumed) s =>
      match s defn with
      | .arr cur => do
        let b ← appendArr cur v
        .ok (.ret consumed (s.set defn (.arr (some b))))
      | _ => .ub
  | .long => do
    let r ← getValue defs argv err argn defn s
    match r with
    | .exit => .ok .exit
    | .ret (v, consumed) s => do
      let v ← deref v
      let (n, rest) := numberOf v
      match report err (Cfg.clampLong n != n) s with
      | none => .ok .exit
      | some s =>
        match report err (hd rest != 0) s with
        | none => .ok .exit
        | some s =>
          match s defn with
          | .null => .ok (.ret consumed s)
          | .long _ => .ok (.ret consumed (s.set defn (.long (Cfg.clampLong n))))
          | _ => .ub

end ZT.Opts
