import Verif.Opts.Model

/-!
# zt_opts.c: the help printer

What is printed is a list of bytes. printf succeeds and its results fit in `int`. `size_t` values that wrapped around to SIZE_MAX are -1 here (its value as an `int`, and as an offset added to another `size_t`).
-/

namespace ZT.Opts.Help

/-- zt_opts.h 27-34 `struct zt_opt_def`: what is printed of it. -/
structure Opt where
  sopt : Byte
  lopt : Option Str
  arg : Option Str
  help : Option Str
  deriving Repr, DecidableEq

def spaces (n : Nat) : Str := List.replicate n 0x20

/-- zt_opts.c 308-315: the printf of the names. -/
def names (d : Opt) : Str :=
  spaces 3 ++ [if d.sopt ≠ NSO then 0x2D else 0x20, if d.sopt ≠ NSO then d.sopt else 0x20, if d.sopt ≠ NSO ∧ d.lopt.isSome then 0x2C else 0x20, 0x20]
    ++ (if d.lopt.isSome then [0x2D, 0x2D] else spaces 2) ++ d.lopt.getD [] ++ [0x20] ++ d.arg.getD []

/-- printf("%*s", w, s): padded on the left, or on the right for a negative width. -/
def padded (w : Int) (s : Str) : Str := if 0 ≤ w then spaces (w.toNat - s.length) ++ s else s ++ spaces ((-w).toNat - s.length)

/-- zt_macros.h 127-137 `INDENT_TO`: division and remainder as in C. -/
def indentTo (tgt step start : Int) : Int := (tgt - start).tdiv step * step + (tgt - start).tmod step

/-- `help[k]` -/
def char (help : Str) (k : Int) : Outcome Byte := if k < 0 then .ub else rd (help ++ [0]) k.toNat

/-- zt_opts.c 350-352: `while (help[offt+width] != ' ') width--;`. The index decreases from `offt + 50`, so `offt + 52` rounds are enough. -/
def back (help : Str) (offt : Nat) : (fuel : Nat) → (width : Int) → Outcome Int
  | 0, _ => .ub
  | fuel + 1, width => do
      let c ← char help (offt + width)
      if c = 0x20 then .ok width else back help offt fuel (width - 1)

/-- zt_opts.c 337-339: the leading blanks. -/
def skip (help : Str) (offt : Nat) : Nat := offt + ((help.drop offt).takeWhile (· == 0x20)).length

/-- printf("%.*s", width, s): everything for a negative precision. -/
def precision (width : Int) (s : Str) : Str := if width < 0 then s else s.take width.toNat

/-- zt_opts.c 341-353 -/
def chooseWidth (help : Str) (offt : Nat) : Outcome Int :=
  if 50 > help.length - offt then .ok ((help.length - offt : Nat) : Int) else back help offt (offt + 52) 50

/-- zt_opts.c 328-357: the lines; `out` is what was printed so far. -/
def lines (help : Str) (depth : Nat) : (fuel : Nat) → (offt : Nat) → (out : Str) → Outcome Str
  | 0, _, _ => .ub
  | fuel + 1, offt, out =>
      if offt < help.length then do
        let out := if offt ≠ 0 then out ++ padded depth [0x20] else out
        let offt := skip help offt
        let width ← chooseWidth help offt
        lines help depth fuel (offt + width).toNat (out ++ padded (indentTo 30 5 depth) [] ++ precision width (help.drop offt) ++ [0x0A])
      else .ok out

/-- zt_opts.c 299-365 `_zt_opt_help_stdout_printer`: what is printed; `none` if the result is -1. -/
def printer (d : Opt) (fuel : Nat) (out : Str) : Outcome (Option Str) :=
  if d.sopt ≠ NSO ∨ d.lopt.isSome then do
    let out := out ++ names d
    let help ← deref d.help
    if help.length > 50 then do
      let out ← lines help (names d).length fuel 0 out
      pure (some out)
    else .ok (some (out ++ padded (indentTo 30 5 (names d).length) [] ++ help ++ [0x0A]))
  else .ok none

/-- zt_opts.c 391-395: over the table. -/
def options (fuel : Nat) : List Opt → (out : Str) → Outcome (Int × Str)
  | [], out => .ok (0, out)
  | d :: ds, out => do
      let r ← printer d fuel out
      match r with
      | none => .ok (-1, out)
      | some out => options fuel ds out

/-- zt_opts.c 385-399 `zt_opt_usage`: the value returned and what is printed ("Usage: %s %s\nOptions:\n" and the options). -/
def usage (name : Str) (help : Option Str) (opts : List Opt) (fuel : Nat) : Outcome (Int × Str) :=
  options fuel opts ([0x55, 0x73, 0x61, 0x67, 0x65, 0x3A, 0x20] ++ name ++ [0x20] ++ help.getD [] ++ [0x0A] ++ [0x4F, 0x70, 0x74, 0x69, 0x6F, 0x6E, 0x73, 0x3A, 0x0A])

end ZT.Opts.Help
