import Verif.Mem
import Verif.Format.Clib

/-!
# zt_format.c

`int` is 32 bits, `size_t`/`ssize_t` 64 bits. The character sink (`put`, `cl`) is a parameter of all conversion functions as in the code. A format string is the list of its bytes before the terminator;
reading its end gives 0. The variable argument list is a list of typed values; reading an argument of another type, or more than there are, is undefined (C11 7.16.1.1). A string argument is the list of its
bytes before the terminator, or null. `isdigit` is the "C" locale's. The floating point conversions %e %f %g print what the C library's sprintf stores (Clib.lean). The FILE sinks and zt_fmt_register are in Register.lean. Not modelled:
changes of the global `zt_fmt_flags`. Lengths and sizes are unbounded numbers.
-/

namespace ZT.Format

def INT_MAX : Int := 2 ^ 31 - 1
def INT_MIN : Int := -2 ^ 31

/-- A variable argument. -/
inductive Arg where
  | int (i : Int)
  | uint (u : Nat)
  | ptr (p : Nat)
  | str (s : Option (List Byte))
  | dbl (x : Dbl)
  deriving Repr, DecidableEq

/-- zt_format.h 22 `zt_fmt_put_f`: takes a character and the closure, returns an int. -/
abbrev Put (σ : Type) := Int → σ → Outcome (Int × σ)

/-- zt_format.c 15-21 `pad(n, c, tlen)`: the loop `while (nn-- > 0)`. -/
def padLoop {σ : Type} (put : Put σ) (c : Int) : Nat → (tlen : Int) → σ → Outcome (Int × σ)
  | 0, tlen, cl => .ok (tlen, cl)
  | n + 1, tlen, cl => do
      let (r, cl) ← put c cl
      padLoop put c n (tlen + r) cl

def pad {σ : Type} (put : Put σ) (n : Int) (c : Int) (tlen : Int) (cl : σ) : Outcome (Int × σ) := padLoop put c n.toNat tlen cl

/-- zt_format.c 321-327 `EMIT_STR`, `str` being the `len` bytes emitted. -/
def emit {σ : Type} (put : Put σ) : List Byte → (tlen : Int) → σ → Outcome (Int × σ)
  | [], tlen, cl => .ok (tlen, cl)
  | b :: bs, tlen, cl => do
      let (r, cl) ← put b.toNat cl
      emit put bs (tlen + r) cl

/-- The counters `flags[256]`. -/
abbrev Flags := Byte → Nat

def Flags.set (f : Flags) (c : Byte) (n : Nat) : Flags := fun x => if x = c then n else f x

/-- zt_format.c 307-313 `NORMALIZE_WIDTH`. -/
def normWidth (width : Int) (flags : Flags) : Int × Flags :=
  if width = INT_MIN then (0, flags) else if width < 0 then (-width, flags.set 45 1) else (width, flags)

/-- zt_format.c 315-319 `NORMALIZE_WIDTH_AND_FLAGS`. -/
def normAll (width : Int) (flags : Flags) (precision : Int) : Int × Flags :=
  let (width, flags) := normWidth width flags
  (width, if precision ≥ 0 then flags.set 48 0 else flags)

/-- zt_format.c 329-355 `zt_fmt_puts`, `str` being the first `len` bytes. -/
def puts {σ : Type} (put : Put σ) (str : List Byte) (flags : Flags) (width precision : Int) (cl : σ) : Outcome (Int × σ) := do
  let (width, flags) := normAll width flags precision
  let str := if precision ≥ 0 ∧ precision < str.length then str.take precision.toNat else str
  let (tlen, cl) ← (if flags 45 = 0 then pad put (width - str.length) 32 0 cl else pure (0, cl))
  emit put str tlen cl

/-- zt_format.c 371-380: the sign, and the text behind it. -/
def takeSign (str : List Byte) (flags : Flags) : Int × List Byte :=
  match str with
  | 45 :: r => (45, r)
  | 43 :: r => (43, r)
  | _ => if flags 32 ≠ 0 then (32, str) else (0, str)

/-- `if (sign) tlen += put(sign, cl)`. -/
def putSign {σ : Type} (put : Put σ) (sign : Int) (cl : σ) : Outcome (Int × σ) := if sign ≠ 0 then put sign cl else pure (0, cl)

/-- zt_format.c 387-400: the length of the field. -/
def fieldLen (str : List Byte) (precision : Int) (sign : Int) : Int :=
  let n : Int := if (str.length : Int) < precision then precision else if precision = 0 ∧ str = [48] then 0 else str.length
  if sign ≠ 0 then n + 1 else n

/-- zt_format.c 402-416: what goes before the digits, the zeros of the precision apart. -/
def before {σ : Type} (put : Put σ) (sign : Int) (flags : Flags) (fill : Int) (cl : σ) : Outcome (Int × σ) := do
  let (tlen, cl) ← putSign put sign cl
  if flags 45 ≠ 0 then pure (tlen, cl)
  else if flags 48 ≠ 0 then pad put fill 48 tlen cl
  else pad put fill 32 tlen cl

/-- zt_format.c 357-428 `zt_fmt_putd`, `str` being the first `len` bytes. -/
def putd {σ : Type} (put : Put σ) (str : List Byte) (flags : Flags) (width precision : Int) (cl : σ) : Outcome (Int × σ) := do
  let (width, flags) := normAll width flags precision
  let (sign, str) := takeSign str flags
  let precision := if precision < 0 then 1 else precision
  let n := fieldLen str precision sign
  let (tlen, cl) ← before put sign flags (width - n) cl
  let (tlen, cl) ← pad put (precision - str.length) 48 tlen cl
  let (tlen, cl) ← emit put str tlen cl
  if flags 45 ≠ 0 then pad put (width - n) 32 tlen cl else pure (tlen, cl)

/-- zt_format.c 454-473 `cvt_c`; `put(c, cl)` passes a (signed) char. -/
def cvtC {σ : Type} (put : Put σ) (i : Int) (flags : Flags) (width : Int) (cl : σ) : Outcome (Int × σ) := do
  let c : Int := Int.bmod i 256
  let (width, flags) := normWidth width flags
  let (tlen, cl) ← (if flags 45 = 0 then pad put (width - 1) 32 0 cl else pure (0, cl))
  let (r, cl) ← put c cl
  if flags 45 ≠ 0 then pad put (width - 1) 32 (tlen + r) cl else pure (tlen + r, cl)

/-- zt_format.c 495-497, 545-547, 564-566, 613-615, 631-633: the digits of `m` in base `b`, stored from the end of `buf` towards its beginning (`p` = the cells still free before them). Running out of cells is
undefined. The digit is `m % 10 + '0'`, `(m & 7) + '0'` or a character of "0123456789abcdef". -/
def digitLoop (b : Nat) : (p : Nat) → (m : Nat) → (acc : List Byte) → Outcome (List Byte)
  | 0, _, _ => .ub
  | p + 1, m, acc =>
      let acc := (if m % b < 10 then UInt8.ofNat (m % b) + 48 else UInt8.ofNat (m % b - 10) + 97) :: acc
      if m / b ≠ 0 then digitLoop b p (m / b) acc else .ok acc

/-- zt_format.c 484-493: the magnitude. `-val` overflows for INT_MIN. -/
def magnitude (val : Int) : Outcome Nat :=
  if val = INT_MAX then .ok (INT_MAX + 1).toNat
  else if val < 0 then (if -val ≤ INT_MAX then .ok (-val).toNat else .ub)
  else .ok val.toNat

/-- zt_format.c 476-504 `cvt_d` (`buf[43]`; the cell for the sign is left over since the digits are at most ten). -/
def cvtD {σ : Type} (put : Put σ) (val : Int) (flags : Flags) (width precision : Int) (cl : σ) : Outcome (Int × σ) := do
  let m ← magnitude val
  let ds ← digitLoop 10 42 m []
  putd put (if val < 0 then 45 :: ds else ds) flags width precision cl

/-- zt_format.c 603-619 `cvt_u`. -/
def cvtU {σ : Type} (put : Put σ) (m : Nat) (flags : Flags) (width precision : Int) (cl : σ) : Outcome (Int × σ) := do
  let ds ← digitLoop 10 43 m []
  putd put ds flags width precision cl

/-- zt_format.c 535-550 `cvt_o`. -/
def cvtO {σ : Type} (put : Put σ) (m : Nat) (flags : Flags) (width precision : Int) (cl : σ) : Outcome (Int × σ) := do
  let ds ← digitLoop 8 43 m []
  putd put ds flags width precision cl

/-- zt_format.c 621-637 `cvt_x`. -/
def cvtX {σ : Type} (put : Put σ) (m : Nat) (flags : Flags) (width precision : Int) (cl : σ) : Outcome (Int × σ) := do
  let ds ← digitLoop 16 43 m []
  putd put ds flags width precision cl

/-- zt_format.c 552-570 `cvt_p`. -/
def cvtP {σ : Type} (put : Put σ) (m : Nat) (flags : Flags) (width : Int) (cl : σ) : Outcome (Int × σ) := do
  let ds ← digitLoop 16 64 m []
  putd put ds flags width INT_MIN cl

/-- zt_format.c 511 `char buf[DBL_MAX_10_EXP + 1 + 1 + 99 + 1]`. -/
def BUFSZ : Nat := 308 + 1 + 1 + 99 + 1

/-- zt_format.c 514-520: the precision handed to sprintf. -/
def precF (c : Byte) (precision : Int) : Int :=
  if c = 103 ∧ (if precision < 0 then 6 else precision) = 0 then 1 else if precision < 0 then 6 else precision

/-- zt_format.c 514-528: the text in `buf`. The format handed to sprintf is "%.DDc" with the two digits of the precision (512, 523-526). It is kept in a static array: calls of two threads at once are not modelled
here (see Race.lean). -/
def sprintfF (c : Byte) (x : Dbl) (precision : Int) : Outcome (List Byte) :=
  if precF c precision ≤ 99 then
    if (Clib.text c (precF c precision).toNat x).length + 1 ≤ BUFSZ then .ok (Clib.text c (precF c precision).toNat x) else .ub
  else .abort

/-- zt_format.c 507-533 `cvt_f`. -/
def cvtF {σ : Type} (put : Put σ) (c : Byte) (x : Dbl) (flags : Flags) (width precision : Int) (cl : σ) : Outcome (Int × σ) := do
  let s ← sprintfF c x precision
  putd put s flags width (precF c precision) cl

/-- zt_format.c 584-597: the effect of the '#' flag on string and width. -/
def hashStr (s : List Byte) (flags : Flags) (width : Int) : Outcome (List Byte × Int) :=
  if flags 35 ≠ 0 ∧ width ≠ INT_MIN then
    if (s.length : Int) < INT_MAX then
      let i := if width < 0 then -width else width
      .ok (if i < s.length then s.drop i.toNat else s, INT_MIN)
    else .abort
  else .ok (s, width)

/-- zt_format.c 573-601 `cvt_s`. -/
def cvtS {σ : Type} (put : Put σ) (str : Option (List Byte)) (flags : Flags) (width precision : Int) (cl : σ) : Outcome (Int × σ) :=
  match str with
  | none => .abort
  | some s => do
      let (s, width) ← hashStr s flags width
      puts put s flags width precision cl

/-- zt_format.c 220-226: the flag characters of `zt_fmt_flags` = "+- 0#". -/
def isFlag (c : Byte) : Bool := c = 43 ∨ c = 45 ∨ c = 32 ∨ c = 48 ∨ c = 35

def scanFlags : Flags → List Byte → Outcome (Flags × List Byte)
  | f, [] => .ok (f, [])
  | f, c :: r => if isFlag c then (if f c < 255 then scanFlags (f.set c (f c + 1)) r else .abort) else .ok (f, c :: r)

def isDigit (c : Byte) : Bool := 48 ≤ c ∧ c ≤ 57

/-- zt_format.c 236-240, 254-258: a decimal number in the format. -/
def scanNum : Int → List Byte → Outcome (Int × List Byte)
  | n, [] => .ok (n, [])
  | n, c :: r =>
      if isDigit c then
        let d : Int := c.toNat - 48
        if n ≤ (INT_MAX - d).tdiv 10 then scanNum (10 * n + d) r else .abort
      else .ok (n, c :: r)

/-- zt_format.c 230-241, 248-259: `*` or a number. -/
def scanStar (fmt : List Byte) (ap : List Arg) : Outcome (Int × List Byte × List Arg) :=
  match fmt with
  | 42 :: r =>
      match ap with
      | .int n :: ap => if n ≠ INT_MIN then .ok (n, r, ap) else .abort
      | _ => .ub
  | fmt => do
      let (n, r) ← scanNum 0 fmt
      pure (n, r, ap)

/-- `*fmt == '*' || isdigit(*fmt)`. -/
def starts (fmt : List Byte) : Bool :=
  match fmt with
  | [] => false
  | c :: _ => c = 42 ∨ isDigit c

/-- zt_format.c 228-243: the width. -/
def scanWidth (fmt : List Byte) (ap : List Arg) : Outcome (Int × List Byte × List Arg) :=
  if starts fmt then scanStar fmt ap else .ok (INT_MIN, fmt, ap)

/-- zt_format.c 245-261: the precision. -/
def scanPrec (fmt : List Byte) (ap : List Arg) : Outcome (Int × List Byte × List Arg) :=
  match fmt with
  | 46 :: r => if starts r then scanStar r ap else .ok (INT_MIN, r, ap)
  | fmt => .ok (INT_MIN, fmt, ap)

/-- zt_format.c 264-299: table `cvt` (82-108), the argument read for the code, and the conversion. -/
def convert {σ : Type} (put : Put σ) (c : Byte) (ap : List Arg) (flags : Flags) (width precision : Int) (cl : σ) : Outcome (Int × σ × List Arg) :=
  if c = 99 ∨ c = 100 then
    match ap with
    | .int i :: ap => do
        let (t, cl) ← (if c = 99 then cvtC put i flags width cl else cvtD put i flags width precision cl)
        pure (t, cl, ap)
    | _ => .ub
  else if c = 111 ∨ c = 117 ∨ c = 120 then
    match ap with
    | .uint u :: ap => do
        let (t, cl) ← (if c = 111 then cvtO put u flags width precision cl else if c = 117 then cvtU put u flags width precision cl else cvtX put u flags width precision cl)
        pure (t, cl, ap)
    | _ => .ub
  else if c = 112 then
    match ap with
    | .ptr p :: ap => do
        let (t, cl) ← cvtP put p flags width cl
        pure (t, cl, ap)
    | _ => .ub
  else if c = 115 then
    match ap with
    | .str s :: ap => do
        let (t, cl) ← cvtS put s flags width precision cl
        pure (t, cl, ap)
    | _ => .ub
  else if c = 101 ∨ c = 102 ∨ c = 103 then
    match ap with
    | .dbl x :: ap => do
        let (t, cl) ← cvtF put c x flags width precision cl
        pure (t, cl, ap)
    | _ => .ub
  else .abort

/-- `c = *fmt++` and the conversion; the terminator has no conversion. -/
def directive {σ : Type} (put : Put σ) (fmt : List Byte) (ap : List Arg) (cl : σ) : Outcome (Int × σ × List Byte × List Arg) := do
  let (flags, fmt) ← scanFlags (fun _ => 0) fmt
  let (width, fmt, ap) ← scanWidth fmt ap
  let (precision, fmt, ap) ← scanPrec fmt ap
  match fmt with
  | [] => .abort
  | c :: fmt => do
      let (t, cl, ap) ← convert put c ap flags width precision cl
      pure (t, cl, fmt, ap)

/-- zt_format.c 202-305 `zt_fmt_vformat`: the loop; `fuel` bounds the number of rounds. -/
def vformatLoop {σ : Type} (put : Put σ) : (fuel : Nat) → (fmt : List Byte) → List Arg → (tlen : Int) → σ → Outcome (Int × σ)
  | 0, _, _, _, _ => .ub
  | fuel + 1, fmt, ap, tlen, cl =>
      match fmt with
      | [] => .ok (tlen, cl)
      | c :: r =>
          if c ≠ 37 ∧ c ≠ 126 then do
            let (t, cl) ← put c.toNat cl
            vformatLoop put fuel r ap (tlen + t) cl
          else
            match r with
            | [] => .abort
            | d :: r' =>
                if d = 37 ∨ d = 126 then do
                  let (t, cl) ← put d.toNat cl
                  vformatLoop put fuel r' ap (tlen + t) cl
                else do
                  let (t, cl, r, ap) ← directive put r ap cl
                  vformatLoop put fuel r ap (tlen + t) cl

/-- Each round consumes at least one byte of the format, so its length bounds the number of rounds. -/
def vformat {σ : Type} (put : Put σ) (fmt : List Byte) (ap : List Arg) (cl : σ) : Outcome (Int × σ) := vformatLoop put (fmt.length + 1) fmt ap 0 cl

/-- zt_format.c 9-13 `struct zt_fmt_obuf`; `bp` is an index into the block `buf`. -/
structure Obuf where
  buf : List Byte
  bp : Nat
  size : Nat
  deriving Repr, DecidableEq

/-- Storing an int into a char. -/
def toByte (c : Int) : Byte := UInt8.ofNat (c % 256).toNat

/-- zt_format.c 639-651 `zt_fmt_insert`. -/
def insert : Put Obuf := fun c p =>
  if p.bp < p.size then do
    let buf ← wr p.buf p.bp (toByte c)
    .ok (c, { p with buf := buf, bp := p.bp + 1 })
  else .abort

/-- zt_format.c 653-666 `zt_fmt_append`; `junk` is what the new half of a grown block holds. -/
def append (junk : Byte) : Put Obuf := fun c p => do
  let p : Obuf := if p.bp ≥ p.size then { buf := p.buf.take p.size ++ List.replicate (p.size * 2 - p.size) junk, bp := p.size, size := p.size * 2 } else p
  let buf ← wr p.buf p.bp (toByte c)
  .ok (c, { p with buf := buf, bp := p.bp + 1 })

/-- zt_format.c 157-172 `zt_fmt_vsprintf` (also `zt_fmt_sprintf`, 144-155). Result: the return value and the buffer. -/
def vsprintf (buf : Option (List Byte)) (size : Nat) (fmt : List Byte) (ap : List Arg) : Outcome (Int × List Byte) :=
  match buf with
  | none => .abort
  | some b =>
      if size > 0 then do
        let (_, cl) ← vformat insert fmt ap ⟨b, 0, size⟩
        let (_, cl) ← insert 0 cl
        pure ((cl.bp : Int) - 1, cl.buf)
      else .abort

/-- zt_format.c 188-200 `zt_fmt_vstrprintf` (also `zt_fmt_strprintf`, 174-186). Result: the block returned. -/
def vstrprintf (junk : Byte) (fmt : List Byte) (ap : List Arg) : Outcome (List Byte) := do
  let (_, cl) ← vformat (append junk) fmt ap ⟨List.replicate 256 junk, 0, 256⟩
  let (_, cl) ← append junk 0 cl
  pure (cl.buf.take cl.bp)

end ZT.Format
