import Verif.Cstr.Model

/-!
# zt_cstr.c 700-797: hexadecimal dumps

The two callbacks are arbitrary functions on their own state: `get` for `_getchar(data)` and `out` for `output(odata, ...)`; `none` is the final call `output(odata, 0, NULL, NULL)`. The printer used when `output` is
NULL is modelled in `Verif.Cstr.DumpPrint`. The buffers start with arbitrary contents. `isprint` is that of the C locale and undefined outside of unsigned char and EOF.
-/

namespace ZT.Cstr

/-- What the output callback is given. -/
structure Line where
  addr : Nat
  hex : List Byte
  txt : List Byte
  deriving Repr, DecidableEq

/-- The local variables of zt_hexdump; `start` is `_addr`. -/
structure DumpSt where
  bytes : Nat
  hpos : Nat
  cpos : Nat
  addr : Nat
  start : Nat
  txt : List Byte
  hex : List Byte
  deriving Repr, DecidableEq

/-- zt_internal.h 82 `HEX_DIGITS` -/
def HEX_DIGITS : List Byte := [48, 49, 50, 51, 52, 53, 54, 55, 56, 57, 97, 98, 99, 100, 101, 102]

/-- `isprint(c)` in the C locale; the argument must be EOF or an unsigned char. -/
def isprint (c : Int) : Outcome Bool := if -1 ≤ c ∧ c ≤ 255 then .ok (decide (32 ≤ c ∧ c ≤ 126)) else .ub

/-- zt_cstr.c 768-774: at the beginning of a line. -/
def dumpStart (st : DumpSt) : DumpSt :=
  if st.addr % 16 = 0 then { st with start := st.addr, txt := List.replicate 17 0, hex := List.replicate 51 0, hpos := 0, cpos := 0 } else st

/-- zt_cstr.c 768-780: entering a character. `(c >> 4) & 0xF` and `c & 0xF` as residues. -/
def dumpChar (st : DumpSt) (c : Int) : Outcome DumpSt := do
  let st := dumpStart st
  let d ← rd HEX_DIGITS (c / 16 % 16).toNat
  let hex ← wr st.hex st.hpos d
  let d ← rd HEX_DIGITS (c % 16).toNat
  let hex ← wr hex (st.hpos + 1) d
  let hex ← wr hex (st.hpos + 2) 32
  let p ← isprint c
  let txt ← wr st.txt st.cpos (if p then toChar c else 46)
  pure { st with hex := hex, txt := txt, hpos := st.hpos + 3, cpos := st.cpos + 1 }

/-- The arguments of `output(odata, _addr, _hex, _txt)`. -/
def DumpSt.line (st : DumpSt) : Line := ⟨st.start, st.hex, st.txt⟩

/-- zt_cstr.c 787-788: `addr++; bytes++;` -/
def DumpSt.next (st : DumpSt) : DumpSt := { st with addr := (st.addr + 1) % 2 ^ 32, bytes := (st.bytes + 1) % 2 ^ 64 }

/-- zt_cstr.c 791-798: after the loop. -/
def dumpEnd {τ : Type} (out : τ → Option Line → Int × τ) (st : DumpSt) (t : τ) : Nat × τ :=
  if st.addr % 16 ≠ 15 ∧ st.addr % 16 ≠ 0 then
    if (out t (some st.line)).1 = -1 then (2 ^ 64 - 1, (out t (some st.line)).2)
    else (st.bytes, (out (out t (some st.line)).2 none).2)
  else (st.bytes, (out t none).2)

/-- zt_cstr.c 766-798: the loop and what follows; the value returned and the state of the output. -/
def dumpLoop {σ τ : Type} (get : σ → Int × σ) (out : τ → Option Line → Int × τ) : (fuel : Nat) → DumpSt → σ → τ → Outcome (Nat × τ)
  | 0, _, _, _ => .ub
  | fuel + 1, st, s, t =>
      if (get s).1 ≠ -1 then do
        let st ← dumpChar st (get s).1
        if st.addr % 16 = 15 then
          if (out t (some st.line)).1 = -1 then .ok (2 ^ 64 - 1, (out t (some st.line)).2)
          else dumpLoop get out fuel st.next (get s).2 (out t (some st.line)).2
        else dumpLoop get out fuel st.next (get s).2 t
      else .ok (dumpEnd out st t)

/-- zt_cstr.c 751-798 `zt_hexdump`. -/
def hexdump {σ τ : Type} (txt hex : List Byte) (get : σ → Int × σ) (s : σ) (out : τ → Option Line → Int × τ) (t : τ) (fuel : Nat) : Outcome (Nat × τ) :=
  dumpLoop get out fuel ⟨0, 0, 0, 0, 0, txt, hex⟩ s t

/-- zt_cstr.c 706-718 `_read_str` on what is left of the data; the characters are signed. -/
def readStr (s : List Byte) : Int × List Byte :=
  match s with
  | [] => (-1, [])
  | b :: bs => (schar b, bs)

/-- zt_cstr.c 744-749 `zt_hexdump_str`; `data` are the `size` bytes. -/
def hexdumpStr {τ : Type} (txt hex : List Byte) (data : List Byte) (out : τ → Option Line → Int × τ) (t : τ) (fuel : Nat) : Outcome (Nat × τ) :=
  hexdump txt hex readStr data out t fuel

end ZT.Cstr
