import Verif.Fuel
import Verif.Mem
import Verif.Numeral

/-!
# zt_cfg.c, zt_cfg/cfg_private.c, zt_cfg/cfg_ini.c

Strings are their bytes up to the NUL. A variable (`struct zt_cfg_value_ty`) is a number, the linked lists of blocks and variables are lists; both only grow. Floating point is abstract (`Floats`). Allocation succeeds. Not modelled: `altered`, the
log, and which strings are freed when (a value that is overwritten is leaked, zt_cfg_close frees the rest).
-/

namespace ZT.Cfg

abbrev Str := List Byte

/-- The floating point of the C library: what strtod makes of a text it consumes completely, and the text of "%f". -/
structure Floats (F : Type) where
  read : Str → Option F
  print : F → Str

/-- cfg_private.h 25-37, `type` and `v`; zt_cfg.h 22-28. -/
inductive Cell (F : Type) where
  | bool (b : Int)
  | int (i : Int)
  | float (f : F)
  | str (s : Str)
  | ref (r : Nat)
  deriving Repr, DecidableEq

/-- zt_cfg.h 22-28 `enum zt_cfg_type` -/
inductive Ty where
  | bool
  | int
  | float
  | string
  | ref
  deriving Repr, DecidableEq

def Ty.code : Ty → Int
  | .bool => 0
  | .int => 1
  | .float => 2
  | .string => 3
  | .ref => 4

def Cell.ty {F : Type} : Cell F → Ty
  | .bool _ => .bool
  | .int _ => .int
  | .float _ => .float
  | .str _ => .string
  | .ref _ => .ref

/-- cfg_private.h 39-51: a block is its name and its variables, each a name and the variable. `next` is the next new variable. -/
structure Cfg (F : Type) where
  blocks : List (Str × List (Str × Nat))
  cells : Nat → Cell F
  next : Nat

/-- cfg_private.c 32-40 `zt_cfg_new` -/
def new {F : Type} : Cfg F := ⟨[], fun _ => .bool 0, 0⟩

/-- cfg_private.c 65-75 `get_block` and 96-106 `get_variable`: the first entry with the name. -/
def lookup {α : Type} (name : Str) : List (Str × α) → Option α
  | [] => none
  | (n, a) :: l => if n = name then some a else lookup name l

section
variable {F : Type}

/-- cfg_private.c 77-94 `add_block` -/
def addBlock (cfg : Cfg F) (name : Str) : Cfg F :=
  match lookup name cfg.blocks with
  | some _ => cfg
  | none => { cfg with blocks := (name, []) :: cfg.blocks }

/-- Assigning to `block->head` of the first block with the name, the one that `get_block` and `add_block` return. -/
def setHead (name : Str) (vars : List (Str × Nat)) : List (Str × List (Str × Nat)) → List (Str × List (Str × Nat))
  | [] => []
  | (n, vs) :: l => if n = name then (n, vars) :: l else (n, vs) :: setHead name vars l

/-- cfg_private.c 108-125 `add_variable` in the block with the name `block` (which exists): the variable. -/
def addVariable (cfg : Cfg F) (block name : Str) : Outcome (Cfg F × Nat) :=
  match lookup block cfg.blocks with
  | none => .ub
  | some vs =>
    match lookup name vs with
    | some x => .ok (cfg, x)
    | none => .ok ({ blocks := setHead block ((name, cfg.next) :: vs) cfg.blocks, cells := fun y => if y = cfg.next then .bool 0 else cfg.cells y, next := cfg.next + 1 }, cfg.next)

/-! ## Texts -/

/-- isspace in the C locale -/
def isSpace (b : Byte) : Bool := b == 0x20 || (0x09 ≤ b && b ≤ 0x0D)

/-- The value of a digit, in bases up to 36. -/
def digitOf (b : Byte) : Option Nat :=
  if 0x30 ≤ b ∧ b ≤ 0x39 then some (b.toNat - 0x30)
  else if 0x61 ≤ b ∧ b ≤ 0x7A then some (b.toNat - 0x61 + 10)
  else if 0x41 ≤ b ∧ b ≤ 0x5A then some (b.toNat - 0x41 + 10)
  else none

/-- The digits at the beginning of `s`: the number and what follows. -/
def takeDigits (base : Nat) : Str → Nat → Nat × Str
  | [], acc => (acc, [])
  | b :: t, acc =>
    match digitOf b with
    | none => (acc, b :: t)
    | some d => if d < base then takeDigits base t (acc * base + d) else (acc, b :: t)

/-- The limits of long (64 bits). -/
def clampLong (n : Int) : Int := if n > 2 ^ 63 - 1 then 2 ^ 63 - 1 else if n < -2 ^ 63 then -2 ^ 63 else n

/-- The first byte is a digit in the base. -/
def startsDigit (base : Nat) (s : Str) : Bool :=
  match s with
  | [] => false
  | b :: _ => match digitOf b with
    | none => false
    | some d => d < base

/-- The digits after the sign, base 0: the number and what follows; `none` if there is no digit. -/
def strtolBody (s : Str) : Option (Nat × Str) :=
  match s with
  | 0x30 :: x :: t =>
    if (x = 0x78 ∨ x = 0x58) ∧ startsDigit 16 t then some (takeDigits 16 t 0)
    else some (takeDigits 8 (0x30 :: x :: t) 0)
  | 0x30 :: [] => some (0, [])
  | s => if startsDigit 10 s then some (takeDigits 10 s 0) else none

/-- strtol(s, &end, 0) in the C locale: the value and `end`. -/
def strtol (s : Str) : Int × Str :=
  let t := s.dropWhile isSpace
  let (neg, u) := match t with
    | 0x2D :: u => (true, u)
    | 0x2B :: u => (false, u)
    | u => (false, u)
  match strtolBody u with
  | none => (0, s)
  | some (n, r) => (clampLong (if neg then -(n : Int) else n), r)

/-- ASCII lower case, as strcasecmp compares. -/
def lower (b : Byte) : Byte := if 0x41 ≤ b ∧ b ≤ 0x5A then b + 0x20 else b

/-- cfg_private.c 127-168 `get_type`; 0x27 and 0x22 are the quotes. -/
def getType (fl : Floats F) (v : Str) : Cell F :=
  if v ≠ [] ∧ (strtol v).2 = [] then .int (strtol v).1
  else match fl.read v with
  | some f => .float f
  | none =>
    if v.map lower = [0x79, 0x65, 0x73] ∨ v.map lower = [0x74, 0x72, 0x75, 0x65] then .bool 1
    else if v.map lower = [0x6E, 0x6F] ∨ v.map lower = [0x66, 0x61, 0x6C, 0x73, 0x65] then .bool 0
    else match v with
    | [] => .str []
    | q :: t => if q = 0x27 ∨ q = 0x22 then .str t.dropLast else .str (q :: t)

/-- strchr(s, '.'): what precedes and follows the first dot. -/
def splitDot : Str → Option (Str × Str)
  | [] => none
  | b :: t => if b = 0x2E then some ([], t) else (splitDot t).map fun r => (b :: r.1, r.2)

/-- The variable in the block. -/
def find (cfg : Cfg F) (block name : Str) : Option Nat := (lookup block cfg.blocks).bind (lookup name)

/-- cfg_private.c 185-203: a string that names a variable is a reference. -/
def deref (cfg : Cfg F) (c : Cell F) : Cell F :=
  match c with
  | .str s =>
    match splitDot s with
    | none => .str s
    | some (b, n) =>
      match find cfg b n with
      | none => .str s
      | some r => .ref r
  | c => c

/-- cfg_private.c 170-205 `cfg_insert_bvv` -/
def insert (fl : Floats F) (cfg : Cfg F) (block name value : Str) : Outcome (Cfg F) := do
  let (cfg, x) ← addVariable (addBlock cfg block) block name
  pure { cfg with cells := fun y => if y = x then deref cfg (getType fl value) else cfg.cells y }

/-- What `var` points to in zt_cfg_set; for zt_cfg_bool it is an `int` or, as the code wants it, a `char *` with the given lower 32 bits. -/
inductive Arg (F : Type) where
  | int (n : Int)
  | float (f : F)
  | boolInt (n : Int)
  | boolStr (low : Int) (s : Str)
  | str (s : Str)
  | unknown

/-- cfg_private.c 217-240: the text; `none` for the error. snprintf writes at most 1023 bytes. A `char *` made of an `int` is not valid. -/
def argText (fl : Floats F) : Arg F → Outcome (Option Str)
  | .int n => .ok (some ((Num.signed n).take 1023))
  | .float f => .ok (some ((fl.print f).take 1023))
  | .boolInt n => if n = 1 ∨ n = 0 then .ok none else .ub
  | .boolStr low s => if low = 1 ∨ low = 0 then .ok none else .ok (some (s.take 1023))
  | .str s => .ok (some (s.take 1023))
  | .unknown => .ok none

/-- cfg_private.c 207-248 `zt_cfg_priv_set`, zt_cfg.c 46-53 -/
def set (fl : Floats F) (cfg : Cfg F) (block name : Str) (a : Arg F) : Outcome (Cfg F × Int) := do
  let t ← argText fl a
  match t with
  | none => pure (cfg, -1)
  | some v => do
    let cfg ← insert fl cfg block name v
    pure (cfg, 1)

/-- cfg_private.c 271-273; the fuel bounds the number of iterations. -/
def follow (cfg : Cfg F) : Nat → Nat → Outcome (Cell F)
  | 0, _ => .ub
  | fuel + 1, x =>
    match cfg.cells x with
    | .ref r => follow cfg fuel r
    | c => .ok c

/-- cfg_private.c 250-299 `zt_cfg_priv_get`, zt_cfg.c 36-43: the value returned and what is stored in `*var`. -/
def get (fuel : Nat) (cfg : Cfg F) (block name : Str) (type : Ty) : Outcome (Int × Option (Cell F)) :=
  match lookup block cfg.blocks with
  | none => .ok (-1, none)
  | some vs =>
    match lookup name vs with
    | none => .ok (-1, none)
    | some x => do
      let c ← follow cfg fuel x
      if c.ty = type then pure (c.ty.code, some c) else pure (-1, none)

/-! ## Files: a FILE is what is left to be read. -/

/-- cfg_private.c 42-51 `cfg_discard_line` -/
def discardLine : Str → Str
  | [] => []
  | c :: t => if c = 0x0A then t else discardLine t

/-- cfg_private.c 53-63 `cfg_discard_whitespace` -/
def discardWhitespace : Str → Str
  | [] => []
  | c :: t => if c ≠ 0x20 ∧ c ≠ 0x09 then c :: t else discardWhitespace t

/-- cfg_ini.c 79-85: the bytes stored in `buff`, whether the loop ended with `i` = BUFMAX, and the rest of the file. The byte read when `i` is BUFMAX is lost. -/
def blockName : Nat → Str → Str × Bool × Str
  | _, [] => ([], false, [])
  | 0, _ :: t => ([], true, t)
  | n + 1, c :: t =>
    if c = 0x5D then ([], false, t)
    else let (s, o, r) := blockName n t
      (c :: s, o, r)

/-- cfg_ini.c 68-98 `parse_block`: the new `bvv->block` (NULL after an overflow, as the caller freed it before) and the rest. At the end of the file with BUFMAX bytes stored, i is BUFMAX as well. -/
def parseBlock (file : Str) : Option Str × Str :=
  let (s, _, r) := blockName 1024 file
  if s.length ≥ 1024 then (none, r) else (some (s.takeWhile (· ≠ 0)), r)

/-- fgets(buff, n + 1, file): the bytes read and the rest. -/
def fgets : Nat → Str → Str × Str
  | 0, f => ([], f)
  | _, [] => ([], [])
  | n + 1, c :: t => if c = 0x0A then ([c], t) else let (s, r) := fgets n t
    (c :: s, r)

/-- The string at offset `o` of a buffer. -/
def cstr (m : List Byte) (o : Nat) : Outcome Str := do
  let n ← strlen (m.drop o)
  pure ((m.drop o).take n)

/-- cfg_ini.c 23 `valid_variable_name` -/
def validName (b : Byte) : Bool := (0x61 ≤ b && b ≤ 0x7A) || (0x41 ≤ b && b ≤ 0x5A) || (0x30 ≤ b && b ≤ 0x39) || b == 0x5F

/-- The length of the longest prefix whose bytes satisfy `p`: strspn. -/
def span (p : Byte → Bool) (s : Str) : Nat := (s.takeWhile p).length

def isBlank (b : Byte) : Bool := b == 0x20 || b == 0x09

/-- cfg_ini.c 141-146: the index of the first ';' or '#', if any. -/
def commentAt : Str → Option Nat
  | [] => none
  | b :: t => if b = 0x3B ∨ b = 0x23 then some 0 else (commentAt t).map (· + 1)

/-- cfg_ini.c 150-156; `i` counts down and the loop ends at 0. -/
def stripLoop (buff : List Byte) (val : Nat) : Nat → Outcome (List Byte)
  | 0 => .ok buff
  | i + 1 => do
    let b ← rd buff (val + (i + 1))
    if isBlank b then do
      let buff ← wr buff (val + (i + 1)) 0
      stripLoop buff val i
    else .ok buff

/-- cfg_ini.c 122-131: the buffer without the newline; `none` for the error. -/
def chopLine (buff : List Byte) (len : Nat) (rest : Str) : Outcome (Option (List Byte)) := do
  let b ← rd buff len
  if b = 0x0A then do
    let buff ← wr buff len 0
    pure (some buff)
  else if rest ≠ [] then pure none else pure (some buff)

/-- cfg_ini.c 141-146: ending the value `v` at the comment. -/
def cutComment (buff : List Byte) (val : Nat) (v : Str) : Outcome (List Byte) :=
  match commentAt v with
  | none => .ok buff
  | some i => wr buff (val + i) 0

/-- cfg_ini.c 133-164: the variable and the value; `none` for the error. `eq` is the index of '='. `vallen - 1` with `vallen` 0 is SIZE_MAX, so that `val[i]` is outside of the buffer. -/
def fields (buff : List Byte) (len eq : Nat) : Outcome (Option (Str × Str)) := do
  let s ← cstr buff 0
  let buff ← wr buff (span validName s) 0
  let v ← cstr buff (eq + 1)
  let val := eq + 1 + span isBlank v
  let v ← cstr buff val
  let buff ← cutComment buff val v
  let v ← cstr buff val
  if v.length = 0 then .ub
  else do
    let buff ← stripLoop buff val (v.length - 1)
    if val ≥ len then pure none
    else do
      let var ← cstr buff 0
      let value ← cstr buff val
      pure (some (var, value))

/-- cfg_ini.c 100-165 `parse_line`: the variable and the value, and the rest of the file; `none` for the error. -/
def parseLine (file : Str) : Outcome (Option (Str × Str) × Str) := do
  let (line, rest) := fgets 1023 file
  if line = [] then pure (none, rest)
  else do
    let buff := line ++ List.replicate (1024 - line.length) 0
    let s ← cstr buff 0
    match s.idxOf? 0x3D with
    | none => pure (none, rest)
    | some eq => do
      let b ← chopLine buff (s.length - 1) rest
      match b with
      | none => pure (none, rest)
      | some buff => do
        let r ← fields buff (s.length - 1) eq
        pure (r, rest)

/-- "Global" -/
def globalName : Str := [0x47, 0x6C, 0x6F, 0x62, 0x61, 0x6C]

/-- cfg_ini.c 179-219, the loop; `block` is `bvv.block`. The result is the configuration, `none` for the error. A NULL block name is passed to strcmp or strdup. Every iteration reads a byte, the fuel is not needed otherwise. -/
def parseLoop (fl : Floats F) : Nat → Cfg F → Option Str → Str → Outcome (Option (Cfg F))
  | 0, _, _, _ => .ub
  | _ + 1, cfg, _, [] => .ok (some cfg)
  | fuel + 1, cfg, block, c :: t =>
    if c = 0x0A then parseLoop fl fuel cfg block t
    else if c = 0x5B then
      let (b, r) := parseBlock t
      parseLoop fl fuel cfg b (discardLine r)
    else if c = 0x3B ∨ c = 0x23 then parseLoop fl fuel cfg block (discardLine t)
    else if isBlank c then parseLoop fl fuel cfg block (discardWhitespace t)
    else do
      let (r, rest) ← parseLine (c :: t)
      match r with
      | none => pure none
      | some (var, value) =>
        match block with
        | none => .ub
        | some b => do
          let cfg ← insert fl cfg b var value
          parseLoop fl fuel cfg block rest

/-- cfg_ini.c 40-66, 167-224 `zt_cfg_ini` for a file with these bytes; `none` for NULL. -/
def ini (fl : Floats F) (file : Str) : Outcome (Option (Cfg F)) := parseLoop fl (file.length + 1) new (some globalName) file

end

end ZT.Cfg
