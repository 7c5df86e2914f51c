import Verif.Format.Model
import Verif.Numeral

/-!
# What a format means

The meaning of a format after the C standard (C11 7.21.6.1), for the conversions %c %d %o %u %x %p %s %e %f %g with the flags '-', ' ', '0', width and precision (numbers or `*`). Independent of zt_format.c. Pointers are
printed as hexadecimal numerals.
-/

namespace ZT.Format.Std

/-- A width or a precision. -/
inductive Len where
  | absent
  | num (n : Nat)
  | star
  deriving Repr, DecidableEq

inductive Kind where
  | c | d | o | u | x | p | s | e | f | g
  deriving Repr, DecidableEq

/-- A conversion specification; `lead` is its first character ('%', and in libzt also '~'). -/
structure Conv where
  lead : Byte
  flags : List Byte
  width : Len
  prec : Len
  kind : Kind
  deriving Repr, DecidableEq

/-- A format is a list of ordinary characters and conversions. -/
inductive Item where
  | lit (b : Byte)
  | conv (k : Conv)
  deriving Repr, DecidableEq

/-! ## How it is written -/

def Kind.code : Kind → Byte
  | .c => 99 | .d => 100 | .o => 111 | .u => 117 | .x => 120 | .p => 112 | .s => 115 | .e => 101 | .f => 102 | .g => 103

def Len.text : Len → List Byte
  | .absent => []
  | .num n => Num.digits 10 n
  | .star => [42]

def precText : Len → List Byte
  | .absent => []
  | l => 46 :: l.text

def Conv.text (k : Conv) : List Byte := k.lead :: (k.flags ++ (k.width.text ++ (precText k.prec ++ [k.kind.code])))

def Item.text : Item → List Byte
  | .lit b => if b = 37 ∨ b = 126 then [37, b] else [b]
  | .conv k => k.text

/-- The format string. -/
def written (is : List Item) : List Byte := is.flatMap Item.text

/-! ## What it prints -/

/-- The options of a conversion, `*` resolved. -/
structure Field where
  minus : Bool
  space : Bool
  zero : Bool
  width : Nat
  prec : Option Nat
  deriving Repr, DecidableEq

def takeLen : Len → List Arg → Option (Option Int × List Arg)
  | .absent, ap => some (none, ap)
  | .num n, ap => some (some n, ap)
  | .star, .int n :: ap => some (some n, ap)
  | .star, _ => none

/-- A negative width argument is a '-' flag and a positive width, a negative precision argument is no precision. -/
def mkField (flags : List Byte) (w p : Option Int) : Field :=
  { minus := flags.contains 45 || w.any fun n => decide (n < 0), space := flags.contains 32, zero := flags.contains 48, width := (w.getD 0).natAbs,
    prec := p.bind fun n => if n < 0 then none else some n.toNat }

def spaces (n : Nat) : List Byte := List.replicate n 32
def zeros (n : Nat) : List Byte := List.replicate n 48

/-- A number: precision = minimal number of digits. -/
def number (F : Field) (sign ds : List Byte) : List Byte :=
  let body := zeros (F.prec.getD 1 - ds.length) ++ ds
  let fill := F.width - (sign ++ body).length
  if F.minus then sign ++ body ++ spaces fill
  else if F.zero ∧ F.prec = none then sign ++ zeros fill ++ body
  else spaces fill ++ sign ++ body

/-- Zero with precision zero prints no digits. -/
def numeral (F : Field) (b n : Nat) : List Byte := if F.prec = some 0 ∧ n = 0 then [] else Num.digits b n

def sign (F : Field) (i : Int) : List Byte := if i < 0 then [45] else if F.space then [32] else []

/-- A text in a field. -/
def inField (F : Field) (s : List Byte) : List Byte := if F.minus then s ++ spaces (F.width - s.length) else spaces (F.width - s.length) ++ s

/-- At most `prec` characters of a string. -/
def cut (F : Field) (s : List Byte) : List Byte := match F.prec with | none => s | some p => s.take p

/-- A floating number in a field: '0' pads with zeros, except infinities and NaNs. -/
def floating (F : Field) (sign body : List Byte) (finite : Bool) : List Byte :=
  let fill := F.width - (sign ++ body).length
  if F.minus then sign ++ body ++ spaces fill
  else if F.zero ∧ finite then sign ++ zeros fill ++ body
  else spaces fill ++ sign ++ body

def fsign (F : Field) (x : Dbl) : List Byte := if Clib.neg x then [45] else if F.space then [32] else []

def finite : Dbl → Bool
  | .fin _ _ _ => true
  | _ => false

/-- The precision of a floating number is six unless given. -/
def double (c : Byte) (F : Field) (x : Dbl) : List Byte := floating F (fsign F x) (Clib.body c (F.prec.getD 6) x) (finite x)

def render : Kind → Field → Arg → Option (List Byte)
  | .c, F, .int i => some (inField F [UInt8.ofNat (i % 256).toNat])
  | .d, F, .int i => some (number F (sign F i) (numeral F 10 i.natAbs))
  | .o, F, .uint n => some (number F [] (numeral F 8 n))
  | .u, F, .uint n => some (number F [] (numeral F 10 n))
  | .x, F, .uint n => some (number F [] (numeral F 16 n))
  | .p, F, .ptr n => some (number { F with prec := none } [] (Num.digits 16 n))
  | .s, F, .str (some s) => some (inField F (cut F s))
  | .e, F, .dbl x => some (double 101 F x)
  | .f, F, .dbl x => some (double 102 F x)
  | .g, F, .dbl x => some (double 103 F x)
  | _, _, _ => none

/-- The arguments of a conversion: options and value; what is left. -/
def resolve (k : Conv) (ap : List Arg) : Option (Field × Arg × List Arg) :=
  match takeLen k.width ap with
  | none => none
  | some (w, ap) =>
      match takeLen k.prec ap with
      | none => none
      | some (p, ap) =>
          match ap with
          | [] => none
          | a :: ap => some (mkField k.flags w p, a, ap)

def convText (k : Conv) (ap : List Arg) : Option (List Byte × List Arg) :=
  match resolve k ap with
  | none => none
  | some (F, a, ap) => (render k.kind F a).map fun t => (t, ap)

def format : List Item → List Arg → Option (List Byte)
  | [], _ => some []
  | .lit b :: is, ap => (format is ap).map (b :: ·)
  | .conv k :: is, ap =>
      match convText k ap with
      | none => none
      | some (t, ap) => (format is ap).map (t ++ ·)

/-! ## Formats and arguments in range -/

def Len.InRange (lo : Nat) : Len → Prop
  | .absent => True
  | .num n => lo ≤ n ∧ (n : Int) ≤ INT_MAX
  | .star => True

/-- A width written as a number is positive (a leading 0 would be the flag). -/
structure Conv.WF (k : Conv) : Prop where
  lead : k.lead = 37 ∨ k.lead = 126
  flags : ∀ c ∈ k.flags, c = 45 ∨ c = 32 ∨ c = 48
  few : k.flags.length ≤ 255
  width : k.width.InRange 1
  prec : k.prec.InRange 0

def Arg.InRange : Arg → Prop
  | .int i => INT_MIN < i ∧ i ≤ INT_MAX
  | .uint n => n < 2 ^ 32
  | .ptr n => n < 2 ^ 64
  | .dbl x => x.Valid
  | .str _ => True

end ZT.Format.Std
