import Verif.Opts.Model
import Verif.Cfg.Spec

/-!
# Option tables and command lines

What a table of options has to be, and what well-formed command lines mean, in terms of the texts only.
-/

namespace ZT.Opts

/-- '0'-'9', 'A'-'Z', 'a'-'z' -/
def Alnum (b : Byte) : Prop := (0x30 ≤ b ∧ b ≤ 0x39) ∨ (0x41 ≤ b ∧ b ≤ 0x5A) ∨ (0x61 ≤ b ∧ b ≤ 0x7A)

/-- What zt_opt_validate_default is to accept. -/
structure Table (defs : List Def) : Prop where
  named : ∀ d ∈ defs, d.sopt ≠ NSO ∨ d.lopt ≠ none
  help : ∀ d ∈ defs, d.help = true
  short : ∀ d ∈ defs, d.sopt ≠ NSO → Alnum d.sopt
  shorts : ∀ (x y : Nat) (d e : Def), defs[x]? = some d → defs[y]? = some e → d.sopt = e.sopt → d.sopt ≠ NSO → x = y
  longs : ∀ (x y : Nat) (d e : Def) (l : Str), defs[x]? = some d → defs[y]? = some e → d.lopt = some l → e.lopt = some l → x = y

/-- Long names are not empty, have no '=' and do not begin with '-'. (This is not checked.) -/
def Plain (defs : List Def) : Prop := ∀ d ∈ defs, ∀ l, d.lopt = some l → l ≠ [] ∧ 0x3D ∉ l ∧ hd l ≠ 0x2D

/-- A piece of a command line. -/
inductive Item where
  /-- options without value in one argument: `-abc` -/
  | flags (x : Nat) (xs : List Nat)
  /-- `-o value` -/
  | shortSep (x : Nat) (v : Str)
  /-- `-o=value` -/
  | shortEq (x : Nat) (v : Str)
  /-- `--name` -/
  | long (x : Nat)
  /-- `--name value` -/
  | longSep (x : Nat) (v : Str)
  /-- `--name=value` -/
  | longEq (x : Nat) (v : Str)

/-- The short name of a definition. -/
def shortOf (defs : List Def) (x : Nat) : Byte := (defs[x]?.map Def.sopt).getD NSO

/-- The long name of a definition. -/
def longOf (defs : List Def) (x : Nat) : Str := ((defs[x]?.bind Def.lopt)).getD []

/-- The arguments of a piece. -/
def Item.text (defs : List Def) : Item → List Str
  | .flags x xs => [0x2D :: shortOf defs x :: xs.map (shortOf defs)]
  | .shortSep x v => [[0x2D, shortOf defs x], v]
  | .shortEq x v => [0x2D :: shortOf defs x :: 0x3D :: v]
  | .long x => [0x2D :: 0x2D :: longOf defs x]
  | .longSep x v => [0x2D :: 0x2D :: longOf defs x, v]
  | .longEq x v => [0x2D :: 0x2D :: (longOf defs x ++ 0x3D :: v)]

def HasShort (defs : List Def) (x : Nat) : Prop := ∃ d, defs[x]? = some d ∧ d.sopt ≠ NSO

def HasLong (defs : List Def) (x : Nat) : Prop := ∃ d, defs[x]? = some d ∧ d.lopt ≠ none

/-- The options of a piece exist. -/
def Item.known (defs : List Def) : Item → Prop
  | .flags x xs => HasShort defs x ∧ ∀ y ∈ xs, HasShort defs y
  | .shortSep x _ => HasShort defs x
  | .shortEq x _ => HasShort defs x
  | .long x => HasLong defs x
  | .longSep x _ => HasLong defs x
  | .longEq x _ => HasLong defs x

/-- The calls a piece is to cause: the option, and the number of arguments the callback reports as consumed. -/
def Item.calls : Item → List (Nat × Int)
  | .flags x xs => (x, 0) :: xs.map fun y => (y, 0)
  | .shortSep x _ => [(x, 1)]
  | .shortEq x _ => [(x, 0)]
  | .long x => [(x, 0)]
  | .longSep x _ => [(x, 1)]
  | .longEq x _ => [(x, 0)]

/-- The callbacks `calls`, in order, at argument `i`, take the state from `s` to `s'`. -/
inductive Calls {σ : Type} (cb : Callback σ) (i : Nat) : List (Nat × Int) → σ → σ → Prop
  | nil {s} : Calls cb i [] s s
  | cons {x k l s s1 s2} : cb i x s = .ok (.ret k s1) → Calls cb i l s1 s2 → Calls cb i ((x, k) :: l) s s2

/-- The callbacks of the pieces, in order, each at the position of its first argument. -/
inductive Does {σ : Type} (defs : List Def) (cb : Callback σ) : Nat → List Item → σ → σ → Prop
  | nil {i s} : Does defs cb i [] s s
  | cons {i it its s s1 s2} : Calls cb i it.calls s s1 → Does defs cb (i + (it.text defs).length) its s1 s2 → Does defs cb i (it :: its) s s2

/-- What comes after the options: nothing, or an argument that does not begin with '-'. -/
def Stops : List Str → Prop
  | [] => True
  | a :: _ => hd a ≠ 0x2D

/-- Option `x` occurs in the argument `a`: its short name behind the '-', or its long name as `--name` or `--name=...`. -/
def Names (defs : List Def) (a : Str) (x : Nat) : Prop :=
  ∃ d, defs[x]? = some d ∧ ((d.sopt ≠ NSO ∧ d.sopt ∈ a.drop 1) ∨ ∃ l, d.lopt = some l ∧ (a = 0x2D :: 0x2D :: l ∨ ∃ v, a = 0x2D :: 0x2D :: (l ++ 0x3D :: v)))

/-- Exits, or returns with a state that has the property. -/
def Keeps {σ : Type} (I : σ → Prop) : Res Int σ → Prop
  | .exit => True
  | .ret _ s => I s

/-! ## The values stored by the callbacks of the library -/

inductive Val where
  | null
  | int (n : Int)
  | long (n : Int)
  | str (s : Option Str)
  | arr (l : List Str)

/-- A cell holds a value: an array is NULL or its strings followed by NULL. -/
inductive Holds : Cell → Val → Prop
  | null : Holds .null .null
  | int (n : Int) : Holds (.int n) (.int n)
  | long (n : Int) : Holds (.long n) (.long n)
  | str (s : Option Str) : Holds (.str s) (.str s)
  | none : Holds (.arr none) (.arr [])
  | arr (l : List Str) (junk : List (Option Str)) : Holds (.arr (some (l.map some ++ .none :: junk))) (.arr l)

/-- The effect of one flag. -/
def bump (kind : Nat → Kind) (A : Nat → Val) (x : Nat) : Nat → Val := fun y =>
  if y = x then (match kind x, A x with
    | .flag, .int n => .int (n + 1)
    | _, v => v)
  else A y

/-- A text in lower case (ASCII). -/
def lowered (v : Str) : Str := v.map fun b => if 0x41 ≤ b ∧ b ≤ 0x5A then b + 0x20 else b

/-- "t", "y", "true", "yes", in any case -/
def Yes (v : Str) : Prop := lowered v ∈ ([[0x74], [0x79], [0x74, 0x72, 0x75, 0x65], [0x79, 0x65, 0x73]] : List Str)

/-- "f", "n", "false", "no", in any case -/
def No (v : Str) : Prop := lowered v ∈ ([[0x66], [0x6E], [0x66, 0x61, 0x6C, 0x73, 0x65], [0x6E, 0x6F]] : List Str)

instance (v : Str) : Decidable (Yes v) := by unfold Yes; infer_instance
instance (v : Str) : Decidable (No v) := by unfold No; infer_instance

/-- A text that is an integer: white space, a sign, a decimal, octal or hexadecimal constant of C. -/
inductive NumText : Str → Int → Prop
  | plain (ws c : Str) (n : Nat) : (∀ b ∈ ws, Cfg.Spec.IsSpace b) → Cfg.Spec.Constant c n → NumText (ws ++ c) n
  | plus (ws c : Str) (n : Nat) : (∀ b ∈ ws, Cfg.Spec.IsSpace b) → Cfg.Spec.Constant c n → NumText (ws ++ 0x2B :: c) n
  | minus (ws c : Str) (n : Nat) : (∀ b ∈ ws, Cfg.Spec.IsSpace b) → Cfg.Spec.Constant c n → NumText (ws ++ 0x2D :: c) (-(n : Int))

/-- An integer of 64 bits. -/
def LongText (v : Str) (n : Int) : Prop := NumText v n ∧ -2 ^ 63 ≤ n ∧ n < 2 ^ 63

open Classical in
/-- The integer that a text is. -/
noncomputable def theLong (v : Str) : Int := if h : ∃ n, LongText v n then h.choose else 0

/-- The effect of an option with value `v`. -/
noncomputable def assign (kind : Nat → Kind) (A : Nat → Val) (x : Nat) (v : Str) : Nat → Val := fun y =>
  if y = x then (match kind x, A x with
    | .bool, .int _ => .int (if Yes v then 1 else 0)
    | .string, .str _ => .str (some v)
    | .array, .arr l => .arr (l ++ [v])
    | .long, .long _ => .long (theLong v)
    | _, w => w)
  else A y

noncomputable def Item.effect (kind : Nat → Kind) (A : Nat → Val) : Item → Nat → Val
  | .flags x xs => xs.foldl (bump kind) (bump kind A x)
  | .shortSep x v => assign kind A x v
  | .shortEq x v => assign kind A x v
  | .long x => bump kind A x
  | .longSep x v => assign kind A x v
  | .longEq x v => assign kind A x v

/-- The variable of an option has the type of its callback. -/
def Typed (kind : Nat → Kind) (A : Nat → Val) : Prop := ∀ x, match kind x with
  | .null => True
  | .flag => A x = .null ∨ ∃ n, A x = .int n
  | .bool => A x = .null ∨ ∃ n, A x = .int n
  | .string => ∃ s, A x = .str s
  | .array => ∃ l, A x = .arr l
  | .long => A x = .null ∨ ∃ n, A x = .long n

/-- The callback fits the piece: flags without, the others with a value; boolean values are booleans, numbers are integers of 64 bits. -/
def Item.fits (kind : Nat → Kind) : Item → Prop
  | .flags x xs => ∀ y ∈ x :: xs, kind y = .null ∨ kind y = .flag
  | .long x => kind x = .null ∨ kind x = .flag
  | .shortSep x v | .shortEq x v | .longSep x v | .longEq x v => (kind x = .bool ∧ (Yes v ∨ No v)) ∨ kind x = .string ∨ kind x = .array ∨ (kind x = .long ∧ ∃ n, LongText v n)

end ZT.Opts
