import Verif.Cfg.Model

/-!
# What configurations mean

Texts and what they denote, configurations as maps from names to values or links, and files as lists of lines.
-/

namespace ZT.Cfg.Spec

open ZT.Cfg (Str Floats Cell)

/-! ## Texts -/

/-- The value of a digit 0-9, a-z, A-Z. -/
def digit (b : Byte) : Nat :=
  if 0x61 ≤ b then b.toNat - 0x61 + 10 else if 0x41 ≤ b then b.toNat - 0x41 + 10 else b.toNat - 0x30

def IsDec (b : Byte) : Prop := 0x30 ≤ b ∧ b ≤ 0x39
def IsOct (b : Byte) : Prop := 0x30 ≤ b ∧ b ≤ 0x37
def IsHex (b : Byte) : Prop := (0x30 ≤ b ∧ b ≤ 0x39) ∨ (0x61 ≤ b ∧ b ≤ 0x66) ∨ (0x41 ≤ b ∧ b ≤ 0x46)
def IsSpace (b : Byte) : Prop := b = 0x20 ∨ (0x09 ≤ b ∧ b ≤ 0x0D)

/-- The number with these digits. -/
def number (base : Nat) (ds : Str) : Nat := ds.foldl (fun n b => n * base + digit b) 0

/-- The constants of C: decimal, octal, hexadecimal. -/
inductive Constant : Str → Nat → Prop
  | dec (ds : Str) : ds ≠ [] → (∀ b ∈ ds, IsDec b) → ds.head? ≠ some 0x30 → Constant ds (number 10 ds)
  | oct (ds : Str) : (∀ b ∈ ds, IsOct b) → Constant (0x30 :: ds) (number 8 ds)
  | hex (x : Byte) (ds : Str) : x = 0x78 ∨ x = 0x58 → ds ≠ [] → (∀ b ∈ ds, IsHex b) → Constant (0x30 :: x :: ds) (number 16 ds)

/-- To the nearest `long`. -/
def nearest (n : Int) : Int := max (-2 ^ 63) (min n (2 ^ 63 - 1))

/-- A text that is an integer: white space, a sign, a constant. -/
inductive IntText : Str → Int → Prop
  | plain (ws c : Str) (n : Nat) : (∀ b ∈ ws, IsSpace b) → Constant c n → IntText (ws ++ c) (nearest n)
  | plus (ws c : Str) (n : Nat) : (∀ b ∈ ws, IsSpace b) → Constant c n → IntText (ws ++ 0x2B :: c) (nearest n)
  | minus (ws c : Str) (n : Nat) : (∀ b ∈ ws, IsSpace b) → Constant c n → IntText (ws ++ 0x2D :: c) (nearest (-(n : Int)))

/-- Equal up to the case of ASCII letters. -/
def Same (s t : Str) : Prop := s.map (fun b => if 0x41 ≤ b ∧ b ≤ 0x5A then b + 0x20 else b) = t

/-- "yes", "true" -/
def IsTrue (s : Str) : Prop := Same s [0x79, 0x65, 0x73] ∨ Same s [0x74, 0x72, 0x75, 0x65]

/-- "no", "false" -/
def IsFalse (s : Str) : Prop := Same s [0x6E, 0x6F] ∨ Same s [0x66, 0x61, 0x6C, 0x73, 0x65]

def Number {F : Type} (fl : Floats F) (s : Str) : Prop := (∃ n, IntText s n) ∨ ∃ f, fl.read s = some f

def IsQuote (b : Byte) : Prop := b = 0x27 ∨ b = 0x22

/-- What a text denotes. (The last byte of a quoted text is dropped whatever it is.) -/
inductive Denotes {F : Type} (fl : Floats F) : Str → Cell F → Prop
  | int (s : Str) (n : Int) : IntText s n → Denotes fl s (.int n)
  | float (s : Str) (f : F) : (∀ n, ¬ IntText s n) → fl.read s = some f → Denotes fl s (.float f)
  | true (s : Str) : ¬ Number fl s → IsTrue s → Denotes fl s (.bool 1)
  | false (s : Str) : ¬ Number fl s → IsFalse s → Denotes fl s (.bool 0)
  | quoted (q : Byte) (t : Str) (e : Byte) : ¬ Number fl (q :: t ++ [e]) → IsQuote q → Denotes fl (q :: t ++ [e]) (.str t)
  | quote (q : Byte) : ¬ Number fl [q] → IsQuote q → Denotes fl [q] (.str [])
  | str (s : Str) : ¬ Number fl s → ¬ IsTrue s → ¬ IsFalse s → (∀ q, s.head? = some q → ¬ IsQuote q) → Denotes fl s (.str s)

/-! ## Configurations -/

/-- A variable has a value or stands for another variable. -/
inductive Entry (F : Type) where
  | val (c : Cell F)
  | link (block name : Str)

/-- By block and name. -/
abbrev Map (F : Type) := Str → Str → Option (Entry F)

/-- The string `block.name`, for a variable that exists or is being written, is a link to it. -/
def Links {F : Type} (M : Map F) (b n : Str) (c : Cell F) (p q : Str) : Prop := c = .str (p ++ 0x2E :: q) ∧ 0x2E ∉ p ∧ (M p q ≠ none ∨ (p = b ∧ q = n))

/-- `M'` is `M` after writing the text `s` to variable `n` of block `b`. -/
def Wrote {F : Type} (fl : Floats F) (M : Map F) (b n s : Str) (M' : Map F) : Prop :=
  (∀ b' n', ¬ (b' = b ∧ n' = n) → M' b' n' = M b' n') ∧
    ∃ c, Denotes fl s c ∧ ((∃ p q, Links M b n c p q ∧ M' b n = some (.link p q)) ∨ ((∀ p q, ¬ Links M b n c p q) ∧ M' b n = some (.val c)))

/-- After these writes (block, name, text), first to last, the map is `M`. -/
inductive History {F : Type} (fl : Floats F) : List (Str × Str × Str) → Map F → Prop
  | nil : History fl [] fun _ _ => none
  | snoc {h M M' b n s} : History fl h M → Wrote fl M b n s M' → History fl (h ++ [(b, n, s)]) M'

/-- Following links from the variable ends at a value. -/
inductive Resolves {F : Type} (M : Map F) : Str → Str → Cell F → Prop
  | val {b n c} : M b n = some (.val c) → Resolves M b n c
  | link {b n p q c} : M b n = some (.link p q) → Resolves M p q c → Resolves M b n c

/-! ## Files -/

/-- A line of a file. -/
inductive Line where
  /-- only white space -/
  | blank (ws : Str)
  /-- `; text` or `# text` -/
  | comment (ws : Str) (mark : Byte) (text : Str)
  /-- `[name] junk` -/
  | section (ws name junk : Str)
  /-- `name gap = pad value tail`: the gap between name and '=' and the tail are ignored -/
  | assign (ws name gap pad value tail : Str)

/-- Without the newline. -/
def Line.text : Line → Str
  | .blank ws => ws
  | .comment ws mark text => ws ++ mark :: text
  | .section ws name junk => ws ++ 0x5B :: (name ++ 0x5D :: junk)
  | .assign ws name gap pad value tail => ws ++ (name ++ gap ++ 0x3D :: (pad ++ value ++ tail))

/-- Spaces and tabs. -/
def Blank (s : Str) : Prop := ∀ b ∈ s, b = 0x20 ∨ b = 0x09

/-- ';' and '#' begin comments. -/
def IsMark (b : Byte) : Prop := b = 0x3B ∨ b = 0x23

/-- Letters, digits and '_'. -/
def IsNameByte (b : Byte) : Prop := (0x61 ≤ b ∧ b ≤ 0x7A) ∨ (0x41 ≤ b ∧ b ≤ 0x5A) ∨ (0x30 ≤ b ∧ b ≤ 0x39) ∨ b = 0x5F

/-- White space, or white space and a comment. -/
def IsTail (tail : Str) : Prop := ∃ bl com, tail = bl ++ com ∧ Blank bl ∧ (com = [] ∨ ∃ m t, com = m :: t ∧ IsMark m)

structure IsAssign (name gap pad value tail : Str) : Prop where
  name : name ≠ [] ∧ ∀ b ∈ name, IsNameByte b
  gap : 0x3D ∉ gap ∧ ∀ b, gap.head? = some b → ¬ IsNameByte b
  pad : Blank pad
  value : value ≠ [] ∧ (∀ b ∈ value, ¬ IsMark b) ∧ (∀ b, value.head? = some b → ¬ (b = 0x20 ∨ b = 0x09)) ∧ ∀ b, value.getLast? = some b → ¬ (b = 0x20 ∨ b = 0x09)
  tail : IsTail tail

/-- Well-formed lines. There is no NUL or newline in them, names of sections have at most 1023 bytes, and assignments at most 1022. -/
def Line.ok (l : Line) : Prop := (0x00 ∉ l.text ∧ 0x0A ∉ l.text) ∧ match l with
  | .blank ws => Blank ws
  | .comment ws mark _ => Blank ws ∧ IsMark mark
  | .section ws name _ => Blank ws ∧ 0x5D ∉ name ∧ name.length ≤ 1023
  | .assign ws name gap pad value tail => Blank ws ∧ IsAssign name gap pad value tail ∧ (name ++ gap ++ 0x3D :: (pad ++ value ++ tail)).length ≤ 1022

/-- The text of a file: every line is ended by a newline. -/
def fileText (ls : List Line) : Str := ls.flatMap fun l => l.text ++ [0x0A]

/-- The writes of a file that begins in the block `b`. -/
def writes (b : Str) : List Line → List (Str × Str × Str)
  | [] => []
  | .section _ name _ :: ls => writes name ls
  | .assign _ name _ _ value _ :: ls => (b, name, value) :: writes b ls
  | _ :: ls => writes b ls

/-- The block in force behind the lines. -/
def lastBlock (b : Str) : List Line → Str
  | [] => b
  | .section _ name _ :: ls => lastBlock name ls
  | _ :: ls => lastBlock b ls

/-- What a file must satisfy to be read without undefined behaviour: every '[' is closed within 1023 bytes (or the file ends), and a value follows every '='. -/
structure Readable (file : Str) : Prop where
  brackets : ∀ a t, file = a ++ 0x5B :: t → t.length ≤ 1023 ∨ ∃ name u, t = name ++ 0x5D :: u ∧ name.length ≤ 1023
  values : ∀ a t, file = a ++ 0x3D :: t → ∃ pad c u, t = pad ++ c :: u ∧ Blank pad ∧ c ≠ 0x00 ∧ c ≠ 0x0A ∧ c ≠ 0x20 ∧ c ≠ 0x09 ∧ ¬ IsMark c

end ZT.Cfg.Spec

namespace ZT.Cfg

/-- Writing texts one after the other. -/
def run {F : Type} (fl : Floats F) : List (Str × Str × Str) → Cfg F → Outcome (Cfg F)
  | [], cfg => .ok cfg
  | (b, n, s) :: h, cfg => do
    let cfg ← insert fl cfg b n s
    run fl h cfg

end ZT.Cfg
