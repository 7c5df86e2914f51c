import Verif.Cstr.Dump
import Verif.Numeral

/-!
# zt_cstr.c 720-742: the printed dump (C110)

The printer that zt_hexdump uses when it is given none. The standard output is a list of bytes; `snprintf` writes into the block of 101 bytes with bounds checked; `%.12s` stops at a NUL.
-/

namespace ZT.Cstr

open Num

/-- `%.ns`: at most `n` bytes, up to a NUL; running off the block is undefined. -/
def precStr : Nat → List Byte → Outcome (List Byte)
  | 0, _ => .ok []
  | _ + 1, [] => .ub
  | n + 1, b :: bs => if b = 0 then .ok [] else do
      let r ← precStr n bs
      .ok (b :: r)

/-- `%s` -/
def strArg (m : List Byte) : Outcome (List Byte) := do
  let n ← strlen m
  .ok (m.take n)

/-- snprintf(m + i, size, ...) where `t` is the formatted text: the block and the value returned. -/
def snprintf (m : List Byte) (i size : Nat) (t : List Byte) : Outcome (List Byte × Nat) :=
  if size = 0 then .ok (m, t.length)
  else if i + (t.take (size - 1)).length + 1 ≤ m.length then .ok (m.take i ++ t.take (size - 1) ++ 0 :: m.drop (i + (t.take (size - 1)).length + 1), t.length)
  else .ub

/-- The digits of `%X`. -/
def upperDigit (c : Byte) : Byte := if 97 ≤ c then c - 32 else c

/-- `%.wzX` -/
def hexX (w a : Nat) : List Byte := List.replicate (w - (digits 16 a).length) 48 ++ (digits 16 a).map upperDigit

/-- zt_cstr.c 726-736: the address as it is printed and `base`. -/
def addrText (a : Nat) : List Byte × Nat := if a < 65535 then (hexX 4 a, 59) else if a < 4294967295 then (hexX 8 a, 63) else (hexX 16 a, 71)

/-- `x - y` in size_t -/
def minus (x y : Nat) : Nat := (x + 2 ^ 64 - y) % 2 ^ 64

/-- BLANK with INDENT_TO(base, 1, offt), in size_t; the width must fit an int. -/
def indentTo (base offt : Nat) : Outcome (List Byte) :=
  if minus base offt < 2 ^ 31 then .ok (List.replicate (minus base offt) 32) else .ub

/-- zt_cstr.c 736-737: the bar and the text after `offt` characters, and printf("%s\n", buffer). -/
def printTail (base : Nat) (buf : List Byte) (offt : Nat) (t : List Byte) : Outcome (List Byte) := do
  let w ← indentTo base offt
  let txt ← strArg t
  let q ← snprintf buf offt (minus 100 offt) (w ++ [124, 32] ++ txt)
  let s ← strArg q.1
  .ok (s ++ [10])

/-- zt_cstr.c 720-742 `zt_hexdump_default_printer` for a line: what it prints. `buf` is the uninitialised buffer of 101 bytes. -/
def printLine (buf : List Byte) (l : Line) : Outcome (List Byte) := do
  let g0 ← precStr 12 l.hex
  let g1 ← precStr 12 (l.hex.drop 12)
  let g2 ← precStr 12 (l.hex.drop 24)
  let g3 ← precStr 12 (l.hex.drop 36)
  let r ← snprintf buf 0 100 ((addrText l.addr).1 ++ [32, 32, 32] ++ g0 ++ [32] ++ g1 ++ [32] ++ g2 ++ [32] ++ g3)
  printTail (addrText l.addr).2 r.1 r.2 l.txt

/-- zt_cstr.c 720-742 with the final call, `printf("\n")`; it always returns 0. The state is the standard output, or that the printer has gone wrong. -/
def defaultPrinter (buf : List Byte) (o : Outcome (List Byte)) (l : Option Line) : Int × Outcome (List Byte) :=
  (0, do
    let o ← o
    match l with
    | none => .ok (o ++ [10])
    | some l => do
        let t ← printLine buf l
        .ok (o ++ t))

/-! ## Specification -/

/-- The address in 4 or 8 digits. -/
def addrSpec (a : Nat) : List Byte := if a < 65535 then hexX 4 a else hexX 8 a

/-- A line of the dump: address, four groups of four bytes, the bytes as text. -/
def lineText (a : Nat) (bs : List Byte) : List Byte :=
  addrSpec a ++ [32, 32, 32] ++ hexText (bs.take 4) ++ [32] ++ hexText ((bs.drop 4).take 4) ++ [32] ++ hexText ((bs.drop 8).take 4) ++ [32] ++ hexText ((bs.drop 12).take 4) ++
    List.replicate (3 * (16 - bs.length) + 1) 32 ++ [124, 32] ++ asciiText bs ++ [10]

/-- The dump of `bs`: a line for every 16 bytes, and an empty line. -/
def dumpText (bs : List Byte) : List Byte := ((List.range ((bs.length + 15) / 16)).flatMap fun k => lineText (16 * k % 2 ^ 32) ((bs.drop (16 * k)).take 16)) ++ [10]

/-- A reader of dumps, written without regard to how they are made. The value of a hexadecimal digit of either case: -/
def hexVal (c : Byte) : Option Nat :=
  if 48 ≤ c ∧ c ≤ 57 then some (c.toNat - 48) else if 65 ≤ c ∧ c ≤ 70 then some (c.toNat - 55) else if 97 ≤ c ∧ c ≤ 102 then some (c.toNat - 87) else none

/-- The bytes of pairs of digits, with blanks anywhere between them. -/
def readBytes : List Byte → List Byte
  | c :: d :: r => if c = 32 then readBytes (d :: r) else UInt8.ofNat (16 * (hexVal c).getD 0 + (hexVal d).getD 0) :: readBytes r
  | _ => []

/-- A line: the leading digits are the address, what follows up to the bar are the bytes. -/
def readLine (l : List Byte) : Nat × List Byte :=
  let d := l.takeWhile fun c => (hexVal c).isSome
  (d.foldl (fun a c => 16 * a + (hexVal c).getD 0) 0, readBytes ((l.drop d.length).takeWhile (· ≠ 124)))

def splitLines : List Byte → List (List Byte)
  | [] => []
  | b :: bs => if b = 10 then [] :: splitLines bs else
      match splitLines bs with
      | [] => [[b]]
      | l :: ls => (b :: l) :: ls

/-- A dump: its lines, except empty ones. -/
def readDump (t : List Byte) : List (Nat × List Byte) := (splitLines t).filterMap fun l => if l = [] then none else some (readLine l)

/-! ## Proofs: what is printed -/

theorem hexDigit_ne {n : Nat} (h : n < 16) : hexDigit n ≠ 0 ∧ hexDigit n ≠ 124 ∧ hexDigit n ≠ 10 ∧ hexDigit n ≠ 32 ∧ hexVal (hexDigit n) = some n := by
  have : ∀ n < 16, hexDigit n ≠ 0 ∧ hexDigit n ≠ 124 ∧ hexDigit n ≠ 10 ∧ hexDigit n ≠ 32 ∧ hexVal (hexDigit n) = some n := by decide
  exact this n h

theorem hi_lt (c : Byte) : c.toNat / 16 < 16 := by have := c.toNat_lt; omega
theorem lo_lt (c : Byte) : c.toNat % 16 < 16 := by omega

theorem hexText_cons (b : Byte) (bs : List Byte) : hexText (b :: bs) = hexDigit (b.toNat / 16) :: hexDigit (b.toNat % 16) :: 32 :: hexText bs := by simp [hexText]

theorem hexText_mem {bs : List Byte} {c : Byte} (h : c ∈ hexText bs) : c ≠ 0 ∧ c ≠ 124 ∧ c ≠ 10 := by
  simp only [hexText, List.mem_flatMap] at h
  obtain ⟨b, _, h⟩ := h
  have h1 := hexDigit_ne (hi_lt b)
  have h2 := hexDigit_ne (lo_lt b)
  simp only [List.mem_cons, List.not_mem_nil, or_false] at h
  rcases h with rfl | rfl | rfl
  · exact ⟨h1.1, h1.2.1, h1.2.2.1⟩
  · exact ⟨h2.1, h2.2.1, h2.2.2.1⟩
  · decide

theorem hexText_drop (bs : List Byte) (k : Nat) : (hexText bs).drop (3 * k) = hexText (bs.drop k) := by
  induction bs generalizing k with
  | nil => simp [hexText]
  | cons b bs ih =>
      cases k with
      | zero => simp
      | succ k =>
          rw [hexText_cons, show 3 * (k + 1) = 3 * k + 1 + 1 + 1 by omega]
          simp only [List.drop_succ_cons]
          exact ih k

theorem hexText_take (bs : List Byte) (k : Nat) : (hexText bs).take (3 * k) = hexText (bs.take k) := by
  induction bs generalizing k with
  | nil => simp [hexText]
  | cons b bs ih =>
      cases k with
      | zero => simp [hexText]
      | succ k =>
          rw [hexText_cons, show 3 * (k + 1) = 3 * k + 1 + 1 + 1 by omega]
          simp only [List.take_succ_cons]
          rw [ih k, hexText_cons]

theorem precStr_full : ∀ (n : Nat) (x r : List Byte), (∀ c ∈ x, c ≠ 0) → precStr n (x ++ 0 :: r) = .ok (x.take n)
  | 0, x, r, _ => by simp [precStr]
  | n + 1, [], r, _ => by simp [precStr]
  | n + 1, c :: x, r, h => by
      rw [List.cons_append, precStr, if_neg (h c (by simp)), precStr_full n x r fun d hd => h d (by simp [hd])]
      rfl

theorem precStr_pad {x : List Byte} {j k : Nat} (n : Nat) (hx : ∀ c ∈ x, c ≠ 0) (hk : 0 < k) (hj : j < x.length + k) : precStr n ((x ++ List.replicate k 0).drop j) = .ok ((x.drop j).take n) := by
  rw [List.drop_append, List.drop_replicate]
  obtain ⟨m, hm⟩ : ∃ m, k - (j - x.length) = m + 1 := ⟨k - (j - x.length) - 1, by omega⟩
  rw [hm, List.replicate_succ]
  exact precStr_full n _ _ fun c hc => hx c (List.mem_of_mem_drop hc)

theorem group_ok {bs : List Byte} (h : bs.length ≤ 16) {j : Nat} (hj : j ≤ 12) : precStr 12 ((hexText bs ++ List.replicate (51 - 3 * bs.length) 0).drop (3 * j)) = .ok (hexText ((bs.drop j).take 4)) := by
  rw [precStr_pad 12 (fun c hc => (hexText_mem hc).1) (by omega) (by rw [length_hexText]; omega), hexText_drop]
  exact congrArg Outcome.ok (hexText_take _ 4)

theorem strArg_ok {x r : List Byte} (h : ∀ c ∈ x, c ≠ 0) : strArg (x ++ 0 :: r) = .ok x := by
  simp only [strArg, strlen_eq x r h, Outcome.ok_bind]
  rw [List.take_left' rfl]

theorem snprintf_ok {m t : List Byte} {i size : Nat} (h1 : t.length < size) (h2 : i + size ≤ m.length) : ∃ r, snprintf m i size t = .ok (m.take i ++ t ++ 0 :: r, t.length) ∧ (m.take i ++ t ++ 0 :: r).length = m.length := by
  have ht : t.take (size - 1) = t := List.take_of_length_le (by omega)
  refine ⟨m.drop (i + t.length + 1), ?_, ?_⟩
  · rw [snprintf, if_neg (by omega), ht, if_pos (by omega)]
  · simp only [List.length_append, List.length_cons, List.length_take, List.length_drop]
    omega

theorem asciiText_mem {bs : List Byte} {c : Byte} (h : c ∈ asciiText bs) : c ≠ 0 ∧ c ≠ 10 := by
  simp only [asciiText, List.mem_map] at h
  obtain ⟨b, _, rfl⟩ := h
  split
  · rename_i hb
    constructor
    · rintro rfl; exact absurd hb.1 (by decide)
    · rintro rfl; exact absurd hb.1 (by decide)
  · decide

theorem upper_digit {d : Nat} (h : d < 16) : upperDigit (byte d.digitChar) ≠ 0 ∧ upperDigit (byte d.digitChar) ≠ 10 ∧ hexVal (upperDigit (byte d.digitChar)) = some d := by
  have : ∀ d < 16, upperDigit (byte d.digitChar) ≠ 0 ∧ upperDigit (byte d.digitChar) ≠ 10 ∧ hexVal (upperDigit (byte d.digitChar)) = some d := by decide
  exact this d h

theorem upper_mem {n : Nat} {c : Byte} (h : c ∈ (digits 16 n).map upperDigit) : c ≠ 0 ∧ c ≠ 10 ∧ (hexVal c).isSome = true := by
  induction n using Nat.strongRecOn with
  | _ n ih =>
      by_cases hn : n < 16
      · rw [digits_lt hn] at h
        simp only [List.map_cons, List.map_nil, List.mem_singleton] at h
        subst h
        have := upper_digit hn
        exact ⟨this.1, this.2.1, by rw [this.2.2]; rfl⟩
      · rw [digits_ge (by decide) (by omega)] at h
        simp only [List.map_append, List.map_cons, List.map_nil, List.mem_append, List.mem_singleton] at h
        rcases h with h | rfl
        · exact ih (n / 16) (by omega) h
        · have := upper_digit (show n % 16 < 16 by omega)
          exact ⟨this.1, this.2.1, by rw [this.2.2]; rfl⟩

theorem upper_value (n : Nat) : ((digits 16 n).map upperDigit).foldl (fun a c => 16 * a + (hexVal c).getD 0) 0 = n := by
  induction n using Nat.strongRecOn with
  | _ n ih =>
      by_cases hn : n < 16
      · rw [digits_lt hn]
        simp only [List.map_cons, List.map_nil, List.foldl_cons, List.foldl_nil, (upper_digit hn).2.2, Option.getD_some]
        omega
      · rw [digits_ge (by decide) (by omega)]
        simp only [List.map_append, List.map_cons, List.map_nil, List.foldl_append, List.foldl_cons, List.foldl_nil]
        rw [ih (n / 16) (by omega), (upper_digit (show n % 16 < 16 by omega)).2.2, Option.getD_some]
        omega

theorem hexX_mem {w n : Nat} {c : Byte} (h : c ∈ hexX w n) : c ≠ 0 ∧ c ≠ 10 ∧ (hexVal c).isSome = true := by
  rw [hexX, List.mem_append] at h
  rcases h with h | h
  · rw [List.eq_of_mem_replicate h]; decide
  · exact upper_mem h

theorem hexX_value (w n : Nat) : (hexX w n).foldl (fun a c => 16 * a + (hexVal c).getD 0) 0 = n := by
  rw [hexX, List.foldl_append]
  have : ∀ k, (List.replicate k (48 : Byte)).foldl (fun a c => 16 * a + (hexVal c).getD 0) 0 = 0 := by
    intro k
    induction k with
    | zero => rfl
    | succ k ih => rw [List.replicate_succ, List.foldl_cons]; exact ih
  rw [this]
  exact upper_value n

theorem hexX_length {w n : Nat} (hw : 0 < w) (h : n < 16 ^ w) : (hexX w n).length = w := by
  have := (digits_length_le (b := 16) (n := n) (k := w) (by decide) hw).2 h
  simp only [hexX, List.length_append, List.length_replicate, List.length_map]
  omega

theorem minus_eq {x y : Nat} (h : y ≤ x) (hx : x < 2 ^ 64) : minus x y = x - y := by
  unfold minus
  omega

theorem addrSpec_mem {a : Nat} {c : Byte} (h : c ∈ addrSpec a) : c ≠ 0 ∧ c ≠ 10 ∧ (hexVal c).isSome = true := by
  unfold addrSpec at h
  split at h <;> exact hexX_mem h

theorem addrSpec_value (a : Nat) : (addrSpec a).foldl (fun a c => 16 * a + (hexVal c).getD 0) 0 = a := by
  unfold addrSpec
  split <;> exact hexX_value _ _

theorem addr_ok {a : Nat} (h : a < 2 ^ 32 - 1) : addrText a = (addrSpec a, (addrSpec a).length + 55) := by
  unfold addrText addrSpec
  split
  · rw [hexX_length (by decide) (by omega)]
  · rw [hexX_length (by decide) (by omega)]

theorem addrSpec_length {a : Nat} (h : a < 2 ^ 32) : (addrSpec a).length = if a < 65535 then 4 else 8 := by
  unfold addrSpec
  split
  · exact hexX_length (by decide) (by omega)
  · exact hexX_length (by decide) (by omega)

/-- What precedes the bar. -/
def lineHead (a : Nat) (bs : List Byte) : List Byte :=
  addrSpec a ++ [32, 32, 32] ++ hexText (bs.take 4) ++ [32] ++ hexText ((bs.drop 4).take 4) ++ [32] ++ hexText ((bs.drop 8).take 4) ++ [32] ++ hexText ((bs.drop 12).take 4)

theorem lineHead_length (a : Nat) {bs : List Byte} (h : bs.length ≤ 16) : (lineHead a bs).length = (addrSpec a).length + 6 + 3 * bs.length := by
  simp only [lineHead, List.length_append, length_hexText, List.length_take, List.length_drop, List.length_cons, List.length_nil]
  omega

theorem lineHead_mem {a : Nat} {bs : List Byte} {c : Byte} (h : c ∈ lineHead a bs) : c ≠ 0 ∧ c ≠ 124 ∧ c ≠ 10 := by
  simp only [lineHead, List.mem_append, List.mem_cons, List.not_mem_nil, or_false] at h
  have ha : c ∈ addrSpec a → c ≠ 0 ∧ c ≠ 124 ∧ c ≠ 10 := by
    intro hc
    have := addrSpec_mem hc
    refine ⟨this.1, ?_, this.2.1⟩
    rintro rfl
    exact absurd this.2.2 (by decide)
  have hb : c = 32 → c ≠ 0 ∧ c ≠ 124 ∧ c ≠ 10 := by rintro rfl; decide
  rcases h with (((((((h | h) | h) | h) | h) | h) | h) | h) | h
  · exact ha h
  · rcases h with h | h | h <;> exact hb h
  · exact hexText_mem h
  · exact hb h
  · exact hexText_mem h
  · exact hb h
  · exact hexText_mem h
  · exact hb h
  · exact hexText_mem h

theorem lineText_eq (a : Nat) (bs : List Byte) : lineText a bs = lineHead a bs ++ List.replicate (3 * (16 - bs.length) + 1) 32 ++ [124, 32] ++ asciiText bs ++ [10] := rfl

theorem printLine_ok {buf : List Byte} (hb : buf.length = 101) {a : Nat} {bs : List Byte} (ha : a % 2 ^ 32 < 2 ^ 32 - 1) (h : bs.length ≤ 16) : printLine buf (lineOf a bs) = .ok (lineText (a % 2 ^ 32) bs) := by
  have g0 := group_ok h (j := 0) (by omega)
  have g1 := group_ok h (j := 4) (by omega)
  have g2 := group_ok h (j := 8) (by omega)
  have g3 := group_ok h (j := 12) (by omega)
  have hlen := lineHead_length (a % 2 ^ 32) h
  have hal := addrSpec_length (a := a % 2 ^ 32) (by omega)
  have hle : (addrSpec (a % 2 ^ 32)).length ≤ 8 := by rw [hal]; split <;> omega
  obtain ⟨r, e1, l1⟩ := snprintf_ok (m := buf) (t := lineHead (a % 2 ^ 32) bs) (i := 0) (size := 100) (by omega) (by omega)
  rw [List.take_zero, List.nil_append] at e1 l1
  have e2 : indentTo ((addrSpec (a % 2 ^ 32)).length + 55) (lineHead (a % 2 ^ 32) bs).length = .ok (List.replicate (3 * (16 - bs.length) + 1) 32) := by
    have : minus ((addrSpec (a % 2 ^ 32)).length + 55) (lineHead (a % 2 ^ 32) bs).length = 3 * (16 - bs.length) + 1 := by rw [minus_eq (by omega) (by omega), hlen]; omega
    unfold indentTo
    rw [this, if_pos (by omega)]
  have e3 : strArg (asciiText bs ++ List.replicate (17 - bs.length) 0) = .ok (asciiText bs) := by
    obtain ⟨k, hk⟩ : ∃ k, 17 - bs.length = k + 1 := ⟨16 - bs.length, by omega⟩
    rw [hk, List.replicate_succ]
    exact strArg_ok fun c hc => (asciiText_mem hc).1
  have hsz : minus 100 (lineHead (a % 2 ^ 32) bs).length = 100 - (lineHead (a % 2 ^ 32) bs).length := minus_eq (by omega) (by omega)
  have hasc : (asciiText bs).length = bs.length := by simp [asciiText]
  obtain ⟨r2, e4, l4⟩ := snprintf_ok (m := lineHead (a % 2 ^ 32) bs ++ 0 :: r) (t := List.replicate (3 * (16 - bs.length) + 1) 32 ++ [124, 32] ++ asciiText bs) (i := (lineHead (a % 2 ^ 32) bs).length)
    (size := 100 - (lineHead (a % 2 ^ 32) bs).length) (by simp only [List.length_append, List.length_replicate, List.length_cons, List.length_nil, hasc]; omega) (by omega)
  rw [List.take_left' rfl] at e4 l4
  have e5 : strArg (lineHead (a % 2 ^ 32) bs ++ (List.replicate (3 * (16 - bs.length) + 1) 32 ++ [124, 32] ++ asciiText bs) ++ 0 :: r2) = .ok (lineHead (a % 2 ^ 32) bs ++ (List.replicate (3 * (16 - bs.length) + 1) 32 ++ [124, 32] ++ asciiText bs)) := by
    refine strArg_ok fun c hc => ?_
    simp only [List.mem_append, List.mem_cons, List.not_mem_nil, or_false] at hc
    rcases hc with hc | (hc | hc) | hc
    · exact (lineHead_mem hc).1
    · rw [List.eq_of_mem_replicate hc]; decide
    · rcases hc with rfl | rfl <;> decide
    · exact (asciiText_mem hc).1
  have hA := addr_ok ha
  have e0 : (addrSpec (a % 2 ^ 32) ++ [32, 32, 32] ++ hexText ((bs.drop 0).take 4) ++ [32] ++ hexText ((bs.drop 4).take 4) ++ [32] ++ hexText ((bs.drop 8).take 4) ++ [32] ++ hexText ((bs.drop 12).take 4)) = lineHead (a % 2 ^ 32) bs := rfl
  unfold printLine
  rw [show (lineOf a bs).hex = hexText bs ++ List.replicate (51 - 3 * bs.length) 0 from rfl, show (lineOf a bs).txt = asciiText bs ++ List.replicate (17 - bs.length) 0 from rfl, show (lineOf a bs).addr = a % 2 ^ 32 from rfl]
  have g0' : precStr 12 (hexText bs ++ List.replicate (51 - 3 * bs.length) 0) = .ok (hexText ((bs.drop 0).take 4)) := g0
  have g1' : precStr 12 ((hexText bs ++ List.replicate (51 - 3 * bs.length) 0).drop 12) = .ok (hexText ((bs.drop 4).take 4)) := g1
  have g2' : precStr 12 ((hexText bs ++ List.replicate (51 - 3 * bs.length) 0).drop 24) = .ok (hexText ((bs.drop 8).take 4)) := g2
  have g3' : precStr 12 ((hexText bs ++ List.replicate (51 - 3 * bs.length) 0).drop 36) = .ok (hexText ((bs.drop 12).take 4)) := g3
  rw [g0', g1', g2', g3', hA]
  simp only [Outcome.ok_bind]
  rw [e0, e1, Outcome.ok_bind]
  show printTail ((addrSpec (a % 2 ^ 32)).length + 55) (lineHead (a % 2 ^ 32) bs ++ 0 :: r) (lineHead (a % 2 ^ 32) bs).length (asciiText bs ++ List.replicate (17 - bs.length) 0) = _
  unfold printTail
  rw [e2, e3, hsz]
  simp only [Outcome.ok_bind]
  rw [e4]
  simp only [Outcome.ok_bind]
  rw [e5]
  simp only [Outcome.ok_bind, lineText_eq, List.append_assoc]

theorem report_default {buf : List Byte} (hb : buf.length = 101) (bs : List Byte) : ∀ (ks : List Nat) (o : List Byte), (∀ k ∈ ks, 16 * k % 2 ^ 32 < 2 ^ 32 - 1) →
    report (defaultPrinter buf) (.ok o) (ks.map fun k => lineOf (0 + 16 * k) ((bs.drop (16 * k)).take 16)) = (.ok (o ++ ks.flatMap fun k => lineText (16 * k % 2 ^ 32) ((bs.drop (16 * k)).take 16)), true) := by
  intro ks
  induction ks with
  | nil => intro o _; simp [report]
  | cons k ks ih =>
      intro o hk
      rw [List.map_cons, report, if_neg (by show ¬ (0 : Int) = -1; decide)]
      have e : (defaultPrinter buf (.ok o) (some (lineOf (0 + 16 * k) ((bs.drop (16 * k)).take 16)))).2 = .ok (o ++ lineText (16 * k % 2 ^ 32) ((bs.drop (16 * k)).take 16)) := by
        simp only [defaultPrinter, Outcome.ok_bind]
        rw [Nat.zero_add, printLine_ok hb (hk k (by simp)) (by rw [List.length_take]; omega)]
        rfl
      rw [e, ih _ fun x hx => hk x (by simp [hx])]
      simp [List.append_assoc]

theorem dumped_default {buf : List Byte} (hb : buf.length = 101) (bs o : List Byte) (n : Nat) : dumped (defaultPrinter buf) (.ok o) (linesFrom 0 bs) n = (n % 2 ^ 64, .ok (o ++ dumpText bs)) := by
  have := report_default hb bs (List.range ((bs.length + 15) / 16)) o (fun k _ => by omega)
  unfold dumped linesFrom
  rw [this]
  simp only [if_true, defaultPrinter, Outcome.ok_bind, dumpText, List.append_assoc]

/-! ## Proofs: reading it -/

theorem readBytes_blank (r : List Byte) : readBytes (32 :: r) = readBytes r := by
  cases r with
  | nil => simp [readBytes]
  | cons d r => simp [readBytes]

theorem readBytes_blanks (n : Nat) (r : List Byte) : readBytes (List.replicate n 32 ++ r) = readBytes r := by
  induction n with
  | zero => simp
  | succ n ih => rw [List.replicate_succ, List.cons_append, readBytes_blank, ih]

theorem readBytes_hex (bs r : List Byte) : readBytes (hexText bs ++ r) = bs ++ readBytes r := by
  induction bs with
  | nil => simp [hexText]
  | cons b bs ih =>
      have h1 := hexDigit_ne (hi_lt b)
      have h2 := hexDigit_ne (lo_lt b)
      rw [hexText_cons, List.cons_append, List.cons_append, List.cons_append, readBytes, if_neg h1.2.2.2.1, h1.2.2.2.2, h2.2.2.2.2, readBytes_blank, ih]
      simp only [Option.getD_some, List.cons_append, List.cons.injEq, and_true]
      apply UInt8.toNat_inj.1
      rw [UInt8.toNat_ofNat']
      have := b.toNat_lt
      omega

theorem groups (bs : List Byte) (h : bs.length ≤ 16) : bs.take 4 ++ ((bs.drop 4).take 4 ++ ((bs.drop 8).take 4 ++ (bs.drop 12).take 4)) = bs := by
  rw [List.take_of_length_le (l := bs.drop 12) (by rw [List.length_drop]; omega)]
  rw [show bs.drop 12 = (bs.drop 8).drop 4 by rw [List.drop_drop], List.take_append_drop, show bs.drop 8 = (bs.drop 4).drop 4 by rw [List.drop_drop], List.take_append_drop, List.take_append_drop]

theorem readLine_ok (a : Nat) {bs : List Byte} (h : bs.length ≤ 16) (t : List Byte) : readLine (lineHead a bs ++ List.replicate (3 * (16 - bs.length) + 1) 32 ++ 124 :: t) = (a, bs) := by
  have hd : (lineHead a bs ++ List.replicate (3 * (16 - bs.length) + 1) 32 ++ 124 :: t).takeWhile (fun c => (hexVal c).isSome) = addrSpec a := by
    simp only [lineHead, List.append_assoc]
    rw [List.takeWhile_append_of_pos fun c hc => (addrSpec_mem hc).2.2]
    rw [List.cons_append, List.takeWhile_cons_of_neg (by decide), List.append_nil]
  unfold readLine
  simp only [hd]
  rw [addrSpec_value]
  congr 1
  have hmem : ∀ c ∈ (lineHead a bs ++ List.replicate (3 * (16 - bs.length) + 1) 32).drop (addrSpec a).length, decide (c ≠ 124) = true := by
    intro c hc
    rcases List.mem_append.1 (List.mem_of_mem_drop hc) with hc | hc
    · exact decide_eq_true (lineHead_mem hc).2.1
    · rw [List.eq_of_mem_replicate hc]; decide
  rw [List.drop_append_of_le_length (by rw [List.length_append, lineHead_length a h]; omega), List.takeWhile_append_of_pos hmem, List.takeWhile_cons_of_neg (by decide), List.append_nil]
  have : (lineHead a bs ++ List.replicate (3 * (16 - bs.length) + 1) 32).drop (addrSpec a).length = [32, 32, 32] ++ (hexText (bs.take 4) ++ (32 :: (hexText ((bs.drop 4).take 4) ++ (32 :: (hexText ((bs.drop 8).take 4) ++ (32 :: (hexText ((bs.drop 12).take 4) ++
      (List.replicate (3 * (16 - bs.length) + 1) 32 ++ [])))))))) := by
    simp only [lineHead, List.append_assoc, List.drop_left', List.cons_append, List.nil_append, List.append_nil]
  rw [this]
  simp only [List.cons_append, List.nil_append, readBytes_blank, readBytes_hex, readBytes_blanks]
  rw [show readBytes [] = [] from rfl, List.append_nil]
  exact groups bs h

theorem splitLines_line {l : List Byte} (h : 10 ∉ l) (r : List Byte) : splitLines (l ++ 10 :: r) = l :: splitLines r := by
  induction l with
  | nil => simp [splitLines]
  | cons b l ih =>
      have hb : b ≠ 10 := fun e => h (by simp [e])
      rw [List.cons_append, splitLines, if_neg hb, ih fun hm => h (by simp [hm])]

theorem read_lines (bs : List Byte) : ∀ (ks : List Nat), readDump ((ks.flatMap fun k => lineText (16 * k % 2 ^ 32) ((bs.drop (16 * k)).take 16)) ++ [10]) = ks.map fun k => (16 * k % 2 ^ 32, (bs.drop (16 * k)).take 16) := by
  intro ks
  induction ks with
  | nil => rfl
  | cons k ks ih =>
      have hl : ((bs.drop (16 * k)).take 16).length ≤ 16 := by rw [List.length_take]; omega
      have hno : 10 ∉ lineHead (16 * k % 2 ^ 32) ((bs.drop (16 * k)).take 16) ++ List.replicate (3 * (16 - ((bs.drop (16 * k)).take 16).length) + 1) 32 ++ 124 :: (32 :: asciiText ((bs.drop (16 * k)).take 16)) := by
        intro hm
        simp only [List.mem_append, List.mem_cons] at hm
        rcases hm with (hm | hm) | hm | hm | hm
        · exact (lineHead_mem hm).2.2 rfl
        · exact absurd (List.eq_of_mem_replicate hm) (by decide)
        · exact absurd hm (by decide)
        · exact absurd hm (by decide)
        · exact (asciiText_mem hm).2 rfl
      have e : ((k :: ks).flatMap fun k => lineText (16 * k % 2 ^ 32) ((bs.drop (16 * k)).take 16)) ++ [10] =
          (lineHead (16 * k % 2 ^ 32) ((bs.drop (16 * k)).take 16) ++ List.replicate (3 * (16 - ((bs.drop (16 * k)).take 16).length) + 1) 32 ++ 124 :: (32 :: asciiText ((bs.drop (16 * k)).take 16))) ++
            10 :: ((ks.flatMap fun k => lineText (16 * k % 2 ^ 32) ((bs.drop (16 * k)).take 16)) ++ [10]) := by
        rw [List.flatMap_cons, lineText_eq]
        simp only [List.append_assoc, List.cons_append, List.nil_append]
      unfold readDump at ih ⊢
      rw [e, splitLines_line hno, List.filterMap_cons, if_neg (by simp), readLine_ok _ hl, ih, List.map_cons]

/-! ## C110 -/

/-- **C110** (partial): zt_hexdump without an output function prints `dumpText` of the data, whatever the buffer of the printer contains, and returns the number of bytes. Missing for the full claim: data that leaves 15 bytes for the last line
(`c110_tail_violation`). -/
theorem c110_dump_partial {σ : Type} (txt hex buf : List Byte) (hb : buf.length = 101) {get : σ → Int × σ} {s : σ} {bs : List Byte} (h : Delivers get s bs) (h15 : bs.length % 16 ≠ 15) (o : List Byte) :
    Runs (hexdump txt hex get s (defaultPrinter buf) (.ok o)) (bs.length % 2 ^ 64, .ok (o ++ dumpText bs)) := by
  have := c50_dump_partial txt hex h h15 (defaultPrinter buf) (.ok o)
  rwa [dumped_default hb] at this

/-- Violation: 15 remaining bytes are counted but not printed. -/
theorem c110_tail_violation {σ : Type} (txt hex buf : List Byte) (hb : buf.length = 101) {get : σ → Int × σ} {s : σ} {bs : List Byte} (h : Delivers get s bs) (h15 : bs.length % 16 = 15) (o : List Byte) :
    Runs (hexdump txt hex get s (defaultPrinter buf) (.ok o)) (bs.length % 2 ^ 64, .ok (o ++ dumpText (bs.take (bs.length - 15)))) := by
  have := c50_tail_violation txt hex h h15 (defaultPrinter buf) (.ok o)
  rwa [dumped_default hb] at this

/-- **C110** (partial): the same for zt_hexdump_str, for ASCII data (above 127: `c50_str_violation`). -/
theorem c110_str_partial (txt hex buf data : List Byte) (hb : buf.length = 101) (h : ∀ b ∈ data, b.toNat < 128) (h15 : data.length % 16 ≠ 15) (o : List Byte) :
    Runs (hexdumpStr txt hex data (defaultPrinter buf) (.ok o)) (data.length % 2 ^ 64, .ok (o ++ dumpText data)) :=
  c110_dump_partial txt hex buf hb (delivers_str data h) h15 o

/-- **C110** (the dump can be read back): reading a printed dump gives the data, 16 bytes to a line, each line with its position. -/
theorem c110_read (bs : List Byte) (h : bs.length ≤ 2 ^ 32) : readDump (dumpText bs) = (List.range ((bs.length + 15) / 16)).map (fun k => (16 * k, (bs.drop (16 * k)).take 16)) ∧ ((readDump (dumpText bs)).flatMap (·.2)) = bs := by
  have e := read_lines bs (List.range ((bs.length + 15) / 16))
  have e2 : readDump (dumpText bs) = (List.range ((bs.length + 15) / 16)).map (fun k => (16 * k, (bs.drop (16 * k)).take 16)) := by
    unfold dumpText
    rw [e]
    refine List.map_congr_left fun k hk => ?_
    rw [List.mem_range] at hk
    rw [Nat.mod_eq_of_lt (by omega)]
  refine ⟨e2, ?_⟩
  rw [e2, List.flatMap_map]
  exact c50_lines_complete bs

/-- **C110** (columns): in every line the text begins in the same column, 61 for positions below 65535 and 65 from there on. -/
theorem c110_columns (a : Nat) (ha : a < 2 ^ 32) {bs : List Byte} (h : bs.length ≤ 16) : ∃ pre, lineText a bs = pre ++ asciiText bs ++ [10] ∧ pre.length = if a < 65535 then 61 else 65 := by
  refine ⟨lineHead a bs ++ List.replicate (3 * (16 - bs.length) + 1) 32 ++ [124, 32], rfl, ?_⟩
  have := addrSpec_length ha
  simp only [List.length_append, lineHead_length a h, List.length_replicate, List.length_cons, List.length_nil]
  split at this <;> rw [this] <;> simp [*] <;> omega

theorem upper_case {n : Nat} {c : Byte} (h : c ∈ (digits 16 n).map upperDigit) : (48 ≤ c ∧ c ≤ 57) ∨ (65 ≤ c ∧ c ≤ 70) := by
  have h16 : ∀ d < 16, (48 ≤ upperDigit (byte d.digitChar) ∧ upperDigit (byte d.digitChar) ≤ 57) ∨ (65 ≤ upperDigit (byte d.digitChar) ∧ upperDigit (byte d.digitChar) ≤ 70) := by decide
  induction n using Nat.strongRecOn with
  | _ n ih =>
      by_cases hn : n < 16
      · rw [digits_lt hn] at h
        simp only [List.map_cons, List.map_nil, List.mem_singleton] at h
        rw [h]
        exact h16 n hn
      · rw [digits_ge (by decide) (by omega)] at h
        simp only [List.map_append, List.map_cons, List.map_nil, List.mem_append, List.mem_singleton] at h
        rcases h with h | h
        · exact ih (n / 16) (by omega) h
        · rw [h]
          exact h16 _ (by omega)

/-- **C110** (address): a line begins with the position, in 4 or 8 digits 0-9, A-F, and three blanks. -/
theorem c110_address (a : Nat) (ha : a < 2 ^ 32) (bs : List Byte) : ∃ d rest, lineText a bs = d ++ 32 :: 32 :: 32 :: rest ∧ d.length = (if a < 65535 then 4 else 8) ∧ (∀ c ∈ d, (48 ≤ c ∧ c ≤ 57) ∨ (65 ≤ c ∧ c ≤ 70)) ∧
    d.foldl (fun n c => 16 * n + (hexVal c).getD 0) 0 = a := by
  have key : ∀ w, ∀ c ∈ hexX w a, (48 ≤ c ∧ c ≤ 57) ∨ (65 ≤ c ∧ c ≤ 70) := by
    intro w c hc
    rw [hexX, List.mem_append] at hc
    rcases hc with hc | hc
    · rw [List.eq_of_mem_replicate hc]; decide
    · exact upper_case hc
  refine ⟨addrSpec a, hexText (bs.take 4) ++ ([32] ++ (hexText ((bs.drop 4).take 4) ++ ([32] ++ (hexText ((bs.drop 8).take 4) ++ ([32] ++ (hexText ((bs.drop 12).take 4) ++
    (List.replicate (3 * (16 - bs.length) + 1) 32 ++ ([124, 32] ++ (asciiText bs ++ [10]))))))))), ?_, addrSpec_length ha, ?_, addrSpec_value a⟩
  · simp only [lineText, List.append_assoc, List.cons_append, List.nil_append]
  · intro c hc
    unfold addrSpec at hc
    split at hc <;> exact key _ c hc

/-- Five bytes at the start: `0000   48 69 0a ff  7a ...`. -/
example : lineText 0 [72, 105, 10, 255, 122] = "0000   48 69 0a ff  7a                                     | Hi..z\n".toUTF8.toList := by decide +kernel
example : readLine ("0000   48 69 0a ff  7a                                     | Hi..z".toUTF8.toList) = (0, [72, 105, 10, 255, 122]) := by decide +kernel

end ZT.Cstr
