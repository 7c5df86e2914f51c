import Verif.Common

/-!
# Numerals

The canonical numeral of a number is the one of Lean's own library (`Nat.toDigits`), as ASCII bytes.
-/

namespace ZT.Num

/-- The byte of an ASCII character. -/
def byte (c : Char) : Byte := UInt8.ofNat c.toNat

/-- The numeral of `n` in base `b` (lower-case digits). -/
def digits (b n : Nat) : List Byte := (Nat.toDigits b n).map byte

/-- The decimal text of an integer. -/
def signed (v : Int) : List Byte := (if v < 0 then [byte '-'] else []) ++ digits 10 v.natAbs

theorem digits_lt {b n : Nat} (h : n < b) : digits b n = [byte n.digitChar] := by simp [digits, Nat.toDigits_of_lt_base h]

theorem digits_ge {b n : Nat} (hb : 1 < b) (h : b ≤ n) : digits b n = digits b (n / b) ++ [byte (n % b).digitChar] := by simp [digits, Nat.toDigits_of_base_le hb h]

theorem byte_digit {d : Nat} (h : d < 10) : byte d.digitChar = UInt8.ofNat (48 + d) := by rw [byte, Nat.toNat_digitChar_of_lt_ten h]

theorem byte_hex {d : Nat} (h : d < 16) : byte d.digitChar = UInt8.ofNat (if d < 10 then 48 + d else 87 + d) := by
  have key : ∀ d : Fin 16, byte d.val.digitChar = UInt8.ofNat (if d.val < 10 then 48 + d.val else 87 + d.val) := by decide
  exact key ⟨d, h⟩

theorem digits_ne_nil (b n : Nat) : digits b n ≠ [] := by simp [digits]

theorem digits_length_le {b n k : Nat} (hb : 1 < b) (hk : 0 < k) : (digits b n).length ≤ k ↔ n < b ^ k := by
  rw [digits, List.length_map]; exact Nat.length_toDigits_le_iff hb hk

/-- Reading the numeral gives the number back (bases up to ten). -/
theorem value_digits {b n : Nat} (hb : 1 < b) (h10 : b ≤ 10) : (digits b n).foldl (fun a c => b * a + (c.toNat - 48)) 0 = n := by
  have h := Nat.ofDigitChars_toDigits (n := n) hb h10
  rw [Nat.ofDigitChars_eq_foldl] at h
  have hd : ∀ c ∈ Nat.toDigits b n, (byte c).toNat = c.toNat := by
    intro c hc
    have := Nat.isDigit_of_mem_toDigits (by omega) h10 hc
    simp only [Char.isDigit, Bool.and_eq_true, decide_eq_true_eq] at this
    have h2 : c.toNat ≤ 57 := this.2
    simp only [byte, UInt8.toNat_ofNat']
    omega
  have key : ∀ (l : List Char) (a : Nat), (∀ c ∈ l, (byte c).toNat = c.toNat) → (l.map byte).foldl (fun a c => b * a + (c.toNat - 48)) a = l.foldl (fun s c => b * s + (c.toNat - '0'.toNat)) a := by
    intro l
    induction l with
    | nil => intro a _; rfl
    | cons c l ih =>
        intro a hl
        simp only [List.map_cons, List.foldl_cons, hl c (by simp)]
        exact ih _ fun x hx => hl x (by simp [hx])
  exact (key _ 0 hd).trans h

end ZT.Num
