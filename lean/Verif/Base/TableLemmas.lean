import Verif.Base.Lemmas

/-! # The dictionaries invert the alphabets (whole tables, checked by the kernel) -/

namespace ZT.Base

open Spec

/-- The dictionary entry a character must have: its digit value, -2 if it is skipped, -1 if it is foreign. -/
def dictVal (k : Kind) (c : Byte) : Int :=
  match digitOf k c with
  | some i => (i : Int)
  | none => if ignorable c then -2 else -1

/-- Dictionary and alphabet agree: all 6 * 256 entries. -/
theorem dict_table : ∀ k : Kind, ∀ n : Fin 256,
    k.toDef.dictionary[n.val]? = some (dictVal k (UInt8.ofNat n.val)) := by
  intro k
  simp only [dictVal, digitOf, ← alphabet_eq]
  cases k <;> decide +kernel

end ZT.Base
