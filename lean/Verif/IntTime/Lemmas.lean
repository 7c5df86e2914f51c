import Verif.IntTime.Model

namespace ZT.IntOps
open CInt

theorem sameSign_eq (u v : Int) (hu : InS 64 u) (hv : InS 64 v) :
    sameSign u v = decide ((u < 0) ↔ (v < 0)) := by
  have key : ∀ x : Int, InS 64 x → (BitVec.ofInt 64 x).msb = decide (x < 0) := by
    intro x hx
    rw [BitVec.msb_eq_toInt, BitVec.toInt_ofInt]
    congr 2
    simp only [InS, smin, smax] at hx
    apply Int.bmod_eq_of_le <;> simp at hx ⊢ <;> omega
  simp only [sameSign]
  have : decide ((BitVec.ofInt 64 u ^^^ BitVec.ofInt 64 v).toInt < 0)
      = (BitVec.ofInt 64 u ^^^ BitVec.ofInt 64 v).msb := by rw [BitVec.msb_eq_toInt]
  rw [this, BitVec.msb_xor, key u hu, key v hv]
  by_cases h1 : u < 0 <;> by_cases h2 : v < 0 <;> simp [h1, h2]

theorem toS_of_in (w : Nat) (hw : Width w) (x : Int) (h : InS w x) : toS w x = x := by
  simp only [InS, smin, smax] at h
  unfold toS
  rcases hw with rfl | rfl | rfl | rfl <;> (apply Int.bmod_eq_of_le <;> simp at h ⊢ <;> omega)

theorem InS_mono (w : Nat) (hw : Width w) (x : Int) (h : InS w x) : InS (promote w) x ∧ InS 64 x := by
  simp only [InS, smin, smax] at *
  rcases hw with rfl | rfl | rfl | rfl <;> simp [promote] at * <;> omega

end ZT.IntOps
