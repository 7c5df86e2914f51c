import Verif.Ipv4.Model
import Verif.Base.Lemmas

/-! # Arithmetic of networks -/

namespace ZT.Ipv4

/-- A network: an address and a prefix length. -/
structure Net where
  ip : Nat
  len : Nat
  deriving Repr, DecidableEq

/-- A network of 32-bit addresses. -/
def Net.Valid (n : Net) : Prop := n.ip < 2 ^ 32 ∧ n.len ≤ 32

instance (n : Net) : Decidable n.Valid := by unfold Net.Valid; infer_instance

namespace Spec

/-- `x` has the same first `len` bits as the network's address. -/
def Covers (n : Net) (x : Nat) : Prop := x / 2 ^ (32 - n.len) = n.ip / 2 ^ (32 - n.len)

/-- The network `m` (an address if `m.len = 32`) is part of the network `n`. -/
def Contains (n m : Net) : Prop := n.len ≤ m.len ∧ Covers n m.ip

instance (n m : Net) : Decidable (Contains n m) := by unfold Contains Covers; infer_instance

/-- First address of a network. -/
def first (n : Net) : Nat := n.ip / 2 ^ (32 - n.len) * 2 ^ (32 - n.len)

/-- Last address of a network. -/
def last (n : Net) : Nat := first n + (2 ^ (32 - n.len) - 1)

end Spec

/-- The record of a network. -/
def addrOf (n : Net) : Addr := ⟨n.len, Spec.first n, 2 ^ 32 - 2 ^ (32 - n.len), Spec.last n⟩

theorem netmask_eq : ∀ b, b < 33 → netmaskTbl[b]? = some (2 ^ 32 - 2 ^ (32 - b)) := by decide +kernel

theorem and_mask (x k : Nat) (hx : x < 2 ^ 32) (hk : k ≤ 32) : x &&& (2 ^ 32 - 2 ^ k) = x / 2 ^ k * 2 ^ k := by
  have hm : 2 ^ 32 - 2 ^ k = (2 ^ (32 - k) - 1) <<< k := by
    rw [Nat.shiftLeft_eq, Nat.sub_mul, ← Nat.pow_add, Nat.one_mul, show 32 - k + k = 32 by omega]
  rw [hm, ← Nat.shiftLeft_eq, ← Nat.shiftRight_eq_div_pow]
  apply Nat.eq_of_testBit_eq
  intro i
  simp only [Nat.testBit_and, Nat.testBit_shiftLeft, Nat.testBit_two_pow_sub_one, Nat.testBit_shiftRight]
  by_cases h1 : k ≤ i
  · have e : k + (i - k) = i := by omega
    rw [e]
    by_cases h2 : i < 32
    · have : i - k < 32 - k := by omega
      simp [h1, this]
    · have : x.testBit i = false := Nat.testBit_lt_two_pow (Nat.lt_of_lt_of_le hx (Nat.pow_le_pow_right (by omega) (by omega)))
      simp [this]
  · have : ¬ i ≥ k := h1
    simp [this]

theorem mkAddr_eq {n : Net} (v : n.Valid) : mkAddr n.ip n.len = .ok (addrOf n) := by
  obtain ⟨h1, h2⟩ := v
  have h3 : rd netmaskTbl n.len = .ok (2 ^ 32 - 2 ^ (32 - n.len)) := rd_eq_ok.2 (netmask_eq _ (by omega))
  rw [mkAddr, if_neg (by omega), Int.toNat_natCast, h3]
  simp only [Outcome.ok_bind, Outcome.pure_eq, addrOf]
  rw [and_mask _ _ h1 (by omega)]
  have hp : 2 ^ (32 - n.len) ≤ 2 ^ 32 := Nat.pow_le_pow_right (by omega) (by omega)
  have hp0 : 0 < 2 ^ (32 - n.len) := Nat.two_pow_pos _
  have h4 : 0xFFFFFFFF &&& (2 ^ 32 - 1 - (2 ^ 32 - 2 ^ (32 - n.len))) = 2 ^ (32 - n.len) - 1 := by
    rw [Nat.and_comm, show (0xFFFFFFFF : Nat) = 2 ^ 32 - 1 by decide, Nat.and_two_pow_sub_one_eq_mod, Nat.mod_eq_of_lt (by omega)]
    omega
  rw [h4, ZT.Base.or_add _ _ _ (by omega)]
  rfl

theorem div_iff {x d q : Nat} (hd : 0 < d) : x / d = q ↔ q * d ≤ x ∧ x < q * d + d := by
  constructor
  · rintro rfl
    refine ⟨Nat.div_mul_le_self x d, ?_⟩
    have := Nat.mod_lt x hd
    have := Nat.div_add_mod x d
    rw [Nat.mul_comm] at this
    omega
  · rintro ⟨h1, h2⟩
    apply Nat.div_eq_of_lt_le h1
    rw [Nat.add_mul, Nat.one_mul]; exact h2

theorem first_le (n : Net) : Spec.first n ≤ n.ip ∧ n.ip < Spec.first n + 2 ^ (32 - n.len) := (div_iff (Nat.two_pow_pos _)).1 rfl

/-- The addresses that share the prefix are those between first and last. -/
theorem covers_iff (n : Net) (x : Nat) : Spec.Covers n x ↔ Spec.first n ≤ x ∧ x ≤ Spec.last n := by
  have hp : 0 < 2 ^ (32 - n.len) := Nat.two_pow_pos _
  rw [Spec.Covers, div_iff hp, Spec.last]
  simp only [Spec.first]; omega

theorem pow_split {j k : Nat} (h : j ≤ k) : 2 ^ k = 2 ^ (k - j) * 2 ^ j := by rw [← Nat.pow_add]; congr 1; omega

theorem addrCmp_iff (a b : Addr) : addrCmp a b = true ↔ a.addr ≤ b.addr ∧ b.broadcast ≤ a.broadcast := by simp [addrCmp]

theorem cmp_iff (n m : Net) (hn : n.len ≤ 32) (hm : m.len ≤ 32) : addrCmp (addrOf n) (addrOf m) = true ↔ Spec.Contains n m := by
  rw [addrCmp_iff, Spec.Contains, covers_iff]
  simp only [addrOf]
  have hN : 0 < 2 ^ (32 - n.len) := Nat.two_pow_pos _
  have hM : 0 < 2 ^ (32 - m.len) := Nat.two_pow_pos _
  have hf := first_le m
  have hlt : m.len < n.len → 2 ^ (32 - n.len) < 2 ^ (32 - m.len) := fun h => Nat.pow_lt_pow_right (by omega) (by omega)
  simp only [Spec.last]
  constructor
  · rintro ⟨h1, h2⟩
    generalize 2 ^ (32 - n.len) = N at *
    generalize 2 ^ (32 - m.len) = M at *
    refine ⟨?_, by omega, by omega⟩
    apply Classical.byContradiction
    intro h
    have := hlt (by omega)
    omega
  · rintro ⟨h1, h2, h3⟩
    -- the first address of `m` is a multiple of the smaller block size, and so are the bounds of `n`
    have hs := pow_split (show 32 - m.len ≤ 32 - n.len by omega)
    generalize hc : (32 - n.len) - (32 - m.len) = c at hs
    have hA : Spec.first n = n.ip / 2 ^ (32 - n.len) * 2 ^ c * 2 ^ (32 - m.len) := by rw [Spec.first, Nat.mul_assoc, ← hs]
    have e1 : n.ip / 2 ^ (32 - n.len) * 2 ^ c ≤ m.ip / 2 ^ (32 - m.len) := by
      rw [Nat.le_div_iff_mul_le hM, ← hA]; exact h2
    have e2 : m.ip / 2 ^ (32 - m.len) < n.ip / 2 ^ (32 - n.len) * 2 ^ c + 2 ^ c := by
      rw [Nat.div_lt_iff_lt_mul hM, Nat.add_mul, ← hA, ← hs]
      generalize 2 ^ (32 - n.len) = N at *
      omega
    have e3 := Nat.mul_le_mul_right (2 ^ (32 - m.len)) e1
    have e4 := Nat.mul_le_mul_right (2 ^ (32 - m.len)) (Nat.succ_le_of_lt e2)
    rw [← hA] at e3
    rw [Nat.succ_eq_add_one, Nat.add_mul, Nat.add_mul, ← hA, ← hs] at e4
    have hfm : m.ip / 2 ^ (32 - m.len) * 2 ^ (32 - m.len) = Spec.first m := rfl
    rw [hfm] at e3 e4
    clear hA e1 e2 hs hfm
    generalize 2 ^ (32 - n.len) = N at *
    generalize 2 ^ (32 - m.len) = M at *
    omega

/-- If `n` contains `m`, masking the first address of `m` with the mask of `n` gives the first address of `n`. -/
theorem mask_of_contains {n m : Net} (vn : n.Valid) (vm : m.Valid) (h : Spec.Contains n m) : (addrOf m).addr &&& (2 ^ 32 - 2 ^ (32 - n.len)) = (addrOf n).addr := by
  have hc := (cmp_iff n m vn.2 vm.2).2 h
  rw [addrCmp_iff] at hc
  simp only [addrOf, Spec.last] at hc ⊢
  have hN : 0 < 2 ^ (32 - n.len) := Nat.two_pow_pos _
  have hM : 0 < 2 ^ (32 - m.len) := Nat.two_pow_pos _
  have hf := first_le m
  rw [and_mask _ _ (by have := vm.1; omega) (by omega)]
  have : Spec.first m / 2 ^ (32 - n.len) = n.ip / 2 ^ (32 - n.len) := by
    rw [div_iff hN]
    have hfn : n.ip / 2 ^ (32 - n.len) * 2 ^ (32 - n.len) = Spec.first n := rfl
    rw [hfn]
    generalize 2 ^ (32 - n.len) = N at *
    generalize 2 ^ (32 - m.len) = M at *
    omega
  rw [this]; rfl

end ZT.Ipv4
