import Verif.Hash.Model

/-!
# Property theorems for zt_hash (C11)
-/

namespace ZT.Hash

theorem buffLoop_prefix {w : Nat} (p : BitVec w) (a rest : List Byte) (h : BitVec w) :
    buffLoop p a.length (a ++ rest) h = .ok (a.foldl (step p) h) := by
  induction a generalizing h with
  | nil => simp [buffLoop]
  | cons x xs ih => simpa [buffLoop] using ih _

theorem buff_eq {w : Nat} (i p : BitVec w) (a rest : List Byte) (s : BitVec w) :
    buff i p (a ++ rest) a.length s = .ok (a.foldl (step p) (if s = 0 then i else s)) := by
  simp [buff, buffLoop_prefix]

/-- The hash of an in-bounds buffer is always defined and does not depend on what follows it in memory. -/
theorem buff_local {w : Nat} (i p : BitVec w) (a rest : List Byte) (s : BitVec w) :
    buff i p (a ++ rest) a.length s = buff i p a a.length s := by
  have := buff_eq i p a [] s
  rw [List.append_nil] at this
  rw [buff_eq, this]

theorem hash_chain_gen {w : Nat} (i p : BitVec w) (a b : List Byte) (s h : BitVec w)
    (h1 : buff i p a a.length s = .ok h) (hne : h ≠ 0) :
    buff i p b b.length h = buff i p (a ++ b) (a ++ b).length s := by
  have e1 := buff_eq i p a [] s
  have e2 := buff_eq i p b [] h
  have e3 := buff_eq i p (a ++ b) [] s
  simp only [List.append_nil] at e1 e2 e3
  rw [e1] at h1; cases h1
  rw [e2, e3, if_neg hne, List.foldl_append]

/-- **C11 (part)** chaining law of the 32-bit hash: hashing `b` seeded with the hash of `a` is hashing `a ++ b`,
provided the intermediate hash is not 0. Missing: the case of an intermediate hash 0, where the law is false
(`hash32_chain_fails`). -/
theorem hash32_chain_partial (a b : List Byte) (s h : BitVec 32)
    (h1 : hash32Buff a a.length s = .ok h) (hne : h ≠ 0) :
    hash32Buff b b.length h = hash32Buff (a ++ b) (a ++ b).length s := hash_chain_gen _ _ a b s h h1 hne

/-- **C11 (part)** the same for the 64-bit hash. -/
theorem hash64_chain_partial (a b : List Byte) (s h : BitVec 64)
    (h1 : hash64Buff a a.length s = .ok h) (hne : h ≠ 0) :
    hash64Buff b b.length h = hash64Buff (a ++ b) (a ++ b).length s := hash_chain_gen _ _ a b s h h1 hne

example : ∃ h, hash32Buff [104, 105] 2 0 = .ok h ∧ h ≠ 0 ∧ hash32Buff [33] 1 h = hash32Buff [104, 105, 33] 3 0 := by
  refine ⟨_, rfl, ?_, ?_⟩ <;> decide

/-- Violation of C11: after the four bytes `cc 24 31 c4` the 32-bit hash is 0, the next call takes that for
"no seed" and restarts. -/
theorem hash32_chain_fails :
    hash32Buff [0xcc, 0x24, 0x31, 0xc4] 4 0 = .ok 0 ∧
    hash32Buff [1] 1 0 ≠ hash32Buff [0xcc, 0x24, 0x31, 0xc4, 1] 5 0 := by decide

theorem hash64_chain_fails :
    hash64Buff [0xd5, 0x6b, 0xb9, 0x53, 0x42, 0x87, 0x08, 0x36] 8 0 = .ok 0 ∧
    hash64Buff [1] 1 0 ≠ hash64Buff [0xd5, 0x6b, 0xb9, 0x53, 0x42, 0x87, 0x08, 0x36, 1] 9 0 := by decide

/-- Any number of pieces: the seed is threaded through all of them. -/
def chain32 : List (List Byte) → BitVec 32 → Outcome (BitVec 32)
  | [], s => .ok s
  | c :: cs, s => do
      let h ← hash32Buff c c.length s
      chain32 cs h

/-- **C11 (part)** any split into pieces, as long as no proper intermediate hash is 0. -/
theorem hash32_chain_many_partial (cs : List (List Byte)) (c : List Byte) (s : BitVec 32)
    (hne : ∀ k, hash32Buff ((c :: cs).take (k + 1)).flatten ((c :: cs).take (k + 1)).flatten.length s ≠ .ok 0) :
    chain32 (c :: cs) s = hash32Buff (c :: cs).flatten (c :: cs).flatten.length s := by
  induction cs generalizing c with
  | nil =>
      have e := buff_eq INIT32 PRIME32 c [] s
      simp only [List.append_nil] at e
      simp [chain32, hash32Buff, e]
  | cons d ds ih =>
      have e := buff_eq INIT32 PRIME32 c [] s
      simp only [List.append_nil] at e
      have h0 := hne 0
      simp only [Nat.zero_add, List.take_succ_cons, List.take_zero, List.flatten_cons, List.flatten_nil,
        List.append_nil] at h0
      have hnz : List.foldl (step PRIME32) (if s = 0 then INIT32 else s) c ≠ 0 := by
        intro hz; apply h0; rw [hash32Buff, e, hz]
      have hd := hash32_chain_partial c d s _ e hnz
      have ih' := ih (c ++ d) (by
        intro k
        have := hne (k + 1)
        simpa [List.take_succ_cons] using this)
      rw [chain32] at ih' ⊢
      simp only [hash32Buff] at *
      rw [e, Outcome.ok_bind, chain32]
      simp only [hash32Buff]
      rw [hd, ih']
      simp

theorem cstrLoop_eq {w : Nat} (p : BitVec w) (a rest : List Byte) (h : BitVec w) (hz : ∀ b ∈ a, b ≠ 0) :
    cstrLoop p (a ++ 0 :: rest) h = .ok (a.foldl (step p) h) := by
  induction a generalizing h with
  | nil => simp [cstrLoop]
  | cons x xs ih =>
      have : x ≠ 0 := hz x (by simp)
      simp [cstrLoop, this, ih _ (fun b hb => hz b (by simp [hb]))]

/-- **C11** the string variant equals the buffer variant on the bytes before the terminating NUL. -/
theorem hash32_cstr_eq_buff (a rest : List Byte) (s : BitVec 32) (hz : ∀ b ∈ a, b ≠ 0) :
    hash32Cstr (a ++ 0 :: rest) s = hash32Buff a a.length s := by
  have e := buff_eq INIT32 PRIME32 a [] s
  simp only [List.append_nil] at e
  rw [hash32Cstr, cstr, cstrLoop_eq _ _ _ _ hz, hash32Buff, e]

theorem hash64_cstr_eq_buff (a rest : List Byte) (s : BitVec 64) (hz : ∀ b ∈ a, b ≠ 0) :
    hash64Cstr (a ++ 0 :: rest) s = hash64Buff a a.length s := by
  have e := buff_eq INIT64 PRIME64 a [] s
  simp only [List.append_nil] at e
  rw [hash64Cstr, cstr, cstrLoop_eq _ _ _ _ hz, hash64Buff, e]

example : ∀ b ∈ ([104, 105] : List Byte), b ≠ 0 := by decide

/-- FNV-1a as published (isthe.com/chongo/tech/comp/fnv): start from the offset basis; for each octet, xor it in
and multiply by the prime modulo 2^w. Natural-number arithmetic, independent of the model. -/
def fnv1a (w basis prime : Nat) (data : List Byte) : Nat :=
  data.foldl (fun h b => (h ^^^ b.toNat) * prime % 2 ^ w) basis

theorem step_toNat {w : Nat} (hw : 8 ≤ w) (p h : BitVec w) (b : Byte) :
    (step p h b).toNat = (h.toNat ^^^ b.toNat) * p.toNat % 2 ^ w := by
  have hb : b.toNat < 2 ^ w := Nat.lt_of_lt_of_le b.toNat_lt (Nat.pow_le_pow_right (by decide) hw)
  simp [step, BitVec.toNat_mul, Nat.mod_eq_of_lt hb]

theorem fold_toNat {w : Nat} (hw : 8 ≤ w) (p h : BitVec w) (a : List Byte) :
    (a.foldl (step p) h).toNat = fnv1a w h.toNat p.toNat a := by
  induction a generalizing h with
  | nil => rfl
  | cons x xs ih => simp only [List.foldl_cons, ih, fnv1a, step_toNat hw]

/-- **C52** the unseeded hashes are FNV-1a with the published offset basis and prime. -/
theorem hash32_is_fnv1a (a : List Byte) :
    ∃ h, hash32Buff a a.length 0 = .ok h ∧ h.toNat = fnv1a 32 2166136261 16777619 a := by
  have e := buff_eq INIT32 PRIME32 a [] 0
  simp only [List.append_nil] at e
  exact ⟨_, e, by rw [fold_toNat (by decide)]; rfl⟩

theorem hash64_is_fnv1a (a : List Byte) :
    ∃ h, hash64Buff a a.length 0 = .ok h ∧ h.toNat = fnv1a 64 14695981039346656037 1099511628211 a := by
  have e := buff_eq INIT64 PRIME64 a [] 0
  simp only [List.append_nil] at e
  exact ⟨_, e, by rw [fold_toNat (by decide)]; rfl⟩

/-- **C52** folding to `x` bits (`x <= 32`) always lands in `[0, 2^x)`. -/
theorem sub32Mask_lt (h : BitVec 32) (x : Nat) (hx : x ≤ 32) : (sub32Mask h x).toNat < 2 ^ x := by
  have hmask : ∀ y < 32, (mask y).toNat = 2 ^ y - 1 := by decide
  unfold sub32Mask
  by_cases h32 : x < 32
  · rw [if_pos h32]
    have hp : 0 < 2 ^ x := Nat.two_pow_pos x
    split
    · have := hmask x h32
      rw [BitVec.toNat_and, this, Nat.and_two_pow_sub_one_eq_mod]
      exact Nat.mod_lt _ hp
    · rw [BitVec.toNat_xor, BitVec.toNat_and, hmask x h32, Nat.and_two_pow_sub_one_eq_mod]
      apply Nat.xor_lt_two_pow
      · rw [BitVec.toNat_ushiftRight, Nat.shiftRight_eq_div_pow]
        have hh := h.isLt
        rw [Nat.div_lt_iff_lt_mul hp]
        have : 2 ^ 32 ≤ 2 ^ x * 2 ^ x := by
          rw [← Nat.pow_add]; exact Nat.pow_le_pow_right (by decide) (by omega)
        omega
      · exact Nat.mod_lt _ hp
  · rw [if_neg h32]
    have : x = 32 := by omega
    subst this
    exact h.isLt

/-- The four fixed-size macros agree with the general one. -/
theorem fixed_masks (h : BitVec 32) :
    mask24 h = sub32Mask h 24 ∧ mask16 h = sub32Mask h 16 ∧ mask8 h = sub32Mask h 8 ∧ mask4 h = sub32Mask h 4 :=
  ⟨rfl, rfl, rfl, rfl⟩

end ZT.Hash
