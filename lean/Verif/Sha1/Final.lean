import Verif.Sha1.Update

namespace ZT.Sha1

theorem byteAt (w : Word) (s : Nat) : ((w >>> s) &&& 255#32).toNat = w.toNat / 2 ^ s % 256 := by
  rw [BitVec.toNat_and, BitVec.toNat_ushiftRight, Nat.shiftRight_eq_div_pow]
  exact Nat.and_two_pow_sub_one_eq_mod _ 8

theorem digest_out (st : St) : digestOf st = Spec.out st := by
  have h1 : digestOf st = [st.s0, st.s1, st.s2, st.s3, st.s4].flatMap fun (w : Word) =>
      [UInt8.ofNat ((w >>> 24) &&& 255#32).toNat, UInt8.ofNat ((w >>> 16) &&& 255#32).toNat,
       UInt8.ofNat ((w >>> 8) &&& 255#32).toNat, UInt8.ofNat ((w >>> 0) &&& 255#32).toNat] := rfl
  rw [h1]
  simp only [byteAt]
  rfl

theorem finalcount_be (ctx : Ctx) (m : List Byte) (R : Rep ctx m) : finalcount ctx = Spec.be 8 (8 * m.length) := by
  have h1 : finalcount ctx =
      [UInt8.ofNat ((ctx.count1 >>> 24) &&& 255#32).toNat, UInt8.ofNat ((ctx.count1 >>> 16) &&& 255#32).toNat,
       UInt8.ofNat ((ctx.count1 >>> 8) &&& 255#32).toNat, UInt8.ofNat ((ctx.count1 >>> 0) &&& 255#32).toNat,
       UInt8.ofNat ((ctx.count0 >>> 24) &&& 255#32).toNat, UInt8.ofNat ((ctx.count0 >>> 16) &&& 255#32).toNat,
       UInt8.ofNat ((ctx.count0 >>> 8) &&& 255#32).toNat, UInt8.ofNat ((ctx.count0 >>> 0) &&& 255#32).toNat] := rfl
  have h2 : ∀ n, Spec.be 8 n =
      [UInt8.ofNat (n / 256 ^ 7 % 256), UInt8.ofNat (n / 256 ^ 6 % 256), UInt8.ofNat (n / 256 ^ 5 % 256),
       UInt8.ofNat (n / 256 ^ 4 % 256), UInt8.ofNat (n / 256 ^ 3 % 256), UInt8.ofNat (n / 256 ^ 2 % 256),
       UInt8.ofNat (n / 256 ^ 1 % 256), UInt8.ofNat (n / 256 ^ 0 % 256)] := fun _ => rfl
  rw [h1, h2]
  simp only [byteAt, R.c0, R.c1]
  generalize 8 * m.length = n
  congr 1
  · congr 1; omega
  congr 1
  · congr 1; omega
  congr 1
  · congr 1; omega
  congr 1
  · congr 1; omega
  congr 1
  · congr 1; omega
  congr 1
  · congr 1; omega
  congr 1
  · congr 1; omega
  congr 1
  congr 1; omega

theorem and504 (n : Nat) : n &&& 504 = (n / 8 % 64) * 8 := by
  apply Nat.eq_of_testBit_eq
  intro i
  rw [Nat.testBit_and]
  have e : n / 8 % 64 * 8 = (n >>> 3 % 2 ^ 6) <<< 3 := by
    rw [Nat.shiftLeft_eq, Nat.shiftRight_eq_div_pow]
  rw [e, Nat.testBit_shiftLeft, Nat.testBit_mod_two_pow, Nat.testBit_shiftRight]
  by_cases h3 : 3 ≤ i
  · by_cases h9 : i < 9
    · have : (504 : Nat).testBit i = true := by
        have : i = 3 ∨ i = 4 ∨ i = 5 ∨ i = 6 ∨ i = 7 ∨ i = 8 := by omega
        rcases this with rfl | rfl | rfl | rfl | rfl | rfl <;> decide
      have e6 : i - 3 < 6 := by omega
      simp [this, h3, e6]
    · have : (504 : Nat).testBit i = false := Nat.testBit_lt_two_pow (Nat.lt_of_lt_of_le (by decide : 504 < 2 ^ 9) (Nat.pow_le_pow_right (by decide) (by omega)))
      have e6 : ¬ i - 3 < 6 := by omega
      simp [this, e6]
  · have : (504 : Nat).testBit i = false := by
      have : i = 0 ∨ i = 1 ∨ i = 2 := by omega
      rcases this with rfl | rfl | rfl <;> decide
    simp [this, h3]

theorem padLoop_spec [Host] (fuel : Nat) (ctx : Ctx) (m : List Byte) (R : Rep ctx m) (hf : (120 - m.length % 64) % 64 < fuel) :
    ∃ ctx', padLoop fuel ctx = .ok ctx' ∧ Rep ctx' (m ++ List.replicate ((120 - m.length % 64) % 64) 0) := by
  induction fuel generalizing ctx m with
  | zero => omega
  | succ fuel ih =>
      have hc : (ctx.count0 &&& 504#32).toNat = m.length % 64 * 8 := by
        rw [BitVec.toNat_and, show (504#32).toNat = 504 from rfl, and504, R.c0]; omega
      rw [padLoop]
      by_cases h : m.length % 64 = 56
      · rw [if_neg]
        · refine ⟨ctx, rfl, ?_⟩
          rw [h]; simpa using R
        · rw [ne_eq, Decidable.not_not]
          apply BitVec.eq_of_toNat_eq
          rw [hc, h]; rfl
      · rw [if_pos]
        · obtain ⟨ctx1, d', e, R1, el, _⟩ := update_spec ctx m [0] [0] R (by simp; omega) (by simp)
          have e' : update ctx [0, 0] 1 = .ok (ctx1, d' ++ [0]) := e
          rw [e', Outcome.ok_bind]
          simp only
          have hl : (m ++ [0]).length = m.length + 1 := by simp
          obtain ⟨ctx2, e2, R2⟩ := ih ctx1 (m ++ [0]) R1 (by rw [hl]; omega)
          refine ⟨ctx2, e2, ?_⟩
          have : (120 - m.length % 64) % 64 = (120 - (m ++ [0]).length % 64) % 64 + 1 := by rw [hl]; omega
          rw [this, List.replicate_succ]
          simpa using R2
        · intro hx
          have := congrArg BitVec.toNat hx
          rw [hc, show (448#32).toNat = 448 from rfl] at this
          omega

theorem be_length (k n : Nat) : (Spec.be k n).length = k := by simp [Spec.be]

/-- Finalizing a context that has absorbed `m` gives the SHA-1 digest of `m`. -/
theorem finalize_spec [Host] (ctx : Ctx) (m : List Byte) (R : Rep ctx m) :
    finalize ctx = .ok (Spec.sha1 m, wiped) := by
  obtain ⟨c1, d1, e1, R1, _, _⟩ := update_spec ctx m [0x80] [0] R (by simp; omega) (by simp)
  have e1' : update ctx [0x80, 0] 1 = .ok (c1, d1 ++ [0]) := e1
  have hl : (m ++ [0x80]).length = m.length + 1 := by simp
  obtain ⟨c2, e2, R2⟩ := padLoop_spec 65 c1 (m ++ [0x80]) R1 (by omega)
  have hbl : (Spec.be 8 (8 * m.length)).length = 8 := be_length _ _
  obtain ⟨c3, d3, e3, R3, _, _⟩ := update_spec c2 _ (Spec.be 8 (8 * m.length)) [] R2 (by omega) (by omega)
  rw [hbl, List.append_nil] at e3
  have hpad : m ++ [0x80] ++ List.replicate ((120 - (m ++ [0x80]).length % 64) % 64) 0 ++ Spec.be 8 (8 * m.length) = Spec.pad m := by
    rw [Spec.pad, hl]
    have : (120 - (m.length + 1) % 64) % 64 = (119 - m.length % 64) % 64 := by omega
    rw [this]
  rw [hpad] at R3
  rw [finalize]
  simp only
  rw [finalcount_be ctx m R, e1', Outcome.ok_bind]
  simp only
  rw [e2, Outcome.ok_bind, e3, Outcome.ok_bind]
  simp only
  rw [digest_out, R3.state]
  rfl

end ZT.Sha1
