import Verif.Sha1.Transform

namespace ZT.Sha1

theorem hashBlocks_append (h : St) (a b : List Byte) (ha : 64 ∣ a.length) :
    Spec.hashBlocks h (a ++ b) = Spec.hashBlocks (Spec.hashBlocks h a) b := by
  by_cases h0 : a.length < 64
  · have : a.length = 0 := by omega
    have : a = [] := List.length_eq_zero_iff.mp this
    subst this
    rw [show Spec.hashBlocks h [] = h by rw [Spec.hashBlocks]; simp]
    rfl
  · rw [Spec.hashBlocks, if_neg (by simp; omega)]
    conv => rhs; rw [Spec.hashBlocks.eq_def h a, if_neg h0]
    have e1 : (a ++ b).take 64 = a.take 64 := by
      rw [List.take_append_of_le_length (by omega)]
    have e2 : (a ++ b).drop 64 = a.drop 64 ++ b := by
      rw [List.drop_append_of_le_length (by omega)]
    rw [e1, e2]
    exact hashBlocks_append _ (a.drop 64) b (by simp; omega)
termination_by a.length
decreasing_by simp; omega

theorem hashBlocks_one (h : St) (a : List Byte) (ha : a.length = 64) : Spec.hashBlocks h a = Spec.compress h a := by
  rw [Spec.hashBlocks, if_neg (by omega), Spec.hashBlocks, if_pos (by simp; omega), List.take_of_length_le (by omega)]

theorem hashBlocks_short (h : St) (a : List Byte) (ha : a.length < 64) : Spec.hashBlocks h a = h := by
  rw [Spec.hashBlocks, if_pos ha]

/-- The full blocks of a message determine its hash value. -/
theorem hashBlocks_full (h : St) (m : List Byte) :
    Spec.hashBlocks h m = Spec.hashBlocks h (m.take (m.length - m.length % 64)) := by
  conv => lhs; rw [← List.take_append_drop (m.length - m.length % 64) m]
  rw [hashBlocks_append _ _ _ (by rw [List.length_take]; omega), hashBlocks_short _ _ (by rw [List.length_drop]; omega)]

theorem lt_iff (a b : Word) : a < b ↔ a.toNat < b.toNat := Iff.rfl

/-- The caller's bytes after the block loop has run over them: every complete block is overwritten. -/
def clobber [Host] (D : List Byte) : List Byte :=
  if D.length < 64 then D else clobberBlock (D.take 64) ++ clobber (D.drop 64)
termination_by D.length
decreasing_by simp; omega

/-- The block loop consumes all complete blocks of `D`. -/
theorem blockLoop_spec [Host] (fuel : Nat) (st : St) (pre D rest : List Byte) (i llen : Word)
    (hi : i.toNat = pre.length) (hl : llen.toNat = pre.length + D.length) (hb : pre.length + 64 * (D.length / 64) + 63 < 2 ^ 32)
    (hf : D.length / 64 < fuel) :
    ∃ D' i', D' = clobber D ∧ blockLoop fuel st (pre ++ D ++ rest) i llen = .ok (Spec.hashBlocks st D, pre ++ D' ++ rest, i') ∧
      D'.length = D.length ∧ i'.toNat = pre.length + 64 * (D.length / 64) ∧
      D'.drop (64 * (D.length / 64)) = D.drop (64 * (D.length / 64)) ∧ (D.length < 64 → D' = D) := by
  induction fuel generalizing st pre D i with
  | zero => omega
  | succ fuel ih =>
      have h63 : (i + 63#32).toNat = pre.length + 63 := by
        rw [BitVec.toNat_add, hi]; simp; omega
      rw [blockLoop]
      by_cases hD : 64 ≤ D.length
      · rw [if_pos (by rw [lt_iff, h63, hl]; omega), if_pos (by simp; omega)]
        have hblk : ((pre ++ D ++ rest).drop i.toNat).take 64 = D.take 64 := by
          rw [hi, List.append_assoc, List.drop_left, List.take_append_of_le_length hD]
        have htake : (pre ++ D ++ rest).take i.toNat = pre := by
          rw [hi, List.append_assoc, List.take_left]
        have hdrop : (pre ++ D ++ rest).drop (i.toNat + 64) = D.drop 64 ++ rest := by
          rw [hi, List.append_assoc, ← List.drop_drop, List.drop_left, List.drop_append_of_le_length hD]
        rw [hblk, htake, hdrop]
        simp only
        have h64 : (i + 64#32).toNat = pre.length + 64 := by
          rw [BitVec.toNat_add, hi]; simp; omega
        have hlen := transform_length st (D.take 64)
        obtain ⟨D', i', eD, e, el, ei, ed, es⟩ := ih (transform st (D.take 64)).1 (pre ++ (transform st (D.take 64)).2) (D.drop 64)
          (i + 64#32) (by rw [h64]; simp [hlen]) (by rw [hl]; simp [hlen]; omega) (by simp [hlen]; omega) (by simp; omega)
        simp only [List.length_drop, List.length_append, hlen, List.drop_drop] at el ei ed
        refine ⟨(transform st (D.take 64)).2 ++ D', i', ?_, ?_, ?_, ?_, ?_, ?_⟩
        · rw [clobber, if_neg (by omega), ← eD, transform_snd]
        · rw [show pre ++ (transform st (D.take 64)).2 ++ (D.drop 64 ++ rest) =
            pre ++ (transform st (D.take 64)).2 ++ D.drop 64 ++ rest by simp, e, transform_spec]
          conv => rhs; rw [Spec.hashBlocks, if_neg (by omega)]
          simp
        · simp [hlen, el]; omega
        · rw [ei]; omega
        · have : 64 * (D.length / 64) = 64 + 64 * ((D.length - 64) / 64) := by omega
          rw [this, ← List.drop_drop, List.drop_append_of_le_length (by omega),
            List.drop_of_length_le (show (transform st (D.take 64)).2.length ≤ 64 by omega), List.nil_append, ed]
        · omega
      · rw [if_neg (by rw [lt_iff, h63, hl]; omega)]
        have : D.length / 64 = 0 := by omega
        refine ⟨D, i, ?_, ?_, rfl, ?_, ?_, ?_⟩
        · rw [clobber, if_pos (by omega)]
        · rw [hashBlocks_short _ _ (by omega)]
        · rw [this, hi]; rfl
        · rfl
        · intro _; rfl

/-- The context has absorbed exactly the message `m`. -/
structure Rep (ctx : Ctx) (m : List Byte) : Prop where
  blen : ctx.buffer.length = 64
  c0 : ctx.count0.toNat = 8 * m.length % 2 ^ 32
  c1 : ctx.count1.toNat = 8 * m.length / 2 ^ 32 % 2 ^ 32
  tail : ctx.buffer.take (m.length % 64) = m.drop (m.length - m.length % 64)
  state : ctx.state = Spec.hashBlocks Spec.H0 m

theorem init_rep (buf : List Byte) (h : buf.length = 64) : Rep (init buf) [] := by
  refine ⟨h, rfl, rfl, rfl, ?_⟩
  rw [hashBlocks_short _ _ (by simp)]; rfl

theorem and63 (n : Nat) : n &&& 63 = n % 64 := Nat.and_two_pow_sub_one_eq_mod _ 6

theorem memcpy_ok (dst src : List Byte) (off soff n : Nat) (h1 : off + n ≤ dst.length) (h2 : soff + n ≤ src.length) :
    memcpy dst off src soff n = .ok (dst.take off ++ (src.drop soff).take n ++ dst.drop (off + n)) := by
  rw [memcpy, if_pos ⟨h1, h2⟩]

theorem memcpy_bad (dst src : List Byte) (off soff n : Nat) (h1 : ¬ (off + n ≤ dst.length ∧ soff + n ≤ src.length)) :
    memcpy dst off src soff n = .ub := by
  rw [memcpy, if_neg h1]

theorem jval (ctx : Ctx) (m : List Byte) (R : Rep ctx m) : ((ctx.count0 >>> 3) &&& 63#32).toNat = m.length % 64 := by
  rw [BitVec.toNat_and, BitVec.toNat_ushiftRight, R.c0, Nat.shiftRight_eq_div_pow]
  have : (63#32).toNat = 63 := rfl
  rw [this, and63]; omega

set_option maxHeartbeats 1000000 in
/-- One update call. -/
theorem update_spec [Host] (ctx : Ctx) (m d rest : List Byte) (R : Rep ctx m) (hl : m.length % 64 + d.length < 2 ^ 32) (hle : d.length ≤ 2 ^ 32 - 2) :
    ∃ ctx' d', update ctx (d ++ rest) d.length = .ok (ctx', d' ++ rest) ∧ Rep ctx' (m ++ d) ∧ d'.length = d.length ∧
      d' = (if m.length % 64 + d.length < 64 then d else d.take (64 - m.length % 64) ++ clobber (d.drop (64 - m.length % 64))) ∧
      (m.length % 64 + d.length < 128 → d' = d) := by
  obtain ⟨hbl, hc0, hc1, htl, hst⟩ := R
  have hj := jval ctx m ⟨hbl, hc0, hc1, htl, hst⟩
  rw [update, if_pos (by omega)]
  simp only
  generalize hJ : (ctx.count0 >>> 3) &&& 63#32 = j at hj ⊢
  generalize hL : BitVec.ofNat 32 d.length = llen
  have hln : llen.toNat = d.length := by rw [← hL]; simp; omega
  have hsh : (llen <<< 3).toNat = 8 * d.length % 2 ^ 32 := by
    rw [BitVec.toNat_shiftLeft, Nat.shiftLeft_eq, hln]; omega
  have hc0' : (ctx.count0 + llen <<< 3).toNat = 8 * (m ++ d).length % 2 ^ 32 := by
    rw [BitVec.toNat_add, hc0, hsh]; simp; omega
  have hc1' : ((if ctx.count0 + llen <<< 3 < llen <<< 3 then ctx.count1 + 1 else ctx.count1) + llen >>> 29).toNat =
      8 * (m ++ d).length / 2 ^ 32 % 2 ^ 32 := by
    rw [BitVec.toNat_add, BitVec.toNat_ushiftRight, Nat.shiftRight_eq_div_pow, hln]
    split
    · rename_i h
      rw [lt_iff, hsh, hc0'] at h
      rw [BitVec.toNat_add, hc1]
      simp at h ⊢
      omega
    · rename_i h
      rw [lt_iff, hsh, hc0'] at h
      rw [hc1]
      simp at h ⊢
      omega
  generalize hG0 : ctx.count0 + llen <<< 3 = g0 at hc0' hc1' ⊢
  generalize hG1 : (if g0 < llen <<< 3 then ctx.count1 + 1 else ctx.count1) + llen >>> 29 = g1 at hc1' ⊢
  have hsum : (j + llen).toNat = m.length % 64 + d.length := by
    rw [BitVec.toNat_add, hj, hln]; omega
  by_cases hbig : 64 ≤ m.length % 64 + d.length
  · rw [if_pos (by rw [gt_iff_lt, lt_iff, hsum]; simp; omega)]
    have hi : (64#32 - j).toNat = 64 - m.length % 64 := by
      rw [BitVec.toNat_sub, hj]; simp; omega
    -- fill the buffer
    rw [memcpy_ok _ _ _ _ _ (by omega) (by simp; omega), Outcome.ok_bind]
    have hbuf : ctx.buffer.take j.toNat ++ ((d ++ rest).drop 0).take (64#32 - j).toNat ++
        ctx.buffer.drop (j.toNat + (64#32 - j).toNat) =
        m.drop (m.length - m.length % 64) ++ d.take (64 - m.length % 64) := by
      rw [hj, hi, htl, List.drop_zero, List.take_append_of_le_length (by omega),
        List.drop_of_length_le (show ctx.buffer.length ≤ m.length % 64 + (64 - m.length % 64) by omega), List.append_nil]
    rw [hbuf]
    generalize hfull : m.drop (m.length - m.length % 64) ++ d.take (64 - m.length % 64) = full
    have hfl : full.length = 64 := by rw [← hfull]; simp; omega
    -- the block loop
    generalize hi0 : 64 - m.length % 64 = i0 at *
    have hsplit : d ++ rest = d.take i0 ++ d.drop i0 ++ rest := by simp
    have htlen : (d.take i0).length = i0 := by simp; omega
    have hdlen : (d.drop i0).length = d.length - i0 := by simp
    obtain ⟨D', i', eD, e, el, ei, ed, es⟩ := blockLoop_spec (2 ^ 32) (transform ctx.state full).1 (d.take i0) (d.drop i0) rest
      (64#32 - j) llen (by rw [hi, htlen]) (by rw [hln, htlen, hdlen]; omega) (by rw [htlen, hdlen]; omega)
      (by rw [hdlen]; omega)
    rw [← hsplit] at e
    rw [e, Outcome.ok_bind]
    simp only
    rw [htlen] at ei
    rw [hdlen] at ei ed el
    have hrem : (llen - i').toNat = d.length - i'.toNat := by
      rw [BitVec.toNat_sub, hln]; omega
    have htr := transform_length ctx.state full
    rw [hrem, memcpy_ok _ _ _ _ _ (by omega) (by simp [el, htlen]; omega), Outcome.ok_bind]
    refine ⟨_, d.take i0 ++ D', rfl, ⟨?_, hc0', hc1', ?_, ?_⟩, ?_, ?_, ?_⟩
    · simp [htr, el, htlen]; omega
    · -- remaining bytes
      have hmod : (m ++ d).length % 64 = d.length - i'.toNat := by simp; omega
      rw [hmod]
      have e1 : (((d.take i0 ++ D' ++ rest).drop i'.toNat).take (d.length - i'.toNat)) = d.drop i'.toNat := by
        have hii : i'.toNat = i0 + (i'.toNat - i0) := by omega
        rw [hii, List.append_assoc, ← List.drop_drop, List.drop_left' htlen, List.drop_append_of_le_length (by omega),
          show i'.toNat - i0 = 64 * ((d.length - i0) / 64) by omega, ed]
        rw [List.take_append_of_le_length (by simp), List.take_of_length_le (by simp), List.drop_drop]
      rw [e1]
      simp only [List.take_zero, List.nil_append]
      rw [List.take_append_of_le_length (by simp), List.take_of_length_le (by simp)]
      have hn : (m ++ d).length - (d.length - i'.toNat) = m.length + i'.toNat := by simp; omega
      rw [hn, List.drop_append, List.drop_of_length_le (show m.length ≤ m.length + i'.toNat by omega), List.nil_append,
        Nat.add_sub_cancel_left]
    · -- state
      rw [transform_spec, hst]
      have hm1 : (m.take (m.length - m.length % 64)).length % 64 = 0 := by simp; omega
      have em : m ++ d = m.take (m.length - m.length % 64) ++ (full ++ d.drop i0) := by
        rw [← hfull, ← List.append_assoc, ← List.append_assoc, List.take_append_drop, List.append_assoc, List.take_append_drop]
      rw [em, hashBlocks_append _ _ _ (by omega), hashBlocks_append _ full _ (by omega), hashBlocks_one _ full hfl,
        ← hashBlocks_full]
    · simp [el]; omega
    · rw [if_neg (by omega), eD]
    · intro hs
      rw [es (by omega), List.take_append_drop]
  · rw [if_neg (by rw [gt_iff_lt, lt_iff, hsum]; simp; omega)]
    rw [memcpy_ok _ _ _ _ _ (by omega) (by simp; omega), Outcome.ok_bind]
    refine ⟨_, d, rfl, ⟨?_, hc0', hc1', ?_, ?_⟩, rfl, ?_, fun _ => rfl⟩
    · simp; omega
    · simp only
      have hmod : (m ++ d).length % 64 = m.length % 64 + d.length := by simp; omega
      rw [hmod, hj, hln, htl, List.drop_zero, List.take_append_of_le_length (Nat.le_refl _), List.take_of_length_le (Nat.le_refl _)]
      rw [List.take_append_of_le_length (by simp; omega), List.take_of_length_le (by simp; omega)]
      rw [List.drop_append, show (m ++ d).length - (m.length % 64 + d.length) = m.length - m.length % 64 by simp; omega,
        show m.length - m.length % 64 - m.length = 0 by omega, List.drop_zero]
    · simp only
      rw [hst]
      have em : m ++ d = m.take (m.length - m.length % 64) ++ (m.drop (m.length - m.length % 64) ++ d) := by
        rw [← List.append_assoc, List.take_append_drop]
      have hm1 : (m.take (m.length - m.length % 64)).length % 64 = 0 := by simp; omega
      rw [em, hashBlocks_append _ _ _ (by omega), hashBlocks_short _ (m.drop _ ++ d) (by simp; omega), ← hashBlocks_full]
    · rw [if_pos (by omega)]

end ZT.Sha1
