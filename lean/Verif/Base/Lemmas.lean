import Verif.Base.Spec

/-! # Helper lemmas for the zt_base proofs -/

namespace ZT.Base

open Spec

theorem stores_ok (o : OBuf) (bs : List Byte) (h : o.data.length + bs.length ≤ o.cap) :
    o.stores bs = .ok { o with data := o.data ++ bs } := by
  induction bs generalizing o with
  | nil => simp [OBuf.stores]
  | cons b bs ih =>
    simp only [List.length_cons] at h
    have h1 : o.data.length < o.cap := by omega
    simp only [OBuf.stores, OBuf.store, h1, if_true, Outcome.ok_bind]
    rw [ih]
    · simp
    · simp; omega

theorem emit_ok (d : Def) (o : OBuf) (is : List Nat) (hi : ∀ i ∈ is, i < d.alphabet.length)
    (h : o.data.length + is.length ≤ o.cap) :
    o.emit d is = .ok { o with data := o.data ++ is.map (fun i => d.alphabet[i]?.getD 0) } := by
  induction is generalizing o with
  | nil => simp [OBuf.emit]
  | cons i is ih =>
    simp only [List.length_cons] at h
    have h1 : o.data.length < o.cap := by omega
    have h2 : i < d.alphabet.length := hi i (by simp)
    simp only [OBuf.emit, alphaAt, List.getElem?_eq_getElem h2, OBuf.store, h1, if_true, Outcome.ok_bind]
    rw [ih]
    · simp [List.getElem?_eq_getElem h2]
    · intro j hj; exact hi j (by simp [hj])
    · simp; omega

theorem alphabet_eq (k : Kind) : k.toDef.alphabet = Spec.alphabet k := by
  cases k <;> decide +kernel

theorem alphabet_len (k : Kind) : (Spec.alphabet k).length = 2 ^ bits k := by
  cases k <;> decide +kernel

theorem alphabet_len' (k : Kind) : k.toDef.alphabet.length = 2 ^ bits k := by
  rw [alphabet_eq, alphabet_len]

theorem padding_eq (k : Kind) : k.toDef.padding = padded k := by cases k <;> rfl
theorem pad_eq (k : Kind) : k.toDef.pad = (ascii "=")[0]! := by cases k <;> decide +kernel
theorem pad_eq' (k : Kind) : k.toDef.pad = 61 := by cases k <;> rfl
theorem igroups_eq (k : Kind) : k.toDef.igroups = ig k := by cases k <;> rfl
theorem ogroups_eq (k : Kind) : k.toDef.ogroups = og k := by cases k <;> rfl
theorem obits_eq (k : Kind) : k.toDef.obits = bits k := by cases k <;> rfl
theorem valid_eq (k : Kind) : validDictionary k.toDef = true := by cases k <;> rfl

/-! ## Bit operations as arithmetic -/

theorem or_add (a b i : Nat) (h : b < 2 ^ i) : a * 2 ^ i ||| b = a * 2 ^ i + b := by
  have := Nat.shiftLeft_add_eq_or_of_lt h a
  rw [Nat.shiftLeft_eq] at this
  exact this.symm

theorem and3 (b : Nat) : b &&& 0x03 = b % 4 := Nat.and_two_pow_sub_one_eq_mod b 2
theorem and7 (b : Nat) : b &&& 0x07 = b % 8 := Nat.and_two_pow_sub_one_eq_mod b 3
theorem and15 (b : Nat) : b &&& 0x0F = b % 16 := Nat.and_two_pow_sub_one_eq_mod b 4
theorem and31 (b : Nat) : b &&& 0x1F = b % 32 := Nat.and_two_pow_sub_one_eq_mod b 5
theorem and63 (b : Nat) : b &&& 0x3F = b % 64 := Nat.and_two_pow_sub_one_eq_mod b 6
theorem and1 (b : Nat) : b &&& 0x01 = b % 2 := Nat.and_two_pow_sub_one_eq_mod b 1

theorem andF0 : ∀ b, b < 256 → (b &&& 0xF0) >>> 4 = b / 16 := by decide +kernel
theorem andC0 : ∀ b, b < 256 → (b &&& 0xC0) >>> 6 = b / 64 := by decide +kernel
theorem and80 : ∀ b, b < 256 → (b &&& 0x80) >>> 7 = b / 128 := by decide +kernel
theorem and7C : ∀ b, b < 256 → (b &&& 0x7C) >>> 2 = b / 4 % 32 := by decide +kernel
theorem andE0 : ∀ b, b < 256 → (b &&& 0xE0) >>> 5 = b / 32 := by decide +kernel

theorem shr (b k : Nat) : b >>> k = b / 2 ^ k := Nat.shiftRight_eq_div_pow b k
theorem shl (b k : Nat) : b <<< k = b * 2 ^ k := Nat.shiftLeft_eq b k

theorem idx64_eq (b0 b1 b2 : Nat) (h0 : b0 < 256) (h1 : b1 < 256) (h2 : b2 < 256) :
    idx64 b0 b1 b2 = digits 64 4 (num 256 [b0, b1, b2]) := by
  simp only [idx64, digits, num, List.foldl, List.nil_append, List.cons_append]
  rw [andF0 b1 h1, andC0 b2 h2, and3, and15, and63, shr, shl, shl,
    or_add _ _ 4 (by omega), or_add _ _ 2 (by omega)]
  simp only [List.cons.injEq, and_true]
  refine ⟨?_, ?_, ?_, ?_⟩ <;> omega

theorem idx32_eq (b0 b1 b2 b3 b4 : Nat) (h0 : b0 < 256) (h1 : b1 < 256) (h2 : b2 < 256) (h3 : b3 < 256)
    (h4 : b4 < 256) : idx32 b0 b1 b2 b3 b4 = digits 32 8 (num 256 [b0, b1, b2, b3, b4]) := by
  simp only [idx32, digits, num, List.foldl, List.nil_append, List.cons_append]
  rw [andF0 b2 h2, andC0 b1 h1, and80 b3 h3, and7C b3 h3, andE0 b4 h4, and7, and1, and63, and15, and3, and31,
    shr, shl, shl, shl, shl, or_add _ _ 2 (by omega), or_add _ _ 4 (by omega), or_add _ _ 1 (by omega),
    or_add _ _ 3 (by omega), shr]
  simp only [List.cons.injEq, and_true]
  refine ⟨?_, ?_, ?_, ?_, ?_, ?_, ?_, ?_⟩ <;> omega

theorem idx16_eq (b0 : Nat) (h0 : b0 < 256) : [b0 >>> 4, b0 &&& 0x0F] = digits 16 2 (num 256 [b0]) := by
  simp only [digits, num, List.foldl, List.nil_append, List.cons_append]
  rw [and15, shr]
  simp only [List.cons.injEq, and_true]
  refine ⟨?_, ?_⟩ <;> omega

theorem idx64Tail_eq (m b0 b1 : Nat) :
    idx64Tail m b0 b1 = (idx64 b0 b1 0).take (if m > 1 then 3 else 2) := by
  unfold idx64Tail idx64
  split <;> simp

theorem idx32Tail_eq (m b0 b1 b2 b3 : Nat) :
    idx32Tail m b0 b1 b2 b3 =
      (idx32 b0 b1 b2 b3 0).take (if m > 3 then 7 else if m > 2 then 5 else if m > 1 then 4 else 2) := by
  unfold idx32Tail idx32
  by_cases h1 : m > 1 <;> by_cases h2 : m > 2 <;> by_cases h3 : m > 3 <;>
    first
    | (exfalso; omega)
    | simp [h1, h2, h3]

theorem digits_lt (B k n : Nat) (hB : 0 < B) : ∀ d ∈ digits B k n, d < B := by
  induction k generalizing n with
  | zero => simp [digits]
  | succ k ih =>
    intro d hd
    simp only [digits, List.mem_append, List.mem_singleton] at hd
    rcases hd with hd | rfl
    · exact ih _ d hd
    · exact Nat.mod_lt _ hB

@[simp] theorem digits_length (B k n : Nat) : (digits B k n).length = k := by
  induction k generalizing n with
  | zero => rfl
  | succ k ih => simp [digits, ih]

theorem encode_nil (k : Kind) : Spec.encode k [] = [] := by rw [Spec.encode]; simp

theorem encode_step (k : Kind) (bs : List Byte) (h : bs ≠ []) :
    Spec.encode k bs = encGroup k (bs.take (ig k)) ++ Spec.encode k (bs.drop (ig k)) := by
  rw [Spec.encode]; simp [h]

/-- A whole group has no padding. -/
theorem encGroup_full (k : Kind) (g : List Byte) (h : g.length = ig k) :
    encGroup k g = (digits (2 ^ bits k) (og k) (num 256 (g.map (·.toNat)))).map
      (fun i => (Spec.alphabet k)[i]?.getD 0) := by
  have hn : needed k (ig k) = og k := by cases k <;> decide
  simp only [encGroup, groupDigits, h, hn, Nat.sub_self, List.replicate_zero, List.append_nil]
  rw [List.take_of_length_le (by simp)]
  simp

theorem encGroup_length (k : Kind) (g : List Byte) (h0 : 0 < g.length) (h : g.length ≤ ig k) :
    (encGroup k g).length = if padded k then og k else needed k g.length := by
  have : needed k g.length ≤ og k := by
    cases k <;> simp only [needed, og, bits, ig] at * <;> omega
  simp only [encGroup, groupDigits, List.length_append, List.length_map, List.length_take, digits_length]
  split <;> simp <;> omega

def is64 (k : Kind) : Prop := bits k = 6
def is32 (k : Kind) : Prop := bits k = 5
def is16 (k : Kind) : Prop := bits k = 4

theorem emit_kind (k : Kind) (o : OBuf) (is : List Nat) (hi : ∀ i ∈ is, i < 2 ^ bits k)
    (h : o.data.length + is.length ≤ o.cap) :
    o.emit k.toDef is = .ok { o with data := o.data ++ is.map (fun i => (Spec.alphabet k)[i]?.getD 0) } := by
  rw [emit_ok _ _ _ (by rw [alphabet_len']; exact hi) h, alphabet_eq]

theorem toNat_lt (b : Byte) : b.toNat < 256 := b.toNat_lt

theorem is64_ig {k : Kind} (hk : is64 k) : ig k = 3 ∧ og k = 4 := by
  cases k <;> simp_all [is64, bits, ig, og]
theorem is32_ig {k : Kind} (hk : is32 k) : ig k = 5 ∧ og k = 8 := by
  cases k <;> simp_all [is32, bits, ig, og]
theorem is16_ig {k : Kind} (hk : is16 k) : ig k = 1 ∧ og k = 2 := by
  cases k <;> simp_all [is16, bits, ig, og]

/-- The statements writing the tail of `_encode64`. -/
theorem tail64 (k : Kind) (hk : is64 k) (g : List Byte) (b0 b1 : Byte)
    (hg : g = [b0] ∧ b1 = 0 ∨ g = [b0, b1]) (o : OBuf)
    (h : o.data.length + (encGroup k g).length ≤ o.cap) :
    (do let o ← o.emit k.toDef (idx64Tail g.length b0.toNat b1.toNat)
        if k.toDef.padding then o.stores (List.replicate (3 - g.length) k.toDef.pad) else Outcome.ok o)
      = .ok { o with data := o.data ++ encGroup k g } := by
  have ⟨hi, ho⟩ := is64_ig hk
  have hb : bits k = 6 := hk
  have hl : (idx64Tail g.length b0.toNat b1.toNat) = groupDigits k g := by
    rw [idx64Tail_eq, idx64_eq _ _ _ (toNat_lt _) (toNat_lt _) (by omega)]
    rcases hg with ⟨rfl, rfl⟩ | rfl
    · simp [groupDigits, hi, ho, needed, hb]
    · simp [groupDigits, hi, ho, needed, hb]
  have hpad : 3 - g.length = og k - needed k g.length := by
    rcases hg with ⟨rfl, rfl⟩ | rfl <;> simp [needed, ho, hb]
  rw [hl, emit_kind]
  · simp only [Outcome.ok_bind, padding_eq, pad_eq, hpad]
    split
    · rename_i hp
      rw [stores_ok]
      · simp [encGroup, hp]
      · simp only [encGroup, hp, if_true, List.length_append, List.length_replicate, List.length_map] at h ⊢
        omega
    · rename_i hp
      simp [encGroup, hp]
  · intro i hi'
    rw [groupDigits] at hi'
    exact digits_lt _ _ _ (by rw [hb]; decide) i (List.mem_of_mem_take hi')
  · simp only [encGroup, List.length_append, List.length_map] at h ⊢
    omega

theorem encode64_ok (k : Kind) (hk : is64 k) (inp : List Byte) (o : OBuf)
    (h : o.data.length + (Spec.encode k inp).length ≤ o.cap) :
    encode64 k.toDef (inp.length % 3) (inp.length / 3) inp o
      = .ok { o with data := o.data ++ Spec.encode k inp } := by
  have ⟨hi, ho⟩ := is64_ig hk
  match inp with
  | [] => simp [encode64, encode_nil]
  | [b0] =>
    have he : Spec.encode k [b0] = encGroup k [b0] := by
      rw [encode_step _ _ (by simp)]; simp [hi, encode_nil]
    rw [he] at h ⊢
    have := tail64 k hk [b0] b0 0 (by simp) o h
    simpa [encode64] using this
  | [b0, b1] =>
    have he : Spec.encode k [b0, b1] = encGroup k [b0, b1] := by
      rw [encode_step _ _ (by simp)]; simp [hi, encode_nil]
    rw [he] at h ⊢
    have := tail64 k hk [b0, b1] b0 b1 (by simp) o h
    simpa [encode64] using this
  | b0 :: b1 :: b2 :: rest =>
    have he : Spec.encode k (b0 :: b1 :: b2 :: rest) = encGroup k [b0, b1, b2] ++ Spec.encode k rest := by
      rw [encode_step _ _ (by simp)]; simp [hi]
    have hg := encGroup_full k [b0, b1, b2] (by simp [hi])
    rw [hk, ho] at hg
    rw [he] at h ⊢
    simp only [List.length_append] at h
    have h1 : (b0 :: b1 :: b2 :: rest).length / 3 = rest.length / 3 + 1 := by simp; omega
    have h2 : (b0 :: b1 :: b2 :: rest).length % 3 = rest.length % 3 := by simp; omega
    rw [h1, h2, encode64, idx64_eq _ _ _ (toNat_lt _) (toNat_lt _) (toNat_lt _), emit_kind k]
    · simp only [Outcome.ok_bind]
      rw [encode64_ok k hk rest]
      · simp [hg]
      · rw [hg] at h; simp at h ⊢; omega
    · rw [hk]; exact digits_lt _ _ _ (by decide)
    · rw [hg] at h; simp at h ⊢; omega

/-- The statements writing the tail of `_encode32`. -/
theorem tail32 (k : Kind) (hk : is32 k) (g : List Byte) (h0 : 0 < g.length) (h5 : g.length < 5) (o : OBuf)
    (h : o.data.length + (encGroup k g).length ≤ o.cap) :
    encode32 k.toDef g.length 0 g o = .ok { o with data := o.data ++ encGroup k g } := by
  have ⟨hi, ho⟩ := is32_ig hk
  have hb : bits k = 5 := hk
  have hpad : pad32 g.length = og k - needed k g.length := by
    have : g.length = 1 ∨ g.length = 2 ∨ g.length = 3 ∨ g.length = 4 := by omega
    rcases this with e | e | e | e <;> simp [needed, ho, hb, e, pad32]
  have key : ∀ is, is = groupDigits k g →
      (do let o ← o.emit k.toDef is
          if k.toDef.padding then o.stores (List.replicate (pad32 g.length) k.toDef.pad) else Outcome.ok o)
      = .ok { o with data := o.data ++ encGroup k g } := by
    intro is his
    rw [his, emit_kind]
    · simp only [Outcome.ok_bind, padding_eq, pad_eq, hpad]
      split
      · rename_i hp
        rw [stores_ok]
        · simp [encGroup, hp]
        · simp only [encGroup, hp, if_true, List.length_append, List.length_replicate, List.length_map] at h ⊢
          omega
      · rename_i hp
        simp [encGroup, hp]
    · intro i hi'
      rw [groupDigits] at hi'
      exact digits_lt _ _ _ (by rw [hb]; decide) i (List.mem_of_mem_take hi')
    · simp only [encGroup, List.length_append, List.length_map] at h ⊢
      omega
  match g, h0, h5, key with
  | [b0], _, _, key =>
    have := key (idx32Tail 1 b0.toNat 0 0 0) (by
      rw [idx32Tail_eq, idx32_eq _ _ _ _ _ (toNat_lt _) (by omega) (by omega) (by omega) (by omega)]
      simp [groupDigits, hi, ho, needed, hb])
    simpa [encode32, tailByte] using this
  | [b0, b1], _, _, key =>
    have := key (idx32Tail 2 b0.toNat b1.toNat 0 0) (by
      rw [idx32Tail_eq, idx32_eq _ _ _ _ _ (toNat_lt _) (toNat_lt _) (by omega) (by omega) (by omega)]
      simp [groupDigits, hi, ho, needed, hb])
    simpa [encode32, tailByte] using this
  | [b0, b1, b2], _, _, key =>
    have := key (idx32Tail 3 b0.toNat b1.toNat b2.toNat 0) (by
      rw [idx32Tail_eq, idx32_eq _ _ _ _ _ (toNat_lt _) (toNat_lt _) (toNat_lt _) (by omega) (by omega)]
      simp [groupDigits, hi, ho, needed, hb])
    simpa [encode32, tailByte] using this
  | [b0, b1, b2, b3], _, _, key =>
    have := key (idx32Tail 4 b0.toNat b1.toNat b2.toNat b3.toNat) (by
      rw [idx32Tail_eq, idx32_eq _ _ _ _ _ (toNat_lt _) (toNat_lt _) (toNat_lt _) (toNat_lt _) (by omega)]
      simp [groupDigits, hi, ho, needed, hb])
    simpa [encode32, tailByte] using this
  | _ :: _ :: _ :: _ :: _ :: _, _, h5, _ => simp at h5; omega

theorem encode32_ok (k : Kind) (hk : is32 k) (inp : List Byte) (o : OBuf)
    (h : o.data.length + (Spec.encode k inp).length ≤ o.cap) :
    encode32 k.toDef (inp.length % 5) (inp.length / 5) inp o
      = .ok { o with data := o.data ++ Spec.encode k inp } := by
  have ⟨hi, ho⟩ := is32_ig hk
  by_cases hs : inp.length < 5
  · by_cases hz : inp = []
    · subst hz; simp [encode32, encode_nil]
    · have hp := List.length_pos_iff.mpr hz
      have he : Spec.encode k inp = encGroup k inp := by
        rw [encode_step _ _ hz, hi, List.take_of_length_le (by omega), List.drop_eq_nil_of_le (by omega),
          encode_nil, List.append_nil]
      rw [he] at h ⊢
      rw [Nat.mod_eq_of_lt hs, Nat.div_eq_of_lt hs]
      exact tail32 k hk inp hp hs o h
  · match inp with
    | b0 :: b1 :: b2 :: b3 :: b4 :: rest =>
      have he : Spec.encode k (b0 :: b1 :: b2 :: b3 :: b4 :: rest)
          = encGroup k [b0, b1, b2, b3, b4] ++ Spec.encode k rest := by
        rw [encode_step _ _ (by simp)]; simp [hi]
      have hg := encGroup_full k [b0, b1, b2, b3, b4] (by simp [hi])
      rw [hk, ho] at hg
      rw [he] at h ⊢
      simp only [List.length_append] at h
      have h1 : (b0 :: b1 :: b2 :: b3 :: b4 :: rest).length / 5 = rest.length / 5 + 1 := by simp; omega
      have h2 : (b0 :: b1 :: b2 :: b3 :: b4 :: rest).length % 5 = rest.length % 5 := by simp; omega
      rw [h1, h2, encode32,
        idx32_eq _ _ _ _ _ (toNat_lt _) (toNat_lt _) (toNat_lt _) (toNat_lt _) (toNat_lt _), emit_kind k]
      · simp only [Outcome.ok_bind]
        rw [encode32_ok k hk rest]
        · simp [hg]
        · rw [hg] at h; simp at h ⊢; omega
      · rw [hk]; exact digits_lt _ _ _ (by decide)
      · rw [hg] at h; simp at h ⊢; omega
    | [] | [_] | [_, _] | [_, _, _] | [_, _, _, _] => simp at hs
termination_by inp.length

theorem encode16_ok (k : Kind) (hk : is16 k) (inp : List Byte) (o : OBuf)
    (h : o.data.length + (Spec.encode k inp).length ≤ o.cap) :
    encode16 k.toDef inp.length inp o = .ok { o with data := o.data ++ Spec.encode k inp } := by
  have ⟨hi, ho⟩ := is16_ig hk
  match inp with
  | [] => simp [encode16, encode_nil]
  | b0 :: rest =>
    have he : Spec.encode k (b0 :: rest) = encGroup k [b0] ++ Spec.encode k rest := by
      rw [encode_step _ _ (by simp)]; simp [hi]
    have hg := encGroup_full k [b0] (by simp [hi])
    rw [hk, ho] at hg
    rw [he] at h ⊢
    simp only [List.length_append] at h
    rw [List.length_cons, encode16, idx16_eq _ (toNat_lt _), emit_kind k]
    · simp only [Outcome.ok_bind]
      rw [encode16_ok k hk rest]
      · simp [hg]
      · rw [hg] at h; simp at h ⊢; omega
    · rw [hk]; exact digits_lt _ _ _ (by decide)
    · rw [hg] at h; simp at h ⊢; omega

theorem kind_cases (k : Kind) : is64 k ∨ is32 k ∨ is16 k := by
  cases k <;> simp [is64, is32, is16, bits]

theorem encodedLen_step (k : Kind) (n : Nat) (h : ig k ≤ n) :
    encodedLen k n = og k + encodedLen k (n - ig k) := by
  cases k <;> simp only [encodedLen, padded, ig, og, needed, bits] at * <;> simp <;> omega

theorem spec_length (k : Kind) (inp : List Byte) : (Spec.encode k inp).length = encodedLen k inp.length := by
  by_cases hz : inp = []
  · subst hz; rw [encode_nil]; cases k <;> rfl
  · have hp := List.length_pos_iff.mpr hz
    rw [encode_step _ _ hz, List.length_append]
    by_cases hl : inp.length < ig k
    · rw [List.take_of_length_le (by omega), List.drop_eq_nil_of_le (by omega), encode_nil,
        encGroup_length _ _ hp (by omega)]
      cases k <;> simp only [encodedLen, padded, ig, og, needed, bits] at * <;> simp <;> omega
    · have hip := ig_pos k
      have ht : (inp.take (ig k)).length = ig k := by simp; omega
      rw [spec_length k (inp.drop (ig k)), encGroup_length _ _ (by omega) (by omega),
        encodedLen_step _ inp.length (by omega), ht, List.length_drop]
      have hn : needed k (ig k) = og k := by cases k <;> decide
      rw [hn]; simp
termination_by inp.length
decreasing_by simp only [List.length_drop]; omega

theorem encodedCount_eq (k : Kind) (n : Nat) : encodedCount k.toDef n = encodedLen k n := by
  simp only [encodedCount, igroups_eq, ogroups_eq, obits_eq, padding_eq]
  cases k <;> simp only [encodedLen, padded, ig, og, needed, bits] <;> simp <;>
    (try split) <;> omega

theorem base_of64 {k : Kind} (hk : is64 k) : k.toDef.base = 64 := by
  cases k <;> first | rfl | (exact absurd hk (by simp [is64, bits]))
theorem base_of32 {k : Kind} (hk : is32 k) : k.toDef.base = 32 := by
  cases k <;> first | rfl | (exact absurd hk (by simp [is32, bits]))
theorem base_of16 {k : Kind} (hk : is16 k) : k.toDef.base = 16 := by
  cases k <;> first | rfl | (exact absurd hk (by simp [is16, bits]))

theorem dispatch_ok (k : Kind) (inp : List Byte) (size : Nat) (h : encodedLen k inp.length ≤ size) :
    encodeDispatch k.toDef inp ⟨size, []⟩ = .ok (some ⟨size, Spec.encode k inp⟩) := by
  rw [← spec_length] at h
  rcases kind_cases k with hk | hk | hk
  · rw [encodeDispatch, base_of64 hk, igroups_eq, (is64_ig hk).1]
    simp only [if_true]
    rw [encode64_ok k hk inp ⟨size, []⟩ (by simpa using h)]
    simp
  · rw [encodeDispatch, base_of32 hk, igroups_eq, (is32_ig hk).1]
    simp only [show ¬ (32 = 64) by decide, if_false, if_true]
    rw [encode32_ok k hk inp ⟨size, []⟩ (by simpa using h)]
    simp
  · rw [encodeDispatch, base_of16 hk, igroups_eq, (is16_ig hk).1]
    simp only [show ¬ (16 = 64) by decide, show ¬ (16 = 32) by decide, if_false, if_true, Nat.div_one]
    rw [encode16_ok k hk inp ⟨size, []⟩ (by simpa using h)]
    simp

theorem encodeInto_eq (k : Kind) (inp : List Byte) (size olen : Nat) (h : olen ≤ size) :
    encodeInto k.toDef inp size olen =
      .ok (if olen < encodedLen k inp.length then ⟨-2, some (encodedLen k inp.length), []⟩
           else ⟨0, some (encodedLen k inp.length), Spec.encode k inp⟩) := by
  simp only [encodeInto, encodedCount_eq]
  split
  · rfl
  · rw [dispatch_ok k inp size (by omega)]; simp

end ZT.Base
