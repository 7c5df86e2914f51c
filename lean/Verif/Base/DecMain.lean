import Verif.Base.DecLemmas

/-! # Characterisation of the decoder -/

namespace ZT.Base

open Spec

/-- What the decoder returns on a text with enough room, in terms of the specification. -/
structure DecodeSpec (k : Kind) (t : List Byte) (ob : Nat) (r : Ret) : Prop where
  foreign : clean k t = false → r.code = -1
  good : clean k t = true → (tailOk k ((digitsOf k t).length % og k) = true ∨ k = .b16) →
    r = ⟨0, some (decDigits k (digitsOf k t)).length, decDigits k (digitsOf k t)⟩
  badTail : clean k t = true → tailOk k ((digitsOf k t).length % og k) = false → k ≠ .b16 → r.code = -1

theorem tail64_eq (k : Kind) (hk : is64 k) (b0 b1 : Nat) (h0 : b0 < 64) (h1 : b1 < 64) :
    [UInt8.ofNat (b0 <<< 2 ||| (b1 >>> 4))] = decGroup k [b0, b1] := by
  have ⟨hi, ho⟩ := is64_ig hk
  have hb : bits k = 6 := hk
  have hc : carried k 2 = 1 := by simp [carried, hb]
  simp only [decGroup, hi, ho, hb, hc, List.length_cons, List.length_nil, List.replicate,
    digits, num, List.foldl, List.nil_append, List.cons_append,
    List.map_cons, List.map_nil, List.take_succ_cons, List.take_zero, List.cons.injEq, and_true]
  rw [shl, shr, or_add _ _ 2 (by omega)]
  apply ofNat_mod; omega

theorem tail64_eq3 (k : Kind) (hk : is64 k) (b0 b1 b2 : Nat) (h0 : b0 < 64) (h1 : b1 < 64) (h2 : b2 < 64) :
    [UInt8.ofNat (b0 <<< 2 ||| (b1 >>> 4)), UInt8.ofNat ((b1 &&& 0x0F) <<< 4 ||| (b2 >>> 2))]
      = decGroup k [b0, b1, b2] := by
  have ⟨hi, ho⟩ := is64_ig hk
  have hb : bits k = 6 := hk
  have hc : carried k 3 = 2 := by simp [carried, hb]
  simp only [decGroup, hi, ho, hb, hc, List.length_cons, List.length_nil, List.replicate,
    digits, num, List.foldl, List.nil_append, List.cons_append,
    List.map_cons, List.map_nil, List.take_succ_cons, List.take_zero, List.cons.injEq, and_true]
  rw [and15, shl, shr, shl, shr, or_add _ _ 2 (by omega), or_add _ _ 4 (by omega)]
  refine ⟨?_, ?_⟩ <;> apply ofNat_mod <;> omega

theorem carried32 {k : Kind} (hk : is32 k) (n : Nat) : carried k n = n * 5 / 8 := by
  have hb : bits k = 5 := hk
  simp [carried, hb]

theorem tail32_eq2 (k : Kind) (hk : is32 k) (b0 b1 : Nat) (h0 : b0 < 32) (h1 : b1 < 32) :
    [UInt8.ofNat (b0 <<< 3 ||| b1 >>> 2)] = decGroup k [b0, b1] := by
  have ⟨hi, ho⟩ := is32_ig hk
  have hb : bits k = 5 := hk
  simp only [decGroup, hi, ho, hb, carried32 hk, List.length_cons, List.length_nil, List.replicate,
    digits, num, List.foldl, List.nil_append, List.cons_append]
  simp only [Nat.reduceAdd, Nat.reduceMul, Nat.reduceDiv,
    List.map_cons, List.map_nil, List.take_succ_cons, List.take_zero, List.cons.injEq, and_true]
  simp only [shl, shr]
  rw [or_add b0 _ 3 (by omega)]
  apply ofNat_mod; omega

theorem tail32_eq4 (k : Kind) (hk : is32 k) (b0 b1 b2 b3 : Nat) (h0 : b0 < 32) (h1 : b1 < 32)
    (h2 : b2 < 32) (h3 : b3 < 32) :
    [UInt8.ofNat (b0 <<< 3 ||| b1 >>> 2), UInt8.ofNat (b1 <<< 6 ||| b2 <<< 1 ||| b3 >>> 4)]
      = decGroup k [b0, b1, b2, b3] := by
  have ⟨hi, ho⟩ := is32_ig hk
  have hb : bits k = 5 := hk
  simp only [decGroup, hi, ho, hb, carried32 hk, List.length_cons, List.length_nil, List.replicate,
    digits, num, List.foldl, List.nil_append, List.cons_append]
  simp only [Nat.reduceAdd, Nat.reduceMul, Nat.reduceDiv,
    List.map_cons, List.map_nil, List.take_succ_cons, List.take_zero, List.cons.injEq, and_true]
  simp only [shl, shr]
  rw [or_add b0 _ 3 (by omega), or_add b1 _ 6 (by omega),
    show b1 * 2 ^ 6 + b2 * 2 ^ 1 = (b1 * 32 + b2) * 2 ^ 1 by omega, or_add _ _ 1 (by omega)]
  refine ⟨?_, ?_⟩ <;> apply ofNat_mod <;> omega

theorem tail32_eq5 (k : Kind) (hk : is32 k) (b0 b1 b2 b3 b4 : Nat) (h0 : b0 < 32) (h1 : b1 < 32)
    (h2 : b2 < 32) (h3 : b3 < 32) (h4 : b4 < 32) :
    [UInt8.ofNat (b0 <<< 3 ||| b1 >>> 2), UInt8.ofNat (b1 <<< 6 ||| b2 <<< 1 ||| b3 >>> 4),
     UInt8.ofNat (b3 <<< 4 ||| b4 >>> 1)] = decGroup k [b0, b1, b2, b3, b4] := by
  have ⟨hi, ho⟩ := is32_ig hk
  have hb : bits k = 5 := hk
  simp only [decGroup, hi, ho, hb, carried32 hk, List.length_cons, List.length_nil, List.replicate,
    digits, num, List.foldl, List.nil_append, List.cons_append]
  simp only [Nat.reduceAdd, Nat.reduceMul, Nat.reduceDiv,
    List.map_cons, List.map_nil, List.take_succ_cons, List.take_zero, List.cons.injEq, and_true]
  simp only [shl, shr]
  rw [or_add b0 _ 3 (by omega), or_add b1 _ 6 (by omega), or_add b3 _ 4 (by omega),
    show b1 * 2 ^ 6 + b2 * 2 ^ 1 = (b1 * 32 + b2) * 2 ^ 1 by omega, or_add _ _ 1 (by omega)]
  refine ⟨?_, ?_, ?_⟩ <;> apply ofNat_mod <;> omega

theorem tail32_eq7 (k : Kind) (hk : is32 k) (b0 b1 b2 b3 b4 b5 b6 : Nat) (h0 : b0 < 32) (h1 : b1 < 32)
    (h2 : b2 < 32) (h3 : b3 < 32) (h4 : b4 < 32) (h5 : b5 < 32) (h6 : b6 < 32) :
    [UInt8.ofNat (b0 <<< 3 ||| b1 >>> 2), UInt8.ofNat (b1 <<< 6 ||| b2 <<< 1 ||| b3 >>> 4),
     UInt8.ofNat (b3 <<< 4 ||| b4 >>> 1), UInt8.ofNat (b4 <<< 7 ||| b5 <<< 2 ||| b6 >>> 3)]
      = decGroup k [b0, b1, b2, b3, b4, b5, b6] := by
  have ⟨hi, ho⟩ := is32_ig hk
  have hb : bits k = 5 := hk
  simp only [decGroup, hi, ho, hb, carried32 hk, List.length_cons, List.length_nil, List.replicate,
    digits, num, List.foldl, List.nil_append, List.cons_append]
  simp only [Nat.reduceAdd, Nat.reduceMul, Nat.reduceDiv,
    List.map_cons, List.map_nil, List.take_succ_cons, List.take_zero, List.cons.injEq, and_true]
  simp only [shl, shr]
  rw [or_add b0 _ 3 (by omega), or_add b1 _ 6 (by omega), or_add b3 _ 4 (by omega), or_add b4 _ 7 (by omega),
    show b1 * 2 ^ 6 + b2 * 2 ^ 1 = (b1 * 32 + b2) * 2 ^ 1 by omega, or_add _ _ 1 (by omega),
    show b4 * 2 ^ 7 + b5 * 2 ^ 2 = (b4 * 32 + b5) * 2 ^ 2 by omega, or_add _ _ 2 (by omega)]
  refine ⟨?_, ?_, ?_, ?_⟩ <;> apply ofNat_mod <;> omega

/-- Facts about the whole-group part shared by the three decoders. -/
theorem loop_facts (k : Kind) (t : List Byte) (cap : Nat) (hcap : decodedCount k.toDef t ≤ cap) :
    ∃ (buf : List Nat) (out : List Byte),
      decodeLoop k.toDef (og k) (fullOf k) t ⟨[], ⟨cap, []⟩, 0⟩ =
        .ok (⟨buf, ⟨cap, out⟩, out.length⟩, clean k t) ∧
      buf.length < og k ∧ (∀ d ∈ buf, d < 2 ^ bits k) ∧
      out.length + (decGroup k buf).length ≤ cap ∧
      (clean k t = true → buf.length = (digitsOf k t).length % og k ∧
        out ++ decGroup k buf = decDigits k (digitsOf k t)) := by
  let ds := digitsOf k (t.takeWhile (okChar k))
  have hd : ∀ d ∈ ds, d < 2 ^ bits k := digitsOf_lt k _
  have he := emitted_eq k ds hd
  have hsplit := decDigits_split k ds
  have hcnt := decodedCount_ge k t (t.takeWhile (okChar k)) (takeWhile_digits_le k t)
  have hop := og_pos k
  have hm := Nat.mod_lt ds.length hop
  have hdm := Nat.div_add_mod' ds.length (og k)
  refine ⟨ds.drop (ds.length / og k * og k), decDigits k (ds.take (ds.length / og k * og k)), ?_, ?_, ?_, ?_, ?_⟩
  · have hlen := congrArg List.length hsplit
    rw [List.length_append] at hlen
    have hc : (decDigits k ds).length ≤ decodedCount k.toDef t := hcnt
    rw [decodeLoop_eq]
    · show Outcome.ok (DState.mk (emitted (og k) (fullOf k) [] ds).2
        ⟨cap, [] ++ (emitted (og k) (fullOf k) [] ds).1⟩
        (0 + (emitted (og k) (fullOf k) [] ds).1.length), clean k t) = _
      rw [he]; simp
    · show ([] : List Byte).length + (emitted (og k) (fullOf k) [] ds).1.length ≤ cap
      rw [he]; simp; omega
  · rw [List.length_drop]; omega
  · intro d h; exact hd d (List.mem_of_mem_drop h)
  · rw [← List.length_append, ← hsplit]
    exact Nat.le_trans hcnt hcap
  · intro hcl
    have e : ds = digitsOf k t := by show digitsOf k _ = _; rw [clean_takeWhile k t hcl]
    refine ⟨?_, ?_⟩
    · rw [← e, List.length_drop]; omega
    · rw [← e]; exact hsplit.symm

theorem stores_cap (cap : Nat) (out bs : List Byte) (h : out.length + bs.length ≤ cap) :
    (OBuf.mk cap out).stores bs = .ok ⟨cap, out ++ bs⟩ := stores_ok ⟨cap, out⟩ bs h

theorem decode64_spec (k : Kind) (hk : is64 k) (t : List Byte) (cap ob : Nat)
    (hcap : decodedCount k.toDef t ≤ cap) :
    ∃ r, decode64 k.toDef t ⟨cap, []⟩ ob = .ok r ∧ DecodeSpec k t ob r := by
  have hb : bits k = 6 := hk
  have ⟨hi, ho⟩ := is64_ig hk
  have hf : fullOf k = full64 := by simp [fullOf, hb]
  have hn16 : k ≠ .b16 := by intro h; subst h; exact absurd hk (by simp [is64, bits])
  obtain ⟨buf, out, hloop, hlen, hdig, hroom, hclean⟩ := loop_facts k t cap hcap
  rw [hf, ho] at hloop
  rw [ho] at hlen
  simp only [decode64, hloop, Outcome.ok_bind]
  cases hcl : clean k t with
  | false =>
    refine ⟨⟨-1, some ob, out⟩, by simp, ?_, ?_, ?_⟩ <;> simp [hcl]
  | true =>
    obtain ⟨hbl, hout⟩ := hclean hcl
    rw [hb] at hdig
    simp only [Bool.not_true, Bool.false_eq_true, if_false]
    match buf, hlen, hdig, hroom, hbl, hout with
    | [], _, _, _, hbl, hout =>
      have hz : decGroup k [] = [] := List.eq_nil_of_length_eq_zero (by rw [decGroup_length] <;> simp [carried])
      rw [hz, List.append_nil] at hout
      refine ⟨_, rfl, ?_, ?_, ?_⟩ <;> simp [hcl, hout, ← hbl, tailOk, needed, carried, hb]
    | [b0], _, _, _, hbl, hout =>
      refine ⟨_, rfl, ?_, ?_, ?_⟩ <;> simp [hcl, ← hbl, tailOk, needed, carried, hb, hn16]
    | [b0, b1], _, hdig, hroom, hbl, hout =>
      have e := tail64_eq k hk b0 b1 (hdig _ (by simp)) (hdig _ (by simp))
      rw [← e] at hroom hout
      simp only
      rw [stores_cap _ _ _ hroom]
      refine ⟨_, rfl, ?_, ?_, ?_⟩ <;> simp [hcl, ← hout, ← hbl, tailOk, needed, carried, hb]
    | [b0, b1, b2], _, hdig, hroom, hbl, hout =>
      have e := tail64_eq3 k hk b0 b1 b2 (hdig _ (by simp)) (hdig _ (by simp)) (hdig _ (by simp))
      rw [← e] at hroom hout
      simp only
      rw [stores_cap _ _ _ hroom]
      refine ⟨_, rfl, ?_, ?_, ?_⟩ <;> simp [hcl, ← hout, ← hbl, tailOk, needed, carried, hb]
    | _ :: _ :: _ :: _ :: _, hlen, _, _, _, _ => simp at hlen; omega

theorem decode32_spec (k : Kind) (hk : is32 k) (t : List Byte) (cap ob : Nat)
    (hcap : decodedCount k.toDef t ≤ cap) :
    ∃ r, decode32 k.toDef t ⟨cap, []⟩ ob = .ok r ∧ DecodeSpec k t ob r := by
  have hb : bits k = 5 := hk
  have ⟨hi, ho⟩ := is32_ig hk
  have hf : fullOf k = full32 := by simp [fullOf, hb]
  have hn16 : k ≠ .b16 := by intro h; subst h; exact absurd hk (by simp [is32, bits])
  obtain ⟨buf, out, hloop, hlen, hdig, hroom, hclean⟩ := loop_facts k t cap hcap
  rw [hf, ho] at hloop
  rw [ho] at hlen
  simp only [decode32, hloop, Outcome.ok_bind]
  cases hcl : clean k t with
  | false =>
    refine ⟨⟨-1, some ob, out⟩, by simp, ?_, ?_, ?_⟩ <;> simp [hcl]
  | true =>
    obtain ⟨hbl, hout⟩ := hclean hcl
    rw [hb] at hdig
    simp only [Bool.not_true, Bool.false_eq_true, if_false]
    match buf, hlen, hdig, hroom, hbl, hout with
    | [], _, _, _, hbl, hout =>
      have hz : decGroup k [] = [] := List.eq_nil_of_length_eq_zero (by rw [decGroup_length] <;> simp [carried])
      rw [hz, List.append_nil] at hout
      refine ⟨_, rfl, ?_, ?_, ?_⟩ <;> simp [hcl, hout, ← hbl, tailOk, needed, carried, hb]
    | [b0], _, _, _, hbl, hout =>
      refine ⟨_, rfl, ?_, ?_, ?_⟩ <;> simp [hcl, ← hbl, tailOk, needed, carried, hb, hn16]
    | [b0, b1], _, hdig, hroom, hbl, hout =>
      have e := tail32_eq2 k hk b0 b1 (hdig _ (by simp)) (hdig _ (by simp))
      rw [← e] at hroom hout
      simp only
      rw [stores_cap _ _ _ hroom]
      refine ⟨_, rfl, ?_, ?_, ?_⟩ <;> simp [hcl, ← hout, ← hbl, tailOk, needed, carried, hb]
    | [b0, b1, b2], _, hdig, hroom, hbl, hout =>
      refine ⟨_, rfl, ?_, ?_, ?_⟩ <;> simp [hcl, ← hbl, tailOk, needed, carried, hb, hn16]
    | [b0, b1, b2, b3], _, hdig, hroom, hbl, hout =>
      have e := tail32_eq4 k hk b0 b1 b2 b3 (hdig _ (by simp)) (hdig _ (by simp)) (hdig _ (by simp))
        (hdig _ (by simp))
      rw [← e] at hroom hout
      simp only
      rw [stores_cap _ _ _ hroom]
      refine ⟨_, rfl, ?_, ?_, ?_⟩ <;> simp [hcl, ← hout, ← hbl, tailOk, needed, carried, hb]
    | [b0, b1, b2, b3, b4], _, hdig, hroom, hbl, hout =>
      have e := tail32_eq5 k hk b0 b1 b2 b3 b4 (hdig _ (by simp)) (hdig _ (by simp)) (hdig _ (by simp))
        (hdig _ (by simp)) (hdig _ (by simp))
      rw [← e] at hroom hout
      simp only
      rw [stores_cap _ _ _ hroom]
      refine ⟨_, rfl, ?_, ?_, ?_⟩ <;> simp [hcl, ← hout, ← hbl, tailOk, needed, carried, hb]
    | [b0, b1, b2, b3, b4, b5], _, hdig, hroom, hbl, hout =>
      refine ⟨_, rfl, ?_, ?_, ?_⟩ <;> simp [hcl, ← hbl, tailOk, needed, carried, hb, hn16]
    | [b0, b1, b2, b3, b4, b5, b6], _, hdig, hroom, hbl, hout =>
      have e := tail32_eq7 k hk b0 b1 b2 b3 b4 b5 b6 (hdig _ (by simp)) (hdig _ (by simp)) (hdig _ (by simp))
        (hdig _ (by simp)) (hdig _ (by simp)) (hdig _ (by simp)) (hdig _ (by simp))
      rw [← e] at hroom hout
      simp only
      rw [stores_cap _ _ _ hroom]
      refine ⟨_, rfl, ?_, ?_, ?_⟩ <;> simp [hcl, ← hout, ← hbl, tailOk, needed, carried, hb]
    | _ :: _ :: _ :: _ :: _ :: _ :: _ :: _ :: _, hlen, _, _, _, _ => simp at hlen; omega

theorem decode16_spec (k : Kind) (hk : is16 k) (t : List Byte) (cap ob : Nat)
    (hcap : decodedCount k.toDef t ≤ cap) :
    ∃ r, decode16 k.toDef t ⟨cap, []⟩ ob = .ok r ∧ DecodeSpec k t ob r := by
  have hb : bits k = 4 := hk
  have ⟨hi, ho⟩ := is16_ig hk
  have hf : fullOf k = full16 := by simp [fullOf, hb]
  have hk16 : k = .b16 := by cases k <;> first | rfl | (exact absurd hk (by simp [is16, bits]))
  obtain ⟨buf, out, hloop, hlen, hdig, hroom, hclean⟩ := loop_facts k t cap hcap
  rw [hf, ho] at hloop
  rw [ho] at hlen
  simp only [decode16, hloop, Outcome.ok_bind]
  cases hcl : clean k t with
  | false =>
    refine ⟨⟨-1, some ob, out⟩, by simp, ?_, ?_, ?_⟩ <;> simp [hcl]
  | true =>
    obtain ⟨hbl, hout⟩ := hclean hcl
    have hz : decGroup k buf = [] := by
      apply List.eq_nil_of_length_eq_zero
      rw [decGroup_length k _ (by omega), carried, hb]
      omega
    rw [hz, List.append_nil] at hout
    subst hk16
    refine ⟨⟨0, some out.length, out⟩, by simp, ?_, ?_, ?_⟩ <;> simp [hcl, hout]

theorem decodeDispatch_spec (k : Kind) (t : List Byte) (cap ob : Nat)
    (hcap : decodedCount k.toDef t ≤ cap) :
    ∃ r, decodeDispatch k.toDef t ⟨cap, []⟩ ob = .ok r ∧ DecodeSpec k t ob r := by
  rcases kind_cases k with hk | hk | hk
  · rw [decodeDispatch, base_of64 hk]; exact decode64_spec k hk t cap ob hcap
  · rw [decodeDispatch, base_of32 hk]
    exact decode32_spec k hk t cap ob hcap
  · rw [decodeDispatch, base_of16 hk]
    exact decode16_spec k hk t cap ob hcap

/-! ## Decoding what was encoded -/

theorem digitOf_alpha (k : Kind) (i : Nat) (h : i < 2 ^ bits k) :
    digitOf k ((Spec.alphabet k)[i]?.getD 0) = some i := by
  have key : ∀ k : Kind, ∀ i : Fin (2 ^ bits k),
      k.toDef.alphabet.idxOf? (k.toDef.alphabet[i.val]?.getD 0) = some i.val := by
    intro k; cases k <;> decide +kernel
  have := key k ⟨i, h⟩
  rw [alphabet_eq] at this
  exact this

theorem filterMap_alpha (k : Kind) (ds : List Nat) (h : ∀ d ∈ ds, d < 2 ^ bits k) :
    digitsOf k (ds.map (fun i => (Spec.alphabet k)[i]?.getD 0)) = ds := by
  induction ds with
  | nil => rfl
  | cons d ds ih =>
    simp only [digitsOf, List.map_cons, List.filterMap_cons] at ih ⊢
    rw [digitOf_alpha k d (h d (by simp)), ih (fun x hx => h x (by simp [hx]))]

theorem groupDigits_lt (k : Kind) (g : List Byte) : ∀ d ∈ groupDigits k g, d < 2 ^ bits k := by
  intro d hd
  exact digits_lt _ _ _ (Nat.two_pow_pos _) d (List.mem_of_mem_take hd)

theorem digitsOf_encGroup (k : Kind) (g : List Byte) : digitsOf k (encGroup k g) = groupDigits k g := by
  rw [encGroup]
  show (List.filterMap (digitOf k) _) = _
  rw [List.filterMap_append]
  have h1 := filterMap_alpha k (groupDigits k g) (groupDigits_lt k g)
  rw [digitsOf] at h1
  rw [h1]
  have h2 : List.filterMap (digitOf k) (if padded k then List.replicate (og k - needed k g.length) (ascii "=")[0]! else [])
      = [] := by
    rw [← pad_eq k, pad_eq']
    split
    · rw [List.filterMap_replicate_of_none (digitOf_pad k)]
    · rfl
  rw [h2, List.append_nil]

theorem clean_encGroup (k : Kind) (g : List Byte) : clean k (encGroup k g) = true := by
  rw [clean, encGroup, List.all_append, Bool.and_eq_true]
  constructor
  · rw [List.all_eq_true]
    intro c hc
    simp only [List.mem_map] at hc
    obtain ⟨i, hi, rfl⟩ := hc
    rw [digitOf_alpha k i (groupDigits_lt k g i hi)]; rfl
  · rw [← pad_eq k, pad_eq', List.all_eq_true]
    intro c hc
    split at hc
    · simp at hc; simp [hc.2, ignorable]
    · simp at hc

theorem clean_encode (k : Kind) (bs : List Byte) : clean k (Spec.encode k bs) = true := by
  by_cases hz : bs = []
  · subst hz; rw [encode_nil]; rfl
  · have := ig_pos k
    have : 0 < bs.length := List.length_pos_iff.mpr hz
    rw [encode_step k bs hz]
    have h := clean_encode k (bs.drop (ig k))
    have h2 := clean_encGroup k (bs.take (ig k))
    simp only [clean] at h h2 ⊢
    rw [List.all_append, h, h2]; rfl
termination_by bs.length
decreasing_by simp only [List.length_drop]; omega

theorem groupDigits_length (k : Kind) (g : List Byte) (h : g.length ≤ ig k) :
    (groupDigits k g).length = needed k g.length := by
  have : needed k g.length ≤ og k := by
    cases k <;> simp only [needed, og, bits, ig] at * <;> omega
  simp only [groupDigits, List.length_take, digits_length]; omega

theorem needed_full (k : Kind) : needed k (ig k) = og k := by cases k <;> decide

theorem needed_lt (k : Kind) (r : Nat) (h : r < ig k) : needed k r < og k := by
  cases k <;> simp only [needed, og, bits, ig] at * <;> omega

theorem num_append (B : Nat) (as bs : List Nat) : num B (as ++ bs) = bs.foldl (fun n d => n * B + d) (num B as) := by
  simp [num, List.foldl_append]

theorem num_digits (B k n : Nat) : num B (digits B k n) = n % B ^ k := by
  induction k generalizing n with
  | zero => simp [digits, num, Nat.mod_one]
  | succ k ih =>
    rw [digits, num_append, ih]
    simp only [List.foldl_cons, List.foldl_nil]
    rw [Nat.pow_succ, Nat.mul_comm (B ^ k) B, Nat.mod_mul, Nat.mul_comm, Nat.add_comm]

theorem digits_num (B : Nat) (ds : List Nat) (h : ∀ d ∈ ds, d < B) : digits B ds.length (num B ds) = ds := by
  induction hn : ds.length generalizing ds with
  | zero =>
    have : ds = [] := List.eq_nil_of_length_eq_zero hn
    subst this; rfl
  | succ n ih =>
    have hne : ds ≠ [] := by intro h; subst h; simp at hn
    have e := List.dropLast_concat_getLast hne
    have hlast : ds.getLast hne < B := h _ (List.getLast_mem hne)
    have hnum : num B ds = num B ds.dropLast * B + ds.getLast hne := by
      conv => lhs; rw [← e]
      rw [num_append]; rfl
    rw [digits, hnum, Nat.mul_comm, Nat.mul_add_mod, Nat.mod_eq_of_lt hlast, Nat.mul_add_div (by omega),
      Nat.div_eq_of_lt hlast, Nat.add_zero, ih _ (fun d hd => h d (List.dropLast_subset _ hd)) (by simp [hn])]
    exact e

theorem num_zeros (B : Nat) (as : List Nat) (j : Nat) :
    num B (as ++ List.replicate j 0) = num B as * B ^ j := by
  rw [num_append]
  generalize num B as = n
  induction j generalizing n with
  | zero => simp
  | succ j ih =>
    rw [List.replicate_succ, List.foldl_cons, ih, Nat.pow_succ, Nat.add_zero, Nat.mul_assoc, Nat.mul_comm B]

theorem digits_zeros (B k j n : Nat) (hj : j ≤ k) (hB : 0 < B) (h : n % B ^ j = 0) :
    (digits B k n).take (k - j) ++ List.replicate j 0 = digits B k n := by
  induction j generalizing k n with
  | zero => simp [List.take_of_length_le]
  | succ j ih =>
    cases k with
    | zero => omega
    | succ k =>
      have h1 : n % B = 0 := by
        have := Nat.mod_mul_right_mod n B (B ^ j)
        rw [Nat.pow_succ, Nat.mul_comm] at h
        rw [h] at this; simpa using this.symm
      have h2 : n / B % B ^ j = 0 := by
        rw [Nat.pow_succ, Nat.mul_comm, Nat.mod_mul, h1, Nat.zero_add] at h
        rcases Nat.mul_eq_zero.mp h with h | h
        · omega
        · exact h
      rw [digits, h1, Nat.add_sub_add_right, List.take_append_of_le_length (by simp), List.replicate_succ',
        ← List.append_assoc, ih k (n / B) (by omega) h2]

theorem num_lt (B : Nat) (ds : List Nat) (h : ∀ d ∈ ds, d < B) : num B ds < B ^ ds.length := by
  have h1 := digits_num B ds h
  have h2 := num_digits B ds.length (num B ds)
  rw [h1] at h2
  rw [h2]
  by_cases hB : B = 0
  · cases ds with
    | nil => simp [Nat.mod_one]
    | cons d ds => have := h d (by simp); omega
  · exact Nat.mod_lt _ (Nat.pow_pos (by omega))

theorem group_sizes : ∀ k : Kind, ∀ r : Fin (ig k + 1),
    256 ^ (ig k - r.val) % (2 ^ bits k) ^ (og k - needed k r.val) = 0 ∧
    carried k (needed k r.val) = r.val ∧ needed k r.val ≤ og k := by
  intro k; cases k <;> decide

theorem group_capacity (k : Kind) : (2 ^ bits k) ^ og k = 256 ^ ig k := by cases k <;> decide

/-- Reading back the digits of one group gives the bytes of the group. -/
theorem decGroup_groupDigits (k : Kind) (g : List Byte) (h : g.length ≤ ig k) :
    decGroup k (groupDigits k g) = g := by
  obtain ⟨hs1, hs2, hs3⟩ := group_sizes k ⟨g.length, by omega⟩
  simp only at hs1 hs2 hs3
  have hgl := groupDigits_length k g h
  let full := g.map (·.toNat) ++ List.replicate (ig k - g.length) 0
  have hfl : full.length = ig k := by simp [full]; omega
  have hflt : ∀ d ∈ full, d < 256 := by
    intro d hd
    simp only [full, List.mem_append, List.mem_map, List.mem_replicate] at hd
    rcases hd with ⟨b, _, rfl⟩ | ⟨_, rfl⟩
    · exact toNat_lt b
    · decide
  have hnz : num 256 full % (2 ^ bits k) ^ (og k - needed k g.length) = 0 := by
    show num 256 (g.map (·.toNat) ++ List.replicate (ig k - g.length) 0) % _ = 0
    rw [num_zeros]
    exact Nat.mod_eq_zero_of_dvd (Nat.dvd_trans (Nat.dvd_of_mod_eq_zero hs1) (Nat.dvd_mul_left _ _))
  have hpad : groupDigits k g ++ List.replicate (og k - needed k g.length) 0
      = digits (2 ^ bits k) (og k) (num 256 full) := by
    have := digits_zeros (2 ^ bits k) (og k) (og k - needed k g.length) (num 256 full) (by omega)
      (Nat.two_pow_pos _) hnz
    rw [Nat.sub_sub_self hs3] at this
    exact this
  have hlt := num_lt 256 full hflt
  rw [decGroup, hgl, hpad, num_digits, group_capacity]
  rw [hfl] at hlt
  have hdn := digits_num 256 full hflt
  rw [hfl] at hdn
  rw [Nat.mod_eq_of_lt hlt, hdn, hs2]
  show ((g.map (fun b : Byte => b.toNat) ++ List.replicate (ig k - g.length) 0).take g.length).map UInt8.ofNat = g
  rw [List.take_append_of_le_length (by simp), List.take_of_length_le (by simp), List.map_map]
  conv => rhs; rw [← List.map_id g]
  apply List.map_congr_left
  intro b _
  exact UInt8.ofNat_toNat

theorem tailOk_needed : ∀ k : Kind, ∀ r : Fin (ig k), tailOk k (needed k r.val) = true := by
  intro k; cases k <;> decide

/-- The specification decoder inverts the specification encoder, with a legal number of left-over digits. -/
theorem spec_roundtrip (k : Kind) (bs : List Byte) :
    decDigits k (digitsOf k (Spec.encode k bs)) = bs ∧
    tailOk k ((digitsOf k (Spec.encode k bs)).length % og k) = true := by
  have hip := ig_pos k
  have hop := og_pos k
  by_cases hz : bs = []
  · subst hz; rw [encode_nil]
    refine ⟨by simp [digitsOf, decDigits_nil], ?_⟩
    cases k <;> decide
  · have hpos : 0 < bs.length := List.length_pos_iff.mpr hz
    have hd : digitsOf k (Spec.encode k bs)
        = groupDigits k (bs.take (ig k)) ++ digitsOf k (Spec.encode k (bs.drop (ig k))) := by
      rw [encode_step k bs hz]
      show (List.filterMap (digitOf k) _) = _
      rw [List.filterMap_append, ← digitsOf_encGroup k (bs.take (ig k))]
      rfl
    by_cases hl : bs.length < ig k
    · rw [hd, List.take_of_length_le (by omega), List.drop_eq_nil_of_le (by omega), encode_nil]
      have hgl := groupDigits_length k bs (by omega)
      have hnl := needed_lt k bs.length hl
      simp only [digitsOf, List.filterMap_nil, List.append_nil]
      refine ⟨?_, ?_⟩
      · rw [decDigits_small k _ (by omega), decGroup_groupDigits k bs (by omega)]
      · rw [hgl, Nat.mod_eq_of_lt hnl]
        exact tailOk_needed k ⟨bs.length, hl⟩
    · obtain ⟨ih1, ih2⟩ := spec_roundtrip k (bs.drop (ig k))
      have ht : (bs.take (ig k)).length = ig k := by simp; omega
      have hgl := groupDigits_length k (bs.take (ig k)) (by omega)
      rw [ht, needed_full] at hgl
      rw [hd]
      refine ⟨?_, ?_⟩
      · rw [decDigits_append k _ _ ⟨1, by omega⟩, ih1, decDigits_step k _ (by
          intro h; rw [h] at hgl; simp at hgl; omega), List.take_of_length_le (by omega),
          List.drop_eq_nil_of_le (by omega), decDigits_nil, List.append_nil,
          decGroup_groupDigits k _ (by omega), List.take_append_drop]
      · rw [List.length_append, hgl, Nat.add_mod_left]; exact ih2
termination_by bs.length
decreasing_by simp only [List.length_drop]; omega

end ZT.Base
