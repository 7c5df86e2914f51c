import Verif.Base.DecMain

/-!
# Property theorems for zt_base (C01-C04)

`Kind` ranges over the six shipped definitions; `encode`/`decode` are the models of `zt_base_encode` and
`zt_base_decode`. The specification is `Spec.encode` (RFC 4648). A caller's buffer is `.buf size` with its
real size, and the value passed in `*out_bytes` is at most that size.
-/

namespace ZT.Base

open Spec

/-- **C02** For every byte string, encoding and buffer: `zt_base_encode` never has undefined behaviour; it
sets `*out_bytes` to the RFC length; if the announced size is smaller it returns -2 and stores nothing;
otherwise it returns 0 and stores exactly the RFC 4648 text. -/
theorem encode_buf (k : Kind) (data : List Byte) (size n : Nat) (h : n ≤ size) :
    encode k.toDef (some data) (.buf size) (some n) =
      .ok (if n < encodedLen k data.length then ⟨-2, some (encodedLen k data.length), []⟩
           else ⟨0, some (encodedLen k data.length), Spec.encode k data⟩) := by
  rw [encode.eq_def, valid_eq]
  cases data with
  | nil => simp [encodedLen, needed, encode_nil]; cases k <;> simp [ig, bits]
  | cons b bs => simpa using encodeInto_eq k (b :: bs) size n h

example : (4 : Nat) ≤ 8 := by decide
example : encode Kind.b64.toDef (some (ascii "fo")) (.buf 8) (some 4) = .ok ⟨0, some 4, ascii "Zm8="⟩ := by
  decide +kernel

/-- **C02** With a NULL result pointer (automatic allocation, `*out_bytes == 0`) the code allocates exactly
the needed space and stores the RFC text. -/
theorem encode_alloc (k : Kind) (data : List Byte) :
    encode k.toDef (some data) .ptrNull (some 0) =
      .ok ⟨0, some (encodedLen k data.length), Spec.encode k data⟩ := by
  rw [encode.eq_def, valid_eq]
  cases data with
  | nil => simp [encodedLen, needed, encode_nil]; cases k <;> simp [ig, bits]
  | cons b bs =>
    have := encodeInto_eq k (b :: bs) (encodedLen k (b :: bs).length) (encodedLen k (b :: bs).length)
      (Nat.le_refl _)
    simp only [Nat.lt_irrefl, if_false] at this
    simpa [encodedCount_eq] using this

/-- **C02** Size query (`out == NULL`): reports the size of the text and stores nothing. The return code is
0 if the announced size suffices and -2 otherwise. -/
theorem encode_query (k : Kind) (data : List Byte) (n : Nat) :
    encode k.toDef (some data) .null (some n) =
      .ok ⟨if n < encodedLen k data.length then -2 else 0, some (encodedLen k data.length), []⟩ := by
  rw [encode.eq_def, valid_eq]
  cases data with
  | nil => simp [encodedLen, needed]; cases k <;> simp [ig, bits]
  | cons b bs => simp [encodedCount_eq]; split <;> rfl

/-- **C02** The text has the standard length ... -/
theorem encode_length (k : Kind) (data : List Byte) :
    (Spec.encode k data).length = encodedLen k data.length := spec_length k data

/-- **C02** ... and every character is in the alphabet or is `=`. -/
theorem encode_chars (k : Kind) (data : List Byte) :
    ∀ c ∈ Spec.encode k data, c ∈ Spec.alphabet k ∨ c = 61 := by
  by_cases hz : data = []
  · subst hz; simp [encode_nil]
  · intro c hc
    have hip := ig_pos k
    have : 0 < data.length := List.length_pos_iff.mpr hz
    rw [encode_step k data hz, List.mem_append] at hc
    rcases hc with hc | hc
    · rw [encGroup, List.mem_append] at hc
      rcases hc with hc | hc
      · simp only [List.mem_map] at hc
        obtain ⟨i, hi, rfl⟩ := hc
        have hl := groupDigits_lt k _ i hi
        rw [← alphabet_len] at hl
        left; simp [List.getElem?_eq_getElem hl]
      · right
        rw [← pad_eq k, pad_eq'] at hc
        split at hc <;> simp at hc
        exact hc.2
    · exact encode_chars k _ c hc
termination_by data.length
decreasing_by simp only [List.length_drop]; omega

/-- **C03** Whatever the text, `zt_base_decode` into a caller buffer whose real size is exactly the announced
`*out_bytes` has no undefined behaviour: no store leaves the buffer and no table read is out of range. -/
theorem decode_safe (k : Kind) (text : Option (List Byte)) (n : Nat) :
    ∃ r, decode k.toDef text (.buf n) (some n) = .ok r := by
  rw [decode.eq_def, valid_eq]
  match text with
  | none => exact ⟨_, rfl⟩
  | some [] => exact ⟨_, rfl⟩
  | some (c :: cs) =>
    simp only [Bool.not_true, Bool.false_eq_true, if_false]
    split
    · exact ⟨_, rfl⟩
    · obtain ⟨r, hr, _⟩ := decodeDispatch_spec k (c :: cs) n n (by omega)
      exact ⟨r, hr⟩

/-- **C03** The automatically allocated buffer is always large enough. -/
theorem decode_alloc_safe (k : Kind) (text : Option (List Byte)) :
    ∃ r, decode k.toDef text .ptrNull (some 0) = .ok r := by
  rw [decode.eq_def, valid_eq]
  match text with
  | none => exact ⟨_, rfl⟩
  | some [] => exact ⟨_, rfl⟩
  | some (c :: cs) =>
    obtain ⟨r, hr, _⟩ := decodeDispatch_spec k (c :: cs) (decodedCount k.toDef (c :: cs) + 1)
      (decodedCount k.toDef (c :: cs)) (by omega)
    exact ⟨r, by simpa using hr⟩

/-- Finding (outside C03's precondition "non-NULL buffer"): a NULL buffer pointer together with a non-zero
`*out_bytes` — a size query in `zt_base_encode` — makes `zt_base_decode` write through NULL. -/
theorem decode_null_buffer_ub :
    decode Kind.b64.toDef (some (ascii "QUJD")) .ptrNull (some 3) = .ub := by decide +kernel

/-- **C04** A text with a foreign character is refused with -1 (whenever the buffer passes the size check;
with the automatic allocation that is always). -/
theorem decode_foreign (k : Kind) (text : List Byte) (c : Byte) (hc : c ∈ text)
    (hf : c ∉ Spec.alphabet k) (hi : c ≠ 9 ∧ c ≠ 10 ∧ c ≠ 13 ∧ c ≠ 32 ∧ c ≠ 61) :
    (∃ r, decode k.toDef (some text) .ptrNull (some 0) = .ok r ∧ r.code = -1) ∧
    (∀ size n, n ≤ size → ∃ r, decode k.toDef (some text) (.buf size) (some n) = .ok r ∧
      (r.code = -1 ∨ r.code = -2 ∧ n < decodedCount k.toDef text)) := by
  have hcl : clean k text = false := by
    rw [clean, Bool.eq_false_iff]
    intro h
    rw [List.all_eq_true] at h
    have := h c hc
    have hn : digitOf k c = none := by
      rw [digitOf, List.idxOf?_eq_none_iff]; exact hf
    rw [hn] at this
    simp [ignorable, hi] at this
  match text with
  | [] => simp at hc
  | c :: cs =>
    constructor
    · obtain ⟨r, hr, hs⟩ := decodeDispatch_spec k (c :: cs) (decodedCount k.toDef (c :: cs) + 1)
        (decodedCount k.toDef (c :: cs)) (by omega)
      exact ⟨r, by rw [decode.eq_def, valid_eq]; simpa using hr, hs.foreign hcl⟩
    · intro size n hn
      by_cases hlt : n < decodedCount k.toDef (c :: cs)
      · exact ⟨⟨-2, some (decodedCount k.toDef (c :: cs)), []⟩, by rw [decode.eq_def, valid_eq]; simp [hlt],
          Or.inr ⟨rfl, hlt⟩⟩
      · obtain ⟨r, hr, hs⟩ := decodeDispatch_spec k (c :: cs) size n (by omega)
        exact ⟨r, by rw [decode.eq_def, valid_eq]; simpa [hlt] using hr, Or.inl (hs.foreign hcl)⟩

example : (33 : Byte) ∈ ascii "QU!D" ∧ (33 : Byte) ∉ Spec.alphabet .b64 := by decide +kernel

/-- **C04** What a text of alphabet characters, `=` and whitespace decodes to is determined by its digit
characters alone: two texts with the same digits get the same code and the same bytes (automatic
allocation); in particular inserting or removing whitespace changes nothing. -/
theorem decode_ignores_whitespace (k : Kind) (t u : List Byte)
    (ht : clean k t = true) (hu : clean k u = true) (hd : digitsOf k t = digitsOf k u)
    (ht0 : t ≠ []) (hu0 : u ≠ []) :
    ∃ r s, decode k.toDef (some t) .ptrNull (some 0) = .ok r ∧
      decode k.toDef (some u) .ptrNull (some 0) = .ok s ∧
      r.code = s.code ∧ (r.code = 0 → r = s) := by
  have key : ∀ v : List Byte, v ≠ [] → clean k v = true →
      ∃ r, decode k.toDef (some v) .ptrNull (some 0) = .ok r ∧
        DecodeSpec k v (decodedCount k.toDef v) r := by
    intro v hv _
    match v, hv with
    | c :: cs, _ =>
      obtain ⟨r, hr, hs⟩ := decodeDispatch_spec k (c :: cs) (decodedCount k.toDef (c :: cs) + 1)
        (decodedCount k.toDef (c :: cs)) (by omega)
      exact ⟨r, by rw [decode.eq_def, valid_eq]; simpa using hr, hs⟩
  obtain ⟨r, hr, hrs⟩ := key t ht0 ht
  obtain ⟨s, hs, hss⟩ := key u hu0 hu
  refine ⟨r, s, hr, hs, ?_⟩
  by_cases htail : tailOk k ((digitsOf k t).length % og k) = true ∨ k = .b16
  · have e1 := hrs.good ht htail
    have e2 := hss.good hu (by rw [← hd]; exact htail)
    rw [e1, e2, hd]; simp
  · rw [not_or] at htail
    have hf : tailOk k ((digitsOf k t).length % og k) = false := by simpa using htail.1
    have c1 := hrs.badTail ht hf htail.2
    have c2 := hss.badTail hu (by rw [← hd]; exact hf) htail.2
    rw [c1, c2]; simp

/-- Inserting whitespace preserves the hypotheses of `decode_ignores_whitespace`. -/
theorem digitsOf_insert (k : Kind) (a b : List Byte) (w : Byte) (hw : w = 9 ∨ w = 10 ∨ w = 13 ∨ w = 32) :
    digitsOf k (a ++ w :: b) = digitsOf k (a ++ b) ∧ clean k (a ++ w :: b) = clean k (a ++ b) := by
  have h1 : digitOf k w = none := by
    rcases hw with rfl | rfl | rfl | rfl <;> cases k <;> decide +kernel
  have h2 : ignorable w = true := by
    rcases hw with rfl | rfl | rfl | rfl <;> decide
  constructor
  · simp [digitsOf, h1]
  · simp [clean, h1, h2]

example : clean .b32 (ascii "MZ\n XW6===") = true ∧
    digitsOf .b32 (ascii "MZ\n XW6===") = digitsOf .b32 (ascii "MZXW6===") := by decide +kernel

/-- **C01** Round trip with automatic allocation on the decoding side. -/
theorem roundtrip_alloc (k : Kind) (data : List Byte) (size n : Nat) (h : n ≤ size)
    (hn : encodedLen k data.length ≤ n) :
    ∃ text, encode k.toDef (some data) (.buf size) (some n) = .ok ⟨0, some text.length, text⟩ ∧
      decode k.toDef (some text) .ptrNull (some 0) = .ok ⟨0, some data.length, data⟩ := by
  refine ⟨Spec.encode k data, ?_, ?_⟩
  · rw [encode_buf k data size n h, if_neg (by omega), spec_length]
  · obtain ⟨h1, h2⟩ := spec_roundtrip k data
    generalize hT : Spec.encode k data = T at *
    match T with
    | [] =>
      have : data = [] := by rw [← h1]; simp [digitsOf, decDigits_nil]
      subst this
      rw [decode.eq_def, valid_eq]; rfl
    | c :: cs =>
      obtain ⟨r, hr, hs⟩ := decodeDispatch_spec k (c :: cs) (decodedCount k.toDef (c :: cs) + 1)
        (decodedCount k.toDef (c :: cs)) (by omega)
      have hg := hs.good (by rw [← hT]; exact clean_encode k data) (Or.inl h2)
      rw [h1] at hg
      rw [decode.eq_def, valid_eq]
      simp only [Bool.not_true, Bool.false_eq_true, if_false, if_true]
      rw [hr, hg]

/-- Upper bound on the room the decoder insists on for an encoded text. -/
theorem decodedCount_encode (k : Kind) (data : List Byte) :
    decodedCount k.toDef (Spec.encode k data) ≤ (encodedLen k data.length) / og k * ig k +
      og k := by
  simp only [decodedCount, ogroups_eq, igroups_eq, pad_eq', spec_length]
  generalize stripLoop 61 (Spec.encode k data).reverse 0 = i
  cases k <;> simp only [og, ig] <;> omega

/-- **C01** Round trip into a caller-supplied buffer: a buffer of `data.length` rounded up to a whole number
of groups plus one group of slack always passes the decoder's size check and receives exactly the data. -/
theorem roundtrip_buf (k : Kind) (data : List Byte) (size n dsize m : Nat) (h : n ≤ size)
    (hn : encodedLen k data.length ≤ n) (hd : m ≤ dsize) (hm : data.length + 2 * og k ≤ m) :
    ∃ text, encode k.toDef (some data) (.buf size) (some n) = .ok ⟨0, some text.length, text⟩ ∧
      decode k.toDef (some text) (.buf dsize) (some m) = .ok ⟨0, some data.length, data⟩ := by
  refine ⟨Spec.encode k data, ?_, ?_⟩
  · rw [encode_buf k data size n h, if_neg (by omega), spec_length]
  · have hcnt := decodedCount_encode k data
    have hle : decodedCount k.toDef (Spec.encode k data) ≤ m := by
      refine Nat.le_trans hcnt ?_
      cases k <;> simp only [encodedLen, padded, og, ig, needed, bits] at * <;> simp <;> omega
    obtain ⟨h1, h2⟩ := spec_roundtrip k data
    generalize hT : Spec.encode k data = T at *
    match T with
    | [] =>
      have : data = [] := by rw [← h1]; simp [digitsOf, decDigits_nil]
      subst this
      rw [decode.eq_def, valid_eq]; rfl
    | c :: cs =>
      obtain ⟨r, hr, hs⟩ := decodeDispatch_spec k (c :: cs) dsize m (by omega)
      have hg := hs.good (by rw [← hT]; exact clean_encode k data) (Or.inl h2)
      rw [h1] at hg
      rw [decode.eq_def, valid_eq]
      simp only [Bool.not_true, Bool.false_eq_true, if_false]
      rw [if_neg (by omega), hr, hg]

example : encodedLen .b32 3 ≤ 8 ∧ (3 : Nat) + 2 * og .b32 ≤ 19 := by decide

/-- **C01** The size reported by the size query (`out == NULL`) always suffices for decoding. -/
theorem roundtrip_query (k : Kind) (data : List Byte) (hd : data ≠ []) :
    ∃ room, decode k.toDef (some (Spec.encode k data)) .null (some 0) = .ok ⟨0, some room, []⟩ ∧
      decode k.toDef (some (Spec.encode k data)) (.buf room) (some room) = .ok ⟨0, some data.length, data⟩ := by
  refine ⟨decodedCount k.toDef (Spec.encode k data), ?_, ?_⟩
  · have : Spec.encode k data ≠ [] := by
      intro h
      have h1 := (spec_roundtrip k data).1
      rw [h] at h1
      exact hd (by rw [← h1]; simp [digitsOf, decDigits_nil])
    generalize hT : Spec.encode k data = T at *
    match T, this with
    | c :: cs, _ => rw [decode.eq_def, valid_eq]; simp
  · obtain ⟨h1, h2⟩ := spec_roundtrip k data
    generalize hT : Spec.encode k data = T at *
    match T with
    | [] =>
      have : data = [] := by rw [← h1]; simp [digitsOf, decDigits_nil]
      exact absurd this hd
    | c :: cs =>
      obtain ⟨r, hr, hs⟩ := decodeDispatch_spec k (c :: cs) (decodedCount k.toDef (c :: cs))
        (decodedCount k.toDef (c :: cs)) (by omega)
      have hg := hs.good (by rw [← hT]; exact clean_encode k data) (Or.inl h2)
      rw [h1] at hg
      rw [decode.eq_def, valid_eq]
      simp only [Bool.not_true, Bool.false_eq_true, if_false]
      rw [if_neg (by omega), hr, hg]

/-- The groups of a definition fit: as many bits on both sides, and at most as many bytes as a word of 64 bits holds. -/
def Fitting (d : Def) : Prop := 8 * d.igroups = d.ogroups * d.obits ∧ d.igroups ≤ 8

/-- C02: a definition, the caller's own included, is used exactly if its groups fit; every other call is refused with -1 and leaves the size and the output alone. -/
theorem definition_refused (d : Def) (inp : Option (List Byte)) (out : OutArg) (n : Option Nat) (h : ¬ Fitting d) :
    encode d inp out n = .ok ⟨-1, n, []⟩ ∧ decode d inp out n = .ok ⟨-1, n, []⟩ := by
  have : validDictionary d = false := by
    unfold Fitting at h
    by_cases h1 : 8 * d.igroups = d.ogroups * d.obits
    · have : d.igroups > 8 := by omega
      simp [validDictionary, this]
    · simp [validDictionary, h1]
  simp [encode, decode, this]

/-- C02: with a definition that fits, a call without room for the size is refused, and no input is encoded and decoded as nothing. -/
theorem definition_used (d : Def) (inp : Option (List Byte)) (out : OutArg) (n : Nat) (h : Fitting d) :
    encode d inp out none = .ok ⟨-1, none, []⟩ ∧ decode d inp out none = .ok ⟨-1, none, []⟩ ∧
    encode d none out (some n) = .ok ⟨0, some 0, []⟩ ∧ decode d none out (some n) = .ok ⟨0, some 0, []⟩ ∧
    encode d (some []) out (some n) = .ok ⟨0, some 0, []⟩ ∧ decode d (some []) out (some n) = .ok ⟨0, some 0, []⟩ := by
  have : validDictionary d = true := by
    have h2 : ¬ d.igroups > 8 := by have := h.2; omega
    simp [validDictionary, h.1, h2]
  simp [encode, decode, this]

example (k : Kind) : Fitting k.toDef := by cases k <;> exact ⟨by decide, by decide⟩

/-- Finding: a buffer of exactly the decoded size can be refused with -2, because the size check counts each
left-over digit as a byte ("QQ==" decodes to one byte, yet two are demanded). -/
theorem decode_exact_buffer_refused :
    decode Kind.b64.toDef (some (ascii "QQ==")) (.buf 1) (some 1) = .ok ⟨-2, some 2, []⟩ := by decide +kernel

/-- Finding: an odd number of base16 digits is accepted and the last digit silently dropped. -/
theorem decode16_odd_accepted :
    decode Kind.b16.toDef (some (ascii "414")) (.buf 9) (some 9) = .ok ⟨0, some 1, [0x41]⟩ := by decide +kernel

end ZT.Base
