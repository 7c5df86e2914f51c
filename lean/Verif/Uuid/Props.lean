import Verif.Uuid.Lemmas

/-!
# Property theorems for zt_uuid (C06, C07, C55, C56)

`Spec.text u f` is the text of the UUID `u` in format `f`, `Spec.len f` its documented length.
-/

namespace ZT.Uuid
open Spec

theorem hex_chars (u : List Byte) : ∀ b ∈ Hex.text u, b ≠ 0 ∧ isSpace b = false ∧ validChars.contains b = true := by
  have key : ∀ n < 16, Hex.digit n ≠ 0 ∧ isSpace (Hex.digit n) = false ∧ validChars.contains (Hex.digit n) = true := by decide +kernel
  intro b hb
  simp only [Hex.text, List.mem_flatMap, List.mem_cons, List.not_mem_nil, or_false] at hb
  obtain ⟨x, _, h | h⟩ := hb
  · rw [h]; exact key _ (by have := x.toNat_lt; omega)
  · rw [h]; exact key _ (by omega)

/-- The five groups of the 32 hex digits. -/
theorem hex_groups (h : List Byte) : h = h.take 8 ++ ((h.drop 8).take 4 ++ ((h.drop 12).take 4 ++ ((h.drop 16).take 4 ++ h.drop 20))) := by
  have e : ∀ (l : List Byte) (a b : Nat), l.drop a = (l.drop a).take b ++ l.drop (a + b) := by
    intro l a b
    rw [← List.drop_drop, List.take_append_drop]
  have h0 := (List.take_append_drop 8 h).symm
  rw [← e h 16 4, ← e h 12 4, ← e h 8 4]; exact h0

theorem snprintf_fits (dst text : List Byte) (size : Nat) (h1 : text.length < size) (h2 : text.length < dst.length) :
    snprintf dst size text = .ok (text ++ 0 :: dst.drop (text.length + 1)) := by
  rw [snprintf, if_neg (by omega)]
  simp only
  rw [List.take_of_length_le (by omega), if_pos (by simp; omega)]
  simp

theorem text_len (u : List Byte) (h : u.length = 16) (f : Fmt) : (text u f).length = len f := by
  have ht : (Hex.text u).length = 32 := by rw [Hex.text_length, h]
  cases f <;> simp [text, len, ht, b62_length]

theorem fillHex (junk u uuids : List Byte) (size : Nat) (f : Fmt) (hf : f = .std ∨ f = .short) (hj : 33 ≤ junk.length) (h : u.length = 16)
    (hs : len f < size) (hb : size ≤ uuids.length) :
    fillInner junk u uuids size f = .ok (len f, text u f ++ 0 :: uuids.drop (len f + 1)) := by
  have hl : (Hex.text u).length = 32 := by rw [Hex.text_length, h]
  have hc := hex_chars u
  have henc := Hex.encode_exact u [] (junk.take 32) 32 (by omega) (by simp; omega)
  rw [List.append_nil, h] at henc
  have hd : (junk.take 32).drop (2 * 16) = [] := by simp
  rw [hd, List.append_nil] at henc
  have hnz : ∀ b ∈ Hex.text u, b ≠ 0 := fun b hb => (hc b hb).1
  have sub : ∀ a b, ∀ x ∈ ((Hex.text u).drop a).take b, x ≠ 0 := fun a b x hx => hnz x (List.mem_of_mem_drop (List.mem_of_mem_take hx))
  have i0 : item 8 (Hex.text u) = .ok ((Hex.text u).take 8) := by
    have := item_spec ((Hex.text u).take 8) ((Hex.text u).drop 8) 8 (by simp [hl]) (fun b hb => hnz b (List.mem_of_mem_take hb))
    rwa [List.take_append_drop] at this
  have ik : ∀ a n, a + n ≤ 32 → item n ((Hex.text u).drop a) = .ok (((Hex.text u).drop a).take n) := by
    intro a n han
    have := item_spec (((Hex.text u).drop a).take n) (((Hex.text u).drop a).drop n) n (by simp [hl]; omega) (sub a n)
    rwa [List.take_append_drop] at this
  have ie := ik 20 12 (by omega)
  have e20 : ((Hex.text u).drop 20).take 12 = (Hex.text u).drop 20 := List.take_of_length_le (by simp [hl])
  rw [e20] at ie
  have hstd : (text u .std).length = 36 := text_len u h .std
  rcases hf with rfl | rfl
  · simp only [fillInner]
    rw [henc, Outcome.ok_bind]
    simp only [Outcome.ok_bind]
    rw [i0, Outcome.ok_bind, ik 8 4 (by omega), Outcome.ok_bind, ik 12 4 (by omega), Outcome.ok_bind, ik 16 4 (by omega), Outcome.ok_bind, ie,
      Outcome.ok_bind]
    simp only [if_true]
    have et : (Hex.text u).take 8 ++ [45] ++ ((Hex.text u).drop 8).take 4 ++ [45] ++ ((Hex.text u).drop 12).take 4 ++ [45] ++ ((Hex.text u).drop 16).take 4 ++ [45] ++ (Hex.text u).drop 20 = text u .std := rfl
    rw [et, snprintf_fits _ _ _ (by rw [hstd]; exact hs) (by rw [hstd]; simp [len] at hs; omega), Outcome.ok_bind, hstd]
    simp [len]
  · simp only [fillInner]
    rw [henc, Outcome.ok_bind]
    simp only [Outcome.ok_bind]
    rw [i0, Outcome.ok_bind, ik 8 4 (by omega), Outcome.ok_bind, ik 12 4 (by omega), Outcome.ok_bind, ik 16 4 (by omega), Outcome.ok_bind, ie,
      Outcome.ok_bind]
    have hg := hex_groups (Hex.text u)
    rw [if_neg (by decide)]
    have et : (Hex.text u).take 8 ++ ((Hex.text u).drop 8).take 4 ++ ((Hex.text u).drop 12).take 4 ++ ((Hex.text u).drop 16).take 4 ++ (Hex.text u).drop 20 = Hex.text u := by
      conv => rhs; rw [hg]
      simp only [List.append_assoc]
    rw [et, snprintf_fits _ _ _ (by rw [hl]; exact hs) (by rw [hl]; simp [len] at hs; omega), Outcome.ok_bind, hl]
    simp [len, text]

theorem split3 (l : List Byte) (h : 23 ≤ l.length) : ∃ a b x r, l = a ++ b ++ x :: r ∧ a.length = 11 ∧ b.length = 11 ∧ l.drop 23 = r := by
  refine ⟨l.take 11, (l.drop 11).take 11, l[22], l.drop 23, ?_, by simp; omega, by simp; omega, rfl⟩
  have e1 : l[22] :: l.drop 23 = l.drop 22 := by simp
  rw [e1, List.append_assoc]
  have : l.drop 22 = (l.drop 11).drop 11 := by simp
  rw [this, List.take_append_drop, List.take_append_drop]

theorem fill62 (junk u uuids : List Byte) (f : Fmt) (hf : f = .base62 ∨ f = .base62hash) (hj : 33 ≤ junk.length) (h : u.length = 16)
    (hb : 23 ≤ uuids.length) :
    fillInner junk u uuids 23 f = .ok (len f, text u f ++ 0 :: uuids.drop (len f + 1)) := by
  obtain ⟨a, b, x, r, hu, ha, hbl, hr⟩ := split3 uuids hb
  have hv1 := beVal_lt (u.take 8) (by simp [h])
  have hv2 := beVal_lt (u.drop 8) (by simp [h])
  rcases hf with rfl | rfl
  · simp only [fillInner]
    rw [if_pos (by omega), gather_lo u h, Outcome.ok_bind, gather_hi u h, Outcome.ok_bind]
    obtain ⟨i, e1⟩ := enc62_spec [] a (b ++ x :: r) _ ha hv1
    rw [show enc62 uuids 0 (beVal (u.take 8)) = enc62 ([] ++ a ++ (b ++ x :: r)) 0 (beVal (u.take 8)) by rw [hu]; simp]
    rw [show ([] : List Byte).length = 0 from rfl] at e1
    rw [e1, Outcome.ok_bind]
    simp only
    obtain ⟨j, e2⟩ := enc62_spec (b62 11 (beVal (u.take 8))) b (x :: r) _ hbl hv2
    rw [b62_length] at e2
    rw [List.nil_append, ← List.append_assoc, e2, Outcome.ok_bind]
    simp only
    rw [wr_lt (by simp [b62_length]; omega), Outcome.ok_bind]
    rw [List.set_append_right _ _ (by simp [b62_length])]
    have hne : uuids.drop (len .base62 + 1) = r := hr
    have hne' : uuids.drop (len .base62hash + 1) = r := hr
    simp only [hne, hne', ← hu]
    simp [b62_length, text, len]
  · simp only [fillInner]
    rw [if_pos (by omega), gather_lo u h, Outcome.ok_bind, gather_hi u h, Outcome.ok_bind]
    obtain ⟨i, e1⟩ := enc62_spec [] (junk.take 11) [] _ (by simp; omega) hv1
    rw [show ([] : List Byte).length = 0 from rfl, List.nil_append, List.append_nil, List.append_nil, List.nil_append] at e1
    rw [e1, Outcome.ok_bind]
    simp only
    have e3 := revCopy_spec (b62 11 (beVal (u.take 8))) [] uuids 11 (by rw [b62_length]; exact Nat.le_refl _) (by omega)
    rw [show ([] : List Byte).length = 0 from rfl, List.nil_append, List.nil_append, List.take_of_length_le (l := b62 11 _) (by rw [b62_length]; exact Nat.le_refl _)] at e3
    rw [e3, Outcome.ok_bind]
    obtain ⟨j, e2⟩ := enc62_spec (b62 11 (beVal (u.take 8))).reverse b (x :: r) _ hbl hv2
    rw [List.length_reverse, b62_length] at e2
    have ed : uuids.drop 11 = b ++ x :: r := by rw [hu, List.append_assoc, List.drop_append_of_le_length (by omega), ← ha]; simp
    rw [ed, ← List.append_assoc, e2, Outcome.ok_bind]
    simp only
    rw [wr_lt (by simp [b62_length]; omega), Outcome.ok_bind]
    rw [List.set_append_right _ _ (by simp [b62_length])]
    have hne : uuids.drop (len .base62 + 1) = r := hr
    have hne' : uuids.drop (len .base62hash + 1) = r := hr
    simp only [hne, hne', ← hu]
    simp [b62_length, text, len]

/-- **C06** Filling: with a buffer of at least length + 1 (hex formats) or exactly 23 (base62 formats) bytes the text, its
NUL and nothing else is written and the length returned. -/
theorem fillstr_exact (junk u buf : List Byte) (size : Nat) (f : Fmt) (hj : 33 ≤ junk.length) (h : u.length = 16)
    (hs : len f < size) (hb : size ≤ buf.length) (h62 : f = .base62 ∨ f = .base62hash → size = 23) :
    fillstr junk (some u) (some buf) size f = .ok ⟨len f, some (text u f ++ 0 :: buf.drop (len f + 1)), size⟩ := by
  have hfs : flagToSize f = len f + 1 := by cases f <;> rfl
  simp only [fillstr]
  rw [if_neg (by omega)]
  have : fillInner junk u buf size f = .ok (len f, text u f ++ 0 :: buf.drop (len f + 1)) := by
    cases f with
    | std => exact fillHex junk u buf size _ (.inl rfl) hj h hs hb
    | short => exact fillHex junk u buf size _ (.inr rfl) hj h hs hb
    | base62 =>
        have := h62 (.inl rfl); subst this
        exact fill62 junk u buf _ (.inl rfl) hj h hb
    | base62hash =>
        have := h62 (.inr rfl); subst this
        exact fill62 junk u buf _ (.inr rfl) hj h hb
  rw [this]; rfl

/-- **C06** Allocation: `zt_uuid_tostr` returns the NUL-terminated text. -/
theorem tostr_exact (junk u : List Byte) (f : Fmt) (hj : 33 ≤ junk.length) (h : u.length = 16) :
    tostr junk u f = .ok (len f, some (text u f ++ [0])) := by
  have : fillInner junk u (List.replicate (flagToSize f) 0) (flagToSize f) f = .ok (len f, text u f ++ [0]) := by
    cases f with
    | std => simpa [flagToSize, len] using fillHex junk u (List.replicate 37 0) 37 _ (.inl rfl) hj h (by decide) (by simp)
    | short => simpa [flagToSize, len] using fillHex junk u (List.replicate 33 0) 33 _ (.inr rfl) hj h (by decide) (by simp)
    | base62 => simpa [flagToSize, len] using fill62 junk u (List.replicate 23 0) _ (.inl rfl) hj h (by simp)
    | base62hash => simpa [flagToSize, len] using fill62 junk u (List.replicate 23 0) _ (.inr rfl) hj h (by simp)
  rw [tostr]
  simp only
  rw [this, Outcome.ok_bind]
  simp only
  rw [if_neg (by cases f <;> decide)]
  rfl

/-- **C06** Size query and refusal: NULL or too small a buffer leaves it alone and reports the needed size. -/
theorem fillstr_query (junk u : List Byte) (buf : Option (List Byte)) (size : Nat) (f : Fmt)
    (h : buf = none ∨ size ≤ len f) : fillstr junk (some u) buf size f = .ok ⟨0, buf, len f + 1⟩ := by
  have hfs : flagToSize f = len f + 1 := by cases f <;> rfl
  rcases h with rfl | h
  · simp [fillstr, hfs]
  · cases buf with
    | none => simp [fillstr, hfs]
    | some b => simp only [fillstr]; rw [if_pos (by omega), hfs]

/-- Violation (C56): a base62 text cannot be written to a buffer larger than 23 bytes, the process is aborted. -/
theorem fillstr_base62_aborts (junk u buf : List Byte) (size : Nat) (f : Fmt) (hf : f = .base62 ∨ f = .base62hash) (hs : 23 < size) :
    fillstr junk (some u) (some buf) size f = .abort := by
  rcases hf with rfl | rfl
  · simp only [fillstr, flagToSize, fillInner]; rw [if_neg (by omega), if_neg (by omega)]; rfl
  · simp only [fillstr, flagToSize, fillInner]; rw [if_neg (by omega), if_neg (by omega)]; rfl

theorem text_nonzero (u : List Byte) (f : Fmt) : ∀ b ∈ text u f, b ≠ 0 := by
  have hc := fun b hb => (hex_chars u b hb).1
  have hm : ∀ n, ∀ b ∈ (Hex.text u).take n, b ≠ 0 := fun n b hb => hc b (List.mem_of_mem_take hb)
  have hd : ∀ a, ∀ b ∈ (Hex.text u).drop a, b ≠ 0 := fun a b hb => hc b (List.mem_of_mem_drop hb)
  have hdm : ∀ a n, ∀ b ∈ ((Hex.text u).drop a).take n, b ≠ 0 := fun a n b hb => hd a b (List.mem_of_mem_take hb)
  have hb62 := fun n v c hc => (b62_mem n v c hc).2
  intro b hb
  cases f with
  | short => exact hc b hb
  | std =>
      simp only [text, List.mem_append, List.mem_singleton] at hb
      rcases hb with (((((((h | h) | h) | h) | h) | h) | h) | h) | h
      · exact hm _ b h
      · subst h; decide
      · exact hdm _ _ b h
      · subst h; decide
      · exact hdm _ _ b h
      · subst h; decide
      · exact hdm _ _ b h
      · subst h; decide
      · exact hd _ b h
  | base62 =>
      simp only [text, List.mem_append] at hb
      rcases hb with h | h <;> exact hb62 _ _ b h
  | base62hash =>
      simp only [text, List.mem_append, List.mem_reverse] at hb
      rcases hb with h | h <;> exact hb62 _ _ b h

theorem scan_std (junk u rest : List Byte) (h : u.length = 16) (hj : junk.length = 33) :
    sscanf [(8, 0), (4, 8), (4, 12), (4, 16), (12, 20)] (text u .std ++ 0 :: rest) junk = .ok (Hex.text u ++ [0]) := by
  have hl : (Hex.text u).length = 32 := by rw [Hex.text_length, h]
  have hc := hex_chars u
  have hg := hex_groups (Hex.text u)
  have hcs : ∀ b ∈ Hex.text u, b ≠ 0 ∧ isSpace b = false := fun b hb => ⟨(hc b hb).1, (hc b hb).2.1⟩
  have et : text u .std = (Hex.text u).take 8 ++ [45] ++ ((Hex.text u).drop 8).take 4 ++ [45] ++ ((Hex.text u).drop 12).take 4 ++ [45] ++ ((Hex.text u).drop 16).take 4 ++ [45] ++ (Hex.text u).drop 20 := rfl
  rw [et]
  generalize Hex.text u = H at *
  have hA : (H.take 8).length = 8 := by simp [hl]
  have hB : ((H.drop 8).take 4).length = 4 := by simp [hl]
  have hC : ((H.drop 12).take 4).length = 4 := by simp [hl]
  have hD : ((H.drop 16).take 4).length = 4 := by simp [hl]
  have hE : (H.drop 20).length = 12 := by simp [hl]
  generalize H.take 8 = A at *
  generalize (H.drop 8).take 4 = B at *
  generalize (H.drop 12).take 4 = C at *
  generalize (H.drop 16).take 4 = D at *
  generalize H.drop 20 = E at *
  subst hg
  have nn : ∀ (l : List Byte) n, l.length = n + 1 → l ≠ [] := by intro l n hl h; simp [h] at hl
  simp only [List.mem_append] at hcs
  have s0 := sscanf_dash 8 0 (4, 8) [(4, 12), (4, 16), (12, 20)] A (B ++ 45 :: (C ++ 45 :: (D ++ 45 :: (E ++ 0 :: rest)))) [] junk hA rfl (nn _ 7 hA)
    (fun b hb => hcs b (.inl hb)) (by omega)
  have s1 := fun J (hJ : J.length = 25) => sscanf_dash 4 8 (4, 12) [(4, 16), (12, 20)] B (C ++ 45 :: (D ++ 45 :: (E ++ 0 :: rest))) A J hB hA (nn _ 3 hB)
    (fun b hb => hcs b (.inr (.inl hb))) (by omega)
  have s2 := fun J (hJ : J.length = 21) => sscanf_dash 4 12 (4, 16) [(12, 20)] C (D ++ 45 :: (E ++ 0 :: rest)) (A ++ B) J hC (by simp [hA, hB]) (nn _ 3 hC)
    (fun b hb => hcs b (.inr (.inr (.inl hb)))) (by omega)
  have s3 := fun J (hJ : J.length = 17) => sscanf_dash 4 16 (12, 20) [] D (E ++ 0 :: rest) (A ++ B ++ C) J hD (by simp [hA, hB, hC]) (nn _ 3 hD)
    (fun b hb => hcs b (.inr (.inr (.inr (.inl hb))))) (by omega)
  have s4 := fun J (hJ : J.length = 13) => sscanf_last 12 20 E (0 :: rest) (A ++ B ++ C ++ D) J hE (by simp [hA, hB, hC, hD]) (nn _ 11 hE)
    (fun b hb => hcs b (.inr (.inr (.inr (.inr hb))))) (by omega)
  have en : A ++ [45] ++ B ++ [45] ++ C ++ [45] ++ D ++ [45] ++ E ++ 0 :: rest = A ++ 45 :: (B ++ 45 :: (C ++ 45 :: (D ++ 45 :: (E ++ 0 :: rest)))) := by simp
  rw [List.nil_append, List.nil_append] at s0
  rw [en, s0, s1 _ (by simp; omega), s2 _ (by simp; omega), s3 _ (by simp; omega), s4 _ (by simp; omega)]
  have : ∀ J : List Byte, J.length = 13 → J.drop 13 = [] := by intro J hJ; exact List.drop_eq_nil_of_le (by omega)
  rw [this _ (by simp; omega)]
  simp

/-- **C06** Parsing the text of a UUID (whatever follows its NUL, whatever the target held) gives the UUID back. -/
theorem fromstr_text (junk u old rest : List Byte) (f : Fmt) (hj : 33 ≤ junk.length) (h : u.length = 16) (ho : old.length = 16) :
    fromstr junk (text u f ++ 0 :: rest) old f = .ok (0, u) := by
  have hl : (Hex.text u).length = 32 := by rw [Hex.text_length, h]
  have hs : strlen (text u f ++ 0 :: rest) = .ok (len f) := by
    rw [strlen_eq _ _ (text_nonzero u f), text_len u h]
  have hdec : ∀ r, Hex.hexToBinary (Hex.text u ++ r) 32 (some old) 16 = .ok (16, some u) := by
    intro r
    have := Hex.decode_exact (Hex.text u) r u old 32 16 (Hex.value_text u) (by omega) (.inl (by omega)) (by omega) (by omega)
    rw [this, h, List.drop_eq_nil_of_le (by omega), List.append_nil]
  have hv1 := beVal_lt (u.take 8) (by simp [h])
  have hv2 := beVal_lt (u.drop 8) (by simp [h])
  have hsp : spread (beVal (u.take 8)) ++ spread (beVal (u.drop 8)) = u := by
    rw [spread_beVal _ (by simp [h]), spread_beVal _ (by simp [h]), List.take_append_drop]
  cases f with
  | std =>
      simp only [fromstr]
      rw [hs, Outcome.ok_bind, if_neg (by simp [len]), scan_std (junk.take 33) u rest h (by simp; omega), Outcome.ok_bind, hdec, Outcome.ok_bind]
  | short =>
      simp only [fromstr]
      rw [hs, Outcome.ok_bind, if_neg (by simp [len]), Sha1.memcpy, if_pos (by simp [text]; omega), Outcome.ok_bind]
      have : (junk.take 33).take 0 ++ ((text u .short ++ 0 :: rest).drop 0).take 32 ++ (junk.take 33).drop (0 + 32) = Hex.text u ++ (junk.take 33).drop 32 := by
        simp [text, hl]
      rw [this, hdec, Outcome.ok_bind]
  | base62 =>
      simp only [fromstr]
      rw [if_neg (by decide)]
      have e : text u .base62 ++ 0 :: rest = b62 11 (beVal (u.take 8)) ++ (b62 11 (beVal (u.drop 8)) ++ 0 :: rest) := by simp [text]
      have e' : (b62 11 (beVal (u.take 8)) ++ (b62 11 (beVal (u.drop 8)) ++ 0 :: rest)).drop 11 = b62 11 (beVal (u.drop 8)) ++ 0 :: rest := by
        rw [List.drop_append_of_le_length (by rw [b62_length]; exact Nat.le_refl _), List.drop_eq_nil_of_le (by rw [b62_length]; exact Nat.le_refl _), List.nil_append]
      rw [e, dec62_b62 _ _ _ hv1 (by omega), Outcome.ok_bind, e']
      simp only
      rw [dec62_b62 _ _ _ hv2 (by omega), Outcome.ok_bind]
      simp only
      rw [hsp]
  | base62hash =>
      simp only [fromstr]
      rw [if_pos trivial]
      have e : text u .base62hash ++ 0 :: rest = (b62 11 (beVal (u.take 8))).reverse ++ (b62 11 (beVal (u.drop 8)) ++ 0 :: rest) := by simp [text]
      have e' : ((b62 11 (beVal (u.take 8))).reverse ++ (b62 11 (beVal (u.drop 8)) ++ 0 :: rest)).drop 11 = b62 11 (beVal (u.drop 8)) ++ 0 :: rest := by
        rw [List.drop_append_of_le_length (by simp [b62_length]), List.drop_eq_nil_of_le (by simp [b62_length]), List.nil_append]
      have et : ((b62 11 (beVal (u.take 8))).reverse ++ (b62 11 (beVal (u.drop 8)) ++ 0 :: rest)).take 11 = (b62 11 (beVal (u.take 8))).reverse := by
        rw [List.take_append_of_le_length (by simp [b62_length]), List.take_of_length_le (by simp [b62_length])]
      rw [e, revRead_spec _ _ (by simp [b62_length]), et, List.reverse_reverse, Outcome.ok_bind]
      have hd := dec62_b62 (beVal (u.take 8)) 11 [] hv1 (by omega)
      rw [List.append_nil] at hd
      rw [hd, Outcome.ok_bind, e']
      simp only
      rw [dec62_b62 _ _ _ hv2 (by omega), Outcome.ok_bind]
      simp only
      rw [hsp]

/-- **C06** Round trip through the allocated string. -/
theorem roundtrip (junk junk' u old : List Byte) (f : Fmt) (hj : 33 ≤ junk.length) (hj' : 33 ≤ junk'.length) (h : u.length = 16) (ho : old.length = 16) :
    ∃ s, tostr junk u f = .ok (len f, some s) ∧ fromstr junk' s old f = .ok (0, u) :=
  ⟨_, tostr_exact junk u f hj h, fromstr_text junk' u old [] f hj' h ho⟩

/-- **C06** Different UUIDs have different texts. -/
theorem text_injective (u v : List Byte) (f : Fmt) (hu : u.length = 16) (hv : v.length = 16) (h : text u f = text v f) : u = v := by
  have h1 := fromstr_text (List.replicate 33 0) u (List.replicate 16 0) [] f (by simp) hu (by simp)
  have h2 := fromstr_text (List.replicate 33 0) v (List.replicate 16 0) [] f (by simp) hv (by simp)
  rw [h, h2] at h1
  simpa using h1.symm

/-! ### validity -/

/-- A character allowed at position `i` of a text in format `f`. -/
def okAt (f : Fmt) (i : Nat) (c : Byte) : Prop :=
  match f with
  | .std => if i ∈ [8, 13, 18, 23] then c = 45 else (Hex.digitVal c).isSome
  | .short => (Hex.digitVal c).isSome
  | _ => ∃ d < 62, c = alpha d

/-- Well-formed text of format `f`. -/
def WellFormed (f : Fmt) (s : List Byte) : Prop :=
  s.length = len f ∧ ∀ i c, s[i]? = some c → okAt f i c

theorem valid_hex (c : Byte) : validChars.contains c = (Hex.digitVal c).isSome := by
  have h : ∀ n < 256, validChars.contains (UInt8.ofNat n) = (Hex.digitVal (UInt8.ofNat n)).isSome := by decide +kernel
  have := h c.toNat c.toNat_lt
  simpa using this

theorem valid_62 (c : Byte) : base62Alphabet.contains c = true ↔ ∃ d < 62, c = alpha d := by
  have h : ∀ n < 256, base62Alphabet.contains (UInt8.ofNat n) = true ↔ ∃ d < 62, UInt8.ofNat n = alpha d := by decide +kernel
  have := h c.toNat c.toNat_lt
  simpa using this

theorem validLoop_spec (f : Fmt) (s rest : List Byte) (i : Nat) :
    validLoop f (s ++ rest) i s.length = .ok 0 ∧ (∀ k c, s[k]? = some c → okAt f (i + k) c) ∨
    validLoop f (s ++ rest) i s.length = .ok (-1) ∧ ¬ (∀ k c, s[k]? = some c → okAt f (i + k) c) := by
  induction s generalizing i with
  | nil => left; exact ⟨by simp [validLoop], by simp⟩
  | cons c cs ih =>
      rw [List.cons_append, List.length_cons, validLoop]
      have key : ∀ g : Bool, (g = true ↔ okAt f i c) →
        ((if g = true then validLoop f (cs ++ rest) (i + 1) cs.length else .ok (-1)) = .ok 0 ∧ (∀ k c', (c :: cs)[k]? = some c' → okAt f (i + k) c') ∨
         (if g = true then validLoop f (cs ++ rest) (i + 1) cs.length else .ok (-1)) = .ok (-1) ∧ ¬ (∀ k c', (c :: cs)[k]? = some c' → okAt f (i + k) c')) := by
        intro g hg
        by_cases hgt : g = true
        · rw [if_pos hgt]
          rcases ih (i + 1) with ⟨h1, h2⟩ | ⟨h1, h2⟩
          · left; refine ⟨h1, ?_⟩
            intro k c' hk
            match k with
            | 0 => simp at hk; subst hk; exact hg.mp hgt
            | k + 1 =>
                have := h2 k c' (by simpa using hk)
                rw [show i + (k + 1) = i + 1 + k by omega]; exact this
          · right; refine ⟨h1, ?_⟩
            intro hall
            apply h2
            intro k c' hk
            have := hall (k + 1) c' (by simpa using hk)
            rw [show i + (k + 1) = i + 1 + k by omega] at this; exact this
        · rw [if_neg hgt]
          right; refine ⟨rfl, ?_⟩
          intro hall
          exact hgt (hg.mpr (hall 0 c (by simp)))
      apply key
      cases f with
      | std =>
          simp only [okAt, goodAt]
          have e : (i = 8 ∨ i = 13 ∨ i = 18 ∨ i = 23) ↔ i ∈ [8, 13, 18, 23] := by simp
          by_cases h : i ∈ [8, 13, 18, 23]
          · rw [if_pos (e.mpr h), if_pos h]; simp
          · rw [if_neg (fun x => h (e.mp x)), if_neg h, valid_hex]
      | short => simp only [okAt, goodAt]; rw [valid_hex]
      | base62 => exact valid_62 c
      | base62hash => exact valid_62 c

/-- **C55** `zt_uuid_isvalid` returns 0 exactly for well-formed texts, -1 for every other NUL-terminated string. -/
theorem isvalid_iff (s rest : List Byte) (f : Fmt) (hz : ∀ b ∈ s, b ≠ 0) :
    (WellFormed f s → isvalid (s ++ 0 :: rest) f = .ok 0) ∧ (¬ WellFormed f s → isvalid (s ++ 0 :: rest) f = .ok (-1)) := by
  have hfs : flagToSize f = len f + 1 := by cases f <;> rfl
  rw [isvalid, strlen_eq _ _ hz, Outcome.ok_bind]
  by_cases hl : s.length = len f
  · rw [if_neg (by omega)]
    have := validLoop_spec f s (0 :: rest) 0
    simp only [Nat.zero_add] at this
    rcases this with ⟨h1, h2⟩ | ⟨h1, h2⟩
    · exact ⟨fun _ => h1, fun h => absurd ⟨hl, h2⟩ h⟩
    · exact ⟨fun h => absurd h.2 h2, fun _ => h1⟩
  · rw [if_pos (by omega)]
    exact ⟨fun h => absurd h.1 hl, fun _ => rfl⟩

theorem hexDigit_some : ∀ n < 16, (Hex.digitVal (Hex.digit n)).isSome = true := by decide +kernel

theorem text_okAt (u : List Byte) (h : u.length = 16) (f : Fmt) : ∀ i c, (text u f)[i]? = some c → okAt f i c := by
  have hl : (Hex.text u).length = 32 := by rw [Hex.text_length, h]
  have hx : ∀ b ∈ Hex.text u, (Hex.digitVal b).isSome = true := by
    intro b hb; rw [← valid_hex]; exact (hex_chars u b hb).2.2
  have h62 : ∀ n v, ∀ b ∈ b62 n v, ∃ d < 62, b = alpha d := by
    intro n v b hb; rw [← valid_62]; simpa using (b62_mem n v b hb).1
  intro i c hi
  have hm := List.mem_of_getElem? hi
  cases f with
  | short => exact hx _ hm
  | base62 =>
      simp only [text, List.mem_append] at hm
      rcases hm with h | h <;> exact h62 _ _ _ h
  | base62hash =>
      simp only [text, List.mem_append, List.mem_reverse] at hm
      rcases hm with h | h <;> exact h62 _ _ _ h
  | std =>
      clear hm
      have hi36 : i < 36 := by
        have := (List.getElem?_eq_some_iff.mp hi).1
        rw [text_len u h] at this; exact this
      have hA : ((Hex.text u).take 8).length = 8 := by simp [hl]
      have hB : (((Hex.text u).drop 8).take 4).length = 4 := by simp [hl]
      have hC : (((Hex.text u).drop 12).take 4).length = 4 := by simp [hl]
      have hD : (((Hex.text u).drop 16).take 4).length = 4 := by simp [hl]
      have hE : ((Hex.text u).drop 20).length = 12 := by simp [hl]
      have cA : ∀ b ∈ (Hex.text u).take 8, (Hex.digitVal b).isSome = true := fun b hb => hx b (List.mem_of_mem_take hb)
      have cB : ∀ b ∈ ((Hex.text u).drop 8).take 4, (Hex.digitVal b).isSome = true := fun b hb => hx b (List.mem_of_mem_drop (List.mem_of_mem_take hb))
      have cC : ∀ b ∈ ((Hex.text u).drop 12).take 4, (Hex.digitVal b).isSome = true := fun b hb => hx b (List.mem_of_mem_drop (List.mem_of_mem_take hb))
      have cD : ∀ b ∈ ((Hex.text u).drop 16).take 4, (Hex.digitVal b).isSome = true := fun b hb => hx b (List.mem_of_mem_drop (List.mem_of_mem_take hb))
      have cE : ∀ b ∈ (Hex.text u).drop 20, (Hex.digitVal b).isSome = true := fun b hb => hx b (List.mem_of_mem_drop hb)
      simp only [text] at hi
      generalize (Hex.text u).take 8 = A at *
      generalize ((Hex.text u).drop 8).take 4 = B at *
      generalize ((Hex.text u).drop 12).take 4 = C at *
      generalize ((Hex.text u).drop 16).take 4 = D at *
      generalize (Hex.text u).drop 20 = E at *
      match A, hA, B, hB, C, hC, D, hD, E, hE with
      | [a0, a1, a2, a3, a4, a5, a6, a7], _, [b0, b1, b2, b3], _, [c0, c1, c2, c3], _, [d0, d1, d2, d3], _,
        [e0, e1, e2, e3, e4, e5, e6, e7, e8, e9, e10, e11], _ =>
        simp only [List.mem_cons, List.not_mem_nil, or_false, forall_eq_or_imp, forall_eq] at cA cB cC cD cE
        obtain ⟨_, _, _, _, _, _, _, _⟩ := cA
        obtain ⟨_, _, _, _⟩ := cB
        obtain ⟨_, _, _, _⟩ := cC
        obtain ⟨_, _, _, _⟩ := cD
        obtain ⟨_, _, _, _, _, _, _, _, _, _, _, _⟩ := cE
        rcases i with _ | _ | _ | _ | _ | _ | _ | _ | _ | _ | _ | _ | _ | _ | _ | _ | _ | _ | _ | _ | _ | _ | _ | _ | _ | _ | _ | _ | _ | _ | _ | _ | _ | _ | _ | _ | i
        all_goals first | omega | (simp at hi; subst hi; simp [okAt]; try assumption)

/-- **C06/C55** The produced text is well-formed: documented length, alphabet characters, dashes where they belong. -/
theorem text_wellFormed (u : List Byte) (h : u.length = 16) (f : Fmt) : WellFormed f (text u f) :=
  ⟨text_len u h f, text_okAt u h f⟩

/-- **C55** Every text the library produces is accepted by its own validity check. -/
theorem isvalid_text (u rest : List Byte) (h : u.length = 16) (f : Fmt) : isvalid (text u f ++ 0 :: rest) f = .ok 0 :=
  (isvalid_iff _ rest f (text_nonzero u f)).1 (text_wellFormed u h f)

/-! ### parsing of malformed text -/

/-- **C55 (part)** A hex-format text of the wrong length is refused with -1 and the target left alone.
Missing: texts of the right length with bad characters (`fromstr_accepts_garbage`) and base62 texts
(`fromstr_base62_short_ub`, `fromstr_base62_wraps`). -/
theorem fromstr_wrong_length_partial (junk s rest old : List Byte) (f : Fmt) (hf : f = .std ∨ f = .short) (hz : ∀ b ∈ s, b ≠ 0)
    (hl : s.length ≠ len f) : fromstr junk (s ++ 0 :: rest) old f = .ok (-1, old) := by
  rcases hf with rfl | rfl
  · simp only [fromstr]; rw [strlen_eq _ _ hz, Outcome.ok_bind]; exact if_pos hl
  · simp only [fromstr]; rw [strlen_eq _ _ hz, Outcome.ok_bind]; exact if_pos hl

/-- Violation of C55: a 32-character text that is not hexadecimal is reported as parsed (return 0), whatever it is,
even when its first character is not a digit so that the target keeps its old bytes. -/
theorem fromstr_accepts_garbage (junk t rest old : List Byte) (c : Byte) (hj : 33 ≤ junk.length) (hz : ∀ b ∈ c :: t, b ≠ 0)
    (hl : t.length = 31) (hc : Hex.digitVal c = none) : fromstr junk (c :: t ++ 0 :: rest) old .short = .ok (0, old) := by
  simp only [fromstr]
  rw [strlen_eq _ _ hz, Outcome.ok_bind, if_neg (by simp [hl]), Sha1.memcpy, if_pos (by simp; omega), Outcome.ok_bind]
  have e : (junk.take 33).take 0 ++ ((c :: t ++ 0 :: rest).drop 0).take 32 ++ (junk.take 33).drop (0 + 32) = c :: (t ++ (junk.take 33).drop 32) := by
    simp [hl]
  rw [e]
  match t, hl with
  | t0 :: ts, _ =>
    have hc0 : c ≠ 0 := hz c (by simp)
    rw [Hex.hexToBinary, List.cons_append, Hex.fromHexLoop, if_pos ⟨by decide, hc0, by decide⟩, Hex.hexToChar_eq, hc, Outcome.ok_bind]

example : Hex.digitVal 122 = none := by decide +kernel

/-- Violation of C55: parsing a base62 text shorter than eleven characters inside a block that ends with its NUL refuses it, but
a text of exactly eleven characters is followed by reads that treat the NUL as a digit: -1. A text whose NUL is missing is read
past its end. -/
theorem fromstr_base62_unterminated (junk old : List Byte) (v : Nat) (hv : v < 2 ^ 64) :
    fromstr junk (b62 11 v) old .base62 = .ub := by
  simp only [fromstr]
  rw [if_neg (by decide)]
  have := dec62_b62 v 11 [] hv (by omega)
  rw [List.append_nil] at this
  rw [this, Outcome.ok_bind]
  simp only
  rw [List.drop_eq_nil_of_le (by rw [b62_length]; exact Nat.le_refl _)]
  rfl

/-- The eleven characters `lYGhA16ahyg` denote 2^64 in base 62. -/
def wrapText : List Byte := b62 11 (2 ^ 64)

/-- Violation of C55: a base62 text denoting a number of 2^64 or more passes `zt_uuid_isvalid` and is parsed as a different
UUID: here `2^64` parses as the same UUID as `0`. -/
theorem fromstr_base62_wraps (junk old rest : List Byte) :
    isvalid (wrapText ++ b62 11 0 ++ 0 :: rest) .base62 = .ok 0 ∧
    fromstr junk (wrapText ++ b62 11 0 ++ 0 :: rest) old .base62 = .ok (0, List.replicate 16 0) ∧
    fromstr junk (b62 11 0 ++ b62 11 0 ++ 0 :: rest) old .base62 = .ok (0, List.replicate 16 0) := by
  have hw : (wrapText).length = 11 := b62_length _ _
  have h62 : ∀ n v, ∀ b ∈ b62 n v, ∃ d < 62, b = alpha d := by
    intro n v b hb; rw [← valid_62]; simpa using (b62_mem n v b hb).1
  have hsp : spread 0 ++ spread 0 = List.replicate 16 0 := by decide +kernel
  refine ⟨(isvalid_iff _ rest _ ?_).1 ⟨?_, ?_⟩, ?_, ?_⟩
  · intro b hb
    rw [List.mem_append] at hb
    rcases hb with h | h <;> exact (b62_mem _ _ b h).2
  · simp [wrapText, b62_length, len]
  · intro i c hi
    have hm := List.mem_of_getElem? hi
    rw [List.mem_append] at hm
    rcases hm with h | h <;> exact h62 _ _ _ h
  · simp only [fromstr]
    rw [if_neg (by decide)]
    have h1 := dec62Loop_spec 11 wrapText (b62 11 0 ++ 0 :: rest) 0 0 (2 ^ 64) (by omega) (value62_b62 11 (2 ^ 64) (by decide)) (by decide)
    rw [hw] at h1
    have h1' : dec62 (wrapText ++ (b62 11 0 ++ 0 :: rest)) 11 = .ok (some 0) := by
      rw [dec62, show (if 11 > 11 then 11 else 11) = 11 from rfl, h1]
    rw [List.append_assoc, h1', Outcome.ok_bind]
    simp only
    have e' : (wrapText ++ (b62 11 0 ++ 0 :: rest)).drop 11 = b62 11 0 ++ 0 :: rest := by
      rw [List.drop_append_of_le_length (by omega), List.drop_eq_nil_of_le (by omega), List.nil_append]
    rw [e', dec62_b62 _ _ _ (by decide) (by omega), Outcome.ok_bind]
    simp only
    rw [hsp]
  · have := fromstr_text (List.replicate 33 0) (List.replicate 16 0) (List.replicate 16 0) rest .base62 (by simp) (by simp) (by simp)
    simp only [fromstr]
    rw [if_neg (by decide)]
    have e' : (b62 11 0 ++ (b62 11 0 ++ 0 :: rest)).drop 11 = b62 11 0 ++ 0 :: rest := by
      rw [List.drop_append_of_le_length (by rw [b62_length]; exact Nat.le_refl _), List.drop_eq_nil_of_le (by rw [b62_length]; exact Nat.le_refl _), List.nil_append]
    rw [List.append_assoc, dec62_b62 _ _ _ (by decide) (by omega), Outcome.ok_bind]
    simp only
    rw [e', dec62_b62 _ _ _ (by decide) (by omega), Outcome.ok_bind]
    simp only
    rw [hsp]

/-! ### version and variant (C07) -/

/-- `v` is `u` with version `ver` and the RFC 4122 variant: bits other than the top nibble of byte 6 and the top two bits of
byte 8 are those of `u`. -/
structure Stamped (ver : Nat) (u v : List Byte) : Prop where
  length : v.length = 16
  version : ∃ b, v[6]? = some b ∧ b.toNat / 16 = ver
  variant : ∃ b, v[8]? = some b ∧ b.toNat / 64 = 2
  lo6 : ∃ a b, u[6]? = some a ∧ v[6]? = some b ∧ b.toNat % 16 = a.toNat % 16
  lo8 : ∃ a b, u[8]? = some a ∧ v[8]? = some b ∧ b.toNat % 64 = a.toNat % 64
  others : ∀ i, i ≠ 6 → i ≠ 8 → v[i]? = u[i]?

theorem stamp_bits6 : ∀ ver < 16, ∀ b < 256, (UInt8.ofNat ((b &&& 0x0F) ||| (ver <<< 4))).toNat / 16 = ver ∧
    (UInt8.ofNat ((b &&& 0x0F) ||| (ver <<< 4))).toNat % 16 = b % 16 := by decide +kernel

theorem stamp_bits8 : ∀ b < 256, (UInt8.ofNat ((b &&& 0x3F) ||| 0x80)).toNat / 64 = 2 ∧
    (UInt8.ofNat ((b &&& 0x3F) ||| 0x80)).toNat % 64 = b % 64 := by decide +kernel

theorem stamp_spec (ver : Nat) (u : List Byte) (hv : ver < 16) (h : u.length = 16) : ∃ v, stamp ver u = .ok v ∧ Stamped ver u v := by
  rw [stamp, rd_lt (by omega), Outcome.ok_bind, wr_lt (by omega), Outcome.ok_bind, rd_lt (by simp; omega), Outcome.ok_bind, wr_lt (by simp; omega)]
  refine ⟨_, rfl, ?_⟩
  have e8 : (u.set 6 (UInt8.ofNat ((u[6].toNat &&& 0x0F) ||| (ver <<< 4))))[8]'(by simp; omega) = u[8] := by simp
  rw [e8]
  clear e8
  have h6 := stamp_bits6 ver hv u[6].toNat u[6].toNat_lt
  have h8 := stamp_bits8 u[8].toNat u[8].toNat_lt
  generalize UInt8.ofNat ((u[6].toNat &&& 0x0F) ||| (ver <<< 4)) = x at *
  generalize UInt8.ofNat ((u[8].toNat &&& 0x3F) ||| 0x80) = y at *
  have g6 : ((u.set 6 x).set 8 y)[6]? = some x := by rw [List.getElem?_set]; simp [h]
  have g8 : ((u.set 6 x).set 8 y)[8]? = some y := by rw [List.getElem?_set]; simp [h]
  have u6 : u[6]? = some u[6] := by simp
  have u8 : u[8]? = some u[8] := by simp
  exact ⟨by simp [h], ⟨x, g6, h6.1⟩, ⟨y, g8, h8.1⟩, ⟨_, x, u6, g6, h6.2⟩, ⟨_, y, u8, g8, h8.2⟩, by
    intro i h6 h8
    rw [List.getElem?_set, if_neg (by omega), List.getElem?_set, if_neg (by omega)]⟩

/-- The random numbers in the memory of the machine: the most significant byte of each first, or last. -/
def randomBytes [Host] (r : List (BitVec 32)) : List Byte :=
  r.flatMap fun v => (List.range 4).map fun i => UInt8.ofNat (v.toNat / 256 ^ (if Host.big then 3 - i else i) % 256)

theorem randomBytes_eq [Host] (r : List (BitVec 32)) : randomBytes r = r.flatMap mem4 := by
  unfold randomBytes
  congr 1; funext v
  by_cases h : (Host.big = true) <;> simp [mem4, le4, h, List.range, List.range.loop]

/-- **C07** For every four random numbers, on either machine: version 4, RFC variant, all other bits random. -/
theorem uuid4_bits [Host] (r0 r1 r2 r3 : BitVec 32) : ∃ v, uuid4 r0 r1 r2 r3 = .ok v ∧ Stamped 4 (randomBytes [r0, r1, r2, r3]) v := by
  have l : ∀ v, (mem4 v).length = 4 := fun v => by unfold mem4; split <;> simp [le4]
  have := stamp_spec 4 (mem4 r0 ++ mem4 r1 ++ mem4 r2 ++ mem4 r3) (by decide) (by simp [l])
  simpa [uuid4, randomBytes_eq] using this

/-- **C07** For every namespace and name below 2^32 - 63 bytes: version 5, RFC variant, all other bits are those of the first 16
bytes of SHA-1(namespace UUID followed by the name). The result does not depend on the indeterminate context. -/
theorem uuid5_bits [Host] (junk value rest : List Byte) (ns : Ns) (hj : junk.length = 64) (hl : value.length < 2 ^ 32 - 63) :
    ∃ v mem, uuid5 junk (value ++ rest) value.length ns = .ok (v, mem) ∧ Stamped 5 ((Sha1.Spec.sha1 (nsBytes ns ++ value)).take 16) v := by
  have hns : (nsBytes ns).length = 16 := by cases ns <;> rfl
  obtain ⟨c1, d1, e1, R1, _⟩ := Sha1.update_spec _ [] (nsBytes ns) [] (Sha1.init_rep junk hj) (by simp [hns]) (by simp [hns])
  obtain ⟨c2, d2, e2, R2, _⟩ := Sha1.update_spec c1 _ value rest R1 (by simp [hns]; omega) (by omega)
  rw [List.append_nil, hns] at e1
  rw [uuid5, e1, Outcome.ok_bind]
  simp only
  rw [e2, Outcome.ok_bind]
  simp only
  rw [Sha1.finalize_spec c2 _ R2, Outcome.ok_bind]
  simp only
  rw [List.nil_append]
  have hd : (Sha1.Spec.sha1 (nsBytes ns ++ value)).length = 20 := Sha1.sha1_length _
  generalize Sha1.Spec.sha1 (nsBytes ns ++ value) = D at *
  rw [Sha1.memcpy, if_pos (by simp; omega), Outcome.ok_bind]
  have e : (List.replicate 16 (0 : Byte)).take 0 ++ (D.drop 0).take 16 ++ (List.replicate 16 0).drop (0 + 16) = D.take 16 := by simp
  rw [e]
  obtain ⟨v, hv, hs⟩ := stamp_spec 5 (D.take 16) (by decide) (by simp [hd])
  rw [hv, Outcome.ok_bind]
  exact ⟨v, _, rfl, hs⟩

/-- **C07** The name-based UUID is a function of namespace and name only: it does not depend on the byte order of the machine either. -/
theorem uuid5_deterministic (H H' : Host) (junk junk' value rest rest' : List Byte) (ns : Ns) (hj : junk.length = 64) (hj' : junk'.length = 64)
    (hl : value.length < 2 ^ 32 - 63) :
    ∃ v mem mem', @uuid5 H junk (value ++ rest) value.length ns = .ok (v, mem) ∧ @uuid5 H' junk' (value ++ rest') value.length ns = .ok (v, mem') := by
  obtain ⟨v, m, e, s⟩ := @uuid5_bits H junk value rest ns hj hl
  obtain ⟨v', m', e', s'⟩ := @uuid5_bits H' junk' value rest' ns hj' hl
  have : v = v' := by
    apply List.ext_getElem?
    intro i
    by_cases h6 : i = 6
    · subst h6
      obtain ⟨b, hb, vb⟩ := s.version
      obtain ⟨b', hb', vb'⟩ := s'.version
      obtain ⟨a, c, ha, hc, hac⟩ := s.lo6
      obtain ⟨a', c', ha', hc', hac'⟩ := s'.lo6
      rw [ha] at ha'; rw [hb] at hc; rw [hb'] at hc'
      simp only [Option.some.injEq] at ha' hc hc'
      subst ha' hc hc'
      rw [hb, hb']
      congr 1
      apply UInt8.toNat_inj.mp
      omega
    · by_cases h8 : i = 8
      · subst h8
        obtain ⟨b, hb, vb⟩ := s.variant
        obtain ⟨b', hb', vb'⟩ := s'.variant
        obtain ⟨a, c, ha, hc, hac⟩ := s.lo8
        obtain ⟨a', c', ha', hc', hac'⟩ := s'.lo8
        rw [ha] at ha'; rw [hb] at hc; rw [hb'] at hc'
        simp only [Option.some.injEq] at ha' hc hc'
        subst ha' hc hc'
        rw [hb, hb']
        congr 1
        apply UInt8.toNat_inj.mp
        omega
      · rw [s.others i h6 h8, s'.others i h6 h8]
  subst this
  exact ⟨v, m, m', e, e'⟩

/-- **C56 (part)** `zt_uuid5` leaves the name unchanged when it is shorter than 112 bytes. Missing: longer names, of which
`zt_sha1_update` overwrites every complete block hashed in place (see C54). -/
theorem uuid5_preserves_name_partial [Host] (junk value rest : List Byte) (ns : Ns) (hj : junk.length = 64) (hl : value.length < 112) :
    ∃ v, uuid5 junk (value ++ rest) value.length ns = .ok (v, value ++ rest) := by
  have hns : (nsBytes ns).length = 16 := by cases ns <;> rfl
  obtain ⟨c1, d1, e1, R1, _⟩ := Sha1.update_spec _ [] (nsBytes ns) [] (Sha1.init_rep junk hj) (by simp [hns]) (by simp [hns])
  obtain ⟨c2, d2, e2, R2, _, _, hd2⟩ := Sha1.update_spec c1 _ value rest R1 (by simp [hns]; omega) (by omega)
  rw [hd2 (by simp [hns]; omega)] at e2
  rw [List.append_nil, hns] at e1
  rw [uuid5, e1, Outcome.ok_bind]
  simp only
  rw [e2, Outcome.ok_bind]
  simp only
  rw [Sha1.finalize_spec c2 _ R2, Outcome.ok_bind]
  simp only
  have hd : (Sha1.Spec.sha1 ([] ++ nsBytes ns ++ value)).length = 20 := Sha1.sha1_length _
  generalize Sha1.Spec.sha1 ([] ++ nsBytes ns ++ value) = D at *
  rw [Sha1.memcpy, if_pos (by simp; omega), Outcome.ok_bind]
  obtain ⟨v, hv, hs⟩ := stamp_spec 5 ((List.replicate 16 (0 : Byte)).take 0 ++ (D.drop 0).take 16 ++ (List.replicate 16 0).drop (0 + 16)) (by decide) (by simp [hd])
  rw [hv, Outcome.ok_bind]
  exact ⟨v, rfl⟩

/-- Violation of C56: what `zt_uuid5` leaves in the caller's name: from byte 48 on every complete 64-byte block is replaced by the
last sixteen words of its message schedule. -/
theorem uuid5_clobbers_name [Host] (junk value rest : List Byte) (ns : Ns) (hj : junk.length = 64) (h1 : 48 ≤ value.length) (hl : value.length < 2 ^ 32 - 63) :
    ∃ v, uuid5 junk (value ++ rest) value.length ns = .ok (v, value.take 48 ++ Sha1.clobber (value.drop 48) ++ rest) := by
  have hns : (nsBytes ns).length = 16 := by cases ns <;> rfl
  obtain ⟨c1, d1, e1, R1, _⟩ := Sha1.update_spec _ [] (nsBytes ns) [] (Sha1.init_rep junk hj) (by simp [hns]) (by simp [hns])
  obtain ⟨c2, d2, e2, R2, _, hd2, _⟩ := Sha1.update_spec c1 _ value rest R1 (by simp [hns]; omega) (by omega)
  rw [if_neg (by simp [hns]; omega)] at hd2
  have h48 : 64 - (([] : List Byte) ++ nsBytes ns).length % 64 = 48 := by simp [hns]
  rw [h48] at hd2
  rw [hd2] at e2
  rw [List.append_nil, hns] at e1
  rw [uuid5, e1, Outcome.ok_bind]
  simp only
  rw [e2, Outcome.ok_bind]
  simp only
  rw [Sha1.finalize_spec c2 _ R2, Outcome.ok_bind]
  simp only
  have hd : (Sha1.Spec.sha1 ([] ++ nsBytes ns ++ value)).length = 20 := Sha1.sha1_length _
  generalize Sha1.Spec.sha1 ([] ++ nsBytes ns ++ value) = D at *
  rw [Sha1.memcpy, if_pos (by simp; omega), Outcome.ok_bind]
  obtain ⟨v, hv, hs⟩ := stamp_spec 5 ((List.replicate 16 (0 : Byte)).take 0 ++ (D.drop 0).take 16 ++ (List.replicate 16 0).drop (0 + 16)) (by decide) (by simp [hd])
  rw [hv, Outcome.ok_bind]
  exact ⟨v, rfl⟩

/-! ### comparison -/

/-- **C06** `zt_uuid_cmp` is 0 exactly for equal UUIDs. -/
theorem cmp_zero_iff (u v : List Byte) (h : u.length = v.length) : cmp u v = 0 ↔ u = v := by
  induction u generalizing v with
  | nil => cases v with
    | nil => simp [cmp]
    | cons => simp at h
  | cons a as ih =>
      cases v with
      | nil => simp at h
      | cons b bs =>
          rw [cmp]
          split
          · rename_i e; subst e; rw [ih bs (by simpa using h)]; simp
          · rename_i e
            constructor
            · intro hh; exact absurd (UInt8.toNat_inj.mp (by omega)) e
            · intro hh; injection hh with h1; exact absurd h1 e

/-- **C06** Its sign is that of the first byte in which they differ, as for memcmp: UUIDs are ordered as their texts are. -/
theorem cmp_sign (p u v : List Byte) (a b : Byte) (h : a < b) : cmp (p ++ a :: u) (p ++ b :: v) < 0 ∧ 0 < cmp (p ++ b :: v) (p ++ a :: u) := by
  induction p with
  | nil =>
      have h' := UInt8.lt_iff_toNat_lt.1 h
      have h1 : a ≠ b := by rintro rfl; omega
      simp only [List.nil_append, cmp]
      rw [if_neg h1, if_neg (Ne.symm h1)]
      omega
  | cons x p ih => simpa [cmp] using ih

example : (nsBytes .dns).length = 16 ∧ WellFormed .short (Hex.text (nsBytes .dns)) :=
  ⟨rfl, text_wellFormed (nsBytes .dns) rfl .short⟩

end ZT.Uuid
