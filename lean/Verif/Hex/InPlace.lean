import Verif.Hex.Props

/-!
# C141: hex conversion within one block

zt_hex_to_binary and zt_binary_to_hex with input and output in the same block `m`: the input at offset `a`, the output at offset `o`.
-/

namespace ZT.Hex

/-! ## Model -/

/-- The loop of zt_cstr.c 859-881 with `hex = m + a + n` and `data = m + o`. -/
def fromMemLoop (hlen dlen a o : Nat) (m : List Byte) (n y : Nat) : Outcome (Nat × List Byte) :=
  if n < hlen then do
    let c0 ← rd m (a + n)
    if c0 ≠ 0 ∧ y < dlen then
      match hexToChar c0 with
      | none => .ok (0, m)
      | some c => do
          let c1 ← rd m (a + n + 1)
          match hexToChar c1 with
          | none => .ok (0, m)
          | some c2 => do
              let m ← wr m (o + y) (UInt8.ofNat ((c <<< 4) ||| (c2 &&& 0xF)))
              fromMemLoop hlen dlen a o m (n + 2) (y + 1)
    else .ok (y, m)
  else .ok (y, m)
termination_by hlen - n

/-- zt_cstr.c 849-883 `zt_hex_to_binary(m + a, hlen, m + o, dlen)`. -/
def hexToBinaryMem (m : List Byte) (a hlen o dlen : Nat) : Outcome (Nat × List Byte) := fromMemLoop hlen dlen a o m 0 0

/-- The loop of zt_cstr.c 810-816 with `data = m + a`, `hex = m + o`. -/
def toMemLoop (dlen hlen a o : Nat) (m : List Byte) (n : Nat) : Outcome (Nat × List Byte) :=
  if n < dlen ∧ n * 2 < hlen then do
    let c ← rd m (a + n)
    let d0 ← rd HEX_DIGITS ((c.toNat >>> 4) &&& 0xF)
    let m ← wr m (o + 2 * n) d0
    let d1 ← rd HEX_DIGITS (c.toNat &&& 0xF)
    let m ← wr m (o + 2 * n + 1) d1
    toMemLoop dlen hlen a o m (n + 1)
  else .ok (n * 2, m)
termination_by dlen - n

/-- zt_cstr.c 805-818 `zt_binary_to_hex(m + a, dlen, m + o, hlen)`. -/
def binaryToHexMem (m : List Byte) (a dlen o hlen : Nat) : Outcome (Nat × List Byte) := toMemLoop dlen hlen a o m 0

/-! ## Specification -/

/-- The block with the part from offset `o` on replaced. -/
def putBack (m : List Byte) (o : Nat) (d : List Byte) : List Byte := m.take o ++ d

/-! ## Proof -/

theorem rd_put {m D : List Byte} {o p k : Nat} (ho : o ≤ m.length) (hD : D.drop k = (m.drop o).drop k) (hp : o + k ≤ p) : rd (putBack m o D) p = rd m p := by
  have h1 : (m.take o).length = o := by simp; omega
  unfold rd putBack
  rw [List.getElem?_append_right (by omega), h1]
  have : D[p - o]? = m[p]? := by
    have h2 := congrArg (fun l => l[p - o - k]?) hD
    simp only [List.getElem?_drop] at h2
    rw [show k + (p - o - k) = p - o by omega, show o + (p - o) = p by omega] at h2
    exact h2
  rw [this]

theorem wr_put {m D : List Byte} {o y : Nat} (b : Byte) (ho : o ≤ m.length) : wr (putBack m o D) (o + y) b = (wr D y b >>= fun D' => .ok (putBack m o D')) := by
  have h1 : (m.take o).length = o := by simp; omega
  unfold wr putBack
  rw [List.length_append, h1]
  by_cases h : y < D.length
  · rw [if_pos (by omega), if_pos h, List.set_append_right _ _ (by omega), h1, show o + y - o = y by omega]; rfl
  · rw [if_neg (by omega), if_neg h]; rfl

theorem fromMem_eq (hlen dlen a o : Nat) (m : List Byte) (ho : o ≤ a) (hom : o ≤ m.length) : ∀ (t : List Byte) (y : Nat) (D : List Byte), t = m.drop (a + 2 * y) → D.drop y = (m.drop o).drop y →
    fromMemLoop hlen dlen a o (putBack m o D) (2 * y) y = (fromHexLoop hlen dlen t (2 * y) y (some D) >>= fun r => .ok (r.1, putBack m o (r.2.getD []))) := by
  intro t
  induction hk : t.length using Nat.strongRecOn generalizing t with
  | _ k ih =>
      intro y D ht hD
      rw [fromMemLoop]
      by_cases hn : 2 * y < hlen
      · rw [if_pos hn, rd_put hom hD (by omega)]
        match t, ht, hk with
        | [], ht, _ =>
            have : m.length ≤ a + 2 * y := by
              have := congrArg List.length ht; simp at this; omega
            rw [rd_ge this]; simp [fromHexLoop, hn]
        | [c0], ht, _ =>
            have e0 : m[a + 2 * y]? = some c0 := by have := congrArg (fun l => l[0]?) ht; simpa using this.symm
            have e1 : m.length ≤ a + 2 * y + 1 := by
              have := congrArg List.length ht; simp at this; omega
            rw [rd_eq_ok.2 e0]
            simp only [Outcome.ok_bind, fromHexLoop, hn, true_and]
            by_cases hc : c0 ≠ 0 ∧ y < dlen
            · rw [if_pos hc, if_pos hc]
              cases hexToChar c0 with
              | none => rfl
              | some c =>
                  simp only
                  rw [rd_put hom hD (by omega), rd_ge e1]; rfl
            · rw [if_neg hc, if_neg hc]; rfl
        | c0 :: c1 :: rest, ht, hk =>
            have e0 : m[a + 2 * y]? = some c0 := by have := congrArg (fun l => l[0]?) ht; simpa using this.symm
            have e1 : m[a + 2 * y + 1]? = some c1 := by have := congrArg (fun l => l[1]?) ht; simpa using this.symm
            have e2 : rest = m.drop (a + 2 * (y + 1)) := by
              have := congrArg (List.drop 2) ht
              simp only [List.drop_drop] at this
              exact this
            rw [rd_eq_ok.2 e0]
            simp only [Outcome.ok_bind, fromHexLoop, hn, true_and]
            by_cases hc : c0 ≠ 0 ∧ y < dlen
            · rw [if_pos hc, if_pos hc]
              cases hexToChar c0 with
              | none => rfl
              | some c =>
                  simp only
                  rw [rd_put hom hD (by omega), rd_eq_ok.2 e1]
                  simp only [Outcome.ok_bind]
                  cases hexToChar c1 with
                  | none => rfl
                  | some c2 =>
                      simp only
                      rw [wr_put _ hom]
                      by_cases hy : y < D.length
                      · rw [wr_lt hy]
                        simp only [Outcome.ok_bind]
                        have := ih rest.length (by simp at hk; omega) rest rfl (y + 1) (D.set y (UInt8.ofNat ((c <<< 4) ||| (c2 &&& 0xF)))) e2 (by
                          have h2 := congrArg (List.drop 1) hD
                          simp only [List.drop_drop] at h2 ⊢
                          rw [List.drop_set_of_lt (by omega), h2, Nat.add_assoc])
                        exact this
                      · rw [wr_ge (by omega)]; rfl
            · rw [if_neg hc, if_neg hc]; rfl
      · rw [if_neg hn]
        match t with
        | [] => simp [fromHexLoop, hn]
        | [c0] => simp [fromHexLoop, hn]
        | c0 :: c1 :: rest => simp [fromHexLoop, hn]

/-- **C141 (decoding, same as with a separate buffer).** With the output at or before the beginning of the text: the result and the bytes written are those of the
call with a separate output buffer (that has the same contents beforehand), for every text, also wrong ones, and all lengths. -/
theorem c141_decode (m : List Byte) (a hlen o dlen : Nat) (ho : o ≤ a) (ha : a ≤ m.length) :
    hexToBinaryMem m a hlen o dlen = (hexToBinary (m.drop a) hlen (some (m.drop o)) dlen >>= fun r => .ok (r.1, putBack m o (r.2.getD []))) := by
  have h := fromMem_eq hlen dlen a o m ho (by omega) (m.drop a) 0 (m.drop o) (by simp) rfl
  have hp : putBack m o (m.drop o) = m := by simp [putBack]
  rw [hp] at h
  exact h

/-- **C141 (round trip in place).** The hex text of any data, anywhere in a block, converted onto its own beginning or any place before it: the data appear there,
the rest of the block is as before. -/
theorem c141_roundtrip (d pre post : List Byte) (o dlen : Nat) (ho : o ≤ pre.length) (hd : d.length ≤ dlen) :
    hexToBinaryMem (pre ++ text d ++ post) pre.length (2 * d.length) o dlen =
      .ok (d.length, (pre ++ text d ++ post).take o ++ d ++ (pre ++ text d ++ post).drop (o + d.length)) := by
  have hl := text_length d
  rw [c141_decode _ _ _ _ _ ho (by simp)]
  rw [List.append_assoc, List.drop_left]
  rw [decode_exact (text d) post d _ (2 * d.length) dlen (value_text d) (by omega) (.inl (by omega)) (by simp; omega) hd]
  simp [putBack]

theorem toMem_eq (dlen hlen a o : Nat) (m : List Byte) (hom : o ≤ m.length) (hlast : o + dlen ≤ a + 1) : ∀ (k n : Nat) (D : List Byte), dlen = n + k → D.drop (2 * n) = (m.drop o).drop (2 * n) →
    toMemLoop dlen hlen a o (putBack m o D) n = (toHexLoop (m.drop a) dlen hlen (some D) n >>= fun r => .ok (r.1, putBack m o (r.2.getD []))) := by
  intro k
  induction k with
  | zero =>
      intro n D hk hD
      rw [toMemLoop, toHexLoop, if_neg (by omega), if_neg (by omega)]; rfl
  | succ k ih =>
      intro n D hk hD
      rw [toMemLoop, toHexLoop]
      by_cases hc : n < dlen ∧ n * 2 < hlen
      · rw [if_pos hc, if_pos hc, rd_put hom hD (by omega)]
        have hrd : rd (m.drop a) n = rd m (a + n) := by unfold rd; rw [List.getElem?_drop]
        rw [hrd]
        cases rd m (a + n) with
        | abort => rfl
        | ub => rfl
        | ok c =>
            simp only [Outcome.ok_bind]
            cases rd HEX_DIGITS ((c.toNat >>> 4) &&& 0xF) with
            | abort => rfl
            | ub => rfl
            | ok d0 =>
                simp only [Outcome.ok_bind]
                rw [wr_put _ hom]
                by_cases h0 : 2 * n < D.length
                · rw [wr_lt h0]
                  simp only [Outcome.ok_bind]
                  cases rd HEX_DIGITS (c.toNat &&& 0xF) with
                  | abort => rfl
                  | ub => rfl
                  | ok d1 =>
                      simp only [Outcome.ok_bind]
                      rw [Nat.add_assoc, wr_put _ hom]
                      by_cases h1 : 2 * n + 1 < (D.set (2 * n) d0).length
                      · rw [wr_lt h1]
                        simp only [Outcome.ok_bind]
                        refine ih (n + 1) _ (by omega) ?_
                        have h2 := congrArg (List.drop 2) hD
                        simp only [List.drop_drop] at h2 ⊢
                        rw [show 2 * (n + 1) = 2 * n + 2 by omega, List.drop_set_of_lt (by omega), List.drop_set_of_lt (by omega), h2, Nat.add_assoc]
                      · rw [wr_ge (by omega)]; rfl
                · rw [wr_ge (by omega)]; rfl
      · rw [if_neg hc, if_neg hc]; rfl

/-- **C141 (encoding, same as with a separate buffer).** If the data begin at least `dlen - 1` bytes behind the output (for instance, at the end of a buffer that has
room for the text), the conversion is that with a separate output buffer. -/
theorem c141_encode (m : List Byte) (a dlen o hlen : Nat) (ho : o ≤ m.length) (hlast : o + dlen ≤ a + 1) :
    binaryToHexMem m a dlen o hlen = (binaryToHex (m.drop a) dlen (some (m.drop o)) hlen >>= fun r => .ok (r.1, putBack m o (r.2.getD []))) := by
  have h := toMem_eq dlen hlen a o m ho hlast dlen 0 (m.drop o) (by omega) rfl
  have hp : putBack m o (m.drop o) = m := by simp [putBack]
  rw [hp] at h
  exact h

/-- **C141 (text of data at the end).** Data that lie at the end of the room for their text, or further behind: the text appears at the beginning, the rest of the
block is as before. -/
theorem c141_encode_end (d mid post : List Byte) (hlen : Nat) (hm : d.length ≤ mid.length + 1) (hh : 2 * d.length ≤ hlen) (hroom : 2 * d.length ≤ mid.length + d.length + post.length) :
    binaryToHexMem (mid ++ d ++ post) mid.length d.length 0 hlen = .ok (2 * d.length, text d ++ (mid ++ d ++ post).drop (2 * d.length)) := by
  rw [c141_encode _ _ _ _ _ (by simp) (by omega), List.append_assoc, List.drop_left, List.drop_zero]
  rw [encode_exact d post _ hlen hh (by simp; omega)]
  simp [putBack]

theorem toMem_step {m : List Byte} {dlen hlen a o n : Nat} (c : Byte) (hc : n < dlen ∧ n * 2 < hlen) (hr : m[a + n]? = some c) (hl : o + 2 * n + 1 < m.length) :
    toMemLoop dlen hlen a o m n = toMemLoop dlen hlen a o ((m.set (o + 2 * n) (digit (c.toNat / 16))).set (o + 2 * n + 1) (digit (c.toNat % 16))) (n + 1) := by
  have hb := c.toNat_lt
  rw [toMemLoop, if_pos hc, rd_eq_ok.2 hr]
  simp only [Outcome.ok_bind]
  rw [nib_hi _ hb, nib_lo, (digit_all (c.toNat / 16) (by omega)).1, (digit_all (c.toNat % 16) (by omega)).1]
  simp only [Outcome.ok_bind]
  rw [wr_lt (by omega)]
  simp only [Outcome.ok_bind]
  rw [wr_lt (by simp; omega)]
  rfl

/-- Violation: data of two bytes converted onto themselves: the second pair of digits is that of the second digit of the first byte. -/
theorem c141_near_violation (x y p q : Byte) :
    binaryToHexMem [x, y, p, q] 0 2 0 4 = .ok (4, text [x, digit (x.toNat % 16)]) ∧ (y ≠ digit (x.toNat % 16) → text [x, digit (x.toNat % 16)] ≠ text [x, y]) := by
  refine ⟨?_, fun h e => h ?_⟩
  · rw [binaryToHexMem, toMem_step x (by omega) rfl (by simp), toMem_step (digit (x.toNat % 16)) (by omega) rfl (by simp), toMemLoop, if_neg (by omega)]
    rfl
  · have := text_injective _ _ e; simp at this; exact this.symm

/-- The hypotheses are met: "dead" onto itself, and its bytes from the end of four. -/
example : hexToBinaryMem ([] ++ text [0xde, 0xad] ++ [0]) 0 4 0 2 = .ok (2, [0xde, 0xad, 97, 100, 0]) := by
  have h := c141_roundtrip [0xde, 0xad] [] [0] 0 2 (by decide) (by decide)
  exact h

example : binaryToHexMem ([1, 2] ++ [0xde, 0xad] ++ [0]) 2 2 0 4 = .ok (4, [100, 101, 97, 100, 0]) := by
  have h := c141_encode_end [0xde, 0xad] [1, 2] [0] 4 (by decide) (by decide) (by decide)
  exact h

end ZT.Hex
