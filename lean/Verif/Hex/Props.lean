import Verif.Hex.Lemmas

/-!
# Property theorems for hex conversion (C05) and SHA-1 digest text (C10)

`text d` is the lower-case hex text of `d`, `value t` the bytes denoted by a digit text (Lemmas.lean, "Specification").
-/

namespace ZT.Hex

/-- **C05** Encoding: with room for two characters per byte the call returns twice the number of bytes and stores
exactly the lower-case hex text, leaving the rest of the buffer alone. -/
theorem encode_exact (d rest buf : List Byte) (hlen : Nat) (hh : 2 * d.length ≤ hlen) (hb : 2 * d.length ≤ buf.length) :
    binaryToHex (d ++ rest) d.length (some buf) hlen =
      .ok (2 * d.length, some (text d ++ buf.drop (2 * d.length))) := by
  simpa [binaryToHex] using toHexLoop_spec [] d rest d.length hlen [] buf (by simp) (by simp) hb hh

example : binaryToHex [0xde, 0xad] 2 (some [0, 0, 0, 0, 9]) 5 = .ok (4, some [100, 101, 97, 100, 9]) :=
  encode_exact [0xde, 0xad] [] [0, 0, 0, 0, 9] 5 (by decide) (by decide)

/-- **C05** Every character of the text is one of `0-9a-f`, and there are two per byte. -/
theorem text_shape (d : List Byte) :
    (text d).length = 2 * d.length ∧ ∀ c ∈ text d, (48 ≤ c ∧ c ≤ 57) ∨ (97 ≤ c ∧ c ≤ 102) := by
  refine ⟨text_length d, ?_⟩
  have key : ∀ n < 16, (48 ≤ digit n ∧ digit n ≤ 57) ∨ (97 ≤ digit n ∧ digit n ≤ 102) := by decide +kernel
  intro c hc
  simp only [text, List.mem_flatMap, List.mem_cons, List.not_mem_nil, or_false] at hc
  obtain ⟨b, _, h | h⟩ := hc
  · rw [h]; exact key _ (by have := b.toNat_lt; omega)
  · rw [h]; exact key _ (by omega)

/-- **C05** Size query: a NULL buffer gives the number of characters. -/
theorem encode_query (d rest : List Byte) (hlen : Nat) (hh : 2 * d.length ≤ hlen) :
    binaryToHex (d ++ rest) d.length none hlen = .ok (2 * d.length, none) :=
  toHexLoop_null _ _ _ _ (by simp) (by simp) hh

/-- **C05** Decoding: a text of hex digits of either case, ended by a NUL or by the given length, stores the bytes it
denotes. -/
theorem decode_exact (t rest bytes buf : List Byte) (hlen dlen : Nat) (hv : value t = some bytes)
    (hl : t.length ≤ hlen) (he : hlen = t.length ∨ rest.head? = some 0)
    (hb : bytes.length ≤ buf.length) (hd : bytes.length ≤ dlen) :
    hexToBinary (t ++ rest) hlen (some buf) dlen =
      .ok (bytes.length, some (bytes ++ buf.drop bytes.length)) := by
  have he' : Ends hlen (0 + t.length) rest := by
    rcases he with h | h
    · exact .atLen _ (by omega)
    · match rest, h with
      | z :: r, h => simp at h; subst h; exact .nul r
  simpa [hexToBinary] using fromHexLoop_valid t rest bytes hlen dlen 0 0 [] buf hv (by omega) he' rfl hb (by omega)

/-- **C05** Round trip: encode, then decode the text, gives back the bytes. -/
theorem roundtrip (d rest buf out : List Byte) (hlen dlen : Nat) (hh : 2 * d.length ≤ hlen)
    (hb : 2 * d.length ≤ buf.length) (ho : d.length ≤ out.length) (hd : d.length ≤ dlen) :
    ∃ buf', binaryToHex (d ++ rest) d.length (some buf) hlen = .ok (2 * d.length, some buf') ∧
      hexToBinary buf' (2 * d.length) (some out) dlen = .ok (d.length, some (d ++ out.drop d.length)) := by
  refine ⟨_, encode_exact d rest buf hlen hh hb, ?_⟩
  have hl := text_length d
  exact decode_exact (text d) _ d out (2 * d.length) dlen (value_text d) (by omega) (.inl (by omega)) ho hd

example : value [100, 69, 97, 68] = some [0xde, 0xad] := by decide +kernel

/-- **C05** Decoding size query. -/
theorem decode_query (t rest bytes : List Byte) (hlen dlen : Nat) (hv : value t = some bytes)
    (hl : t.length ≤ hlen) (he : hlen = t.length ∨ rest.head? = some 0) (hsz : bytes.length < 2 ^ 64) :
    hexToBinary (t ++ rest) hlen none dlen = .ok (bytes.length, none) := by
  have he' : Ends hlen (0 + t.length) rest := by
    rcases he with h | h
    · exact .atLen _ (by omega)
    · match rest, h with
      | z :: r, h => simp at h; subst h; exact .nul r
  simpa [hexToBinary] using fromHexLoop_null t rest bytes hlen (2 ^ 64 - 1) 0 0 hv (by omega) he' (by omega)

/-- **C05** A NUL-terminated text that is not an even number of hex digits is refused with 0 and never reads past the
NUL or writes outside the buffer. -/
theorem decode_refuses (t rest buf : List Byte) (hlen dlen : Nat) (hz : ∀ c ∈ t, c ≠ 0) (hv : value t = none)
    (hl : t.length ≤ hlen) (hb : t.length / 2 ≤ buf.length) (hd : (t.length + 1) / 2 ≤ dlen) :
    ∃ buf', hexToBinary (t ++ 0 :: rest) hlen (some buf) dlen = .ok (0, buf') := by
  simpa [hexToBinary] using fromHexLoop_invalid t (0 :: rest) hlen dlen 0 0 (some buf) hz hv (by omega) (by simp)
    (by simpa using hb) (by omega)

example : value [100, 69, 97] = none ∧ value [103, 48] = none := by decide +kernel

/-- The encoding loop with a buffer of `2k+1` bytes declared as such. -/
theorem toHexLoop_odd (data : List Byte) (dlen k n : Nat) (h : List Byte) (hlen : h.length = 2 * k + 1)
    (hd : dlen ≤ data.length) (hk : k < dlen) (hn : n ≤ k) :
    toHexLoop data dlen (2 * k + 1) (some h) n = .ub := by
  rw [toHexLoop, if_pos (by omega), rd_lt (by omega), Outcome.ok_bind]
  simp only
  have hx := (data[n]'(by omega)).toNat_lt
  rw [nib_hi _ hx, nib_lo, (digit_all _ (by omega)).1, Outcome.ok_bind, wr_lt (by omega), Outcome.ok_bind,
        (digit_all _ (by omega)).1, Outcome.ok_bind]
  by_cases hnk : n = k
  · rw [wr_ge (by simp; omega)]; rfl
  · rw [wr_lt (by simp; omega), Outcome.ok_bind]
    exact toHexLoop_odd data dlen k (n + 1) _ (by simpa using hlen) hd hk (by omega)
termination_by k - n

/-- Violation of the bounded-buffer contract of C05: with an odd `hlen` too small for the data, the call always writes
one byte past the caller's `hlen`-byte buffer. -/
theorem encode_odd_overflow (data buf : List Byte) (dlen k : Nat) (hb : buf.length = 2 * k + 1)
    (hd : dlen ≤ data.length) (hk : k < dlen) :
    binaryToHex data dlen (some buf) (2 * k + 1) = .ub :=
  toHexLoop_odd data dlen k 0 buf hb hd hk (by omega)

/-- **C05** A too small even `hlen` truncates: the first `hlen/2` bytes are written, nothing else. -/
theorem encode_truncates (d rest buf : List Byte) (dlen : Nat) (hd : d.length ≤ dlen) (hb : 2 * d.length ≤ buf.length) :
    binaryToHex (d ++ rest) dlen (some buf) (2 * d.length) =
      .ok (2 * d.length, some (text d ++ buf.drop (2 * d.length))) := by
  have key : ∀ n (o : Option (List Byte)), toHexLoop (d ++ rest) dlen (2 * d.length) o n =
      toHexLoop (d ++ rest) d.length (2 * d.length) o n := by
    intro n
    induction hm : d.length - n generalizing n with
    | zero =>
        intro o
        rw [toHexLoop, if_neg (by omega), toHexLoop, if_neg (by omega)]
    | succ m ih =>
        intro o
        conv => lhs; rw [toHexLoop, if_pos (by omega)]
        conv => rhs; rw [toHexLoop, if_pos (by omega)]
        cases o <;> simp only [ih (n + 1) (by omega)]
  have := encode_exact d rest buf (2 * d.length) (by omega) hb
  rw [binaryToHex] at *
  rw [key, this]

theorem fromHexLoop_safe (hlen dlen : Nat) (hex : List Byte) (n y : Nat) (o : Option (List Byte)) (hz : 0 ∈ hex)
    (ho : ∀ d, o = some d → dlen ≤ d.length) : fromHexLoop hlen dlen hex n y o ≠ .ub := by
  fun_induction fromHexLoop hlen dlen hex n y o with
  | case1 => simp at hz
  | case2 => simp
  | case3 => simp
  | case4 n y o c0 hc c hx => simp at hz; subst hz; simp at hc
  | case5 => simp
  | case6 => simp
  | case7 => simp
  | case8 c0 c1 rest n y hc c hx c2 hx2 d ih =>
      have h1 : c0 ≠ 0 := hc.2.1
      have h2 : c1 ≠ 0 := by rintro rfl; rw [hexToChar_eq, digitVal_zero] at hx2; cases hx2
      have hd := ho d rfl
      have hy := hc.2.2
      rw [wr_lt (by omega), Outcome.ok_bind]
      refine ih _ ?_ ?_
      · simp at hz; rcases hz with h | h | h
        · exact absurd h.symm h1
        · exact absurd h.symm h2
        · exact h
      · intro d' hd'; simp at hd'; subst hd'; simpa using hd
  | case9 c0 c1 rest n y hc c hx c2 hx2 ih =>
      have h1 : c0 ≠ 0 := hc.2.1
      have h2 : c1 ≠ 0 := by rintro rfl; rw [hexToChar_eq, digitVal_zero] at hx2; cases hx2
      refine ih ?_ (by simp)
      simp at hz; rcases hz with h | h | h
      · exact absurd h.symm h1
      · exact absurd h.symm h2
      · exact h
  | case10 => simp

/-- **C53** decoding any NUL-terminated text into a buffer of at least `dlen` bytes is memory safe, for every `hlen`. -/
theorem decode_safe (hex buf : List Byte) (hlen dlen : Nat) (hz : 0 ∈ hex) (hb : dlen ≤ buf.length) :
    hexToBinary hex hlen (some buf) dlen ≠ .ub := by
  apply fromHexLoop_safe
  · exact hz
  · intro d hd; simp at hd; subst hd; exact hb

/-- Outside that: an unterminated text of odd length `hlen` is read one byte past its end. -/
theorem decode_odd_unterminated (buf : List Byte) (h : 1 ≤ buf.length) :
    hexToBinary [49] 1 (some buf) buf.length = .ub := by
  have : hexToChar 49 = some 1 := by decide
  rw [hexToBinary, fromHexLoop.eq_def]
  simp [this]
  intro h0; subst h0; simp at h

/-- **C10** the text of a 20-byte digest is its 40 hex digits; the 41st byte of the buffer is not touched (in
particular no terminating NUL is stored). -/
theorem sha1_tostr (d buf : List Byte) (hd : d.length = 20) (hb : buf.length = 41) :
    sha1ToStr d buf = .ok (text d ++ buf.drop 40) ∧ (text d).length = 40 := by
  have := encode_exact d [] buf 41 (by omega) (by omega)
  rw [List.append_nil, hd] at this
  refine ⟨?_, by rw [text_length, hd]⟩
  rw [sha1ToStr, this]
  rfl

/-- **C10** round trip of every digest through its text. -/
theorem sha1_text_roundtrip (d buf out : List Byte) (hd : d.length = 20) (hb : buf.length = 41) (ho : out.length = 20) :
    ∃ t, sha1ToStr d buf = .ok t ∧ strToSha1 t out = .ok d := by
  refine ⟨_, (sha1_tostr d buf hd hb).1, ?_⟩
  have hl := text_length d
  have := decode_exact (text d) (buf.drop 40) d out 40 20 (value_text d) (by omega) (.inl (by omega)) (by omega) (by omega)
  rw [strToSha1, this]
  simp [hd, ho]

example : (List.replicate 20 (7 : Byte)).length = 20 ∧ (List.replicate 41 (0 : Byte)).length = 41 := by decide

/-- **C10** two different digests never have the same text. -/
theorem text_injective (d e : List Byte) (h : text d = text e) : d = e := by
  have h1 := value_text d
  have h2 := value_text e
  rw [h, h2] at h1
  exact (Option.some.inj h1).symm

end ZT.Hex
