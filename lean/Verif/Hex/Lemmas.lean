import Verif.Hex.Model

namespace ZT.Hex

/-! ## Specification -/

/-- Value of a hex digit character, either case; written out, independent of the code. -/
def digitVal (c : Byte) : Option Nat :=
  (["0", "1", "2", "3", "4", "5", "6", "7", "8", "9", "aA", "bB", "cC", "dD", "eE", "fF"].findIdx? fun s =>
    s.toList.any fun ch => ch.toNat = c.toNat)

/-- Lower-case hex digit of a value below 16. -/
def digit (n : Nat) : Byte := if n < 10 then UInt8.ofNat (48 + n) else UInt8.ofNat (87 + n)

/-- The hex text of a byte string: two lower-case digits per byte, high nibble first. -/
def text (d : List Byte) : List Byte := d.flatMap fun b => [digit (b.toNat / 16), digit (b.toNat % 16)]

/-- The bytes denoted by a text of hex digits: `none` if a character is not a digit or the length is odd. -/
def value : List Byte → Option (List Byte)
  | [] => some []
  | [_] => none
  | a :: b :: rest =>
      match digitVal a, digitVal b, value rest with
      | some x, some y, some r => some (UInt8.ofNat (16 * x + y) :: r)
      | _, _, _ => none

theorem hexToChar_all : ∀ n < 256, hexToChar (UInt8.ofNat n) = digitVal (UInt8.ofNat n) := by decide +kernel

theorem hexToChar_eq (c : Byte) : hexToChar c = digitVal c := by
  have := hexToChar_all c.toNat c.toNat_lt
  simpa using this

theorem digit_all : ∀ n < 16, rd HEX_DIGITS n = .ok (digit n) ∧ hexToChar (digit n) = some n ∧ digit n ≠ 0 := by
  decide +kernel

theorem digitVal_lt_all : ∀ n < 256, ∀ v, digitVal (UInt8.ofNat n) = some v → v < 16 := by
  have h : ∀ n < 256, (digitVal (UInt8.ofNat n)).all (fun v => decide (v < 16)) = true := by decide +kernel
  intro n hn v hv
  have := h n hn
  rw [hv] at this
  simpa using this

theorem digitVal_lt {c : Byte} {v : Nat} (h : digitVal c = some v) : v < 16 := by
  have := digitVal_lt_all c.toNat c.toNat_lt v
  simp only [UInt8.ofNat_toNat] at this
  exact this h

theorem nib_hi (n : Nat) (h : n < 256) : (n >>> 4) &&& 0xF = n / 16 := by
  rw [Nat.shiftRight_eq_div_pow, Nat.and_two_pow_sub_one_eq_mod _ 4]
  simp; omega

theorem nib_lo (n : Nat) : n &&& 0xF = n % 16 := Nat.and_two_pow_sub_one_eq_mod _ 4

theorem join_nib (c c2 : Nat) (h2 : c2 < 16) : (c <<< 4) ||| (c2 &&& 0xF) = 16 * c + c2 := by
  rw [nib_lo, Nat.mod_eq_of_lt h2, Nat.shiftLeft_eq]
  have := Nat.two_pow_add_eq_or_of_lt (i := 4) (b := c2) h2 c
  rw [Nat.mul_comm c, ← this]

theorem text_length (d : List Byte) : (text d).length = 2 * d.length := by
  induction d with
  | nil => rfl
  | cons x xs ih => simp [text] at *; omega

/-- Effect of the encoding loop from iteration `n` on. -/
theorem toHexLoop_spec (pre d rest : List Byte) (dlen hlen : Nat) (hbefore hafter : List Byte)
    (hdl : pre.length + d.length = dlen) (hb : hbefore.length = 2 * pre.length)
    (hroom : hafter.length ≥ 2 * d.length) (hh : hlen ≥ 2 * dlen) :
    toHexLoop (pre ++ d ++ rest) dlen hlen (some (hbefore ++ hafter)) pre.length =
      .ok (2 * dlen, some (hbefore ++ text d ++ hafter.drop (2 * d.length))) := by
  induction d generalizing pre hbefore hafter with
  | nil =>
      rw [toHexLoop]
      simp at hdl
      simp [hdl, text]
      omega
  | cons x xs ih =>
      simp at hdl
      match hafter, hroom with
      | u :: v :: ha, hroom =>
      rw [toHexLoop]
      rw [if_pos (by omega)]
      rw [show pre ++ x :: xs ++ rest = pre ++ x :: (xs ++ rest) by simp, rd_append_right, Outcome.ok_bind]
      simp only
      have hx := x.toNat_lt
      rw [nib_hi _ hx, nib_lo, (digit_all _ (by omega)).1, Outcome.ok_bind, wr_lt (by simp; omega), Outcome.ok_bind,
        (digit_all _ (by omega)).1, Outcome.ok_bind, wr_lt (by simp; omega), Outcome.ok_bind]
      have key := ih (pre ++ [x]) (hbefore ++ [digit (x.toNat / 16), digit (x.toNat % 16)]) ha
        (by simp; omega) (by simp; omega) (by simp at hroom; omega)
      simp only [List.length_append, List.length_cons, List.length_nil] at key
      have e : ((hbefore ++ u :: v :: ha).set (2 * pre.length) (digit (x.toNat / 16))).set (2 * pre.length + 1)
          (digit (x.toNat % 16)) = hbefore ++ [digit (x.toNat / 16), digit (x.toNat % 16)] ++ ha := by
        rw [← hb]
        simp
      rw [e]
      simp only [List.append_assoc, List.cons_append, List.nil_append] at key ⊢
      rw [key]
      have : 2 * (xs.length + 1) = 2 * xs.length + 2 := by omega
      simp [text, this]

theorem toHexLoop_null (data : List Byte) (dlen hlen n : Nat) (hd : dlen ≤ data.length) (hn : n ≤ dlen)
    (hh : hlen ≥ 2 * dlen) :
    toHexLoop data dlen hlen none n = .ok (2 * dlen, none) := by
  rw [toHexLoop]
  split
  · rw [rd_lt (by omega), Outcome.ok_bind]
    exact toHexLoop_null data dlen hlen (n + 1) hd (by omega) hh
  · have : n = dlen := by omega
    subst this; simp [Nat.mul_comm]
termination_by dlen - n

/-- A NUL, or exactly the end of the text that may be read. -/
inductive Ends (hlen n : Nat) : List Byte → Prop
  | atLen (rest) : hlen ≤ n → Ends hlen n rest
  | nul (rest) : Ends hlen n (0 :: rest)

theorem fromHexLoop_end (hlen dlen n y : Nat) (rest : List Byte) (o : Option (List Byte)) (h : Ends hlen n rest) :
    fromHexLoop hlen dlen rest n y o = .ok (y, o) := by
  cases h with
  | atLen _ h =>
    have : ¬ n < hlen := by omega
    match rest with
    | [] => simp [fromHexLoop, this]
    | [c] => simp [fromHexLoop, this]
    | a :: b :: r => rw [fromHexLoop.eq_def]; simp [this]
  | nul r =>
    match r with
    | [] => simp [fromHexLoop]
    | a :: r => rw [fromHexLoop.eq_def]; simp

theorem digitVal_zero : digitVal 0 = none := by decide +kernel

/-- Decoding a valid text. -/
theorem fromHexLoop_valid (t rest bytes : List Byte) (hlen dlen n y : Nat) (done room : List Byte)
    (hv : value t = some bytes) (hl : n + t.length ≤ hlen) (he : Ends hlen (n + t.length) rest)
    (hy : done.length = y) (hr : bytes.length ≤ room.length) (hd : y + bytes.length ≤ dlen) :
    fromHexLoop hlen dlen (t ++ rest) n y (some (done ++ room)) =
      .ok (y + bytes.length, some (done ++ bytes ++ room.drop bytes.length)) := by
  induction t using value.induct generalizing n y done room bytes with
  | case1 =>
      simp [value] at hv; subst hv
      simp at he ⊢
      exact fromHexLoop_end _ _ _ _ _ _ he
  | case2 a => simp [value] at hv
  | case3 a b r x z w hw hz hx ih =>
      simp only [value, hx, hz, hw, Option.some.injEq] at hv
      subst hv
      match room, hr with
      | u :: room, hr =>
      simp at hr hd hl
      have ha : a ≠ 0 := by rintro rfl; rw [digitVal_zero] at hx; cases hx
      rw [List.cons_append, List.cons_append, fromHexLoop, if_pos ⟨by omega, ha, by omega⟩, hexToChar_eq, hx]
      simp only [hexToChar_eq, hz]
      rw [wr_lt (by simp; omega), Outcome.ok_bind, join_nib _ _ (digitVal_lt hz)]
      have e : (done ++ u :: room).set y (UInt8.ofNat (16 * x + z)) = (done ++ [UInt8.ofNat (16 * x + z)]) ++ room := by
        rw [← hy]; simp [List.set_append]
      rw [e]
      have := ih w (n + 2) (y + 1) (done ++ [UInt8.ofNat (16 * x + z)]) room hw (by omega)
        (by simp at he; rwa [show n + 2 + r.length = n + (r.length + 1 + 1) by omega]) (by simp; omega) hr (by omega)
      rw [this]
      simp; omega
  | case4 a b r hno =>
      simp only [value] at hv
      cases hv

theorem fromHexLoop_null (t rest bytes : List Byte) (hlen dlen n y : Nat)
    (hv : value t = some bytes) (hl : n + t.length ≤ hlen) (he : Ends hlen (n + t.length) rest)
    (hd : y + bytes.length ≤ dlen) :
    fromHexLoop hlen dlen (t ++ rest) n y none = .ok (y + bytes.length, none) := by
  induction t using value.induct generalizing n y bytes with
  | case1 =>
      simp [value] at hv; subst hv
      simp at he ⊢
      exact fromHexLoop_end _ _ _ _ _ _ he
  | case2 a => simp [value] at hv
  | case3 a b r x z w hw hz hx ih =>
      simp only [value, hx, hz, hw, Option.some.injEq] at hv
      subst hv
      simp at hd hl
      have ha : a ≠ 0 := by rintro rfl; rw [digitVal_zero] at hx; cases hx
      rw [List.cons_append, List.cons_append, fromHexLoop, if_pos ⟨by omega, ha, by omega⟩, hexToChar_eq, hx]
      simp only [hexToChar_eq, hz]
      rw [ih w (n + 2) (y + 1) hw (by omega)
        (by simp at he; rwa [show n + 2 + r.length = n + (r.length + 1 + 1) by omega]) (by omega)]
      simp; omega
  | case4 a b r hno =>
      simp only [value] at hv
      cases hv

theorem value_text (d : List Byte) : value (text d) = some d := by
  induction d with
  | nil => rfl
  | cons x xs ih =>
      have hx := x.toNat_lt
      have e : text (x :: xs) = digit (x.toNat / 16) :: digit (x.toNat % 16) :: text xs := by simp [text]
      rw [e, value, ← hexToChar_eq, ← hexToChar_eq, (digit_all _ (by omega)).2.1, (digit_all _ (by omega)).2.1, ih]
      simp only [Option.some.injEq, List.cons.injEq, and_true]
      rw [Nat.div_add_mod]; simp

/-- Decoding a text that is not valid: 0, and nothing beyond the block is touched. -/
theorem fromHexLoop_invalid (t rest : List Byte) (hlen dlen n y : Nat) (o : Option (List Byte))
    (hz : ∀ c ∈ t, c ≠ 0) (hv : value t = none) (hl : n + t.length ≤ hlen) (hn : rest.head? = some 0)
    (hroom : ∀ d, o = some d → y + t.length / 2 ≤ d.length) (hd : y + (t.length + 1) / 2 ≤ dlen) :
    ∃ o', fromHexLoop hlen dlen (t ++ rest) n y o = .ok (0, o') := by
  induction t using value.induct generalizing n y o with
  | case1 => simp [value] at hv
  | case2 a =>
      simp at hl hd
      match rest, hn with
      | z :: r, hn =>
      simp at hn; subst hn
      have ha := hz a (by simp)
      rw [List.cons_append, List.nil_append, fromHexLoop, if_pos ⟨by omega, ha, by omega⟩]
      simp only [hexToChar_eq, digitVal_zero]
      split <;> exact ⟨_, rfl⟩
  | case3 a b r x z w hw hz' hx ih => simp [value, hx, hz', hw] at hv
  | case4 a b r hno ih =>
      simp at hl hd hroom
      have ha := hz a (by simp)
      rw [List.cons_append, List.cons_append, fromHexLoop, if_pos ⟨by omega, ha, by omega⟩]
      simp only [hexToChar_eq]
      cases hx : digitVal a with
      | none => exact ⟨_, rfl⟩
      | some x =>
        cases hy : digitVal b with
        | none => exact ⟨_, rfl⟩
        | some y' =>
          have hvr : value r = none := by
            cases hr : value r with
            | none => rfl
            | some w => exact absurd hr (hno x y' w hx hy)
          have hzr : ∀ c ∈ r, c ≠ 0 := fun c hc => hz c (by simp [hc])
          simp only
          cases o with
          | none => exact ih (n + 2) (y + 1) none hzr hvr (by omega) (by simp) (by omega)
          | some d =>
            have hd' := hroom d rfl
            simp only
            rw [wr_lt (by omega), Outcome.ok_bind]
            exact ih (n + 2) (y + 1) _ hzr hvr (by omega) (by intro d' hd'; simp at hd'; subst hd'; simp; omega) (by omega)

end ZT.Hex
