import Verif.Format.Clib

/-!
# The texts of doubles: rounding, digits, lengths
-/

namespace ZT.Format.Clib

/-- `n` is nearest to `a / b`, and even if there are two such numbers. -/
def Nearest (a b n : Nat) : Prop := 2 * a ≤ (2 * n + 1) * b ∧ 2 * n * b ≤ 2 * a + b ∧ (2 * a = (2 * n + 1) * b → n % 2 = 0) ∧ (2 * n * b = 2 * a + b → n % 2 = 0)

theorem round_nearest {a b : Nat} (hb : 0 < b) : Nearest a b (round a b) := by
  have h1 := Nat.div_add_mod a b
  have h2 := Nat.mod_lt a hb
  unfold round Nearest
  generalize a / b = q at *
  generalize a % b = r at *
  have e1 : (2 * q + 1) * b = 2 * (b * q) + b := by grind
  have e2 : 2 * q * b = 2 * (b * q) := by grind
  have e3 : (2 * (q + 1) + 1) * b = 2 * (b * q) + 3 * b := by grind
  have e4 : 2 * (q + 1) * b = 2 * (b * q) + 2 * b := by grind
  split
  · rw [e1, e2]; refine ⟨?_, ?_, ?_, ?_⟩ <;> omega
  · rw [e3, e4]; refine ⟨?_, ?_, ?_, ?_⟩ <;> omega

theorem nearest_unique {a b n n' : Nat} (hb : 0 < b) (h : Nearest a b n) (h' : Nearest a b n') : n = n' := by
  have key : ∀ {n n' : Nat}, Nearest a b n → Nearest a b n' → n < n' → False := by
    intro n n' h h' hl
    obtain ⟨h1, h2, h3, h4⟩ := h
    obtain ⟨g1, g2, g3, g4⟩ := h'
    obtain ⟨k, rfl⟩ : ∃ k, n' = n + 1 + k := ⟨n' - (n + 1), by omega⟩
    have e1 : (2 * n + 1) * b = 2 * (n * b) + b := by grind
    have e2 : 2 * (n + 1 + k) * b = 2 * (n * b) + 2 * b + 2 * (k * b) := by grind
    rw [e1] at h1 h3
    rw [e2] at g2 g4
    rcases Nat.eq_zero_or_pos k with rfl | hk
    · simp only [Nat.zero_mul] at g2 g4
      omega
    · have : 0 < k * b := Nat.mul_pos hk hb
      omega
  rcases Nat.lt_trichotomy n n' with hl | hl | hl
  · exact (key h h' hl).elim
  · exact hl
  · exact (key h' h hl).elim

theorem round_le {a b n : Nat} (hb : 0 < b) (h : a ≤ n * b) : round a b ≤ n := by
  have h1 := Nat.div_add_mod a b
  have h2 := Nat.mod_lt a hb
  have h3 : a / b ≤ n := Nat.div_le_of_le_mul (by rw [Nat.mul_comm]; exact h)
  unfold round
  split
  · exact h3
  · rename_i hc
    rcases Nat.lt_or_eq_of_le h3 with h4 | h4
    · exact h4
    · rw [h4, Nat.mul_comm b n] at h1
      omega

theorem le_round {a b n : Nat} (hb : 0 < b) (h : n * b ≤ a) : n ≤ round a b := by
  have : n ≤ a / b := (Nat.le_div_iff_mul_le hb).2 h
  unfold round
  split <;> omega

/-- More than half way. -/
theorem le_round' {a b n : Nat} (hb : 0 < b) (h : 2 * n * b < 2 * a + b) : n ≤ round a b := by
  have h1 := (round_nearest (a := a) hb).1
  rcases Nat.lt_or_ge (round a b) n with hl | hl
  · obtain ⟨k, rfl⟩ : ∃ k, n = round a b + 1 + k := ⟨n - (round a b + 1), by omega⟩
    generalize round a b = m at *
    have e1 : (2 * m + 1) * b = 2 * (m * b) + b := by grind
    have e2 : 2 * (m + 1 + k) * b = 2 * (m * b) + 2 * b + 2 * (k * b) := by grind
    omega
  · exact hl

theorem den_pos (e : Int) : 0 < den e := Nat.two_pow_pos _
theorem pow_pos (n : Nat) : 0 < 10 ^ n := Nat.pos_of_ne_zero (by simp)

/-! ## Digits -/

theorem digits_len_pos (n : Nat) : 0 < (Num.digits 10 n).length := List.length_pos_iff.2 (Num.digits_ne_nil _ _)

theorem digits_lt_pow (n : Nat) : n < 10 ^ (Num.digits 10 n).length := (Num.digits_length_le (by omega) (digits_len_pos n)).1 (Nat.le_refl _)

theorem pow_le_digits {n : Nat} (hn : 0 < n) : 10 ^ ((Num.digits 10 n).length - 1) ≤ n := by
  rcases Nat.lt_or_ge n (10 ^ ((Num.digits 10 n).length - 1)) with h | h
  · have hl := digits_len_pos n
    rcases Nat.eq_zero_or_pos ((Num.digits 10 n).length - 1) with h0 | h0
    · rw [h0] at h; omega
    · have := (Num.digits_length_le (b := 10) (by omega) h0).2 h
      omega
  · exact h

theorem padded_length {p n : Nat} (h : n < 10 ^ p) (hp : 0 < p) : (padded p n).length = p := by
  have := (Num.digits_length_le (b := 10) (by omega) hp).2 h
  simp only [padded, List.length_append, List.length_replicate]
  omega

theorem padded_length_max (p n : Nat) : (padded p n).length = max p (Num.digits 10 n).length := by
  simp only [padded, List.length_append, List.length_replicate]
  omega

theorem decimal_length (p n : Nat) : (decimal p n).length = (Num.digits 10 (n / 10 ^ p)).length + (if p = 0 then 0 else p + 1) := by
  simp only [decimal, List.length_append]
  split
  · rfl
  · rw [List.length_cons, padded_length (Nat.mod_lt _ (pow_pos p)) (by omega)]

theorem decimal_ge (p n : Nat) : p < (decimal p n).length := by
  have := digits_len_pos (n / 10 ^ p)
  rw [decimal_length]
  split <;> omega

/-! ## The exponent -/

theorem lead_spec {a b : Nat} (ha : 0 < a) (hb : 0 < b) :
    b * 10 ^ (lead a b).toNat ≤ a * 10 ^ (-lead a b).toNat ∧ a * 10 ^ (-(lead a b + 1)).toNat < b * 10 ^ (lead a b + 1).toNat := by
  unfold lead
  split
  · rename_i h
    have hl := digits_len_pos (a / b)
    have h1 := digits_lt_pow (a / b)
    have h2 := pow_le_digits (Nat.div_pos h hb)
    generalize (Num.digits 10 (a / b)).length = L at *
    have e1 : ((L : Int) - 1).toNat = L - 1 := by omega
    have e2 : (-((L : Int) - 1)).toNat = 0 := by omega
    have e3 : (-((L : Int) - 1 + 1)).toNat = 0 := by omega
    have e4 : ((L : Int) - 1 + 1).toNat = L := by omega
    rw [e1, e2, e3, e4]
    simp only [Nat.pow_zero, Nat.mul_one]
    constructor
    · have := (Nat.le_div_iff_mul_le hb).1 h2
      rwa [Nat.mul_comm] at this
    · have := (Nat.div_lt_iff_lt_mul hb).1 h1
      rwa [Nat.mul_comm] at this
  · rename_i h
    have hl := digits_len_pos ((b - 1) / a)
    have h1 := digits_lt_pow ((b - 1) / a)
    have h2 := pow_le_digits (Nat.div_pos (show a ≤ b - 1 by omega) ha)
    generalize (Num.digits 10 ((b - 1) / a)).length = L at *
    have e1 : (-(L : Int)).toNat = 0 := by omega
    have e2 : (- -(L : Int)).toNat = L := by omega
    have e3 : (-(-(L : Int) + 1)).toNat = L - 1 := by omega
    have e4 : (-(L : Int) + 1).toNat = 0 := by omega
    rw [e1, e2, e3, e4]
    simp only [Nat.pow_zero, Nat.mul_one]
    constructor
    · have := (Nat.div_lt_iff_lt_mul ha).1 h1
      rw [Nat.mul_comm] at this
      omega
    · have := (Nat.le_div_iff_mul_le ha).1 h2
      rw [Nat.mul_comm] at this
      omega

/-- Going from `k` to `k + 1` is multiplication by ten. -/
theorem scale_step (a b : Nat) (k : Int) : (a * 10 ^ (k + 1).toNat) * (b * 10 ^ (-k).toNat) = 10 * ((a * 10 ^ k.toNat) * (b * 10 ^ (-(k + 1)).toNat)) := by
  rcases Int.lt_or_le k 0 with h | h
  · have e1 : (k + 1).toNat = 0 := by omega
    have e2 : k.toNat = 0 := by omega
    have e3 : (-k).toNat = (-(k + 1)).toNat + 1 := by omega
    rw [e1, e2, e3, Nat.pow_succ]
    grind
  · have e1 : (k + 1).toNat = k.toNat + 1 := by omega
    have e2 : (-k).toNat = 0 := by omega
    have e3 : (-(k + 1)).toNat = 0 := by omega
    rw [e1, e2, e3, Nat.pow_succ]
    grind

theorem mul_den_pos {b : Nat} (hb : 0 < b) (k : Nat) : 0 < b * 10 ^ k := Nat.mul_pos hb (pow_pos k)

/-- The significand is below `10 ^ (p + 1)` before rounding. -/
theorem below_lead {a b : Nat} (ha : 0 < a) (hb : 0 < b) (p : Nat) :
    a * 10 ^ ((p : Int) - lead a b).toNat < 10 ^ (p + 1) * (b * 10 ^ (-((p : Int) - lead a b)).toNat) := by
  have h := (lead_spec ha hb).2
  generalize lead a b = E at *
  -- multiply `h` by a power of ten
  have key : ∀ (u v s t : Nat), 0 < u → a * 10 ^ v < b * 10 ^ s → t + v = u + s → a * 10 ^ t < b * 10 ^ u ∨ True := fun _ _ _ _ _ _ _ => .inr trivial
  have hmul : ∀ {x y : Nat} (k : Nat), x < y → x * 10 ^ k < y * 10 ^ k := fun k h => Nat.mul_lt_mul_of_pos_right h (pow_pos k)
  have hcancel : ∀ {x y : Nat} (k : Nat), x * 10 ^ k < y * 10 ^ k → x < y := fun k h => Nat.lt_of_mul_lt_mul_right h
  have h' := hmul (((p : Int) - E).toNat) h
  refine hcancel ((-(E + 1)).toNat) ?_
  have hp : (p : Int) + 1 = ((p : Int) - E) + (E + 1) := by omega
  have e : ((p : Int) - E).toNat + (E + 1).toNat = (p + 1) + (-((p : Int) - E)).toNat + (-(E + 1)).toNat := by omega
  calc a * 10 ^ ((p : Int) - E).toNat * 10 ^ (-(E + 1)).toNat = a * 10 ^ (-(E + 1)).toNat * 10 ^ ((p : Int) - E).toNat := by grind
    _ < b * 10 ^ (E + 1).toNat * 10 ^ ((p : Int) - E).toNat := h'
    _ = b * 10 ^ (((p : Int) - E).toNat + (E + 1).toNat) := by rw [Nat.pow_add]; grind
    _ = b * 10 ^ ((p + 1) + (-((p : Int) - E)).toNat + (-(E + 1)).toNat) := by rw [e]
    _ = 10 ^ (p + 1) * (b * 10 ^ (-((p : Int) - E)).toNat) * 10 ^ (-(E + 1)).toNat := by rw [Nat.pow_add, Nat.pow_add]; grind

theorem above_lead {a b : Nat} (ha : 0 < a) (hb : 0 < b) (p : Nat) :
    10 ^ p * (b * 10 ^ (-((p : Int) - lead a b)).toNat) ≤ a * 10 ^ ((p : Int) - lead a b).toNat := by
  have h := (lead_spec ha hb).1
  generalize lead a b = E at *
  have h' := Nat.mul_le_mul_right (10 ^ ((p : Int) - E).toNat) h
  refine Nat.le_of_mul_le_mul_right (c := 10 ^ (-E).toNat) ?_ (pow_pos _)
  have e : ((p : Int) - E).toNat + E.toNat = p + (-((p : Int) - E)).toNat + (-E).toNat := by omega
  calc 10 ^ p * (b * 10 ^ (-((p : Int) - E)).toNat) * 10 ^ (-E).toNat = b * 10 ^ (p + (-((p : Int) - E)).toNat + (-E).toNat) := by rw [Nat.pow_add, Nat.pow_add]; grind
    _ = b * 10 ^ (((p : Int) - E).toNat + E.toNat) := by rw [e]
    _ = b * 10 ^ E.toNat * 10 ^ ((p : Int) - E).toNat := by rw [Nat.pow_add]; grind
    _ ≤ a * 10 ^ (-E).toNat * 10 ^ ((p : Int) - E).toNat := h'
    _ = a * 10 ^ ((p : Int) - E).toNat * 10 ^ (-E).toNat := by grind

/-- The significand has `p + 1` digits, and it is `a / b · 10 ^ (p - E)` rounded. -/
theorem sci_spec {a b : Nat} (ha : 0 < a) (hb : 0 < b) (p : Nat) :
    10 ^ p ≤ (sci p a b).1 ∧ (sci p a b).1 < 10 ^ (p + 1) ∧ (sci p a b).1 = scale a b (p - (sci p a b).2) ∧ lead a b ≤ (sci p a b).2 ∧ (sci p a b).2 ≤ lead a b + 1 := by
  unfold sci
  rw [if_neg (by omega)]
  have hlo := above_lead ha hb p
  have hhi := below_lead ha hb p
  split
  · rename_i h
    exact ⟨le_round (mul_den_pos hb _) hlo, h, rfl, by simp only; omega, by simp only; omega⟩
  · rename_i h
    refine ⟨Nat.le_refl _, ?_, ?_, by simp only; omega, by simp only; omega⟩
    · rw [Nat.pow_succ]
      have := pow_pos p
      omega
    · -- the next exponent
      simp only
      have hk : (p : Int) - lead a b = ((p : Int) - (lead a b + 1)) + 1 := by omega
      rw [hk] at h hlo hhi
      generalize (p : Int) - (lead a b + 1) = k at *
      have hs := scale_step a b k
      have hA := mul_den_pos hb (-k).toNat
      have hB := mul_den_pos hb (-(k + 1)).toNat
      have hn := (round_nearest (a := a * 10 ^ (k + 1).toNat) hB).2.1
      unfold scale at h ⊢
      generalize round (a * 10 ^ (k + 1).toNat) (b * 10 ^ (-(k + 1)).toNat) = N at *
      generalize a * 10 ^ (k + 1).toNat = A1 at *
      generalize a * 10 ^ k.toNat = A0 at *
      generalize b * 10 ^ (-k).toNat = B0 at *
      generalize b * 10 ^ (-(k + 1)).toNat = B1 at *
      rw [Nat.pow_succ] at h hhi
      generalize 10 ^ p = T at *
      refine Nat.le_antisymm ?_ ?_
      · refine le_round' hA ?_
        -- 2 T B0 < 2 A0 + B0, multiplied by 10 B1
        refine Nat.lt_of_mul_lt_mul_right (a := 10 * B1) ?_
        have h1 : T * 10 * B1 ≤ N * B1 := Nat.mul_le_mul_right _ (by omega)
        have h2 : (2 * A0 + B0) * (10 * B1) = 2 * (10 * (A0 * B1)) + 10 * (B0 * B1) := by grind
        rw [h2, ← hs]
        have h3 : 2 * T * B0 * (10 * B1) = 2 * (T * 10 * B1) * B0 := by grind
        rw [h3]
        have h4 : 2 * (T * 10 * B1) ≤ 2 * A1 + B1 := by
          have : 2 * N * B1 = 2 * (N * B1) := by grind
          omega
        have h5 := Nat.mul_le_mul_right B0 h4
        have h6 : (2 * A1 + B1) * B0 = 2 * (A1 * B0) + B0 * B1 := by grind
        have h7 : 0 < B0 * B1 := Nat.mul_pos hA hB
        omega
      · refine round_le hA ?_
        refine Nat.le_of_lt (Nat.lt_of_mul_lt_mul_right (a := 10 * B1) ?_)
        have h2 : A0 * (10 * B1) = 10 * (A0 * B1) := by grind
        rw [h2, ← hs]
        have h3 : T * B0 * (10 * B1) = (T * 10 * B1) * B0 := by grind
        rw [h3]
        exact Nat.mul_lt_mul_of_pos_right hhi hA

/-- With the next smaller exponent the number has more digits. -/
theorem sci_least {a b : Nat} (ha : 0 < a) (hb : 0 < b) (p : Nat) : 10 ^ (p + 1) ≤ scale a b (p - ((sci p a b).2 - 1)) := by
  unfold sci
  rw [if_neg (by omega)]
  split
  · have h := above_lead ha hb (p + 1)
    have e : ((p + 1 : Nat) : Int) - lead a b = (p : Int) - (lead a b - 1) := by omega
    rw [e] at h
    exact le_round (mul_den_pos hb _) h
  · rename_i h
    have e : (p : Int) - (lead a b + 1 - 1) = (p : Int) - lead a b := by omega
    simp only
    rw [e]
    omega

/-! ## Heads and lengths -/

theorem digits_head' (n : Nat) : ∃ c r, Num.digits 10 n = c :: r ∧ 48 ≤ c.toNat ∧ c.toNat ≤ 57 := by
  induction n using Nat.strongRecOn with
  | ind n ih =>
      by_cases h : n < 10
      · refine ⟨_, [], Num.digits_lt h, ?_⟩
        rw [Num.byte_digit h]
        simp only [UInt8.toNat_ofNat']
        omega
      · obtain ⟨c, r, e, h1, h2⟩ := ih (n / 10) (by omega)
        exact ⟨c, r ++ [_], by rw [Num.digits_ge (by omega) (by omega), e]; rfl, h1, h2⟩

/-- The text begins with a letter or a digit. -/
def Begins (s : List Byte) : Prop := ∃ c r, s = c :: r ∧ c ≠ 45 ∧ c ≠ 43

theorem Begins.append {s : List Byte} (h : Begins s) (t : List Byte) : Begins (s ++ t) := by
  obtain ⟨c, r, rfl, h1⟩ := h
  exact ⟨c, r ++ t, rfl, h1⟩

theorem digits_begins (n : Nat) : Begins (Num.digits 10 n) := by
  obtain ⟨c, r, e, h1, h2⟩ := digits_head' n
  refine ⟨c, r, e, ?_, ?_⟩ <;> (rintro rfl; exact absurd h1 (by decide))

theorem decimal_begins (p n : Nat) : Begins (decimal p n) := (digits_begins _).append _

/-- Stripping removes characters behind the point only. -/
theorem strip_point (d f : List Byte) : ∃ t, strip (d ++ 46 :: f) = d ++ t ∧ t.length ≤ f.length + 1 := by
  have hm : (46 : Byte) ∈ d ++ 46 :: f := by simp
  unfold strip
  rw [if_pos hm]
  have hr : (d ++ 46 :: f).reverse = f.reverse ++ 46 :: d.reverse := by simp
  have hlen : ∀ l : List Byte, (l.dropWhile (· = 48)).length ≤ l.length := by
    intro l
    induction l with
    | nil => simp
    | cons x l ih => rw [List.dropWhile_cons]; split <;> simp; omega
  have hl := hlen f.reverse
  rw [List.length_reverse] at hl
  cases hd : f.reverse.dropWhile (· = 48) with
  | nil =>
      have e : (d ++ 46 :: f).reverse.dropWhile (· = 48) = 46 :: d.reverse := by
        rw [hr, List.dropWhile_append, hd]
        simp
      rw [e]
      exact ⟨[], by simp, by simp⟩
  | cons g gs =>
      have e : (d ++ 46 :: f).reverse.dropWhile (· = 48) = g :: (gs ++ 46 :: d.reverse) := by
        rw [hr, List.dropWhile_append, hd]
        simp
      rw [hd] at hl
      rw [e]
      by_cases hg : g = 46
      · subst hg
        refine ⟨46 :: gs.reverse, by simp, ?_⟩
        simp only [List.length_cons, List.length_reverse] at hl ⊢
        omega
      · refine ⟨46 :: (g :: gs).reverse, ?_, ?_⟩
        · split
          · rename_i heq
            injection heq with h1 _
            exact absurd h1 hg
          · simp
        · simp only [List.length_cons, List.length_reverse] at hl ⊢
          omega

theorem digits_mem (n : Nat) : ∀ c ∈ Num.digits 10 n, 48 ≤ c.toNat ∧ c.toNat ≤ 57 := by
  induction n using Nat.strongRecOn with
  | ind n ih =>
      intro c hc
      have hd : ∀ d, d < 10 → 48 ≤ (Num.byte d.digitChar).toNat ∧ (Num.byte d.digitChar).toNat ≤ 57 := by
        intro d h
        rw [Num.byte_digit h]
        simp only [UInt8.toNat_ofNat']
        omega
      by_cases h : n < 10
      · rw [Num.digits_lt h, List.mem_singleton] at hc
        rw [hc]
        exact hd n h
      · rw [Num.digits_ge (by omega) (by omega), List.mem_append, List.mem_singleton] at hc
        rcases hc with hc | hc
        · exact ih (n / 10) (by omega) c hc
        · rw [hc]
          exact hd _ (by omega)

theorem strip_decimal (p n : Nat) : ∃ t, strip (decimal p n) = Num.digits 10 (n / 10 ^ p) ++ t ∧ t.length ≤ (if p = 0 then 0 else p + 1) := by
  unfold decimal
  by_cases hp : p = 0
  · rw [if_pos hp, if_pos hp, List.append_nil]
    refine ⟨[], ?_, by simp⟩
    unfold strip
    rw [if_neg, List.append_nil]
    intro h
    exact absurd (digits_mem _ _ h).1 (by decide)
  · rw [if_neg hp, if_neg hp]
    obtain ⟨t, e, h⟩ := strip_point (Num.digits 10 (n / 10 ^ p)) (padded p (n % 10 ^ p))
    exact ⟨t, e, by rw [padded_length (Nat.mod_lt _ (pow_pos p)) (by omega)] at h; exact h⟩

theorem general_begins (p a b : Nat) : Begins (general p a b) := by
  unfold general
  split
  · obtain ⟨t, h, _⟩ := strip_decimal ((p : Int) - 1 - (sci (p - 1) a b).2).toNat (scale a b (((p : Int) - 1 - (sci (p - 1) a b).2).toNat : Nat))
    rw [fixed, h]
    exact (digits_begins _).append _
  · obtain ⟨t, h, _⟩ := strip_decimal (p - 1) (sci (p - 1) a b).1
    rw [h]
    exact ((digits_begins _).append _).append _

theorem body_begins (c : Byte) (p : Nat) (x : Dbl) : Begins (body c p x) := by
  cases x with
  | inf n => exact ⟨105, [110, 102], rfl, by decide, by decide⟩
  | nan n => exact ⟨110, [97, 110], rfl, by decide, by decide⟩
  | fin n m e =>
      simp only [body]
      split
      · exact (decimal_begins _ _).append _
      · split
        · exact decimal_begins _ _
        · exact general_begins _ _ _

/-! ## Doubles -/

/-- A finite double is below `10 ^ 309`. -/
theorem num_le {neg : Bool} {m : Nat} {e : Int} (h : (Dbl.fin neg m e).Valid) : num m e ≤ (10 ^ 309 - 1) * den e := by
  obtain ⟨h1, h2, h3⟩ := h
  unfold num den
  have hb := Nat.two_pow_pos (-e).toNat
  have h4 : m * 2 ^ e.toNat ≤ 2 ^ 53 * 2 ^ 971 := Nat.mul_le_mul (Nat.le_of_lt h1) (Nat.pow_le_pow_right (by omega) (by omega))
  have h5 : 2 ^ 53 * 2 ^ 971 ≤ 10 ^ 309 - 1 := by decide +kernel
  calc m * 2 ^ e.toNat ≤ 10 ^ 309 - 1 := Nat.le_trans h4 h5
    _ = (10 ^ 309 - 1) * 1 := by rw [Nat.mul_one]
    _ ≤ (10 ^ 309 - 1) * 2 ^ (-e).toNat := Nat.mul_le_mul_left _ hb

theorem den_le {neg : Bool} {m : Nat} {e : Int} (h : (Dbl.fin neg m e).Valid) : den e < 10 ^ 324 := by
  obtain ⟨h1, h2, h3⟩ := h
  unfold den
  have h4 : 2 ^ (-e).toNat ≤ 2 ^ 1074 := Nat.pow_le_pow_right (by omega) (by omega)
  have h5 : 2 ^ 1074 < 10 ^ 324 := by decide +kernel
  exact Nat.lt_of_le_of_lt h4 h5

/-- The exponents of finite doubles. -/
theorem lead_range {neg : Bool} {m : Nat} {e : Int} (h : (Dbl.fin neg m e).Valid) : -324 ≤ lead (num m e) (den e) ∧ lead (num m e) (den e) ≤ 308 := by
  have hb := den_pos e
  have h1 := num_le h
  have h2 := den_le h
  generalize num m e = a at *
  generalize den e = b at *
  unfold lead
  split
  · have h3 : a / b < 10 ^ 309 := by
      have := Nat.div_le_of_le_mul (by rw [Nat.mul_comm]; exact h1 : a ≤ b * (10 ^ 309 - 1))
      have := pow_pos 309
      omega
    have := (Num.digits_length_le (b := 10) (by omega) (by omega)).2 h3
    omega
  · have h3 : (b - 1) / a < 10 ^ 324 := Nat.lt_of_le_of_lt (Nat.div_le_self _ _) (by omega)
    have := (Num.digits_length_le (b := 10) (by omega) (by omega)).2 h3
    omega

theorem sci_range {neg : Bool} {m : Nat} {e : Int} (h : (Dbl.fin neg m e).Valid) (p : Nat) :
    -324 ≤ (sci p (num m e) (den e)).2 ∧ (sci p (num m e) (den e)).2 ≤ 309 ∧ (sci p (num m e) (den e)).1 < 10 ^ (p + 1) ∧
      (sci p (num m e) (den e)).1 = scale (num m e) (den e) (p - (sci p (num m e) (den e)).2) := by
  have hl := lead_range h
  rcases Nat.eq_zero_or_pos (num m e) with h0 | h0
  · have e1 : sci p (num m e) (den e) = (0, 0) := by rw [sci, if_pos h0]
    rw [e1, h0]
    refine ⟨by simp, by simp, pow_pos _, ?_⟩
    have hz : scale 0 (den e) ((p : Int) - 0) ≤ 0 := round_le (mul_den_pos (den_pos e) _) (by simp)
    simp only
    omega
  · obtain ⟨h1, h2, h3, h4, h5⟩ := sci_spec h0 (den_pos e) p
    exact ⟨by omega, by omega, h2, h3⟩

theorem expPart_length {x : Int} (h : x.natAbs < 1000) : (expPart x).length ≤ 5 := by
  have := (Num.digits_length_le (b := 10) (n := x.natAbs) (k := 3) (by omega) (by omega)).2 (by omega)
  simp only [expPart, List.length_append, padded_length_max, List.length_cons, List.length_nil]
  omega

theorem first_digit {p n : Nat} (h : n < 10 ^ (p + 1)) : (Num.digits 10 (n / 10 ^ p)).length = 1 := by
  have h1 := digits_len_pos (n / 10 ^ p)
  have h2 := (Num.digits_length_le (b := 10) (n := n / 10 ^ p) (k := 1) (by omega) (by omega)).2 (by
    rw [Nat.pow_one]
    exact (Nat.div_lt_iff_lt_mul (pow_pos p)).2 (by rw [Nat.pow_succ, Nat.mul_comm] at h; exact h))
  omega

theorem expo_length {neg : Bool} {m : Nat} {e : Int} (h : (Dbl.fin neg m e).Valid) (p : Nat) : (expo p (num m e) (den e)).length ≤ p + 7 := by
  obtain ⟨h1, h2, h3, _⟩ := sci_range h p
  have h4 := expPart_length (x := (sci p (num m e) (den e)).2) (by omega)
  rw [expo, List.length_append, decimal_length, first_digit h3]
  split <;> omega

theorem general_length {neg : Bool} {m : Nat} {e : Int} (h : (Dbl.fin neg m e).Valid) {p : Nat} (hp : 0 < p) : (general p (num m e) (den e)).length ≤ 2 * p + 6 := by
  obtain ⟨h1, h2, h3, h4⟩ := sci_range h (p - 1)
  unfold general
  split
  · rename_i hc
    have e1 : (((p : Int) - 1 - (sci (p - 1) (num m e) (den e)).2).toNat : Int) = ((p - 1 : Nat) : Int) - (sci (p - 1) (num m e) (den e)).2 := by omega
    rw [fixed]
    obtain ⟨t, e2, ht⟩ := strip_decimal ((p : Int) - 1 - (sci (p - 1) (num m e) (den e)).2).toNat (scale (num m e) (den e) (((p : Int) - 1 - (sci (p - 1) (num m e) (den e)).2).toNat : Nat))
    rw [e2, List.length_append, e1, ← h4]
    have h5 : (Num.digits 10 ((sci (p - 1) (num m e) (den e)).1 / 10 ^ ((p : Int) - 1 - (sci (p - 1) (num m e) (den e)).2).toNat)).length ≤ p :=
      (Num.digits_length_le (b := 10) (by omega) hp).2 (Nat.lt_of_le_of_lt (Nat.div_le_self _ _) (by rw [show p - 1 + 1 = p by omega] at h3; exact h3))
    have h6 : t.length ≤ ((p : Int) - 1 - (sci (p - 1) (num m e) (den e)).2).toNat + 1 := by split at ht <;> omega
    omega
  · have h5 := expPart_length (x := (sci (p - 1) (num m e) (den e)).2) (by omega)
    obtain ⟨t, e2, ht⟩ := strip_decimal (p - 1) (sci (p - 1) (num m e) (den e)).1
    rw [List.length_append, e2, List.length_append, first_digit h3]
    have h6 : t.length ≤ p := by split at ht <;> omega
    omega

/-- The number of characters of `%.Pf`. -/
theorem fixed_length {neg : Bool} {m : Nat} {e : Int} (h : (Dbl.fin neg m e).Valid) (p : Nat) : (fixed p (num m e) (den e)).length ≤ 309 + (if p = 0 then 0 else p + 1) := by
  have h1 := num_le h
  rw [fixed, decimal_length]
  have h2 : scale (num m e) (den e) p ≤ (10 ^ 309 - 1) * 10 ^ p := by
    refine round_le (mul_den_pos (den_pos e) _) ?_
    have e1 : (-(p : Int)).toNat = 0 := by omega
    have e2 : (p : Int).toNat = p := by omega
    rw [e1, e2, Nat.pow_zero, Nat.mul_one]
    have := Nat.mul_le_mul_right (10 ^ p) h1
    calc num m e * 10 ^ p ≤ (10 ^ 309 - 1) * den e * 10 ^ p := this
      _ = (10 ^ 309 - 1) * 10 ^ p * den e := by rw [Nat.mul_assoc, Nat.mul_comm (den e), ← Nat.mul_assoc]
  have h3 : scale (num m e) (den e) p / 10 ^ p < 10 ^ 309 := by
    have := Nat.div_le_of_le_mul (by rw [Nat.mul_comm]; exact h2 : scale (num m e) (den e) p ≤ 10 ^ p * (10 ^ 309 - 1))
    have := pow_pos 309
    omega
  have := (Num.digits_length_le (b := 10) (by omega) (by omega)).2 h3
  omega

theorem fixed_length_small {m : Nat} {e : Int} (h : num m e ≤ (10 ^ 308 - 1) * den e) (p : Nat) : (fixed p (num m e) (den e)).length ≤ 308 + (if p = 0 then 0 else p + 1) := by
  rw [fixed, decimal_length]
  have h2 : scale (num m e) (den e) p ≤ (10 ^ 308 - 1) * 10 ^ p := by
    refine round_le (mul_den_pos (den_pos e) _) ?_
    have e1 : (-(p : Int)).toNat = 0 := by omega
    have e2 : (p : Int).toNat = p := by omega
    rw [e1, e2, Nat.pow_zero, Nat.mul_one]
    have := Nat.mul_le_mul_right (10 ^ p) h
    calc num m e * 10 ^ p ≤ (10 ^ 308 - 1) * den e * 10 ^ p := this
      _ = (10 ^ 308 - 1) * 10 ^ p * den e := by rw [Nat.mul_assoc, Nat.mul_comm (den e), ← Nat.mul_assoc]
  have h3 : scale (num m e) (den e) p / 10 ^ p < 10 ^ 308 := by
    have := Nat.div_le_of_le_mul (by rw [Nat.mul_comm]; exact h2 : scale (num m e) (den e) p ≤ 10 ^ p * (10 ^ 308 - 1))
    have := pow_pos 308
    omega
  have := (Num.digits_length_le (b := 10) (by omega) (by omega)).2 h3
  omega

theorem fixed_length_big {m : Nat} {e : Int} (h : 10 ^ 308 * den e ≤ num m e) (p : Nat) : 309 + (if p = 0 then 0 else p + 1) ≤ (fixed p (num m e) (den e)).length := by
  rw [fixed, decimal_length]
  have h2 : 10 ^ 308 * 10 ^ p ≤ scale (num m e) (den e) p := by
    refine le_round (mul_den_pos (den_pos e) _) ?_
    have e1 : (-(p : Int)).toNat = 0 := by omega
    have e2 : (p : Int).toNat = p := by omega
    rw [e1, e2, Nat.pow_zero, Nat.mul_one]
    have := Nat.mul_le_mul_right (10 ^ p) h
    calc 10 ^ 308 * 10 ^ p * den e = 10 ^ 308 * den e * 10 ^ p := by rw [Nat.mul_assoc, Nat.mul_comm (10 ^ p), ← Nat.mul_assoc]
      _ ≤ num m e * 10 ^ p := this
  have h3 : 10 ^ 308 ≤ scale (num m e) (den e) p / 10 ^ p := (Nat.le_div_iff_mul_le (pow_pos p)).2 h2
  rcases Nat.lt_or_ge 308 (Num.digits 10 (scale (num m e) (den e) p / 10 ^ p)).length with h4 | h4
  · omega
  · have := (Num.digits_length_le (b := 10) (by omega) (by omega)).1 h4
    omega

end ZT.Format.Clib
