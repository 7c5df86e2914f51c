import Verif.Format.Props

/-!
# C93: floating numbers

`%e`, `%f` and `%g` with and without a precision, of every double: what zt_format.c prints, where that is what the C standard says, and that the C library's sprintf stays inside the buffer of cvt_f.
-/

set_option exponentiation.threshold 2000

namespace ZT.Format

open Std

/-- "%c" or "%.Pc". -/
def fmtF (p : Option Nat) (c : Byte) : List Byte :=
  match p with
  | none => [37, c]
  | some n => [37, 46] ++ Num.digits 10 n ++ [c]

/-- The sign of a printed double. -/
def minus (x : Dbl) : List Byte := if Clib.neg x then [45] else []

def precLen : Option Nat → Len
  | none => .absent
  | some n => .num n

/-- A format of one conversion is one conversion. -/
theorem text_single (kind : Kind) (p : Option Nat) (hp : ∀ n, p = some n → (n : Int) ≤ INT_MAX) (a : Arg) :
    text (fmtF p kind.code) [a] = (convert out kind.code [a] (fun _ => 0) INT_MIN (toLib (p.map Int.ofNat)) [] >>= fun x => .ok x.2.1) := by
  have wf : (⟨37, [], .absent, precLen p, kind⟩ : Conv).WF := by
    refine ⟨.inl rfl, by simp, by simp, trivial, ?_⟩
    cases p with
    | none => trivial
    | some n => exact ⟨Nat.zero_le _, hp n rfl⟩
  have hpl : takeLen (precLen p) [a] = some (p.map Int.ofNat, [a]) := by cases p <;> rfl
  have hd := directive_spec out wf (ap := [a]) (w := none) (ap1 := [a]) rfl hpl (by simp) [] []
  have hfl : cnt (⟨37, [], .absent, precLen p, kind⟩ : Conv).flags = fun _ => 0 := by funext c; simp [cnt]
  rw [hfl] at hd
  obtain ⟨d, r, he, hnd⟩ := conv_head wf []
  have hf : fmtF p kind.code = 37 :: d :: r := by
    rw [← he]
    cases p with
    | none => rfl
    | some n => simp [fmtF, precLen, precText, Len.text]
  rw [he] at hd
  rw [hf, text, vformat]
  simp only [List.length_cons, vformatLoop, if_neg (show ¬ ((37 : Byte) ≠ 37 ∧ (37 : Byte) ≠ 126) by decide), if_neg hnd]
  rw [hd, show toLib none = INT_MIN from rfl]
  cases hc : convert out kind.code [a] (fun _ => 0) INT_MIN (toLib (p.map Int.ofNat)) [] with
  | abort => rfl
  | ub => rfl
  | ok x => rfl

/-- The conversions. -/
def kindOf : Byte → Kind
  | 101 => .e
  | 102 => .f
  | _ => .g

/-- The precision in effect: six unless given, and one instead of zero for %g. -/
def precOf (c : Byte) (p : Option Nat) : Nat := if c = 103 ∧ p = some 0 then 1 else p.getD 6

theorem precF_eq (c : Byte) (p : Option Nat) : precF c (toLib (p.map Int.ofNat)) = (precOf c p : Nat) := by
  cases p with
  | none =>
      show precF c INT_MIN = _
      have h : INT_MIN < 0 := by decide
      rw [precF, precOf, if_pos h, if_neg (by rintro ⟨_, h⟩; omega), if_neg (by rintro ⟨_, h⟩; cases h)]; rfl
  | some n =>
      show precF c (n : Int) = _
      have h : ¬ ((n : Int) < 0) := by omega
      rw [precF, precOf, if_neg h]
      by_cases hc : c = 103 ∧ n = 0
      · rw [if_pos ⟨hc.1, by omega⟩, if_pos ⟨hc.1, by rw [hc.2]⟩]; rfl
      · rw [if_neg (by rintro ⟨h1, h2⟩; exact hc ⟨h1, by omega⟩), if_neg (by rintro ⟨h1, h2⟩; injection h2 with h2; exact hc ⟨h1, h2⟩)]; rfl

/-- A double whose text does not fit into the buffer of cvt_f. -/
def TooLong (c : Byte) (p : Nat) : Dbl → Prop
  | .fin neg m e => c = 102 ∧ p = 99 ∧ neg = true ∧ 10 ^ 308 * Clib.den e ≤ Clib.num m e
  | _ => False

theorem text_length (c : Byte) (p : Nat) (x : Dbl) : (Clib.text c p x).length = (minus x).length + (Clib.body c p x).length := by rw [Clib.text, List.length_append]; rfl

theorem minus_length (x : Dbl) : (minus x).length ≤ 1 := by unfold minus; split <;> simp

/-- **C93**: exactly the doubles `x ≤ -10^308` printed with "%.99f" do not fit into the 410 bytes of the buffer. -/
theorem c93_fits {c : Byte} (hc : c = 101 ∨ c = 102 ∨ c = 103) {p : Nat} (hp : p ≤ 99) {x : Dbl} (hx : x.Valid) : (Clib.text c p x).length + 1 ≤ BUFSZ ↔ ¬ TooLong c p x := by
  have hm := minus_length x
  rw [text_length]
  cases x with
  | inf n => simp only [Clib.body, TooLong, not_false_eq_true, iff_true, BUFSZ, List.length_cons, List.length_nil]; omega
  | nan n => simp only [Clib.body, TooLong, not_false_eq_true, iff_true, BUFSZ, List.length_cons, List.length_nil]; omega
  | fin neg m e =>
      simp only [TooLong]
      rcases hc with rfl | rfl | rfl
      · have := Clib.expo_length hx p
        have hr : ¬ ((101 : Byte) = 102 ∧ p = 99 ∧ neg = true ∧ 10 ^ 308 * Clib.den e ≤ Clib.num m e) := by rintro ⟨h, _⟩; exact absurd h (by decide)
        refine ⟨fun _ => hr, fun _ => ?_⟩
        rw [show Clib.body 101 p (.fin neg m e) = Clib.expo p (Clib.num m e) (Clib.den e) from rfl, BUFSZ]
        omega
      · rw [show Clib.body 102 p (.fin neg m e) = Clib.fixed p (Clib.num m e) (Clib.den e) from rfl, BUFSZ]
        have h1 := Clib.fixed_length hx p
        constructor
        · rintro h ⟨_, rfl, rfl, hbig⟩
          have h2 := Clib.fixed_length_big hbig 99
          rw [if_neg (by omega)] at h2
          simp only [minus, Clib.neg, if_true, List.length_cons, List.length_nil] at h
          omega
        · intro h
          by_cases h99 : p = 99
          · cases neg with
            | false =>
                simp only [minus, Clib.neg, Bool.false_eq_true, if_false, List.length_nil]
                split at h1 <;> omega
            | true =>
                have hsmall : Clib.num m e ≤ (10 ^ 308 - 1) * Clib.den e := by
                  rcases Nat.lt_or_ge (Clib.num m e) (10 ^ 308 * Clib.den e) with hlt | hge
                  · -- a double of this size is an integer
                    rcases Int.lt_or_le e 0 with he | he
                    · have h2 : Clib.num m e < 2 ^ 53 := by
                        rw [Clib.num, show e.toNat = 0 by omega, Nat.pow_zero, Nat.mul_one]; exact hx.1
                      have h3 : 2 ^ 53 ≤ (10 ^ 308 - 1) * 1 := by decide +kernel
                      have h4 : (10 ^ 308 - 1) * 1 ≤ (10 ^ 308 - 1) * Clib.den e := Nat.mul_le_mul_left _ (Clib.den_pos e)
                      exact Nat.le_of_lt (Nat.lt_of_lt_of_le h2 (Nat.le_trans h3 h4))
                    · have hd : Clib.den e = 1 := by rw [Clib.den, show (-e).toNat = 0 by omega, Nat.pow_zero]
                      rw [hd, Nat.mul_one] at hlt ⊢
                      omega
                  · exact absurd ⟨rfl, h99, rfl, hge⟩ h
                have h2 := Clib.fixed_length_small hsmall p
                split at h2 <;> omega
          · split at h1 <;> omega
      · have hr : ¬ ((103 : Byte) = 102 ∧ p = 99 ∧ neg = true ∧ 10 ^ 308 * Clib.den e ≤ Clib.num m e) := by rintro ⟨h, _⟩; exact absurd h (by decide)
        refine ⟨fun _ => hr, fun _ => ?_⟩
        rw [show Clib.body 103 p (.fin neg m e) = Clib.general (if p = 0 then 1 else p) (Clib.num m e) (Clib.den e) from rfl, BUFSZ]
        have := Clib.general_length hx (p := if p = 0 then 1 else p) (by split <;> omega)
        have h2 : (if p = 0 then 1 else p) ≤ 99 := by split <;> omega
        omega

theorem code_kindOf {c : Byte} (hc : c = 101 ∨ c = 102 ∨ c = 103) : (kindOf c).code = c := by rcases hc with rfl | rfl | rfl <;> rfl

theorem convert_dbl {c : Byte} (hc : c = 101 ∨ c = 102 ∨ c = 103) (x : Dbl) (fl : Flags) (w p : Int) (l : List Byte) :
    convert out c [.dbl x] fl w p l = (cvtF out c x fl w p l >>= fun y => .ok (y.1, y.2, [])) := by rcases hc with rfl | rfl | rfl <;> rfl

/-- `%g` with precision 0 is `%g` with precision 1. -/
theorem body_precOf (c : Byte) (p : Option Nat) (x : Dbl) : Clib.body c (precOf c p) x = Clib.body c (p.getD 6) x := by
  unfold precOf
  split
  · rename_i h
    rw [h.1, h.2]
    cases x <;> rfl
  · rfl

/-- **C93**: what `%e`, `%f` and `%g` print for every double, with a precision up to 99 or none: the sign, zeros up to the precision in effect, and the digits the C library prints. -/
theorem c93_prints {c : Byte} (hc : c = 101 ∨ c = 102 ∨ c = 103) (p : Option Nat) (hp : p.getD 6 ≤ 99) {x : Dbl} (hx : x.Valid) (hlong : ¬ TooLong c (p.getD 6) x) :
    text (fmtF p c) [.dbl x] = .ok (minus x ++ zeros (precOf c p - (Clib.body c (p.getD 6) x).length) ++ Clib.body c (p.getD 6) x) := by
  have hle : precOf c p ≤ 99 := by unfold precOf; split <;> omega
  have hfit := (c93_fits hc hp hx).2 hlong
  have h := text_single (kindOf c) p (fun n hn => by rw [hn] at hp; simp only [Option.getD_some, INT_MAX] at hp ⊢; omega) (.dbl x)
  rw [code_kindOf hc, convert_dbl hc] at h
  rw [h, cvtF, sprintfF, precF_eq, if_pos (by omega), show ((precOf c p : Nat) : Int).toNat = precOf c p by omega]
  have ht : Clib.text c (precOf c p) x = if Clib.neg x = true then 45 :: Clib.body c (p.getD 6) x else Clib.body c (p.getD 6) x := by
    rw [Clib.text, body_precOf]; split <;> rfl
  have ht2 : (Clib.text c (precOf c p) x).length = (Clib.text c (p.getD 6) x).length := by rw [Clib.text, Clib.text, body_precOf]
  rw [if_pos (by rw [ht2]; exact hfit), Outcome.ok_bind, putd_eq, ht]
  have N : Norm INT_MIN (fun _ => 0) (precOf c p : Nat) (mkField [] none (some (precOf c p : Nat))) := by
    have := norm [] none (some ((precOf c p : Nat) : Int)) (by intro n hn; cases hn)
    have e : cnt [] = fun _ => 0 := by funext c; simp [cnt]
    rw [e] at this
    exact this
  have hprec : (mkField [] none (some ((precOf c p : Nat) : Int))).prec = some (precOf c p) := by simp [mkField]
  have hw : (mkField [] none (some ((precOf c p : Nat) : Int))).width = 0 := rfl
  have hsg : minus x = if Clib.neg x then [45] else if (mkField [] none (some ((precOf c p : Nat) : Int))).space then [32] else [] := rfl
  have hb := Clib.body_begins c (p.getD 6) x
  have key : (putdCodes (if Clib.neg x = true then 45 :: Clib.body c (p.getD 6) x else Clib.body c (p.getD 6) x) (fun _ => 0) INT_MIN (precOf c p : Nat)).map toByte =
      minus x ++ zeros (precOf c p - (Clib.body c (p.getD 6) x).length) ++ Clib.body c (p.getD 6) x := by
    by_cases hz : precOf c p = 0 ∧ Clib.body c (p.getD 6) x = [48]
    · rw [putd_narrow N (Clib.neg x) _ hb _ hsg (by rw [hprec, Option.getD_some]; omega) (by rw [hw]; omega), hz.1]
      simp [zeros]
    · rw [putd_number N (Clib.neg x) _ hb (by rw [hprec]; rintro ⟨h1, h2⟩; injection h1 with h1; exact hz ⟨h1, h2⟩) _ hsg (.inr (.inr (.inr (by rw [hw]; omega))))]
      have hm : (mkField [] none (some ((precOf c p : Nat) : Int))).minus = false := rfl
      simp only [number, hprec, hw, hm, Option.getD_some, Nat.zero_sub, spaces, List.replicate_zero, Bool.false_eq_true, if_false]
      rw [if_neg (by rintro ⟨_, h⟩; cases h)]
      simp
  obtain ⟨s, hs⟩ := feed_out (putdCodes (if Clib.neg x = true then 45 :: Clib.body c (p.getD 6) x else Clib.body c (p.getD 6) x) (fun _ => 0) INT_MIN (precOf c p : Nat)) 0 []
  rw [hs, key]
  rfl

/-- **C93** (partial): `%f` and `%.Pf` of a finite double print its value times `10 ^ P`, rounded to the nearest number (ties to even), as a decimal number with P digits after the point. Not proved, since false: "%.99f" of
`x ≤ -10^308` (c93_overflow_violation) and precisions above 99 (c93_precision_violation). -/
theorem c93_f_partial (p : Option Nat) (hp : p.getD 6 ≤ 99) {neg : Bool} {m : Nat} {e : Int} (hx : (Dbl.fin neg m e).Valid) (hlong : ¬ (p = some 99 ∧ neg = true ∧ 10 ^ 308 * Clib.den e ≤ Clib.num m e)) :
    ∃ n, Clib.Nearest (Clib.num m e * 10 ^ p.getD 6) (Clib.den e) n ∧ text (fmtF p 102) [.dbl (.fin neg m e)] = .ok ((if neg then [45] else []) ++ Clib.decimal (p.getD 6) n) := by
  refine ⟨Clib.round (Clib.num m e * 10 ^ p.getD 6) (Clib.den e), Clib.round_nearest (Clib.den_pos e), ?_⟩
  rw [c93_prints (.inr (.inl rfl)) p hp hx (by
    rintro ⟨_, h2, h3⟩
    refine hlong ⟨?_, h3⟩
    cases p with
    | none => simp at h2
    | some q => simp at h2; rw [h2])]
  have hb : Clib.body 102 (p.getD 6) (.fin neg m e) = Clib.decimal (p.getD 6) (Clib.round (Clib.num m e * 10 ^ p.getD 6) (Clib.den e)) := by
    show Clib.fixed _ _ _ = _
    rw [Clib.fixed, Clib.scale, show (-((p.getD 6 : Nat) : Int)).toNat = 0 by omega, Nat.pow_zero, Nat.mul_one]
    rfl
  rw [hb]
  have := Clib.decimal_ge (p.getD 6) (Clib.round (Clib.num m e * 10 ^ p.getD 6) (Clib.den e))
  rw [precOf, if_neg (by rintro ⟨h, _⟩; exact absurd h (by decide)), show p.getD 6 - (Clib.decimal (p.getD 6) (Clib.round (Clib.num m e * 10 ^ p.getD 6) (Clib.den e))).length = 0 by omega]
  simp [zeros, minus, Clib.neg]; rfl

/-- **C93** (partial): `%e` and `%.Pe` of a finite double other than zero print `n · 10 ^ (x - P)` where `n` has P + 1 digits, is the value times `10 ^ (P - x)` rounded to the nearest number (ties to even), and the exponent
`x` is the least possible: with the next smaller one the rounded number would have more digits. Not proved, since false: precisions above 99 (c93_precision_violation). -/
theorem c93_e_partial (p : Option Nat) (hp : p.getD 6 ≤ 99) {neg : Bool} {m : Nat} {e : Int} (hx : (Dbl.fin neg m e).Valid) (hm : 0 < m) :
    ∃ (n : Nat) (x : Int), 10 ^ p.getD 6 ≤ n ∧ n < 10 ^ (p.getD 6 + 1) ∧
      Clib.Nearest (Clib.num m e * 10 ^ ((p.getD 6 : Nat) - x : Int).toNat) (Clib.den e * 10 ^ (x - (p.getD 6 : Nat)).toNat) n ∧
      (∀ n', Clib.Nearest (Clib.num m e * 10 ^ ((p.getD 6 : Nat) - (x - 1) : Int).toNat) (Clib.den e * 10 ^ ((x - 1) - (p.getD 6 : Nat)).toNat) n' → 10 ^ (p.getD 6 + 1) ≤ n') ∧
      text (fmtF p 101) [.dbl (.fin neg m e)] = .ok ((if neg then [45] else []) ++ Clib.decimal (p.getD 6) n ++ Clib.expPart x) := by
  have ha : 0 < Clib.num m e := Nat.mul_pos hm (Nat.two_pow_pos _)
  have hb := Clib.den_pos e
  obtain ⟨h1, h2, h3, h4, h5⟩ := Clib.sci_spec ha hb (p.getD 6)
  refine ⟨(Clib.sci (p.getD 6) (Clib.num m e) (Clib.den e)).1, (Clib.sci (p.getD 6) (Clib.num m e) (Clib.den e)).2, h1, h2, ?_, ?_, ?_⟩
  · have hn := Clib.round_nearest (a := Clib.num m e * 10 ^ (((p.getD 6 : Nat) : Int) - (Clib.sci (p.getD 6) (Clib.num m e) (Clib.den e)).2).toNat) (Clib.mul_den_pos hb (-(((p.getD 6 : Nat) : Int) - (Clib.sci (p.getD 6) (Clib.num m e) (Clib.den e)).2)).toNat)
    rw [show Clib.round _ _ = Clib.scale (Clib.num m e) (Clib.den e) (((p.getD 6 : Nat) : Int) - (Clib.sci (p.getD 6) (Clib.num m e) (Clib.den e)).2) from rfl, ← h3, Int.neg_sub] at hn
    exact hn
  · intro n' hn'
    have hle := Clib.sci_least ha hb (p.getD 6)
    have hn := Clib.round_nearest (a := Clib.num m e * 10 ^ (((p.getD 6 : Nat) : Int) - ((Clib.sci (p.getD 6) (Clib.num m e) (Clib.den e)).2 - 1)).toNat)
      (Clib.mul_den_pos hb (-(((p.getD 6 : Nat) : Int) - ((Clib.sci (p.getD 6) (Clib.num m e) (Clib.den e)).2 - 1))).toNat)
    rw [Int.neg_sub] at hn
    rw [Clib.nearest_unique (Clib.mul_den_pos hb _) hn' hn]
    rw [Clib.scale, Int.neg_sub] at hle
    exact hle
  · rw [c93_prints (.inl rfl) p hp hx (by rintro ⟨h, _⟩; exact absurd h (by decide))]
    have hbody : Clib.body 101 (p.getD 6) (.fin neg m e) = Clib.decimal (p.getD 6) (Clib.sci (p.getD 6) (Clib.num m e) (Clib.den e)).1 ++ Clib.expPart (Clib.sci (p.getD 6) (Clib.num m e) (Clib.den e)).2 := rfl
    rw [hbody, precOf, if_neg (by rintro ⟨h, _⟩; exact absurd h (by decide))]
    have := Clib.decimal_ge (p.getD 6) (Clib.sci (p.getD 6) (Clib.num m e) (Clib.den e)).1
    rw [show p.getD 6 - (Clib.decimal (p.getD 6) (Clib.sci (p.getD 6) (Clib.num m e) (Clib.den e)).1 ++ Clib.expPart (Clib.sci (p.getD 6) (Clib.num m e) (Clib.den e)).2).length = 0 by rw [List.length_append]; omega]
    simp [zeros, minus, Clib.neg]; rfl

/-- Zero with `%e`. -/
theorem c93_e_zero (p : Option Nat) (hp : p.getD 6 ≤ 99) {neg : Bool} {e : Int} (hx : (Dbl.fin neg 0 e).Valid) :
    text (fmtF p 101) [.dbl (.fin neg 0 e)] = .ok ((if neg then [45] else []) ++ Clib.decimal (p.getD 6) 0 ++ [101, 43, 48, 48]) := by
  rw [c93_prints (.inl rfl) p hp hx (by rintro ⟨h, _⟩; exact absurd h (by decide))]
  have hbody : Clib.body 101 (p.getD 6) (.fin neg 0 e) = Clib.decimal (p.getD 6) 0 ++ [101, 43, 48, 48] := by
    show Clib.expo _ _ _ = _
    have hz : Clib.num 0 e = 0 := by simp [Clib.num]
    rw [hz, Clib.expo, show Clib.sci (p.getD 6) 0 (Clib.den e) = (0, 0) by simp [Clib.sci]]
    rfl
  rw [hbody, precOf, if_neg (by rintro ⟨h, _⟩; exact absurd h (by decide))]
  have := Clib.decimal_ge (p.getD 6) 0
  rw [show p.getD 6 - (Clib.decimal (p.getD 6) 0 ++ ([101, 43, 48, 48] : List Byte)).length = 0 by rw [List.length_append]; omega]
  simp [zeros, minus, Clib.neg]; rfl

theorem not_long_g (p : Nat) (x : Dbl) : ¬ TooLong 103 p x := by
  cases x with
  | fin n m e => rintro ⟨h, _⟩; exact absurd h (by decide)
  | inf n => exact id
  | nan n => exact id

/-- **C93** (partial): `%g` prints what the C library prints whenever that has at least as many characters as the precision. Not proved, since false: shorter texts (c93_g_violation). -/
theorem c93_g_partial (p : Option Nat) (hp : p.getD 6 ≤ 99) {x : Dbl} (hx : x.Valid) (hlen : precOf 103 p ≤ (Clib.body 103 (p.getD 6) x).length) :
    text (fmtF p 103) [.dbl x] = .ok (Clib.text 103 (p.getD 6) x) := by
  rw [c93_prints (.inr (.inr rfl)) p hp hx (not_long_g _ _), show precOf 103 p - (Clib.body 103 (p.getD 6) x).length = 0 by omega]
  simp [zeros, minus, Clib.text]

/-! ## Violations -/

/-- `%g` of every double whose text is shorter than the precision prints another text: zeros go before the digits. -/
theorem c93_g_violation (p : Option Nat) (hp : p.getD 6 ≤ 99) {x : Dbl} (hx : x.Valid) (hlen : (Clib.body 103 (p.getD 6) x).length < precOf 103 p) :
    ∃ t, text (fmtF p 103) [.dbl x] = .ok t ∧ t ≠ Clib.text 103 (p.getD 6) x := by
  refine ⟨_, c93_prints (.inr (.inr rfl)) p hp hx (not_long_g _ _), fun h => ?_⟩
  have := congrArg List.length h
  rw [text_length, List.length_append, List.length_append, length_zeros] at this
  omega

/-- "%g" of 3.0 prints "000003", the C library prints "3". -/
example : text [37, 103] [.dbl (.fin false 3 0)] = .ok [48, 48, 48, 48, 48, 51] ∧ Clib.text 103 6 (.fin false 3 0) = [51] := by decide +kernel

/-- Infinities and NaNs are padded with zeros: "%f" prints "000inf" and "-000nan". -/
theorem c93_inf_violation : text [37, 102] [.dbl (.inf false)] = .ok [48, 48, 48, 105, 110, 102] ∧ text [37, 101] [.dbl (.nan true)] = .ok [45, 48, 48, 48, 110, 97, 110] := by decide +kernel

/-- sprintf writes past the end of the buffer for "%.99f" of every double up to `-10^308`. -/
theorem c93_overflow_violation {m : Nat} {e : Int} (hx : (Dbl.fin true m e).Valid) (hbig : 10 ^ 308 * Clib.den e ≤ Clib.num m e) : text [37, 46, 57, 57, 102] [.dbl (.fin true m e)] = .ub := by
  have h := text_single .f (some 99) (fun n hn => by injection hn with hn; rw [← hn]; decide) (.dbl (.fin true m e))
  have hf : fmtF (some 99) (Kind.code .f) = [37, 46, 57, 57, 102] := by decide +kernel
  rw [hf, show Kind.code .f = 102 from rfl, convert_dbl (.inr (.inl rfl))] at h
  rw [h, cvtF, sprintfF, precF_eq, show precOf 102 (some 99) = 99 from rfl, if_pos (by decide), show ((99 : Nat) : Int).toNat = 99 from rfl, if_neg]
  · rfl
  · intro hfit
    exact (c93_fits (.inr (.inl rfl)) (by omega) hx).1 hfit ⟨rfl, rfl, rfl, hbig⟩

/-- A precision above 99 ends the program. -/
theorem c93_precision_violation {c : Byte} (hc : c = 101 ∨ c = 102 ∨ c = 103) {p : Nat} (hp : 99 < p) (hp2 : (p : Int) ≤ INT_MAX) (x : Dbl) : text (fmtF (some p) c) [.dbl x] = .abort := by
  have h := text_single (kindOf c) (some p) (fun n hn => by injection hn with hn; rw [← hn]; exact hp2) (.dbl x)
  rw [code_kindOf hc, convert_dbl hc] at h
  rw [h, cvtF, sprintfF, precF_eq, if_neg]
  · rfl
  · simp only [precOf, Option.getD_some, Option.some.injEq]
    split <;> omega

/-- The flag '0' is ignored: "%08.2f" of 3.0 prints spaces. -/
theorem c93_zeroflag_violation : text [37, 48, 56, 46, 50, 102] [.dbl (.fin false 3 0)] = .ok [32, 32, 32, 32, 51, 46, 48, 48] ∧
    Std.format [.conv ⟨37, [48], .num 8, .num 2, .f⟩] [.dbl (.fin false 3 0)] = some [48, 48, 48, 48, 51, 46, 48, 48] := by decide +kernel

/-! ## Concrete cases -/

/-- -1e308 and 5e-324 are doubles. -/
example : (Dbl.fin true 5010420900022432 971).Valid ∧ 10 ^ 308 * Clib.den 971 ≤ Clib.num 5010420900022432 971 := ⟨⟨by decide, by decide, by decide⟩, by decide +kernel⟩
example : text [37, 46, 57, 57, 102] [.dbl (.fin true 5010420900022432 971)] = .ub := c93_overflow_violation ⟨by decide, by decide, by decide⟩ (by decide +kernel)
example : text [37, 46, 51, 101] [.dbl (.fin true 1 (-1074))] = .ok [45, 52, 46, 57, 52, 49, 101, 45, 51, 50, 52] := by decide +kernel
/-- 0.1 -/
example : text [37, 102] [.dbl (.fin false 7205759403792794 (-56))] = .ok [48, 46, 49, 48, 48, 48, 48, 48] := by decide +kernel
example : text (fmtF (some 3) 103) [.dbl (.fin false 7205759403792794 (-56))] = .ok [48, 46, 49] := by
  rw [c93_g_partial (some 3) (by decide) (x := .fin false 7205759403792794 (-56)) ⟨by decide, by decide, by decide⟩ (by decide +kernel)]; decide +kernel

end ZT.Format
