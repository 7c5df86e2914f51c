import Verif.Cfg.Spec

/-!
# Texts: the code computes what they denote
-/

namespace ZT.Cfg

open Spec

/-! ## Digits -/

theorem u8 : (0x30 : Byte).toNat = 0x30 ∧ (0x39 : Byte).toNat = 0x39 ∧ (0x37 : Byte).toNat = 0x37 ∧ (0x61 : Byte).toNat = 0x61 ∧ (0x66 : Byte).toNat = 0x66 ∧ (0x7A : Byte).toNat = 0x7A ∧ (0x41 : Byte).toNat = 0x41 ∧ (0x46 : Byte).toNat = 0x46 ∧ (0x5A : Byte).toNat = 0x5A :=
  ⟨rfl, rfl, rfl, rfl, rfl, rfl, rfl, rfl, rfl⟩

theorem digitOf_iff (b : Byte) (base : Nat) (hb : base = 8 ∨ base = 10 ∨ base = 16) :
    (∃ d, digitOf b = some d ∧ d < base) ↔ (if base = 8 then IsOct b else if base = 10 then IsDec b else IsHex b) := by
  obtain ⟨e1, e2, e3, e4, e5, e6, e7, e8, e9⟩ := u8
  unfold digitOf
  rcases hb with rfl | rfl | rfl
  all_goals
    simp only [IsOct, IsDec, IsHex, UInt8.le_iff_toNat_le, e1, e2, e3, e4, e5, e6, e7, e8, e9]
    split
    · simp; omega
    · split
      · simp; omega
      · split
        · simp; omega
        · simp; omega

theorem digitOf_val {b : Byte} {d : Nat} (h : digitOf b = some d) : d = digit b := by
  obtain ⟨e1, e2, e3, e4, e5, e6, e7, e8, e9⟩ := u8
  unfold digitOf at h
  unfold digit
  simp only [UInt8.le_iff_toNat_le, e1, e2, e3, e4, e5, e6, e7, e8, e9] at h ⊢
  split at h
  · cases h; split; omega; split; omega; rfl
  · split at h
    · cases h; rw [if_pos (by omega)]
    · split at h
      · cases h; rw [if_neg (by omega), if_pos (by omega)]
      · cases h

/-- `b` is a digit in the base. -/
def InBase (base : Nat) (b : Byte) : Prop := ∃ d, digitOf b = some d ∧ d < base

theorem takeDigits_all {base : Nat} : ∀ (ds : Str) (acc : Nat), (∀ b ∈ ds, InBase base b) → takeDigits base ds acc = (ds.foldl (fun n b => n * base + digit b) acc, []) := by
  intro ds
  induction ds with
  | nil => intro acc _; rfl
  | cons b ds ih =>
    intro acc h
    obtain ⟨d, h1, h2⟩ := h b (by simp)
    rw [takeDigits, h1]
    simp only [if_pos h2]
    rw [ih _ fun x hx => h x (by simp [hx]), digitOf_val h1]
    rfl

theorem takeDigits_inv {base : Nat} : ∀ (ds : Str) (acc : Nat), (takeDigits base ds acc).2 = [] → ∀ b ∈ ds, InBase base b := by
  intro ds
  induction ds with
  | nil => intro acc _ b hb; cases hb
  | cons b ds ih =>
    intro acc h
    rw [takeDigits] at h
    cases hd : digitOf b with
    | none => rw [hd] at h; simp at h
    | some d =>
      rw [hd] at h
      simp only at h
      by_cases hlt : d < base
      · rw [if_pos hlt] at h
        intro x hx
        rcases List.mem_cons.1 hx with rfl | hx
        · exact ⟨d, hd, hlt⟩
        · exact ih _ h x hx
      · rw [if_neg hlt] at h; cases h

theorem startsDigit_iff {base : Nat} {s : Str} : startsDigit base s = true ↔ ∃ b t, s = b :: t ∧ InBase base b := by
  cases s with
  | nil => simp [startsDigit]
  | cons b t =>
    unfold startsDigit InBase
    cases hd : digitOf b with
    | none => simp [hd]
    | some d => simp [hd]

theorem inOct {b : Byte} : InBase 8 b ↔ IsOct b := digitOf_iff b 8 (by simp)
theorem inDec {b : Byte} : InBase 10 b ↔ IsDec b := digitOf_iff b 10 (by simp)
theorem inHex {b : Byte} : InBase 16 b ↔ IsHex b := digitOf_iff b 16 (by simp)

theorem body_zero (x : Byte) (t : Str) : strtolBody (0x30 :: x :: t) = if (x = 0x78 ∨ x = 0x58) ∧ startsDigit 16 t then some (takeDigits 16 t 0) else some (takeDigits 8 (0x30 :: x :: t) 0) := rfl

theorem body_other {s : Str} (h : s.head? ≠ some 0x30) : strtolBody s = if startsDigit 10 s then some (takeDigits 10 s 0) else none := by
  unfold strtolBody
  split
  · simp at h
  · simp at h
  · rfl

theorem not_oct_x {x : Byte} (h : x = 0x78 ∨ x = 0x58) : ¬ IsOct x := by rcases h with rfl | rfl <;> simp [IsOct] <;> decide

theorem body_const {c : Str} {n : Nat} (h : Constant c n) : strtolBody c = some (n, []) := by
  cases h with
  | dec _ hne hall hh =>
    rw [body_other hh, if_pos, takeDigits_all _ _ fun b hb => inDec.2 (hall b hb)]
    · rfl
    · cases c with
      | nil => exact absurd rfl hne
      | cons b t => exact startsDigit_iff.2 ⟨b, t, rfl, inDec.2 (hall b (by simp))⟩
  | oct ds hall =>
    cases ds with
    | nil => rfl
    | cons x t =>
      rw [body_zero, if_neg]
      · rw [takeDigits_all]
        · simp only [number, List.foldl_cons]
          rfl
        · intro b hb
          rcases List.mem_cons.1 hb with rfl | hb
          · exact inOct.2 (by simp [IsOct])
          · exact inOct.2 (hall b hb)
      · rintro ⟨h1, h2⟩
        exact not_oct_x h1 (hall x (by simp))
  | hex x ds hx hne hall =>
    rw [body_zero, if_pos, takeDigits_all _ _ fun b hb => inHex.2 (hall b hb)]
    · rfl
    · refine ⟨hx, ?_⟩
      cases ds with
      | nil => exact absurd rfl hne
      | cons b t => exact startsDigit_iff.2 ⟨b, t, rfl, inHex.2 (hall b (by simp))⟩

theorem body_inv {c : Str} {n : Nat} (h : strtolBody c = some (n, [])) : Constant c n := by
  by_cases h0 : c.head? = some 0x30
  · match c, h0 with
    | [b], h0 =>
      simp only [List.head?_cons, Option.some.injEq] at h0
      subst h0
      have : n = 0 := by cases h; rfl
      subst this
      exact .oct [] (by simp)
    | b :: x :: t, h0 =>
      simp only [List.head?_cons, Option.some.injEq] at h0
      subst h0
      rw [body_zero] at h
      by_cases hx : (x = 0x78 ∨ x = 0x58) ∧ startsDigit 16 t
      · rw [if_pos hx] at h
        have h2 := Option.some.inj h
        have hall := takeDigits_inv t 0 (by rw [h2])
        rw [takeDigits_all _ _ hall] at h2
        cases h2
        refine .hex x t hx.1 ?_ fun b hb => inHex.1 (hall b hb)
        rintro rfl
        exact absurd hx.2 (by simp [startsDigit])
      · rw [if_neg hx] at h
        have h2 := Option.some.inj h
        have hall := takeDigits_inv _ 0 (by rw [h2])
        rw [takeDigits_all _ _ hall] at h2
        cases h2
        exact .oct (x :: t) fun b hb => inOct.1 (hall b (by simp only [List.mem_cons]; right; simpa using hb))
  · rw [body_other h0] at h
    by_cases hs : startsDigit 10 c = true
    · rw [if_pos hs] at h
      have h2 := Option.some.inj h
      have hall := takeDigits_inv c 0 (by rw [h2])
      rw [takeDigits_all _ _ hall] at h2
      cases h2
      refine .dec c ?_ (fun b hb => inDec.1 (hall b hb)) h0
      rintro rfl
      exact absurd hs (by simp [startsDigit])
    · rw [if_neg hs] at h; cases h

theorem const_head {c : Str} {n : Nat} (h : Constant c n) : ∃ b t, c = b :: t ∧ IsDec b := by
  cases h with
  | dec _ hne hall _ =>
    cases c with
    | nil => exact absurd rfl hne
    | cons b t => exact ⟨b, t, rfl, hall b (by simp)⟩
  | oct ds _ => exact ⟨_, _, rfl, by simp [IsDec]⟩
  | hex x ds _ _ _ => exact ⟨_, _, rfl, by simp [IsDec]⟩

theorem clamp_eq (n : Int) : clampLong n = nearest n := by
  unfold clampLong nearest
  omega

theorem space_iff {b : Byte} : isSpace b = true ↔ IsSpace b := by simp [isSpace, IsSpace]

theorem drop_spaces {ws t : Str} (h : ∀ b ∈ ws, IsSpace b) (ht : ∀ b, t.head? = some b → ¬ IsSpace b) : (ws ++ t).dropWhile isSpace = t := by
  induction ws with
  | nil =>
    cases t with
    | nil => rfl
    | cons b t =>
      have := ht b rfl
      rw [← space_iff] at this
      simp [this]
  | cons b ws ih =>
    have := space_iff.2 (h b (by simp))
    simp only [List.cons_append, List.dropWhile_cons, this, if_true]
    exact ih fun x hx => h x (by simp [hx])

theorem dec_not {b : Byte} (h : IsDec b) : ¬ IsSpace b ∧ b ≠ 0x2D ∧ b ≠ 0x2B := by
  obtain ⟨h1, h2⟩ := h
  refine ⟨?_, ?_, ?_⟩
  · rintro (rfl | ⟨_, h4⟩)
    · revert h1; decide
    · simp only [UInt8.le_iff_toNat_le] at h1 h4
      have e1 : (0x30 : Byte).toNat = 0x30 := rfl
      have e2 : (0x0D : Byte).toNat = 0x0D := rfl
      omega
  · rintro rfl; revert h1; decide
  · rintro rfl; revert h1; decide

/-- Sign and rest. -/
def signOf (t : Str) : Bool × Str := match t with
    | 0x2D :: u => (true, u)
    | 0x2B :: u => (false, u)
    | u => (false, u)

theorem strtol_eq (s : Str) : strtol s = match strtolBody (signOf (s.dropWhile isSpace)).2 with
  | none => (0, s)
  | some (n, r) => (clampLong (if (signOf (s.dropWhile isSpace)).1 then -(n : Int) else n), r) := by
  unfold strtol signOf
  rfl

theorem sign_plain {t : Str} (h : ∀ b, t.head? = some b → b ≠ 0x2D ∧ b ≠ 0x2B) : signOf t = (false, t) := by
  unfold signOf
  split
  · exact absurd rfl (h _ rfl).1
  · exact absurd rfl (h _ rfl).2
  · rfl

theorem sign_cases (t : Str) : (∃ u, t = 0x2D :: u ∧ signOf t = (true, u)) ∨ (∃ u, t = 0x2B :: u ∧ signOf t = (false, u)) ∨ signOf t = (false, t) := by
  unfold signOf
  split
  · exact Or.inl ⟨_, rfl, rfl⟩
  · exact Or.inr (Or.inl ⟨_, rfl, rfl⟩)
  · exact Or.inr (Or.inr rfl)

theorem mem_takeWhile {α : Type} {p : α → Bool} {l : List α} {a : α} (h : a ∈ l.takeWhile p) : p a = true := by
  induction l with
  | nil => cases h
  | cons b l ih =>
    rw [List.takeWhile_cons] at h
    by_cases hb : p b = true
    · rw [if_pos hb] at h
      rcases List.mem_cons.1 h with rfl | h
      · exact hb
      · exact ih h
    · rw [if_neg hb] at h; cases h

theorem strtol_int {s : Str} {n : Int} (h : IntText s n) : s ≠ [] ∧ strtol s = (n, []) := by
  cases h with
  | plain ws c m hws hc =>
    obtain ⟨b, t, rfl, hb⟩ := const_head hc
    refine ⟨by simp, ?_⟩
    rw [strtol_eq, drop_spaces hws (fun x hx => by cases hx; exact (dec_not hb).1), sign_plain (fun x hx => by cases hx; exact (dec_not hb).2), body_const hc]
    simp [clamp_eq]
  | plus ws c m hws hc =>
    refine ⟨by simp, ?_⟩
    rw [strtol_eq, drop_spaces hws (fun x hx => by cases hx; simp [IsSpace])]
    show (match strtolBody c with
      | none => (0, ws ++ 43 :: c)
      | some (n, r) => (clampLong (if false = true then -(n : Int) else n), r)) = _
    rw [body_const hc]
    simp [clamp_eq]
  | minus ws c m hws hc =>
    refine ⟨by simp, ?_⟩
    rw [strtol_eq, drop_spaces hws (fun x hx => by cases hx; simp [IsSpace])]
    show (match strtolBody c with
      | none => (0, ws ++ 45 :: c)
      | some (n, r) => (clampLong (if true = true then -(n : Int) else n), r)) = _
    rw [body_const hc]
    simp [clamp_eq]

theorem int_strtol {s : Str} (hs : s ≠ []) (h : (strtol s).2 = []) : IntText s (strtol s).1 := by
  have hsplit := List.takeWhile_append_dropWhile (p := isSpace) (l := s)
  have hws : ∀ b ∈ s.takeWhile isSpace, IsSpace b := fun b hb => space_iff.1 (mem_takeWhile hb)
  rw [strtol_eq] at h ⊢
  generalize ht : s.dropWhile isSpace = t at *
  cases hb : strtolBody (signOf t).2 with
  | none => rw [hb] at h; exact absurd h hs
  | some r =>
    obtain ⟨m, r⟩ := r
    rw [hb] at h
    simp only at h ⊢
    subst h
    have hc := body_inv hb
    rw [← hsplit]
    rcases sign_cases t with ⟨u, h1, h2⟩ | ⟨u, h1, h2⟩ | h2 <;> rw [h2] at hc ⊢
    · rw [h1]; simp only [if_true, clamp_eq]; exact .minus _ _ m hws hc
    · rw [h1]; simp only [Bool.false_eq_true, if_false, clamp_eq]; exact .plus _ _ m hws hc
    · simp only [Bool.false_eq_true, if_false, clamp_eq]; exact .plain _ _ m hws hc

theorem intText_iff (s : Str) (n : Int) : IntText s n ↔ s ≠ [] ∧ strtol s = (n, []) := by
  constructor
  · exact strtol_int
  · rintro ⟨h1, h2⟩
    have := int_strtol h1 (by rw [h2])
    rw [h2] at this; exact this

theorem same_iff (s t : Str) : Same s t ↔ s.map lower = t := Iff.rfl

section
variable {F : Type} (fl : Floats F)

theorem number_iff (s : Str) : Number fl s ↔ (s ≠ [] ∧ (strtol s).2 = []) ∨ fl.read s ≠ none := by
  unfold Number
  constructor
  · rintro (⟨n, h⟩ | ⟨f, h⟩)
    · have := strtol_int h; left; exact ⟨this.1, by rw [this.2]⟩
    · right; rw [h]; simp
  · rintro (⟨h1, h2⟩ | h)
    · left; exact ⟨_, int_strtol h1 h2⟩
    · right; cases e : fl.read s with
      | none => exact absurd e h
      | some f => exact ⟨f, rfl⟩

theorem quoted_same {q : Byte} {t s : Str} (hq : IsQuote q) (h : (q :: t).map lower = s) : s.head? = some q := by
  rw [← h]
  rcases hq with rfl | rfl <;> simp [lower] <;> decide

theorem getType_denotes (s : Str) : Denotes fl s (getType fl s) := by
  unfold getType
  by_cases hi : s ≠ [] ∧ (strtol s).2 = []
  · rw [if_pos hi]; exact .int s _ (int_strtol hi.1 hi.2)
  · rw [if_neg hi]
    cases hf : fl.read s with
    | some f => exact .float s f (fun n h => hi (by have := strtol_int h; exact ⟨this.1, by rw [this.2]⟩)) hf
    | none =>
      have hn : ¬ Number fl s := by rw [number_iff]; rintro (h | h); exact hi h; exact h hf
      simp only
      by_cases ht : s.map lower = [0x79, 0x65, 0x73] ∨ s.map lower = [0x74, 0x72, 0x75, 0x65]
      · rw [if_pos ht]; exact .true s hn ht
      · rw [if_neg ht]
        by_cases hfa : s.map lower = [0x6E, 0x6F] ∨ s.map lower = [0x66, 0x61, 0x6C, 0x73, 0x65]
        · rw [if_pos hfa]; exact .false s hn hfa
        · rw [if_neg hfa]
          cases s with
          | nil => exact .str [] hn ht hfa (by simp)
          | cons q t =>
            simp only
            by_cases hq : q = 0x27 ∨ q = 0x22
            · rw [if_pos hq]
              by_cases hnil : t = []
              · subst hnil; exact .quote q hn hq
              · have e : q :: t = q :: t.dropLast ++ [t.getLast hnil] := by
                  rw [List.cons_append, List.dropLast_concat_getLast]
                have hn' := hn
                rw [e] at hn'
                have := Denotes.quoted (fl := fl) q t.dropLast (t.getLast hnil) hn' hq
                rw [← e] at this; exact this
            · rw [if_neg hq]
              exact .str _ hn ht hfa (by intro q' h; cases h; exact hq)

theorem denotes_unique {s : Str} {c : Cell F} (h : Denotes fl s c) : c = getType fl s := by
  have isNum : ∀ {s : Str}, ¬ Number fl s → ¬ (s ≠ [] ∧ (strtol s).2 = []) ∧ fl.read s = none := fun {s} h => by
    rw [number_iff] at h
    refine ⟨fun h' => h (Or.inl h'), ?_⟩
    cases e : fl.read s with
    | none => rfl
    | some f => exact absurd (Or.inr (by rw [e]; simp)) h
  have quoteCase : ∀ {q : Byte} {t : Str}, ¬ Number fl (q :: t) → IsQuote q → getType fl (q :: t) = .str t.dropLast := fun {q t} hn hq => by
    obtain ⟨h1, h2⟩ := isNum hn
    unfold getType
    rw [if_neg h1, h2]
    have : ∀ x ∈ ([[0x79, 0x65, 0x73], [0x74, 0x72, 0x75, 0x65], [0x6E, 0x6F], [0x66, 0x61, 0x6C, 0x73, 0x65]] : List Str), (q :: t).map lower ≠ x := by
      intro x hx e
      have := quoted_same hq e
      simp only [List.mem_cons, List.not_mem_nil, or_false] at hx
      rcases hx with rfl | rfl | rfl | rfl <;> rcases hq with rfl | rfl <;> revert this <;> decide
    simp only
    rw [if_neg (by rintro (h | h); exact this _ (by simp) h; exact this _ (by simp) h), if_neg (by rintro (h | h); exact this _ (by simp) h; exact this _ (by simp) h), if_pos (by exact hq)]
  cases h with
  | int _ n h =>
    have := strtol_int h
    unfold getType
    rw [this.2, if_pos ⟨this.1, rfl⟩]
  | float _ f hi hf =>
    unfold getType
    rw [if_neg fun h => hi _ (int_strtol h.1 h.2), hf]
  | true _ hn ht =>
    obtain ⟨h1, h2⟩ := isNum hn
    unfold getType
    rw [if_neg h1, h2]
    simp only
    rw [if_pos (by exact ht)]
  | false _ hn ht =>
    obtain ⟨h1, h2⟩ := isNum hn
    unfold getType
    rw [if_neg h1, h2]
    simp only
    rw [if_neg, if_pos (by exact ht)]
    rcases ht with h | h <;> rw [same_iff] at h <;> rw [h] <;> decide
  | quoted q t e hn hq =>
    rw [List.cons_append] at hn ⊢
    rw [quoteCase hn hq]; simp
  | quote q hn hq => rw [quoteCase hn hq]; rfl
  | str _ hn h1 h2 h3 =>
    obtain ⟨g1, g2⟩ := isNum hn
    unfold getType
    rw [if_neg g1, g2]
    simp only
    rw [if_neg (by exact h1), if_neg (by exact h2)]
    cases s with
    | nil => rfl
    | cons q t => simp only; rw [if_neg (by exact h3 q rfl)]

end

end ZT.Cfg
