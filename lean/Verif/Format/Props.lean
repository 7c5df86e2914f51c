import Verif.Format.Bounded
import Verif.Format.Std
import Verif.Format.ClibLemmas

/-!
# C35, C36: the formatter against the meaning of formats
-/

namespace ZT.Format

open Std

/-! ## Where the library agrees with the standard -/

/-- The floating numbers: a precision up to 99, at least as many characters as the precision (the digits are padded with zeros as those of an integer; %e and %f of finite numbers always have), room in the
buffer (only %.99f of a negative number of 309 digits has none, `Float.fits`), and a field that is not padded between sign and number. -/
def AgreesF (c : Byte) (F : Field) (x : Dbl) : Prop :=
  F.prec.getD 6 ≤ 99 ∧ (if c = 103 ∧ F.prec = some 0 then 1 else F.prec.getD 6) ≤ (Clib.body c (F.prec.getD 6) x).length ∧ (Clib.text c (F.prec.getD 6) x).length < 410 ∧
    (F.width ≤ (fsign F x).length ∨
      ¬ (F.prec = some 0 ∧ Clib.body c 0 x = [48] ∧ c ≠ 103) ∧
        (F.minus = true ∨ F.width ≤ (fsign F x).length + (Clib.body c (F.prec.getD 6) x).length ∨ (fsign F x = [] ∧ (F.zero = false ∨ finite x = false))))

/-- The cases in which zt_format.c prints what the C standard says. Each exclusion is a deviation: see the violations at the end. -/
def Agrees : Kind → Field → Arg → Prop
  | .d, F, .int i => i ≠ INT_MAX ∧ ¬ (F.prec = some 0 ∧ i = 0) ∧
      (sign F i = [] ∨ F.minus = true ∨ (F.zero = true ∧ F.prec = none) ∨ F.width ≤ (sign F i).length + max (F.prec.getD 1) (Num.digits 10 i.natAbs).length)
  | .o, F, .uint n | .u, F, .uint n | .x, F, .uint n => F.space = false ∧ ¬ (F.prec = some 0 ∧ n = 0)
  | .p, F, _ => F.space = false
  | .s, F, .str (some s) => F.minus = false ∨ F.width ≤ (cut F s).length
  | .e, F, .dbl x => AgreesF 101 F x
  | .f, F, .dbl x => AgreesF 102 F x
  | .g, F, .dbl x => AgreesF 103 F x
  | _, _, _ => True

/-- Every conversion is well formed, its arguments are in range and it is one of the cases above. -/
def AllAgree : List Item → List Arg → Prop
  | [], _ => True
  | .lit b :: is, ap => b ≠ 0 ∧ AllAgree is ap
  | .conv k :: is, ap => k.WF ∧ ∀ F a r, resolve k ap = some (F, a, r) → (∀ x ∈ ap.take (ap.length - r.length), Arg.InRange x) ∧ Agrees k.kind F a ∧ AllAgree is r

/-! ## Scanning -/

def cnt (l : List Byte) : Flags := fun c => l.count c

theorem scanFlags_spec (rest : List Byte) (hr : ∀ c r, rest = c :: r → isFlag c = false) : ∀ (l : List Byte) (f : Flags), (∀ c ∈ l, isFlag c = true) → (∀ c, f c + l.count c ≤ 255) →
    scanFlags f (l ++ rest) = .ok (fun c => f c + l.count c, rest) := by
  intro l
  induction l with
  | nil =>
      intro f _ _
      cases rest with
      | nil => simp [scanFlags]
      | cons c r => simp [scanFlags, hr c r rfl]
  | cons x l ih =>
      intro f hl hc
      rw [List.cons_append, scanFlags, if_pos (hl x (by simp))]
      have hx := hc x
      rw [List.count_cons_self] at hx
      rw [if_pos (by omega)]
      rw [ih _ (fun c h => hl c (by simp [h])) (fun c => ?_)]
      · refine congrArg (fun g => Outcome.ok (g, rest)) ?_
        funext c
        simp only [Flags.set, List.count_cons]
        by_cases h : c = x
        · subst h; simp; omega
        · have h' : ¬ (x = c) := fun e => h e.symm
          simp [h, h']
      · have := hc c
        simp only [Flags.set, List.count_cons] at this ⊢
        by_cases h : c = x
        · subst h; simp at this ⊢; omega
        · have h' : ¬ (x = c) := fun e => h e.symm
          simp [h, h'] at this ⊢
          exact this

theorem scanNum_spec (rest : List Byte) (hr : ∀ c r, rest = c :: r → isDigit c = false) : ∀ (ds : List Byte) (a : Nat), (∀ c ∈ ds, isDigit c = true) →
    ((ds.foldl (fun a c => 10 * a + (c.toNat - 48)) a : Nat) : Int) ≤ INT_MAX → scanNum a (ds ++ rest) = .ok (((ds.foldl (fun a c => 10 * a + (c.toNat - 48)) a : Nat) : Int), rest) := by
  intro ds
  induction ds with
  | nil =>
      intro a _ _
      cases rest with
      | nil => simp [scanNum]
      | cons c r => simp [scanNum, hr c r rfl]
  | cons c ds ih =>
      intro a hd hv
      have hc := hd c (by simp)
      have hc' : 48 ≤ c.toNat ∧ c.toNat ≤ 57 := by
        simp only [isDigit, decide_eq_true_eq] at hc
        exact ⟨hc.1, hc.2⟩
      have mono : ∀ (l : List Byte) (x : Nat), x ≤ l.foldl (fun a c => 10 * a + (c.toNat - 48)) x := by
        intro l
        induction l with
        | nil => intro x; exact Nat.le_refl _
        | cons y l ih => intro x; exact Nat.le_trans (show x ≤ 10 * x + (y.toNat - 48) by omega) (ih _)
      rw [List.cons_append, scanNum, if_pos hc]
      simp only [List.foldl_cons] at hv ⊢
      have h1 : ((10 * a + (c.toNat - 48) : Nat) : Int) ≤ INT_MAX := by
        have := mono ds (10 * a + (c.toNat - 48))
        omega
      have hnum : (10 * (a : Int) + ((c.toNat : Int) - 48)) = ((10 * a + (c.toNat - 48) : Nat) : Int) := by omega
      have h0 : (0 : Int) ≤ INT_MAX - ((c.toNat : Int) - 48) := by simp only [INT_MAX] at h1 ⊢; omega
      rw [Int.tdiv_eq_ediv_of_nonneg h0, if_pos (by omega), hnum]
      exact ih _ (fun x hx => hd x (by simp [hx])) hv

theorem digits_are_digits (n : Nat) : ∀ c ∈ Num.digits 10 n, isDigit c = true := by
  intro c hc
  simp only [Num.digits, List.mem_map] at hc
  obtain ⟨x, hx, rfl⟩ := hc
  have := Nat.isDigit_of_mem_toDigits (by omega) (by omega) hx
  simp only [Char.isDigit, Bool.and_eq_true, decide_eq_true_eq] at this
  have h1 : 48 ≤ x.toNat := this.1
  have h2 : x.toNat ≤ 57 := this.2
  have hb : (Num.byte x).toNat = x.toNat := by
    simp only [Num.byte, UInt8.toNat_ofNat']; omega
  simp only [isDigit, decide_eq_true_eq]
  constructor
  · show (48 : UInt8).toNat ≤ (Num.byte x).toNat
    rw [hb]; exact h1
  · show (Num.byte x).toNat ≤ (57 : UInt8).toNat
    rw [hb]; exact h2

theorem digits_head (n : Nat) (hn : 0 < n) : ∃ c r, Num.digits 10 n = c :: r ∧ isDigit c = true ∧ isFlag c = false := by
  induction n using Nat.strongRecOn with
  | ind n ih =>
      by_cases h : n < 10
      · refine ⟨_, [], Num.digits_lt h, digits_are_digits n _ (by rw [Num.digits_lt h]; simp), ?_⟩
        rw [Num.byte_digit h]
        have key : ∀ d : Fin 10, 0 < d.val → isFlag (UInt8.ofNat (48 + d.val)) = false := by decide
        exact key ⟨n, h⟩ hn
      · obtain ⟨c, r, e, h1, h2⟩ := ih (n / 10) (by omega) (by omega)
        exact ⟨c, r ++ [_], by rw [Num.digits_ge (by omega) (by omega), e]; rfl, h1, h2⟩

theorem scanNum_digits {n : Nat} (hn : (n : Int) ≤ INT_MAX) (rest : List Byte) (hr : ∀ c r, rest = c :: r → isDigit c = false) : scanNum 0 (Num.digits 10 n ++ rest) = .ok (n, rest) := by
  have hv := Num.value_digits (b := 10) (n := n) (by omega) (by omega)
  have := scanNum_spec rest hr (Num.digits 10 n) 0 (digits_are_digits n) (by rw [hv]; exact hn)
  rw [hv] at this
  exact this

/-- The width or precision found by the code. -/
def toLib : Option Int → Int
  | none => INT_MIN
  | some n => n

theorem digits_head_any (n : Nat) : ∃ c r, Num.digits 10 n = c :: r ∧ isDigit c = true := by
  cases h : Num.digits 10 n with
  | nil => exact absurd h (Num.digits_ne_nil _ _)
  | cons c r => exact ⟨c, r, rfl, digits_are_digits n c (by rw [h]; simp)⟩

theorem scanStar_spec {l : Len} (hl : l ≠ .absent) (hr : l.InRange 0) {ap : List Arg} {w : Option Int} {ap' : List Arg} (ht : takeLen l ap = some (w, ap')) (hap : ∀ x ∈ ap.take (ap.length - ap'.length), Arg.InRange x)
    (rest : List Byte) (hrest : ∀ c r, rest = c :: r → isDigit c = false) : scanStar (l.text ++ rest) ap = .ok (toLib w, rest, ap') ∧ starts (l.text ++ rest) = true := by
  cases l with
  | absent => exact absurd rfl hl
  | num n =>
      cases ht
      obtain ⟨c, r, e, hc⟩ := digits_head_any n
      have hne : c ≠ 42 := by rintro rfl; exact absurd hc (by decide)
      constructor
      · simp only [Len.text]
        have hs := scanNum_digits hr.2 rest hrest
        rw [e] at hs ⊢
        simp only [List.cons_append] at hs ⊢
        unfold scanStar
        split
        · rename_i heq; injection heq with h1 _; exact absurd h1 hne
        · rw [hs]; rfl
      · simp only [Len.text]
        rw [e]
        simp [starts, hc]
  | star =>
      cases ap with
      | nil => simp [takeLen] at ht
      | cons a ap =>
          cases a with
          | int n =>
              cases ht
              have hlen : (Arg.int n :: ap').length - ap'.length = 1 := by simp
              have hn := hap (.int n) (by rw [hlen]; simp)
              refine ⟨?_, rfl⟩
              simp only [Len.text, List.cons_append, List.nil_append, scanStar]
              rw [if_pos (by have := hn.1; omega)]
              rfl
          | uint u => simp [takeLen] at ht
          | ptr u => simp [takeLen] at ht
          | str u => simp [takeLen] at ht
          | dbl => simp [takeLen] at ht

theorem code_not (k : Kind) : isDigit k.code = false ∧ isFlag k.code = false ∧ k.code ≠ 42 ∧ k.code ≠ 46 ∧ k.code ≠ 37 ∧ k.code ≠ 126 := by cases k <;> decide

theorem precText_head (p : Len) (k : Kind) (rest : List Byte) : ∀ c r, precText p ++ [k.code] ++ rest = c :: r → isDigit c = false ∧ isFlag c = false ∧ c ≠ 42 ∧ c ≠ 37 ∧ c ≠ 126 := by
  intro c r h
  have hk := code_not k
  cases p with
  | absent =>
      simp only [precText, List.nil_append, List.cons_append] at h
      injection h with h1 _
      subst h1
      exact ⟨hk.1, hk.2.1, hk.2.2.1, hk.2.2.2.2⟩
  | num n => injection h with h1 _; subst h1; decide
  | star => injection h with h1 _; subst h1; decide

theorem takeLen_length {l : Len} {ap : List Arg} {w : Option Int} {ap' : List Arg} (h : takeLen l ap = some (w, ap')) : ∃ pre, ap = pre ++ ap' := by
  cases l with
  | absent => cases h; exact ⟨[], rfl⟩
  | num n => cases h; exact ⟨[], rfl⟩
  | star =>
      cases ap with
      | nil => simp [takeLen] at h
      | cons a ap =>
          cases a with
          | int n => cases h; exact ⟨[.int n], rfl⟩
          | uint u => simp [takeLen] at h
          | ptr u => simp [takeLen] at h
          | str u => simp [takeLen] at h
          | dbl => simp [takeLen] at h

theorem flag_ok {c : Byte} (h : c = 45 ∨ c = 32 ∨ c = 48) : isFlag c = true := by rcases h with rfl | rfl | rfl <;> decide

/-- Scanning a written conversion finds its parts. -/
theorem directive_spec {σ : Type} (put : Put σ) {k : Conv} (wf : k.WF) {ap ap1 ap2 : List Arg} {w p : Option Int} (hw : takeLen k.width ap = some (w, ap1)) (hp : takeLen k.prec ap1 = some (p, ap2))
    (hr : ∀ x ∈ ap.take (ap.length - ap2.length), Arg.InRange x) (rest : List Byte) (cl : σ) :
    directive put (k.flags ++ (k.width.text ++ (precText k.prec ++ [k.kind.code])) ++ rest) ap cl =
      (convert put k.kind.code ap2 (cnt k.flags) (toLib w) (toLib p) cl >>= fun x => .ok (x.1, x.2.1, rest, x.2.2)) := by
  obtain ⟨l1, rfl⟩ := takeLen_length hw
  obtain ⟨l2, rfl⟩ := takeLen_length hp
  have hr1 : ∀ x ∈ (l1 ++ (l2 ++ ap2)).take ((l1 ++ (l2 ++ ap2)).length - (l2 ++ ap2).length), Arg.InRange x := by
    intro x hx
    have e1 : (l1 ++ (l2 ++ ap2)).length - (l2 ++ ap2).length = l1.length := by simp
    have e2 : (l1 ++ (l2 ++ ap2)).length - ap2.length = (l1 ++ l2).length := by simp; omega
    rw [e1, List.take_left'  rfl] at hx
    rw [e2, ← List.append_assoc, List.take_left' rfl] at hr
    exact hr x (by simp [hx])
  have hr2 : ∀ x ∈ (l2 ++ ap2).take ((l2 ++ ap2).length - ap2.length), Arg.InRange x := by
    intro x hx
    have e1 : (l2 ++ ap2).length - ap2.length = l2.length := by simp
    have e2 : (l1 ++ (l2 ++ ap2)).length - ap2.length = (l1 ++ l2).length := by simp; omega
    rw [e1, List.take_left'  rfl] at hx
    rw [e2, ← List.append_assoc, List.take_left' rfl] at hr
    exact hr x (by simp [hx])
  -- the tail after the flags
  have hph := precText_head k.prec k.kind rest
  have hwh : ∀ c r, k.width.text ++ (precText k.prec ++ [k.kind.code] ++ rest) = c :: r → isFlag c = false := by
    intro c r h
    cases hwd : k.width with
    | absent => rw [hwd] at h; exact (hph c r h).2.1
    | num n =>
        rw [hwd] at h
        have := wf.width
        rw [hwd] at this
        obtain ⟨c', r', e, _, h2⟩ := digits_head n this.1
        simp only [Len.text] at h
        rw [e] at h
        injection h with h1 _
        rw [← h1]; exact h2
    | star => rw [hwd] at h; injection h with h1 _; rw [← h1]; decide
  have eassoc : k.flags ++ (k.width.text ++ (precText k.prec ++ [k.kind.code])) ++ rest = k.flags ++ (k.width.text ++ (precText k.prec ++ [k.kind.code] ++ rest)) := by simp
  rw [eassoc, directive, scanFlags_spec _ hwh k.flags _ (fun c hc => flag_ok (wf.flags c hc)) (fun c => by
    have := List.count_le_length (a := c) (l := k.flags)
    have := wf.few
    simp; omega)]
  simp only [Outcome.ok_bind]
  -- width
  have hwidth : scanWidth (k.width.text ++ (precText k.prec ++ [k.kind.code] ++ rest)) (l1 ++ (l2 ++ ap2)) = .ok (toLib w, precText k.prec ++ [k.kind.code] ++ rest, l2 ++ ap2) := by
    by_cases ha : k.width = .absent
    · rw [ha] at hw ⊢
      simp only [takeLen, Option.some.injEq, Prod.mk.injEq] at hw
      obtain ⟨rfl, he⟩ := hw
      rw [show Len.absent.text ++ (precText k.prec ++ [k.kind.code] ++ rest) = precText k.prec ++ [k.kind.code] ++ rest from rfl, scanWidth, if_neg]
      · rw [he]; rfl
      · cases hc : precText k.prec ++ [k.kind.code] ++ rest with
        | nil => simp [starts]
        | cons c r =>
            obtain ⟨h1, _, h3, _⟩ := hph c r hc
            simp [starts, h1, h3]
    · have hin : k.width.InRange 0 := by
        have := wf.width
        cases hk : k.width with
        | absent => trivial
        | num n => rw [hk] at this; exact ⟨Nat.zero_le _, this.2⟩
        | star => trivial
      obtain ⟨h1, h2⟩ := scanStar_spec ha hin hw hr1 (precText k.prec ++ [k.kind.code] ++ rest) (fun c r h => (hph c r h).1)
      rw [scanWidth, if_pos h2, h1]
  rw [hwidth]
  simp only [Outcome.ok_bind]
  have hcode := code_not k.kind
  have hprec : scanPrec (precText k.prec ++ [k.kind.code] ++ rest) (l2 ++ ap2) = .ok (toLib p, k.kind.code :: rest, ap2) := by
    by_cases ha : k.prec = .absent
    · rw [ha] at hp ⊢
      simp only [takeLen, Option.some.injEq, Prod.mk.injEq] at hp
      obtain ⟨rfl, he⟩ := hp
      simp only [precText, List.nil_append, List.cons_append]
      unfold scanPrec
      split
      · rename_i heq; injection heq with h1 _; exact absurd h1 hcode.2.2.2.1
      · rw [he]; rfl
    · obtain ⟨h1, h2⟩ := scanStar_spec ha wf.prec hp hr2 (k.kind.code :: rest) (fun c r h => by injection h with h1 _; rw [← h1]; exact hcode.1)
      have e : precText k.prec ++ [k.kind.code] ++ rest = 46 :: (k.prec.text ++ k.kind.code :: rest) := by
        cases hk : k.prec with
        | absent => exact absurd hk ha
        | num n => simp [precText]
        | star => simp [precText]
      rw [e, scanPrec, if_pos h2, h1]
  rw [hprec]
  simp only [Outcome.ok_bind]
  have hfl : (fun c => (fun _ => 0 : Flags) c + List.count c k.flags) = cnt k.flags := by funext c; simp [cnt]
  rw [hfl]
  rfl

/-! ## Conversions -/

theorem digitLoop_spec {b : Nat} (hb : 1 < b) (hb16 : b ≤ 16) : ∀ (p m : Nat) (acc : List Byte), m < b ^ p → 0 < p → digitLoop b p m acc = .ok (Num.digits b m ++ acc) := by
  have hdig : ∀ d : Nat, d < 16 → (if d < 10 then UInt8.ofNat d + 48 else UInt8.ofNat (d - 10) + 97) = Num.byte d.digitChar := by
    have key : ∀ d : Fin 16, (if d.val < 10 then UInt8.ofNat d.val + 48 else UInt8.ofNat (d.val - 10) + 97) = Num.byte d.val.digitChar := by decide
    exact fun d h => key ⟨d, h⟩
  intro p
  induction p with
  | zero => intro m acc _ h; omega
  | succ p ih =>
      intro m acc hm _
      have hmod : m % b < 16 := Nat.lt_of_lt_of_le (Nat.mod_lt m (by omega)) hb16
      rw [digitLoop]
      rw [hdig _ hmod]
      by_cases hz : m / b ≠ 0
      · rw [if_pos hz]
        have hbm : b ≤ m := by
          rcases Nat.lt_or_ge m b with h | h
          · exact absurd (Nat.div_eq_of_lt h) hz
          · exact h
        have hp : 0 < p := by
          rcases Nat.eq_zero_or_pos p with h | h
          · subst h; simp at hm; omega
          · exact h
        rw [ih (m / b) _ (Nat.div_lt_of_lt_mul (by rw [Nat.pow_succ, Nat.mul_comm] at hm; exact hm)) hp, Num.digits_ge hb hbm]
        simp
      · rw [if_neg hz]
        have hlt : m < b := by
          have hz := Decidable.not_not.1 hz
          rcases Nat.div_eq_zero_iff.1 hz with h | h
          · omega
          · exact h
        rw [Num.digits_lt hlt, Nat.mod_eq_of_lt hlt]
        rfl

theorem map_codes (s : List Byte) : (codes s).map toByte = s := by
  have h : ∀ b : Byte, toByte (b.toNat : Int) = b := by
    intro b
    have hb := b.toNat_lt
    have e : ((b.toNat : Int) % 256).toNat = b.toNat := by omega
    simp only [toByte]
    rw [e]; simp
  rw [codes, List.map_map]
  conv => rhs; rw [← List.map_id s]
  exact List.map_congr_left fun b _ => h b

theorem map_rep32 (n : Int) : (rep n 32).map toByte = spaces n.toNat := by simp [rep, spaces, toByte]
theorem map_rep48 (n : Int) : (rep n 48).map toByte = zeros n.toNat := by simp [rep, zeros, toByte]

/-- The normalised options are those of the field. -/
structure Norm (w : Int) (fl : Flags) (precision : Int) (F : Field) : Prop where
  width : (normAll w fl precision).1 = F.width
  minus : (normAll w fl precision).2 45 ≠ 0 ↔ F.minus = true
  space : (normAll w fl precision).2 32 ≠ 0 ↔ F.space = true
  zero : (normAll w fl precision).2 48 ≠ 0 ↔ (F.zero = true ∧ F.prec = none)
  prec : (precision < 0 ∧ F.prec = none) ∨ ∃ p : Nat, precision = p ∧ F.prec = some p
  cwidth : (normWidth w fl).1 = F.width
  cminus : (normWidth w fl).2 45 ≠ 0 ↔ F.minus = true

theorem count_ne {l : List Byte} {c : Byte} : l.count c ≠ 0 ↔ l.contains c = true := by
  rw [List.contains_iff_mem, ← List.count_pos_iff]; omega

theorem norm (flags : List Byte) (w p : Option Int) (hw : ∀ n, w = some n → n ≠ INT_MIN) : Norm (toLib w) (cnt flags) (toLib p) (mkField flags w p) := by
  have hmin : (INT_MIN : Int) < 0 := by decide
  have hp : (toLib p < 0 ∧ (mkField flags w p).prec = none) ∨ ∃ q : Nat, toLib p = q ∧ (mkField flags w p).prec = some q := by
    cases p with
    | none => exact .inl ⟨hmin, rfl⟩
    | some n =>
        simp only [toLib, mkField, Option.bind_some]
        by_cases h : n < 0
        · exact .inl ⟨h, by simp [h]⟩
        · exact .inr ⟨n.toNat, by omega, by simp [h]⟩
  have hcw : (normWidth (toLib w) (cnt flags)).1 = (mkField flags w p).width ∧ ((normWidth (toLib w) (cnt flags)).2 45 ≠ 0 ↔ (mkField flags w p).minus = true) ∧
      ∀ c, c ≠ 45 → (normWidth (toLib w) (cnt flags)).2 c = flags.count c := by
    cases w with
    | none =>
        refine ⟨rfl, ?_, fun c _ => rfl⟩
        show flags.count 45 ≠ 0 ↔ (flags.contains 45 || false) = true
        rw [count_ne, Bool.or_false]
    | some n =>
        have hn := hw n rfl
        have e : toLib (some n) = n := rfl
        rw [e]
        by_cases h : n < 0
        · rw [normWidth, if_neg hn, if_pos h]
          refine ⟨?_, ?_, fun c hc => by simp [Flags.set, hc, cnt]⟩
          · simp only [mkField, Option.getD_some]; omega
          · simp [Flags.set, mkField, h]
        · rw [normWidth, if_neg hn, if_neg h]
          refine ⟨?_, ?_, fun c hc => rfl⟩
          · simp only [mkField, Option.getD_some]; omega
          · show flags.count 45 ≠ 0 ↔ (flags.contains 45 || decide (n < 0)) = true
            rw [count_ne]; simp [h]
  obtain ⟨h1, h2, h3⟩ := hcw
  refine ⟨h1, ?_, ?_, ?_, hp, h1, h2⟩
  · simp only [normAll]
    split
    · rw [show Flags.set (normWidth (toLib w) (cnt flags)).2 48 0 45 = (normWidth (toLib w) (cnt flags)).2 45 from rfl]; exact h2
    · exact h2
  · have e : (normAll (toLib w) (cnt flags) (toLib p)).2 32 = flags.count 32 := by
      simp only [normAll]
      split
      · rw [show Flags.set (normWidth (toLib w) (cnt flags)).2 48 0 32 = (normWidth (toLib w) (cnt flags)).2 32 from rfl]; exact h3 32 (by decide)
      · exact h3 32 (by decide)
    rw [e]; exact count_ne
  · rcases hp with ⟨hlt, hn⟩ | ⟨q, hq, hs⟩
    · have e : (normAll (toLib w) (cnt flags) (toLib p)).2 48 = flags.count 48 := by
        simp only [normAll]
        rw [if_neg (by omega)]
        exact h3 48 (by decide)
      rw [e, hn]
      simp only [and_true]
      exact count_ne
    · have e : (normAll (toLib w) (cnt flags) (toLib p)).2 48 = 0 := by
        simp only [normAll]
        rw [if_pos (by omega)]
        rfl
      rw [e, hs]; simp

theorem length_spaces (n : Nat) : (spaces n).length = n := by simp [spaces]
theorem length_zeros (n : Nat) : (zeros n).length = n := by simp [zeros]

theorem takeSign_spec {width : Int} {fl : Flags} {precision : Int} {F : Field} (N : Norm width fl precision F) (neg : Bool) (ds : List Byte) (hds : ∃ c r, ds = c :: r ∧ c ≠ 45 ∧ c ≠ 43)
    (sg : List Byte) (hsg : sg = if neg then [45] else if F.space then [32] else []) :
    ∃ sign : Int, takeSign (if neg then 45 :: ds else ds) (normAll width fl precision).2 = (sign, ds) ∧ (signCodes sign).map toByte = sg ∧ (if sign ≠ 0 then 1 else 0 : Int) = sg.length := by
  obtain ⟨c, r, hcr, hc1, hc2⟩ := hds
  have hf := N.space
  cases neg with
  | true => exact ⟨45, rfl, by rw [hsg]; rfl, by rw [hsg]; rfl⟩
  | false =>
      have e : takeSign ds (normAll width fl precision).2 = if (normAll width fl precision).2 32 ≠ 0 then (32, ds) else (0, ds) := by
        rw [hcr]
        unfold takeSign
        split
        · rename_i heq; injection heq with h1 _; exact absurd h1 hc1
        · rename_i heq; injection heq with h1 _; exact absurd h1 hc2
        · rfl
      by_cases hsp : F.space = true
      · have hsg' : sg = [32] := by rw [hsg]; simp [hsp]
        refine ⟨32, ?_, by rw [hsg']; rfl, by rw [hsg']; rfl⟩
        simp only [Bool.false_eq_true, if_false]
        rw [e, if_pos (hf.2 hsp)]
      · have hsg' : sg = [] := by rw [hsg]; simp [hsp]
        refine ⟨0, ?_, by rw [hsg']; rfl, by rw [hsg']; rfl⟩
        simp only [Bool.false_eq_true, if_false]
        rw [e, if_neg (mt hf.1 hsp)]

/-- A numeral: no sign, and not the single digit 0 in the case of precision 0. -/
theorem putd_number {width : Int} {fl : Flags} {precision : Int} {F : Field} (N : Norm width fl precision F) (neg : Bool) (ds : List Byte) (hds : ∃ c r, ds = c :: r ∧ c ≠ 45 ∧ c ≠ 43)
    (h0 : ¬ (F.prec = some 0 ∧ ds = [48])) (sg : List Byte) (hsg : sg = if neg then [45] else if F.space then [32] else [])
    (hfit : sg = [] ∨ F.minus = true ∨ (F.zero = true ∧ F.prec = none) ∨ F.width ≤ sg.length + max (F.prec.getD 1) ds.length) :
    (putdCodes (if neg then 45 :: ds else ds) fl width precision).map toByte = number F sg ds := by
  obtain ⟨c, r, hcr, hc1, hc2⟩ := hds
  have hlen : 0 < ds.length := by rw [hcr]; simp
  have hf := N.space
  have hds : ∃ c r, ds = c :: r ∧ c ≠ 45 ∧ c ≠ 43 := ⟨c, r, hcr, hc1, hc2⟩
  obtain ⟨sgn, hts, hsc, hsl⟩ := takeSign_spec N neg ds hds sg hsg
  -- the precision
  have hprec : (if precision < 0 then 1 else precision) = ((F.prec.getD 1 : Nat) : Int) := by
    rcases N.prec with ⟨h, hn⟩ | ⟨q, hq, hs⟩
    · rw [if_pos h, hn]; rfl
    · rw [if_neg (by omega), hs, hq]; rfl
  have hn : fieldLen ds ((F.prec.getD 1 : Nat) : Int) sgn = ((sg.length + max (F.prec.getD 1) ds.length : Nat) : Int) := by
    simp only [fieldLen]
    have hnz : ¬ (((F.prec.getD 1 : Nat) : Int) = 0 ∧ ds = [48]) := by
      rintro ⟨hz, hd⟩
      refine h0 ⟨?_, hd⟩
      cases hp : F.prec with
      | none => rw [hp] at hz; simp at hz
      | some q => rw [hp] at hz; simp at hz; rw [hz]
    rw [if_neg hnz]
    split at hsl <;> (rename_i hsz; simp only [hsz, if_true, if_false, ne_eq, not_false_iff]) <;> split <;> omega
  simp only [putdCodes, hts, hprec, hn, List.map_append, hsc, map_codes, map_rep48]
  have hz : (((F.prec.getD 1 : Nat) : Int) - (ds.length : Int)).toNat = F.prec.getD 1 - ds.length := by omega
  have hbody : (sg ++ (zeros (F.prec.getD 1 - ds.length) ++ ds)).length = sg.length + max (F.prec.getD 1) ds.length := by
    simp only [List.length_append, length_zeros]; omega
  have hfill : ((normAll width fl precision).1 - ((sg.length + max (F.prec.getD 1) ds.length : Nat) : Int)).toNat = F.width - (sg ++ (zeros (F.prec.getD 1 - ds.length) ++ ds)).length := by
    rw [N.width, hbody]; omega
  rw [hz]
  simp only [number]
  by_cases hm : F.minus = true
  · rw [if_pos (N.minus.2 hm), if_pos (N.minus.2 hm), if_pos hm, map_rep32, hfill]
    simp
  · rw [if_neg (mt N.minus.1 hm), if_neg (mt N.minus.1 hm), if_neg hm]
    by_cases hzf : F.zero = true ∧ F.prec = none
    · rw [if_pos (N.zero.2 hzf), if_pos hzf, map_rep48, hfill]
      simp
    · rw [if_neg (mt N.zero.1 hzf), if_neg hzf, map_rep32, hfill]
      rcases hfit with h | h | h | h
      · rw [h]; simp
      · exact absurd h hm
      · exact absurd h hzf
      · have : F.width - (sg ++ (zeros (F.prec.getD 1 - ds.length) ++ ds)).length = 0 := by rw [hbody]; omega
        rw [this]
        simp [spaces]

/-- A field no wider than the sign is not padded. -/
theorem putd_narrow {width : Int} {fl : Flags} {precision : Int} {F : Field} (N : Norm width fl precision F) (neg : Bool) (ds : List Byte) (hds : ∃ c r, ds = c :: r ∧ c ≠ 45 ∧ c ≠ 43)
    (sg : List Byte) (hsg : sg = if neg then [45] else if F.space then [32] else []) (hlen : F.prec.getD 1 ≤ ds.length) (hfit : F.width ≤ sg.length) :
    (putdCodes (if neg then 45 :: ds else ds) fl width precision).map toByte = sg ++ ds := by
  obtain ⟨sgn, hts, hsc, hsl⟩ := takeSign_spec N neg ds hds sg hsg
  have hprec : (if precision < 0 then 1 else precision) = ((F.prec.getD 1 : Nat) : Int) := by
    rcases N.prec with ⟨h, hn⟩ | ⟨q, hq, hs⟩
    · rw [if_pos h, hn]; rfl
    · rw [if_neg (by omega), hs, hq]; rfl
  have hn : (sg.length : Int) ≤ fieldLen ds ((F.prec.getD 1 : Nat) : Int) sgn := by
    simp only [fieldLen]
    split at hsl <;> (rename_i hsz; simp only [hsz, if_true, if_false, ne_eq, not_false_iff]) <;> (repeat' split) <;> omega
  simp only [putdCodes, hts, hprec, List.map_append, hsc, map_codes, map_rep48]
  have hz : (((F.prec.getD 1 : Nat) : Int) - (ds.length : Int)).toNat = 0 := by omega
  have hf : ((normAll width fl precision).1 - fieldLen ds ((F.prec.getD 1 : Nat) : Int) sgn).toNat = 0 := by rw [N.width]; omega
  have hr : ∀ c, rep ((normAll width fl precision).1 - fieldLen ds ((F.prec.getD 1 : Nat) : Int) sgn) c = [] := by intro c; rw [rep, hf]; rfl
  rw [hz, hr, hr]
  simp [zeros]

theorem digits_head_any16 {b : Nat} (hb : 1 < b) (hb16 : b ≤ 16) (n : Nat) : ∃ c r, Num.digits b n = c :: r ∧ c ≠ 45 ∧ c ≠ 43 := by
  have key : ∀ d : Fin 16, Num.byte d.val.digitChar ≠ 45 ∧ Num.byte d.val.digitChar ≠ 43 := by decide
  induction n using Nat.strongRecOn with
  | ind n ih =>
      by_cases h : n < b
      · exact ⟨_, [], Num.digits_lt h, key ⟨n, by omega⟩⟩
      · obtain ⟨c, r, e, h1⟩ := ih (n / b) (Nat.div_lt_self (by omega) hb)
        exact ⟨c, r ++ [_], by rw [Num.digits_ge hb (by omega), e]; rfl, h1⟩

/-- The digit 0 alone is the numeral of zero only. -/
theorem digits_zero {b : Nat} (hb : 1 < b) (hb16 : b ≤ 16) {n : Nat} (h : Num.digits b n = [48]) : n = 0 := by
  have key : ∀ d : Fin 16, Num.byte d.val.digitChar = 48 → d.val = 0 := by decide
  by_cases hn : n < b
  · rw [Num.digits_lt hn] at h
    exact key ⟨n, by omega⟩ (by simpa using h)
  · rw [Num.digits_ge hb (by omega)] at h
    have := congrArg List.length h
    have h2 := Num.digits_ne_nil b (n / b)
    cases hd : Num.digits b (n / b) with
    | nil => exact absurd hd h2
    | cons x xs => rw [hd] at this; simp at this

theorem magnitude_spec {i : Int} (h1 : INT_MIN < i) (h2 : i ≤ INT_MAX) (h3 : i ≠ INT_MAX) : magnitude i = .ok i.natAbs := by
  simp only [INT_MIN, INT_MAX] at h1 h2 h3
  rw [magnitude, if_neg (by simp only [INT_MAX]; omega)]
  split
  · rw [if_pos (by simp only [INT_MAX]; omega)]
    exact congrArg _ (by omega)
  · exact congrArg _ (by omega)

theorem toByte_char (i : Int) : toByte (Int.bmod i 256) = UInt8.ofNat (i % 256).toNat := by
  rw [toByte]
  exact congrArg _ (congrArg _ (by rw [show (256 : Int) = ((256 : Nat) : Int) from rfl, Int.bmod_emod]))

theorem cvtC_spec {w : Int} {fl : Flags} {p : Int} {F : Field} (N : Norm w fl p F) (i : Int) : (cvtCCodes i fl w).map toByte = inField F [UInt8.ofNat (i % 256).toNat] := by
  have hf : ((normWidth w fl).1 - 1).toNat = F.width - 1 := by rw [N.cwidth]; omega
  simp only [cvtCCodes, inField, List.map_append, List.map_cons, List.map_nil, toByte_char]
  by_cases hm : F.minus = true
  · have := N.cminus.2 hm
    rw [if_neg this, if_pos this, if_pos hm, map_rep32, hf]; rfl
  · have := mt N.cminus.1 hm
    rw [if_pos (Decidable.not_not.1 this), if_neg this, if_neg hm, map_rep32, hf]
    simp

theorem puts_spec {w : Int} {fl : Flags} {p : Int} {F : Field} (N : Norm w fl p F) (s : List Byte) (h : F.minus = false ∨ F.width ≤ (cut F s).length) :
    (putsCodes s fl w p).map toByte = inField F (cut F s) := by
  have hc : (if p ≥ 0 ∧ p < s.length then s.take p.toNat else s) = cut F s := by
    rw [cut]
    rcases N.prec with ⟨hp, e⟩ | ⟨q, hq, e⟩
    · rw [if_neg (by omega), e]
    · rw [e]
      simp only
      split
      · rw [hq]; rfl
      · rw [List.take_of_length_le]; omega
  simp only [putsCodes]
  rw [hc]
  have hf : ((normAll w fl p).1 - ((cut F s).length : Int)).toNat = F.width - (cut F s).length := by rw [N.width]; omega
  rw [List.map_append, map_codes, inField]
  by_cases hm : F.minus = true
  · rw [if_neg (N.minus.2 hm), if_pos hm]
    have hz : F.width - (cut F s).length = 0 := by
      rcases h with h | h
      · rw [h] at hm; cases hm
      · omega
    rw [hz]; simp [spaces]
  · rw [if_pos (Decidable.not_not.1 (mt N.minus.1 hm)), if_neg hm, map_rep32, hf]

theorem feed_pair_out (cs : List Int) (l : List Byte) (ap : List Arg) : ∃ s, (feed out cs 0 l >>= fun x => (.ok (x.1, x.2, ap) : Outcome (Int × List Byte × List Arg))) = .ok (s, l ++ cs.map toByte, ap) := by
  obtain ⟨s, h⟩ := feed_out cs 0 l
  exact ⟨s, by rw [h]; rfl⟩

theorem putd_unsigned {w : Int} {fl : Flags} {p : Int} {F : Field} (N : Norm w fl p F) {b : Nat} (hb : 1 < b) (hb16 : b ≤ 16) (n : Nat) (hs : F.space = false) (h0 : ¬ (F.prec = some 0 ∧ n = 0)) :
    (putdCodes (Num.digits b n) fl w p).map toByte = number F [] (numeral F b n) := by
  have := putd_number N false (Num.digits b n) (digits_head_any16 hb hb16 n) (fun h => h0 ⟨h.1, digits_zero hb hb16 h.2⟩) [] (by simp [hs]) (.inl rfl)
  rw [numeral, if_neg h0]
  exact this

/-- A floating number with an unbounded sink. -/
theorem float_spec {c : Byte} (hc : c = 101 ∨ c = 102 ∨ c = 103) {flags : List Byte} (w p : Option Int) (hw : ∀ n, w = some n → n ≠ INT_MIN) (x : Dbl) (hag : AgreesF c (mkField flags w p) x)
    (ap : List Arg) (l : List Byte) : ∃ s, convert out c (.dbl x :: ap) (cnt flags) (toLib w) (toLib p) l = .ok (s, l ++ double c (mkField flags w p) x, ap) := by
  obtain ⟨h99, hlen, hroom, hfield⟩ := hag
  -- the precision handed to sprintf
  have hP : precF c (toLib p) = ((if c = 103 ∧ (mkField flags w p).prec = some 0 then 1 else (mkField flags w p).prec.getD 6 : Nat) : Int) := by
    rcases (norm flags w p hw).prec with ⟨h, hn⟩ | ⟨q, hq, hs⟩
    · rw [precF, hn, if_pos h, if_neg (by rintro ⟨_, h⟩; omega), if_neg (by rintro ⟨_, h⟩; cases h)]; rfl
    · rw [precF, hs, hq, if_neg (show ¬ ((q : Int) < 0) by omega)]
      by_cases hg : c = 103 ∧ (q : Int) = 0
      · rw [if_pos hg, if_pos ⟨hg.1, by rw [show q = 0 by omega]⟩]; rfl
      · rw [if_neg hg, if_neg (by rintro ⟨h1, h2⟩; injection h2 with h2; exact hg ⟨h1, by omega⟩)]; rfl
  -- sprintf treats precision 0 of 'g' as 1
  have hbody : Clib.body c (if c = 103 ∧ (mkField flags w p).prec = some 0 then 1 else (mkField flags w p).prec.getD 6) x = Clib.body c ((mkField flags w p).prec.getD 6) x := by
    split
    · rename_i h
      rw [h.2, h.1]
      cases x <;> rfl
    · rfl
  generalize hq : (if c = 103 ∧ (mkField flags w p).prec = some 0 then 1 else (mkField flags w p).prec.getD 6) = q at *
  have hq99 : q ≤ 99 := by rw [← hq]; split <;> omega
  have hs : sprintfF c x (toLib p) = .ok ((if Clib.neg x = true then 45 :: Clib.body c ((mkField flags w p).prec.getD 6) x else Clib.body c ((mkField flags w p).prec.getD 6) x)) := by
    have e : Clib.text c q x = (if Clib.neg x = true then 45 :: Clib.body c ((mkField flags w p).prec.getD 6) x else Clib.body c ((mkField flags w p).prec.getD 6) x) := by
      rw [Clib.text, hbody]; split <;> rfl
    have e' : (Clib.text c q x).length = (Clib.text c ((mkField flags w p).prec.getD 6) x).length := by rw [Clib.text, Clib.text, hbody]
    rw [sprintfF, hP, if_pos (by omega), show ((q : Int)).toNat = q by omega, e, if_pos]
    rw [← e, e', BUFSZ]; omega
  have hconv : convert out c (.dbl x :: ap) (cnt flags) (toLib w) (toLib p) l = (cvtF out c x (cnt flags) (toLib w) (toLib p) l >>= fun x => .ok (x.1, x.2, ap)) := by
    rcases hc with rfl | rfl | rfl <;> rfl
  rw [hconv, cvtF, hs, Outcome.ok_bind, hP, putd_eq]
  have N : Norm (toLib w) (cnt flags) (q : Int) (mkField flags w (some q)) := norm flags w (some q) hw
  have hprec : (mkField flags w (some (q : Int))).prec = some q := by simp [mkField]
  have hsg : fsign (mkField flags w p) x = if Clib.neg x then [45] else if (mkField flags w (some (q : Int))).space then [32] else [] := rfl
  have key : (putdCodes (if Clib.neg x = true then 45 :: Clib.body c ((mkField flags w p).prec.getD 6) x else Clib.body c ((mkField flags w p).prec.getD 6) x) (cnt flags) (toLib w) q).map toByte =
      double c (mkField flags w p) x := by
    have hb := Clib.body_begins c ((mkField flags w p).prec.getD 6) x
    rcases hfield with hn | ⟨hz, hn⟩
    · rw [putd_narrow N (Clib.neg x) _ hb _ hsg (by rw [hprec]; exact hlen) hn]
      have hf : (mkField flags w p).width - (fsign (mkField flags w p) x ++ Clib.body c ((mkField flags w p).prec.getD 6) x).length = 0 := by rw [List.length_append]; omega
      simp only [double, floating, hf, spaces, zeros, List.replicate_zero, List.append_nil, List.nil_append, ite_self]
    · generalize hB : Clib.body c ((mkField flags w p).prec.getD 6) x = B at *
      have hmax : max q B.length = B.length := by omega
      rw [putd_number N (Clib.neg x) B hb ?_ _ hsg ?_]
      · simp only [number, double, floating, hprec, hB, Option.getD_some, show q - B.length = 0 by omega, zeros, List.replicate_zero, List.nil_append]
        show (if (mkField flags w p).minus = true then fsign (mkField flags w p) x ++ B ++ spaces ((mkField flags w p).width - (fsign (mkField flags w p) x ++ B).length) else _) = _
        by_cases hm : (mkField flags w p).minus = true
        · rw [if_pos hm, if_pos hm]
        · rw [if_neg hm, if_neg hm, if_neg (by rintro ⟨_, h⟩; cases h)]
          show spaces ((mkField flags w p).width - (fsign (mkField flags w p) x ++ B).length) ++ fsign (mkField flags w p) x ++ B = _
          rcases hn with h | h | ⟨h1, h2⟩
          · exact absurd h hm
          · rw [show (mkField flags w p).width - (fsign (mkField flags w p) x ++ B).length = 0 by rw [List.length_append]; omega]
            simp [spaces]
          · rw [if_neg (by rcases h2 with h2 | h2 <;> simp [h2])]
      · rintro ⟨h1, h2⟩
        rw [hprec] at h1
        injection h1 with h1
        have hq' := hq
        split at hq'
        · omega
        · rename_i hng
          have hp0 : (mkField flags w p).prec = some 0 := by
            cases hp : (mkField flags w p).prec with
            | none => rw [hp] at hq'; simp at hq'; omega
            | some r => rw [hp] at hq'; simp at hq'; rw [hq', h1]
          refine hz ⟨hp0, ?_, fun h => hng ⟨h, hp0⟩⟩
          rw [hp0] at hB
          rw [← h2]; exact hB
      · rw [hprec, Option.getD_some, hmax]
        rcases hn with h | h | ⟨h1, _⟩
        · exact .inr (.inl h)
        · exact .inr (.inr (.inr h))
        · exact .inl h1
  rw [← key]
  exact feed_pair_out _ _ _

/-- One conversion with an unbounded sink. -/
theorem convert_spec {flags : List Byte} (hfl : ∀ c ∈ flags, c = 45 ∨ c = 32 ∨ c = 48) (w p : Option Int) (hw : ∀ n, w = some n → n ≠ INT_MIN) (kind : Kind) {a : Arg} (ha : Arg.InRange a) {t : List Byte}
    (ht : render kind (mkField flags w p) a = some t) (hag : Agrees kind (mkField flags w p) a) (ap : List Arg) (l : List Byte) :
    ∃ s, convert out kind.code (a :: ap) (cnt flags) (toLib w) (toLib p) l = .ok (s, l ++ t, ap) := by
  have N := norm flags w p hw
  have big : ∀ {b n k : Nat}, 1 < b → n < 2 ^ k → n < b ^ k := by
    intro b n k hb hn
    exact Nat.lt_of_lt_of_le hn (Nat.pow_le_pow_left hb k)
  have big2 : ∀ {b n : Nat} (j k : Nat), j ≤ k → 1 < b → n < 2 ^ j → n < b ^ k := by
    intro b n j k hjk hb hn
    exact Nat.lt_of_lt_of_le (big hb hn) (Nat.pow_le_pow_right (by omega) hjk)
  have uns : ∀ {b n : Nat}, 1 < b → b ≤ 16 → Arg.InRange (.uint n) → Agrees .u (mkField flags w p) (.uint n) →
      ∃ s, ((digitLoop b 43 n [] >>= fun ds => putd out ds (cnt flags) (toLib w) (toLib p) l) >>= fun x => (.ok (x.1, x.2, ap) : Outcome (Int × List Byte × List Arg))) =
        .ok (s, l ++ number (mkField flags w p) [] (numeral (mkField flags w p) b n), ap) := by
    intro b n hb hb16 hr hag
    rw [digitLoop_spec hb hb16 43 n [] (big2 32 43 (by omega) hb hr) (by omega), List.append_nil, Outcome.ok_bind, putd_eq, ← putd_unsigned N hb hb16 n hag.1 hag.2]
    exact feed_pair_out _ _ _
  cases kind with
  | c =>
      cases a with
      | int i =>
          cases ht
          rw [show convert out (Kind.code .c) (.int i :: ap) (cnt flags) (toLib w) (toLib p) l = (cvtC out i (cnt flags) (toLib w) l >>= fun x => .ok (x.1, x.2, ap)) from rfl, cvtC_eq, ← cvtC_spec N i]
          exact feed_pair_out _ _ _
      | _ => cases ht
  | d =>
      cases a with
      | int i =>
          cases ht
          rw [show convert out (Kind.code .d) (.int i :: ap) (cnt flags) (toLib w) (toLib p) l = (cvtD out i (cnt flags) (toLib w) (toLib p) l >>= fun x => .ok (x.1, x.2, ap)) from rfl]
          obtain ⟨g1, g2, g3⟩ := hag
          have hlt : i.natAbs < 2 ^ 32 := by
            have h1 := ha.1
            have h2 := ha.2
            simp only [INT_MIN, INT_MAX] at h1 h2
            omega
          rw [cvtD, magnitude_spec ha.1 ha.2 g1, Outcome.ok_bind, digitLoop_spec (by omega) (by omega) 42 _ [] (big2 32 42 (by omega) (by omega) hlt) (by omega), List.append_nil, Outcome.ok_bind, putd_eq]
          have hz : ¬ ((mkField flags w p).prec = some 0 ∧ i.natAbs = 0) := fun h => g2 ⟨h.1, by omega⟩
          have := putd_number N (decide (i < 0)) (Num.digits 10 i.natAbs) (digits_head_any16 (by omega) (by omega) _) (fun h => hz ⟨h.1, digits_zero (by omega) (by omega) h.2⟩)
            (sign (mkField flags w p) i) (by simp [sign]) g3
          simp only [decide_eq_true_eq] at this
          rw [numeral, if_neg hz, ← this]
          exact feed_pair_out _ _ _
      | _ => cases ht
  | o =>
      cases a with
      | uint n => cases ht; exact uns (by omega) (by omega) ha hag
      | _ => cases ht
  | u =>
      cases a with
      | uint n => cases ht; exact uns (by omega) (by omega) ha hag
      | _ => cases ht
  | x =>
      cases a with
      | uint n => cases ht; exact uns (by omega) (by omega) ha hag
      | _ => cases ht
  | p =>
      cases a with
      | ptr n =>
          cases ht
          have N' := norm flags w none hw
          rw [show convert out (Kind.code .p) (.ptr n :: ap) (cnt flags) (toLib w) (toLib p) l = (cvtP out n (cnt flags) (toLib w) l >>= fun x => .ok (x.1, x.2, ap)) from rfl, cvtP,
            digitLoop_spec (by omega) (by omega) 64 n [] (big2 64 64 (by omega) (by omega) ha) (by omega), List.append_nil, Outcome.ok_bind, putd_eq]
          have := putd_unsigned N' (b := 16) (by omega) (by omega) n hag (by simp [mkField])
          rw [show numeral (mkField flags w none) 16 n = Num.digits 16 n by rw [numeral, if_neg (by simp [mkField])]] at this
          rw [show ({ mkField flags w p with prec := none } : Field) = mkField flags w none from rfl, ← this]
          exact feed_pair_out _ _ _
      | _ => cases ht
  | s =>
      cases a with
      | str s =>
          cases s with
          | none => cases ht
          | some s =>
              cases ht
              have h35 : cnt flags 35 = 0 := by
                rw [cnt, List.count_eq_zero]
                intro hm
                rcases hfl 35 hm with h | h | h <;> exact absurd h (by decide)
              rw [show convert out (Kind.code .s) (.str (some s) :: ap) (cnt flags) (toLib w) (toLib p) l = (cvtS out (some s) (cnt flags) (toLib w) (toLib p) l >>= fun x => .ok (x.1, x.2, ap)) from rfl, cvtS,
                show hashStr s (cnt flags) (toLib w) = .ok (s, toLib w) by rw [hashStr, if_neg (by simp [h35])], Outcome.ok_bind]
              simp only
              rw [puts_eq, ← puts_spec N s hag]
              exact feed_pair_out _ _ _
      | _ => cases ht
  | e =>
      cases a with
      | dbl x => cases ht; exact float_spec (.inl rfl) w p hw x hag ap l
      | _ => cases ht
  | f =>
      cases a with
      | dbl x => cases ht; exact float_spec (.inr (.inl rfl)) w p hw x hag ap l
      | _ => cases ht
  | g =>
      cases a with
      | dbl x => cases ht; exact float_spec (.inr (.inr rfl)) w p hw x hag ap l
      | _ => cases ht

/-- The character after the lead is not another lead. -/
theorem conv_head {k : Conv} (wf : k.WF) (rest : List Byte) : ∃ d r, k.flags ++ (k.width.text ++ (precText k.prec ++ [k.kind.code])) ++ rest = d :: r ∧ ¬ (d = 37 ∨ d = 126) := by
  have hne : ∀ {d : Byte}, isDigit d = true → ¬ (d = 37 ∨ d = 126) := by
    intro d h1 h2
    rcases h2 with rfl | rfl <;> exact absurd h1 (by decide)
  have hp : ∃ d r, precText k.prec ++ [k.kind.code] ++ rest = d :: r ∧ ¬ (d = 37 ∨ d = 126) := by
    have hph := precText_head k.prec k.kind rest
    cases hc : precText k.prec ++ [k.kind.code] ++ rest with
    | nil => simp at hc
    | cons d r => exact ⟨d, r, rfl, fun h => by have := hph d r hc; rcases h with h | h <;> simp_all⟩
  cases hf : k.flags with
  | cons c fl =>
      refine ⟨c, _, rfl, fun h => ?_⟩
      have := wf.flags c (by rw [hf]; simp)
      rcases h with rfl | rfl <;> exact absurd this (by decide)
  | nil =>
      cases hw : k.width with
      | absent => simpa [Len.text] using hp
      | num n =>
          obtain ⟨c, r, e, hd⟩ := digits_head_any n
          exact ⟨c, r ++ (precText k.prec ++ [k.kind.code]) ++ rest, by simp [Len.text, e], hne hd⟩
      | star => exact ⟨42, precText k.prec ++ [k.kind.code] ++ rest, by simp [Len.text], by decide⟩

theorem loop_spec : ∀ (is : List Item) (fuel : Nat) (ap : List Arg) (t : Int) (l tx : List Byte), (written is).length < fuel → format is ap = some tx → AllAgree is ap →
    ∃ s, vformatLoop out fuel (written is) ap t l = .ok (s, l ++ tx) := by
  intro is
  induction is with
  | nil =>
      intro fuel ap t l tx hf ht _
      cases ht
      cases fuel with
      | zero => simp [written] at hf
      | succ fuel => exact ⟨t, by simp [written, vformatLoop]⟩
  | cons it is ih =>
      intro fuel ap t l tx hf ht hag
      cases fuel with
      | zero => omega
      | succ fuel =>
      have ew : written (it :: is) = it.text ++ written is := by simp [written]
      rw [ew] at hf ⊢
      rw [List.length_append] at hf
      cases it with
      | lit b =>
          have ht' : ∃ u, format is ap = some u ∧ tx = b :: u := by
            simp only [format] at ht
            cases hfm : format is ap with
            | none => rw [hfm] at ht; cases ht
            | some u => rw [hfm] at ht; cases ht; exact ⟨u, rfl, rfl⟩
          obtain ⟨u, hu, rfl⟩ := ht'
          have e : l ++ b :: u = (l ++ [toByte b.toNat]) ++ u := by
            have := map_codes [b]
            simp only [codes, List.map_cons, List.map_nil] at this
            rw [this]; simp
          by_cases hb : b = 37 ∨ b = 126
          · rw [show (Item.lit b).text = [37, b] by simp [Item.text, hb]] at hf ⊢
            obtain ⟨s, hs⟩ := ih fuel ap (t + b.toNat) (l ++ [toByte b.toNat]) u (by simp at hf; omega) hu hag.2
            refine ⟨s, ?_⟩
            simp only [List.cons_append, List.nil_append, vformatLoop, if_neg (show ¬ ((37 : Byte) ≠ 37 ∧ (37 : Byte) ≠ 126) by decide), if_pos hb]
            rw [e, ← hs]; rfl
          · rw [show (Item.lit b).text = [b] by simp [Item.text, hb]] at hf ⊢
            obtain ⟨s, hs⟩ := ih fuel ap (t + b.toNat) (l ++ [toByte b.toNat]) u (by simp at hf; omega) hu hag.2
            refine ⟨s, ?_⟩
            have hb' : b ≠ 37 ∧ b ≠ 126 := ⟨fun h => hb (.inl h), fun h => hb (.inr h)⟩
            simp only [List.cons_append, List.nil_append, vformatLoop, if_pos hb']
            rw [e, ← hs]; rfl
      | conv k =>
          obtain ⟨wf, hk⟩ := hag
          simp only [format, convText] at ht
          cases hr : resolve k ap with
          | none => rw [hr] at ht; cases ht
          | some x =>
          obtain ⟨F, a, r⟩ := x
          rw [hr] at ht
          simp only at ht
          obtain ⟨hin, hagr, hrest⟩ := hk F a r hr
          cases hren : render k.kind F a with
          | none => rw [hren] at ht; cases ht
          | some tk =>
          rw [hren] at ht
          simp only [Option.map_some] at ht
          cases hfm : format is r with
          | none => rw [hfm] at ht; cases ht
          | some u =>
          rw [hfm] at ht
          simp only [Option.map_some, Option.some.injEq] at ht
          subst ht
          -- the resolution
          unfold resolve at hr
          cases hw : takeLen k.width ap with
          | none => rw [hw] at hr; cases hr
          | some y =>
          obtain ⟨w, ap1⟩ := y
          rw [hw] at hr
          simp only at hr
          cases hp : takeLen k.prec ap1 with
          | none => rw [hp] at hr; cases hr
          | some z =>
          obtain ⟨p, ap2⟩ := z
          rw [hp] at hr
          simp only at hr
          cases ap2 with
          | nil => cases hr
          | cons a' ap2 =>
          simp only [Option.some.injEq, Prod.mk.injEq] at hr
          obtain ⟨rfl, rfl, rfl⟩ := hr
          obtain ⟨l1, hl1⟩ := takeLen_length hw
          obtain ⟨l2, hl2⟩ := takeLen_length hp
          have hap : ap = (l1 ++ l2 ++ [a']) ++ ap2 := by rw [hl1, hl2]; simp
          have htake : ap.take (ap.length - ap2.length) = l1 ++ l2 ++ [a'] := by
            have : ap.length - ap2.length = (l1 ++ l2 ++ [a']).length := by rw [hap, List.length_append]; omega
            rw [this, hap, List.take_left' rfl]
          rw [htake] at hin
          have hin2 : ∀ x ∈ ap.take (ap.length - (a' :: ap2).length), Arg.InRange x := by
            have e1 : ap = (l1 ++ l2) ++ (a' :: ap2) := by rw [hap]; simp
            have : ap.length - (a' :: ap2).length = (l1 ++ l2).length := by rw [e1, List.length_append]; omega
            rw [this, e1, List.take_left' rfl]
            exact fun x hx => hin x (by simp at hx ⊢; rcases hx with h | h <;> simp [h])
          have hwmin : ∀ n, w = some n → n ≠ INT_MIN := by
            intro n hn
            cases hkw : k.width with
            | absent => rw [hkw] at hw; cases hw; cases hn
            | num m => rw [hkw] at hw; cases hw; cases hn; simp only [INT_MIN]; omega
            | star =>
                rw [hkw] at hw
                cases ap with
                | nil => cases hw
                | cons b ap =>
                    cases b with
                    | int i =>
                        cases hw
                        cases hn
                        have hmem : Arg.int n ∈ l1 ++ l2 ++ [a'] := by
                          cases l1 with
                          | nil =>
                              have := congrArg List.length hl1
                              simp at this
                          | cons c l1 => injection hl1 with h1 _; subst h1; simp
                        have := (hin _ hmem).1
                        omega
                    | uint u => cases hw
                    | ptr u => cases hw
                    | str u => cases hw
                    | dbl => cases hw
          obtain ⟨s1, hconv⟩ := convert_spec wf.flags w p hwmin k.kind (hin a' (by simp)) hren hagr ap2 l
          obtain ⟨s, hs⟩ := ih fuel ap2 (t + s1) (l ++ tk) u (by rw [Item.text, Conv.text] at hf; simp at hf; omega) hfm hrest
          obtain ⟨d, rr, hd, hnd⟩ := conv_head wf (written is)
          have hdir := directive_spec out wf hw hp hin2 (written is) l
          rw [hconv, Outcome.ok_bind, hd] at hdir
          refine ⟨s, ?_⟩
          rw [Item.text, Conv.text, List.cons_append, hd]
          have hlead : ¬ (k.lead ≠ 37 ∧ k.lead ≠ 126) := by rintro ⟨h1, h2⟩; rcases wf.lead with h | h <;> contradiction
          simp only [vformatLoop, if_neg hlead, if_neg hnd]
          rw [hdir]
          simp only [Outcome.ok_bind]
          rw [hs, List.append_assoc]

/-- **C36** (partial): for every format made of ordinary characters and conversions %c %d %o %u %x %p %s %e %f %g with flags '-', ' ', '0', width and precision, and every argument list, the library prints what the C standard
says, in the cases `Agrees`. Not proved, since false: the cases outside `Agrees` (see the violations below). -/
theorem c36_format_partial (is : List Item) (ap : List Arg) (hag : AllAgree is ap) {t : List Byte} (ht : Std.format is ap = some t) : text (written is) ap = .ok t := by
  obtain ⟨s, h⟩ := loop_spec is ((written is).length + 1) ap 0 [] t (Nat.lt_succ_self _) ht hag
  rw [text, vformat, h]
  rfl

/-! ## C35: numbers -/

/-- A conversion without options. -/
def plain (k : Kind) : Item := .conv ⟨37, [], .absent, .absent, k⟩

theorem plain_wf (k : Kind) : (⟨37, [], .absent, .absent, k⟩ : Conv).WF := ⟨.inl rfl, by simp, by simp, trivial, trivial⟩

theorem plain_format {k : Kind} {a : Arg} {t : List Byte} (h : render k ⟨false, false, false, 0, none⟩ a = some t) : Std.format [plain k] [a] = some t := by
  have h' : render k (mkField [] none none) a = some t := h
  simp [Std.format, plain, convText, resolve, takeLen, h']

theorem plain_agree {k : Kind} {a : Arg} (hr : Arg.InRange a) (h : Agrees k ⟨false, false, false, 0, none⟩ a) : AllAgree [plain k] [a] := by
  refine ⟨plain_wf k, fun F b r hres => ?_⟩
  simp only [resolve, takeLen, Option.some.injEq, Prod.mk.injEq] at hres
  obtain ⟨rfl, rfl, rfl⟩ := hres
  refine ⟨by simpa using hr, h, trivial⟩

theorem number_plain (sg ds : List Byte) (h : ds ≠ []) : number ⟨false, false, false, 0, none⟩ sg ds = sg ++ ds := by
  have : 1 - ds.length = 0 := by
    cases ds with
    | nil => exact absurd rfl h
    | cons x xs => simp
  simp [number, this, spaces, zeros]

/-- **C35** (partial): `%d` prints every int as its decimal numeral. Not proved, since false: the greatest int prints as 2147483648 and the least is undefined. -/
theorem c35_d_partial (i : Int) (h1 : INT_MIN < i) (h2 : i < INT_MAX) : text [37, 100] [.int i] = .ok (Num.signed i) := by
  have e : written [plain .d] = [37, 100] := rfl
  rw [← e]
  refine c36_format_partial [plain .d] [.int i] (plain_agree ⟨h1, by omega⟩ ⟨by omega, by simp, .inr (.inr (.inr (Nat.zero_le _)))⟩) (plain_format ?_)
  simp only [render]
  rw [number_plain _ _ (by simp only [numeral]; exact Num.digits_ne_nil _ _)]
  simp only [sign, numeral, Num.signed]
  by_cases h : i < 0 <;> simp [h]
  rfl

/-- **C35**: `%u`, `%x` and `%o` print every unsigned int as its numeral. -/
theorem c35_u (n : Nat) (h : n < 2 ^ 32) : text [37, 117] [.uint n] = .ok (Num.digits 10 n) ∧ text [37, 120] [.uint n] = .ok (Num.digits 16 n) ∧ text [37, 111] [.uint n] = .ok (Num.digits 8 n) := by
  have key : ∀ (k : Kind) (b : Nat), render k ⟨false, false, false, 0, none⟩ (.uint n) = some (number ⟨false, false, false, 0, none⟩ [] (numeral ⟨false, false, false, 0, none⟩ b n)) →
      Agrees k ⟨false, false, false, 0, none⟩ (.uint n) → text (written [plain k]) [.uint n] = .ok (Num.digits b n) := by
    intro k b hr ha
    refine c36_format_partial _ _ (plain_agree (show Arg.InRange (.uint n) from h) ha) (plain_format ?_)
    rw [hr, number_plain _ _ (by simp only [numeral]; exact Num.digits_ne_nil _ _)]
    simp [numeral]
  exact ⟨key .u 10 rfl ⟨rfl, by simp⟩, key .x 16 rfl ⟨rfl, by simp⟩, key .o 8 rfl ⟨rfl, by simp⟩⟩

/-! ## Concrete cases -/

/-- "n=%-6.3d|%06d|%5u" -/
def sample : List Item := [.lit 110, .lit 61, .conv ⟨37, [45], .num 6, .num 3, .d⟩, .lit 124, .conv ⟨37, [48], .num 6, .absent, .d⟩, .lit 124, .conv ⟨126, [], .star, .absent, .u⟩, .lit 37]

example : Std.format sample [.int (-42), .int (-7), .int 5, .uint 99] = some [110, 61, 45, 48, 52, 50, 32, 32, 124, 45, 48, 48, 48, 48, 55, 124, 32, 32, 32, 57, 57, 37] := by decide +kernel
example : text (written sample) [.int (-42), .int (-7), .int 5, .uint 99] = .ok [110, 61, 45, 48, 52, 50, 32, 32, 124, 45, 48, 48, 48, 48, 55, 124, 32, 32, 32, 57, 57, 37] := by decide +kernel

/-- The hypotheses of C36 are met. -/
example : AllAgree [.lit 61, .conv ⟨37, [45], .num 6, .num 3, .d⟩] [.int (-42)] := by
  refine ⟨by decide, ⟨.inl rfl, by simp, by simp, ⟨by decide, by decide⟩, ⟨by decide, by decide⟩⟩, fun F a r h => ?_⟩
  simp only [resolve, takeLen, Option.some.injEq, Prod.mk.injEq] at h
  obtain ⟨rfl, rfl, rfl⟩ := h
  exact ⟨by simp [Arg.InRange, INT_MIN, INT_MAX], ⟨by decide, by decide, .inr (.inl (by decide))⟩, trivial⟩

/-- "%8.2f" of 2.5: the hypotheses are met. -/
example : AllAgree [.conv ⟨37, [], .num 8, .num 2, .f⟩] [.dbl (.fin false 5 (-1))] := by
  refine ⟨⟨.inl rfl, by simp, by simp, ⟨by decide, by decide⟩, ⟨by decide, by decide⟩⟩, fun F a r h => ?_⟩
  simp only [resolve, takeLen, Option.some.injEq, Prod.mk.injEq] at h
  obtain ⟨rfl, rfl, rfl⟩ := h
  refine ⟨by simp [Arg.InRange, Dbl.Valid], ⟨by decide, by decide +kernel, by decide +kernel, .inr ⟨by decide, .inr (.inr ⟨by decide, .inl (by decide)⟩)⟩⟩, trivial⟩
example : text (written [.conv ⟨37, [], .num 8, .num 2, .f⟩]) [.dbl (.fin false 5 (-1))] = .ok [32, 32, 32, 32, 50, 46, 53, 48] := by decide +kernel

/-! ## Violations: where the library deviates -/

/-- `%d` of the greatest int prints its successor. -/
theorem c35_intmax_violation : text [37, 100] [.int 2147483647] = .ok [50, 49, 52, 55, 52, 56, 51, 54, 52, 56] := by decide +kernel

/-- `%d` of the least int negates it, which overflows. -/
theorem c35_intmin_violation : text [37, 100] [.int (-2147483648)] = .ub := by decide +kernel

/-- "%-5s" does not pad at the right. -/
theorem c36_minus_s_violation : text [37, 45, 53, 115] [.str (some [97])] = .ok [97] ∧ Std.format [.conv ⟨37, [45], .num 5, .absent, .s⟩] [.str (some [97])] = some [97, 32, 32, 32, 32] := by decide +kernel

/-- "%5d" of -3 puts the sign before the padding: "-   3". -/
theorem c36_sign_violation : text [37, 53, 100] [.int (-3)] = .ok [45, 32, 32, 32, 51] ∧ Std.format [.conv ⟨37, [], .num 5, .absent, .d⟩] [.int (-3)] = some [32, 32, 32, 45, 51] := by decide +kernel

/-- "%.0d" of 0 prints "0", and "%3.0d" the digit and three spaces, one character too many. -/
theorem c36_zero_violation : text [37, 46, 48, 100] [.int 0] = .ok [48] ∧ Std.format [.conv ⟨37, [], .absent, .num 0, .d⟩] [.int 0] = some [] ∧
    text [37, 51, 46, 48, 100] [.int 0] = .ok [32, 32, 32, 48] ∧ Std.format [.conv ⟨37, [], .num 3, .num 0, .d⟩] [.int 0] = some [32, 32, 32] := by decide +kernel

/-- "% u" prints a space. -/
theorem c36_space_violation : text [37, 32, 117] [.uint 7] = .ok [32, 55] ∧ Std.format [.conv ⟨37, [32], .absent, .absent, .u⟩] [.uint 7] = some [55] := by decide +kernel

/-- The flag '+' has no effect: "%+d" of 3 prints "3". -/
theorem c36_plus_violation : text [37, 43, 100] [.int 3] = .ok [51] := by decide +kernel

/-- "%.s" prints the whole string; an empty precision is zero in the standard. -/
theorem c36_emptyprec_violation : text [37, 46, 115] [.str (some [97, 98])] = .ok [97, 98] := by decide +kernel

end ZT.Format
