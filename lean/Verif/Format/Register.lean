import Verif.Format.Props

/-!
# C117: user conversions (zt_fmt_register) and streams (zt_fmt_printf, zt_fmt_fprintf)

The table of conversions is a parameter here; Model.lean has the initial one built in (`c117_builtin`). A conversion function gets the code, the value (or NULL), the sink, the flag counters, width and precision
(INT_MIN = not given) and returns a count. The conversion functions of the library read the value their own type says; registering one of them again with another type is undefined here (in C it would reinterpret
the bytes).
-/

namespace ZT.Format

open Std

/-! ## Model -/

/-- zt_format.h 23-27 `zt_fmt_ty`. -/
abbrev Fn (σ : Type) := (code : Byte) → (value : Option Arg) → Put σ → Flags → (width precision : Int) → σ → Outcome (Int × σ)

/-- zt_format.c 82-85 `cvt[256]`: function (or NULL) and type for each code. -/
abbrev Conversions (σ : Type) := Byte → Option (Fn σ) × Byte

/-- zt_format.c 454-637: the library's conversion functions, reading `*(type *)value`. -/
def libC {σ : Type} : Fn σ := fun _ v put f w _ cl => match v with | some (.int i) => cvtC put i f w cl | _ => .ub
/-- zt_format.c 476-504. -/
def libD {σ : Type} : Fn σ := fun _ v put f w p cl => match v with | some (.int i) => cvtD put i f w p cl | _ => .ub
/-- zt_format.c 507-533. -/
def libF {σ : Type} : Fn σ := fun c v put f w p cl => match v with | some (.dbl x) => cvtF put c x f w p cl | _ => .ub
/-- zt_format.c 535-550. -/
def libO {σ : Type} : Fn σ := fun _ v put f w p cl => match v with | some (.uint u) => cvtO put u f w p cl | _ => .ub
/-- zt_format.c 552-570. -/
def libP {σ : Type} : Fn σ := fun _ v put f w _ cl => match v with | some (.ptr u) => cvtP put u f w cl | _ => .ub
/-- zt_format.c 573-601. -/
def libS {σ : Type} : Fn σ := fun _ v put f w p cl => match v with | some (.str s) => cvtS put s f w p cl | _ => .ub
/-- zt_format.c 603-619. -/
def libU {σ : Type} : Fn σ := fun _ v put f w p cl => match v with | some (.uint u) => cvtU put u f w p cl | _ => .ub
/-- zt_format.c 621-637. -/
def libX {σ : Type} : Fn σ := fun _ v put f w p cl => match v with | some (.uint u) => cvtX put u f w p cl | _ => .ub

/-- zt_format.c 85-108: the initial table. -/
def initial {σ : Type} : Conversions σ := fun c =>
  if c = 99 then (some libC, 105) else if c = 100 then (some libD, 105)
  else if c = 101 ∨ c = 102 ∨ c = 103 then (some libF, 100)
  else if c = 111 then (some libO, 117) else if c = 112 then (some libP, 112) else if c = 115 then (some libS, 115)
  else if c = 117 then (some libU, 117) else if c = 120 then (some libX, 117) else (none, 0)

/-- zt_format.c 430-441 `zt_fmt_register`. Result: the old function and the new table. -/
def register {σ : Type} (T : Conversions σ) (code : Int) (new : Option (Fn σ)) (type : Byte) : Outcome (Option (Fn σ) × Conversions σ) :=
  if 0 < code ∧ code < 256 then .ok ((T (UInt8.ofNat code.toNat)).1, fun c => if c = UInt8.ofNat code.toNat then (new, type) else T c)
  else .abort

/-- zt_format.c 276-299: `va_arg` by the type of the conversion. Other types read nothing and `vp` stays NULL. -/
def fetch (type : Byte) (ap : List Arg) : Outcome (Option Arg × List Arg) :=
  if type = 105 then (match ap with | .int i :: ap => .ok (some (.int i), ap) | _ => .ub)
  else if type = 117 then (match ap with | .uint i :: ap => .ok (some (.uint i), ap) | _ => .ub)
  else if type = 100 then (match ap with | .dbl i :: ap => .ok (some (.dbl i), ap) | _ => .ub)
  else if type = 112 then (match ap with | .ptr i :: ap => .ok (some (.ptr i), ap) | _ => .ub)
  else if type = 115 then (match ap with | .str i :: ap => .ok (some (.str i), ap) | _ => .ub)
  else .ok (none, ap)

/-- zt_format.c 264-300: table lookup, argument, call. -/
def convertT {σ : Type} (T : Conversions σ) (put : Put σ) (c : Byte) (ap : List Arg) (flags : Flags) (width precision : Int) (cl : σ) : Outcome (Int × σ × List Arg) :=
  match (T c).1 with
  | none => .abort
  | some f =>
      if (T c).2 = 0 then .abort
      else do
        let (v, ap) ← fetch (T c).2 ap
        let (t, cl) ← f c v put flags width precision cl
        pure (t, cl, ap)

/-- zt_format.c 212-300: one directive; at the end of the format the code is 0, and going on behind it is undefined. -/
def directiveT {σ : Type} (T : Conversions σ) (put : Put σ) (fmt : List Byte) (ap : List Arg) (cl : σ) : Outcome (Int × σ × List Byte × List Arg) := do
  let (flags, fmt) ← scanFlags (fun _ => 0) fmt
  let (width, fmt, ap) ← scanWidth fmt ap
  let (precision, fmt, ap) ← scanPrec fmt ap
  match fmt with
  | [] => do
      let _ ← convertT T put 0 ap flags width precision cl
      .ub
  | c :: fmt => do
      let (t, cl, ap) ← convertT T put c ap flags width precision cl
      pure (t, cl, fmt, ap)

/-- zt_format.c 202-305 `zt_fmt_vformat` with the table `T`: the loop. At a lead at the end of the format the character after it is the terminator, whose directive is the empty one. -/
def vformatLoopT {σ : Type} (T : Conversions σ) (put : Put σ) : (fuel : Nat) → (fmt : List Byte) → List Arg → (tlen : Int) → σ → Outcome (Int × σ)
  | 0, _, _, _, _ => .ub
  | fuel + 1, fmt, ap, tlen, cl =>
      match fmt with
      | [] => .ok (tlen, cl)
      | c :: r =>
          if c ≠ 37 ∧ c ≠ 126 then do
            let (t, cl) ← put c.toNat cl
            vformatLoopT T put fuel r ap (tlen + t) cl
          else
            match r with
            | [] => do
                let (t, cl, r, ap) ← directiveT T put [] ap cl
                vformatLoopT T put fuel r ap (tlen + t) cl
            | d :: r' =>
                if d = 37 ∨ d = 126 then do
                  let (t, cl) ← put d.toNat cl
                  vformatLoopT T put fuel r' ap (tlen + t) cl
                else do
                  let (t, cl, r, ap) ← directiveT T put (d :: r') ap cl
                  vformatLoopT T put fuel r ap (tlen + t) cl

/-- zt_format.c 202-305; each round consumes a byte of the format. -/
def vformatT {σ : Type} (T : Conversions σ) (put : Put σ) (fmt : List Byte) (ap : List Arg) (cl : σ) : Outcome (Int × σ) := vformatLoopT T put (fmt.length + 1) fmt ap 0 cl

/-- A stdio stream: what has been written to it and how often it has been used. -/
structure Stream where
  data : List Byte
  calls : Nat
  deriving Repr, DecidableEq

/-- zt_format.c 446-452 `zt_fmt_outc`: putc (C11 7.21.7.5, 7.21.7.7). `fails i`: the `i`-th call fails (EOF = -1 and nothing written); otherwise the character is written and returned as an unsigned char. -/
def outc (fails : Nat → Bool) : Put Stream := fun c f =>
  if fails f.calls then .ok (-1, { f with calls := f.calls + 1 })
  else .ok ((toByte c).toNat, { data := f.data ++ [toByte c], calls := f.calls + 1 })

/-- zt_format.c 118-142 `zt_fmt_printf`, `zt_fmt_fprintf`. -/
def fprintf (fails : Nat → Bool) (fmt : List Byte) (ap : List Arg) (f : Stream) : Outcome (Int × Stream) := vformat (outc fails) fmt ap f

/-! ## Specification: the meaning of a format with any table -/

/-- A directive with any code. -/
structure Dir where
  lead : Byte
  flags : List Byte
  width : Len
  prec : Len
  code : Byte
  deriving Repr, DecidableEq

inductive Piece where
  | lit (b : Byte)
  | dir (d : Dir)
  deriving Repr, DecidableEq

def Dir.text (d : Dir) : List Byte := d.lead :: (d.flags ++ (d.width.text ++ (precText d.prec ++ [d.code])))

def Piece.text : Piece → List Byte
  | .lit b => if b = 37 ∨ b = 126 then [37, b] else [b]
  | .dir d => d.text

/-- The codes that cannot be mistaken for another part of a directive. -/
def Plain (c : Byte) : Prop := c ≠ 43 ∧ c ≠ 45 ∧ c ≠ 32 ∧ c ≠ 35 ∧ ¬ (48 ≤ c ∧ c ≤ 57) ∧ c ≠ 42 ∧ c ≠ 46 ∧ c ≠ 37 ∧ c ≠ 126

structure Dir.WF (d : Dir) : Prop where
  lead : d.lead = 37 ∨ d.lead = 126
  flags : ∀ c ∈ d.flags, c = 43 ∨ c = 45 ∨ c = 32 ∨ c = 48 ∨ c = 35
  few : ∀ c, d.flags.count c ≤ 255
  width : d.width.InRange 1
  prec : d.prec.InRange 0
  code : Plain d.code

def Piece.WF : Piece → Prop
  | .lit _ => True
  | .dir d => d.WF

/-- A width or precision: not given (INT_MIN), a number, or an int argument other than INT_MIN. -/
def length : Len → List Arg → Outcome (Int × List Arg)
  | .absent, ap => .ok (INT_MIN, ap)
  | .num n, ap => .ok (n, ap)
  | .star, .int n :: ap => if n = INT_MIN then .abort else .ok (n, ap)
  | .star, _ => .ub

/-- The types of arguments. -/
def typeOf : Arg → Byte
  | .int _ => 105
  | .uint _ => 117
  | .dbl _ => 100
  | .ptr _ => 112
  | .str _ => 115

/-- The value for a conversion of type `t`: the next argument if `t` names a type, which it must then have; otherwise none. -/
def value (t : Byte) (ap : List Arg) : Outcome (Option Arg × List Arg) :=
  if t ∈ ([105, 117, 100, 112, 115] : List Byte) then
    match ap with
    | a :: ap => if typeOf a = t then .ok (some a, ap) else .ub
    | [] => .ub
  else .ok (none, ap)

/-- What a directive does: width, precision, value, and a call of the function registered for the code. -/
def perform {σ : Type} (T : Conversions σ) (put : Put σ) (d : Dir) (ap : List Arg) (cl : σ) : Outcome (Int × σ × List Arg) :=
  length d.width ap >>= fun w =>
  length d.prec w.2 >>= fun p =>
  match T d.code with
  | (some f, t) =>
      if t = 0 then .abort
      else
        value t p.2 >>= fun v =>
        f d.code v.1 put (fun c => d.flags.count c) w.1 p.1 cl >>= fun r => .ok (r.1, r.2, v.2)
  | (none, _) => .abort

/-- What a format does: piece by piece, adding up. -/
def meaning {σ : Type} (T : Conversions σ) (put : Put σ) : List Piece → List Arg → Int → σ → Outcome (Int × σ)
  | [], _, t, cl => .ok (t, cl)
  | .lit b :: ps, ap, t, cl => put b.toNat cl >>= fun r => meaning T put ps ap (t + r.1) r.2
  | .dir d :: ps, ap, t, cl => perform T put d ap cl >>= fun r => meaning T put ps r.2.2 (t + r.1) r.2.1

/-! ## Scanning -/

theorem isFlag_iff (c : Byte) : isFlag c = true ↔ c = 43 ∨ c = 45 ∨ c = 32 ∨ c = 48 ∨ c = 35 := by simp [isFlag]

theorem Plain.not {c : Byte} (h : Plain c) : isDigit c = false ∧ isFlag c = false ∧ c ≠ 42 ∧ c ≠ 46 ∧ c ≠ 37 ∧ c ≠ 126 := by
  obtain ⟨h1, h2, h3, h4, h5, h6, h7, h8, h9⟩ := h
  refine ⟨?_, ?_, h6, h7, h8, h9⟩
  · simp only [isDigit, decide_eq_false_iff_not]; exact h5
  · rw [Bool.eq_false_iff]
    intro h
    rcases (isFlag_iff c).1 h with e | e | e | e | e
    · exact h1 e
    · exact h2 e
    · exact h3 e
    · subst e; exact h5 (by decide)
    · exact h4 e

theorem precText_headT (p : Len) {tail : List Byte} (hk : ∀ c r, tail = c :: r → Plain c) : ∀ c r, precText p ++ tail = c :: r → isDigit c = false ∧ isFlag c = false ∧ c ≠ 42 ∧ c ≠ 37 ∧ c ≠ 126 := by
  intro c r h
  cases p with
  | absent =>
      have hk := (hk c r h).not
      exact ⟨hk.1, hk.2.1, hk.2.2.1, hk.2.2.2.2⟩
  | num n => injection h with h1 _; subst h1; decide
  | star => injection h with h1 _; subst h1; decide

theorem scanStarT {l : Len} (hl : l ≠ .absent) (hr : l.InRange 0) (ap : List Arg) (rest : List Byte) (hrest : ∀ c r, rest = c :: r → isDigit c = false) :
    scanStar (l.text ++ rest) ap = (length l ap >>= fun x => .ok (x.1, rest, x.2)) ∧ starts (l.text ++ rest) = true := by
  cases l with
  | absent => exact absurd rfl hl
  | num n =>
      obtain ⟨c, r, e, hc⟩ := digits_head_any n
      have hne : c ≠ 42 := by rintro rfl; exact absurd hc (by decide)
      constructor
      · simp only [Len.text]
        have hs := scanNum_digits hr.2 rest hrest
        rw [e] at hs ⊢
        simp only [List.cons_append] at hs ⊢
        unfold scanStar
        split
        · rename_i heq; injection heq with h1 _; exact absurd h1 hne
        · rw [hs]; rfl
      · simp only [Len.text]
        rw [e]
        simp [starts, hc]
  | star =>
      refine ⟨?_, rfl⟩
      simp only [Len.text, List.cons_append, List.nil_append, scanStar]
      cases ap with
      | nil => rfl
      | cons a ap =>
          cases a with
          | int n =>
              simp only [length]
              by_cases h : n = INT_MIN
              · simp [h]
              · simp [h]
          | uint u => rfl
          | ptr u => rfl
          | str u => rfl
          | dbl => rfl

theorem fetch_eq (t : Byte) (ap : List Arg) : fetch t ap = value t ap := by
  unfold fetch value
  by_cases h1 : t = 105
  · subst h1
    cases ap with
    | nil => rfl
    | cons a ap => cases a <;> rfl
  by_cases h2 : t = 117
  · subst h2
    cases ap with
    | nil => rfl
    | cons a ap => cases a <;> rfl
  by_cases h3 : t = 100
  · subst h3
    cases ap with
    | nil => rfl
    | cons a ap => cases a <;> rfl
  by_cases h4 : t = 112
  · subst h4
    cases ap with
    | nil => rfl
    | cons a ap => cases a <;> rfl
  by_cases h5 : t = 115
  · subst h5
    cases ap with
    | nil => rfl
    | cons a ap => cases a <;> rfl
  · simp [h1, h2, h3, h4, h5]

/-- The parts of a directive before its code, `tail` being the code and what follows (or nothing). -/
theorem scanned {flags : List Byte} {width prec : Len} (hf : ∀ c ∈ flags, c = 43 ∨ c = 45 ∨ c = 32 ∨ c = 48 ∨ c = 35) (few : ∀ c, flags.count c ≤ 255) (hw : width.InRange 1) (hp : prec.InRange 0)
    {tail : List Byte} (ht : ∀ c r, tail = c :: r → Plain c) :
    scanFlags (fun _ => 0) (flags ++ (width.text ++ (precText prec ++ tail))) = .ok (fun c => flags.count c, width.text ++ (precText prec ++ tail)) ∧
    (∀ ap, scanWidth (width.text ++ (precText prec ++ tail)) ap = (length width ap >>= fun x => .ok (x.1, precText prec ++ tail, x.2))) ∧
    (∀ ap, scanPrec (precText prec ++ tail) ap = (length prec ap >>= fun x => .ok (x.1, tail, x.2))) := by
  have hph := precText_headT prec ht
  have hwh : ∀ c r, width.text ++ (precText prec ++ tail) = c :: r → isFlag c = false := by
    intro c r h
    cases width with
    | absent => exact (hph c r h).2.1
    | num n =>
        obtain ⟨c', r', e, _, h2⟩ := digits_head n hw.1
        simp only [Len.text] at h
        rw [e] at h
        injection h with h1 _
        rw [← h1]; exact h2
    | star => injection h with h1 _; rw [← h1]; decide
  have hfl : (fun c => (fun _ => 0 : Flags) c + List.count c flags) = (fun c => flags.count c) := by funext c; simp
  refine ⟨?_, ?_, ?_⟩
  · rw [scanFlags_spec _ hwh flags _ (fun c hc => (isFlag_iff c).2 (hf c hc)) (fun c => by have := few c; simp; omega), hfl]
  · intro ap
    by_cases ha : width = .absent
    · rw [ha, show Len.absent.text ++ (precText prec ++ tail) = precText prec ++ tail from rfl, scanWidth, if_neg]
      · rfl
      · cases hc : precText prec ++ tail with
        | nil => simp [starts]
        | cons c r =>
            obtain ⟨h1, _, h3, _⟩ := hph c r hc
            simp [starts, h1, h3]
    · have hin : width.InRange 0 := by
        cases width with
        | absent => trivial
        | num n => exact ⟨Nat.zero_le _, hw.2⟩
        | star => trivial
      obtain ⟨h1, h2⟩ := scanStarT ha hin ap (precText prec ++ tail) (fun c r h => (hph c r h).1)
      rw [scanWidth, if_pos h2, h1]
  · intro ap
    by_cases ha : prec = .absent
    · rw [ha]
      simp only [precText, List.nil_append]
      unfold scanPrec
      split
      · exact absurd rfl ((ht _ _ rfl).not).2.2.2.1
      · rfl
    · obtain ⟨h1, h2⟩ := scanStarT ha hp ap tail (fun c r h => ((ht c r h).not).1)
      have e : precText prec ++ tail = 46 :: (prec.text ++ tail) := by
        cases prec with
        | absent => exact absurd rfl ha
        | num n => simp [precText]
        | star => simp [precText]
      rw [e, scanPrec, if_pos h2, h1]

theorem directiveT_spec {σ : Type} (T : Conversions σ) (put : Put σ) {d : Dir} (wf : d.WF) (ap : List Arg) (rest : List Byte) (cl : σ) :
    directiveT T put (d.flags ++ (d.width.text ++ (precText d.prec ++ [d.code])) ++ rest) ap cl = (perform T put d ap cl >>= fun x => .ok (x.1, x.2.1, rest, x.2.2)) := by
  obtain ⟨hflags, hwidth, hprec⟩ := scanned wf.flags wf.few wf.width wf.prec (tail := d.code :: rest) (fun c r h => by cases h; exact wf.code)
  have eassoc : d.flags ++ (d.width.text ++ (precText d.prec ++ [d.code])) ++ rest = d.flags ++ (d.width.text ++ (precText d.prec ++ d.code :: rest)) := by simp
  rw [eassoc, directiveT, hflags]
  simp only [Outcome.ok_bind]
  rw [hwidth]
  unfold perform
  cases length d.width ap with
  | abort => rfl
  | ub => rfl
  | ok w =>
      simp only [Outcome.ok_bind]
      rw [hprec]
      cases length d.prec w.2 with
      | abort => rfl
      | ub => rfl
      | ok p =>
          simp only [Outcome.ok_bind]
          unfold convertT
          rcases hT : T d.code with ⟨_ | f, t⟩
          · rfl
          · dsimp only
            by_cases ht : t = 0
            · simp [ht]
            · simp only [if_neg ht]
              rw [fetch_eq]
              cases value t p.2 with
              | abort => rfl
              | ub => rfl
              | ok v =>
                  simp only [Outcome.ok_bind, Outcome.bind_assoc]
                  cases f d.code v.1 put (fun c => d.flags.count c) w.1 p.1 cl <;> rfl

theorem dir_head {d : Dir} (wf : d.WF) (rest : List Byte) : ∃ c r, d.flags ++ (d.width.text ++ (precText d.prec ++ [d.code])) ++ rest = c :: r ∧ ¬ (c = 37 ∨ c = 126) := by
  have hne : ∀ {d : Byte}, isDigit d = true → ¬ (d = 37 ∨ d = 126) := by
    intro d h1 h2
    rcases h2 with rfl | rfl <;> exact absurd h1 (by decide)
  have hp : ∃ c r, precText d.prec ++ d.code :: rest = c :: r ∧ ¬ (c = 37 ∨ c = 126) := by
    have hph := precText_headT d.prec (tail := d.code :: rest) (fun c r h => by cases h; exact wf.code)
    cases hc : precText d.prec ++ d.code :: rest with
    | nil => simp at hc
    | cons c r => exact ⟨c, r, rfl, fun h => by have := hph c r hc; rcases h with h | h <;> simp_all⟩
  cases hf : d.flags with
  | cons c fl =>
      refine ⟨c, _, rfl, fun h => ?_⟩
      have := wf.flags c (by rw [hf]; simp)
      rcases h with rfl | rfl <;> exact absurd this (by decide)
  | nil =>
      cases hw : d.width with
      | absent => simpa [Len.text] using hp
      | num n =>
          obtain ⟨c, r, e, hd⟩ := digits_head_any n
          exact ⟨c, r ++ (precText d.prec ++ [d.code]) ++ rest, by simp [Len.text, e], hne hd⟩
      | star => exact ⟨42, precText d.prec ++ [d.code] ++ rest, by simp [Len.text], by decide⟩

theorem loopT_spec {σ : Type} (T : Conversions σ) (put : Put σ) : ∀ (ps : List Piece) (fuel : Nat) (ap : List Arg) (t : Int) (cl : σ), (∀ p ∈ ps, p.WF) → (ps.flatMap Piece.text).length < fuel →
    vformatLoopT T put fuel (ps.flatMap Piece.text) ap t cl = meaning T put ps ap t cl := by
  intro ps
  induction ps with
  | nil =>
      intro fuel ap t cl _ hf
      cases fuel with
      | zero => omega
      | succ fuel => simp [vformatLoopT, meaning]
  | cons p ps ih =>
      intro fuel ap t cl wf hf
      cases fuel with
      | zero => omega
      | succ fuel =>
      rw [List.flatMap_cons] at hf ⊢
      rw [List.length_append] at hf
      have hwf : ∀ q ∈ ps, q.WF := fun q hq => wf q (by simp [hq])
      cases p with
      | lit b =>
          by_cases hb : b = 37 ∨ b = 126
          · rw [show (Piece.lit b).text = [37, b] by simp [Piece.text, hb]] at hf ⊢
            simp only [List.cons_append, List.nil_append, vformatLoopT, meaning]
            rw [if_neg (by simp), if_pos hb]
            refine congrArg _ (funext fun r => ?_)
            exact ih fuel ap _ _ hwf (by simp only [List.length_cons, List.length_nil] at hf; omega)
          · rw [show (Piece.lit b).text = [b] by simp [Piece.text, hb]] at hf ⊢
            simp only [List.cons_append, List.nil_append, vformatLoopT, meaning]
            rw [if_pos (by simpa using hb)]
            refine congrArg _ (funext fun r => ?_)
            exact ih fuel ap _ _ hwf (by simp only [List.length_cons, List.length_nil] at hf; omega)
      | dir d =>
          have hd : d.WF := wf (.dir d) (by simp)
          obtain ⟨c, r, e, hc⟩ := dir_head hd (ps.flatMap Piece.text)
          have hs := directiveT_spec T put hd ap (ps.flatMap Piece.text) cl
          have el : (Piece.dir d).text ++ ps.flatMap Piece.text = d.lead :: (c :: r) := by
            rw [← e]; rfl
          have hlen : 0 < (Piece.dir d).text.length := by simp [Piece.text, Dir.text]
          rw [el]
          simp only [vformatLoopT]
          rw [if_neg (by rcases hd.lead with h | h <;> simp [h]), if_neg hc, ← e, hs]
          simp only [meaning, Outcome.bind_assoc]
          refine congrArg _ (funext fun x => ?_)
          simp only [Outcome.ok_bind]
          exact ih fuel x.2.2 _ _ hwf (by omega)

/-- C117: with any table, a format does what its pieces say, one after the other: ordinary characters go to the sink; a directive calls the function that is registered for its code with the code, the next argument
of the registered type, the number of times each flag is given, width and precision, and its result is added to the count. A code without function or type aborts. -/
theorem c117_meaning {σ : Type} (T : Conversions σ) (put : Put σ) (ps : List Piece) (wf : ∀ p ∈ ps, p.WF) (ap : List Arg) (cl : σ) :
    vformatT T put (ps.flatMap Piece.text) ap cl = meaning T put ps ap 0 cl :=
  loopT_spec T put ps _ ap 0 cl wf (Nat.lt_succ_self _)

/-! ## The initial table -/

theorem convertT_initial {σ : Type} (put : Put σ) (c : Byte) (ap : List Arg) (flags : Flags) (w p : Int) (cl : σ) : convertT initial put c ap flags w p cl = convert put c ap flags w p cl := by
  unfold convertT initial convert
  by_cases h1 : c = 99
  · subst h1
    cases ap with
    | nil => rfl
    | cons a ap => cases a <;> rfl
  by_cases h2 : c = 100
  · subst h2
    cases ap with
    | nil => rfl
    | cons a ap => cases a <;> rfl
  by_cases h3 : c = 101
  · subst h3
    cases ap with
    | nil => rfl
    | cons a ap => cases a <;> rfl
  by_cases h4 : c = 102
  · subst h4
    cases ap with
    | nil => rfl
    | cons a ap => cases a <;> rfl
  by_cases h5 : c = 103
  · subst h5
    cases ap with
    | nil => rfl
    | cons a ap => cases a <;> rfl
  by_cases h6 : c = 111
  · subst h6
    cases ap with
    | nil => rfl
    | cons a ap => cases a <;> rfl
  by_cases h7 : c = 112
  · subst h7
    cases ap with
    | nil => rfl
    | cons a ap => cases a <;> rfl
  by_cases h8 : c = 115
  · subst h8
    cases ap with
    | nil => rfl
    | cons a ap => cases a <;> rfl
  by_cases h9 : c = 117
  · subst h9
    cases ap with
    | nil => rfl
    | cons a ap => cases a <;> rfl
  by_cases h10 : c = 120
  · subst h10
    cases ap with
    | nil => rfl
    | cons a ap => cases a <;> rfl
  · simp [h1, h2, h3, h4, h5, h6, h7, h8, h9, h10]

theorem directiveT_initial {σ : Type} (put : Put σ) (fmt : List Byte) (ap : List Arg) (cl : σ) : directiveT initial put fmt ap cl = directive put fmt ap cl := by
  unfold directiveT directive
  cases scanFlags (fun _ => 0) fmt with
  | abort => rfl
  | ub => rfl
  | ok x =>
  obtain ⟨f, r⟩ := x
  simp only [Outcome.ok_bind]
  cases scanWidth r ap with
  | abort => rfl
  | ub => rfl
  | ok x =>
  obtain ⟨w, r, ap⟩ := x
  simp only [Outcome.ok_bind]
  cases scanPrec r ap with
  | abort => rfl
  | ub => rfl
  | ok x =>
  obtain ⟨p, r, ap⟩ := x
  simp only [Outcome.ok_bind]
  cases r with
  | nil => dsimp only; rw [convertT_initial]; rfl
  | cons c r => dsimp only; rw [convertT_initial]

/-- C117: before any registration the formatter is the one of Model.lean (C35-C37). -/
theorem c117_initial {σ : Type} (put : Put σ) (fmt : List Byte) (ap : List Arg) (cl : σ) : vformatT initial put fmt ap cl = vformat put fmt ap cl := by
  have loop : ∀ (fuel : Nat) (fmt : List Byte) (ap : List Arg) (t : Int) (cl : σ), vformatLoopT initial put fuel fmt ap t cl = vformatLoop put fuel fmt ap t cl := by
    intro fuel
    induction fuel with
    | zero => intros; rfl
    | succ fuel ih =>
        intro fmt ap t cl
        unfold vformatLoopT vformatLoop
        cases fmt with
        | nil => rfl
        | cons c r =>
            dsimp only
            by_cases h : c ≠ 37 ∧ c ≠ 126
            · rw [if_pos h, if_pos h]
              exact congrArg _ (funext fun x => ih _ _ _ _)
            · rw [if_neg h, if_neg h]
              cases r with
              | nil =>
                  dsimp only
                  rw [directiveT_initial]
                  rfl
              | cons d r' =>
                  dsimp only
                  by_cases h' : d = 37 ∨ d = 126
                  · rw [if_pos h', if_pos h']
                    exact congrArg _ (funext fun x => ih _ _ _ _)
                  · rw [if_neg h', if_neg h', directiveT_initial]
                    exact congrArg _ (funext fun x => ih _ _ _ _)
  exact loop _ _ _ _ _

/-! ## Other formats -/

theorem scanFlags_sub : ∀ (l : List Byte) (f : Flags) {g : Flags} {r : List Byte}, scanFlags f l = .ok (g, r) → ∀ x ∈ r, x ∈ l := by
  intro l
  induction l with
  | nil => intro f g r h; simp only [scanFlags] at h; cases h; intro x hx; exact hx
  | cons c l ih =>
      intro f g r h
      rw [scanFlags] at h
      split at h
      · split at h
        · intro x hx; exact List.mem_cons_of_mem _ (ih _ h x hx)
        · cases h
      · cases h; intro x hx; exact hx

theorem scanNum_sub : ∀ (l : List Byte) (n : Int) {m : Int} {r : List Byte}, scanNum n l = .ok (m, r) → ∀ x ∈ r, x ∈ l := by
  intro l
  induction l with
  | nil => intro f g r h; simp only [scanNum] at h; cases h; intro x hx; exact hx
  | cons c l ih =>
      intro f g r h
      rw [scanNum] at h
      split at h
      · dsimp only at h
        split at h
        · intro x hx; exact List.mem_cons_of_mem _ (ih _ h x hx)
        · cases h
      · cases h; intro x hx; exact hx

theorem scanStar_sub {l : List Byte} {ap ap' : List Arg} {m : Int} {r : List Byte} (h : scanStar l ap = .ok (m, r, ap')) : ∀ x ∈ r, x ∈ l := by
  unfold scanStar at h
  split at h
  · split at h
    · split at h
      · cases h; intro x hx; exact List.mem_cons_of_mem _ hx
      · cases h
    · cases h
  · obtain ⟨⟨n, r'⟩, h1, h2⟩ := Outcome.bind_eq_ok.1 h
    cases h2
    exact scanNum_sub _ _ h1

theorem scanWidth_sub {l : List Byte} {ap ap' : List Arg} {m : Int} {r : List Byte} (h : scanWidth l ap = .ok (m, r, ap')) : ∀ x ∈ r, x ∈ l := by
  unfold scanWidth at h
  split at h
  · exact scanStar_sub h
  · cases h; intro x hx; exact hx

theorem scanPrec_sub {l : List Byte} {ap ap' : List Arg} {m : Int} {r : List Byte} (h : scanPrec l ap = .ok (m, r, ap')) : ∀ x ∈ r, x ∈ l := by
  unfold scanPrec at h
  split at h
  · split at h
    · intro x hx; exact List.mem_cons_of_mem _ (scanStar_sub h x hx)
    · cases h; intro x hx; exact List.mem_cons_of_mem _ hx
  · cases h; intro x hx; exact hx

theorem directiveT_others {σ : Type} {T T' : Conversions σ} (put : Put σ) (fmt : List Byte) (ap : List Arg) (cl : σ) (h0 : T 0 = T' 0) (h : ∀ c ∈ fmt, T c = T' c) :
    directiveT T put fmt ap cl = directiveT T' put fmt ap cl ∧ ∀ t cl' r ap', directiveT T put fmt ap cl = .ok (t, cl', r, ap') → ∀ x ∈ r, x ∈ fmt := by
  unfold directiveT
  cases e1 : scanFlags (fun _ => 0) fmt with
  | abort => exact ⟨rfl, fun t cl' r ap' h => by cases h⟩
  | ub => exact ⟨rfl, fun t cl' r ap' h => by cases h⟩
  | ok x =>
  obtain ⟨f, r⟩ := x
  have s1 := scanFlags_sub _ _ e1
  simp only [Outcome.ok_bind]
  cases e2 : scanWidth r ap with
  | abort => exact ⟨rfl, fun t cl' r ap' h => by cases h⟩
  | ub => exact ⟨rfl, fun t cl' r ap' h => by cases h⟩
  | ok x =>
  obtain ⟨w, r2, ap2⟩ := x
  have s2 := scanWidth_sub e2
  simp only [Outcome.ok_bind]
  cases e3 : scanPrec r2 ap2 with
  | abort => exact ⟨rfl, fun t cl' r ap' h => by cases h⟩
  | ub => exact ⟨rfl, fun t cl' r ap' h => by cases h⟩
  | ok x =>
  obtain ⟨p, r3, ap3⟩ := x
  have s3 := scanPrec_sub e3
  simp only [Outcome.ok_bind]
  cases r3 with
  | nil =>
      dsimp only
      refine ⟨by unfold convertT; rw [h0], fun t cl' r ap' h => ?_⟩
      obtain ⟨_, _, h2⟩ := Outcome.bind_eq_ok.1 h
      cases h2
  | cons c r4 =>
      dsimp only
      have hc : T c = T' c := h c (s1 _ (s2 _ (s3 _ (by simp))))
      refine ⟨by unfold convertT; rw [hc], fun t cl' r ap' h => ?_⟩
      obtain ⟨⟨t1, cl1, ap1⟩, _, h2⟩ := Outcome.bind_eq_ok.1 h
      cases h2
      intro x hx
      exact s1 _ (s2 _ (s3 _ (List.mem_cons_of_mem _ hx)))

/-- C117: registering conversions changes nothing for formats in which their codes do not occur. -/
theorem c117_others {σ : Type} {T T' : Conversions σ} (put : Put σ) (fmt : List Byte) (ap : List Arg) (cl : σ) (h0 : T 0 = T' 0) (h : ∀ c ∈ fmt, T c = T' c) :
    vformatT T put fmt ap cl = vformatT T' put fmt ap cl := by
  have loop : ∀ (fuel : Nat) (fmt : List Byte) (ap : List Arg) (t : Int) (cl : σ), (∀ c ∈ fmt, T c = T' c) → vformatLoopT T put fuel fmt ap t cl = vformatLoopT T' put fuel fmt ap t cl := by
    intro fuel
    induction fuel with
    | zero => intros; rfl
    | succ fuel ih =>
        intro fmt ap t cl h
        unfold vformatLoopT
        cases fmt with
        | nil => rfl
        | cons c r =>
            dsimp only
            have hr : ∀ c ∈ r, T c = T' c := fun x hx => h x (by simp [hx])
            by_cases hc : c ≠ 37 ∧ c ≠ 126
            · rw [if_pos hc, if_pos hc]
              exact congrArg _ (funext fun x => ih _ _ _ _ hr)
            · rw [if_neg hc, if_neg hc]
              cases r with
              | nil =>
                  dsimp only
                  obtain ⟨d1, d2⟩ := directiveT_others (T := T) (T' := T') put [] ap cl h0 (by simp)
                  rw [← d1]
                  cases hx : directiveT T put [] ap cl with
                  | abort => rfl
                  | ub => rfl
                  | ok x => exact ih _ _ _ _ (fun y hy => absurd (d2 _ _ _ _ hx y hy) (by simp))
              | cons d r' =>
                  dsimp only
                  by_cases h' : d = 37 ∨ d = 126
                  · rw [if_pos h', if_pos h']
                    exact congrArg _ (funext fun x => ih _ _ _ _ (fun x hx => hr x (by simp [hx])))
                  · rw [if_neg h', if_neg h']
                    obtain ⟨d1, d2⟩ := directiveT_others (T := T) (T' := T') put (d :: r') ap cl h0 hr
                    rw [← d1]
                    cases hx : directiveT T put (d :: r') ap cl with
                    | abort => rfl
                    | ub => rfl
                    | ok x => exact ih _ _ _ _ (fun y hy => hr y (d2 _ _ _ _ hx y hy))
  exact loop _ _ _ _ _ h

/-! ## Registration -/

/-- C117: zt_fmt_register takes exactly the codes 1-255, returns the function registered before, and afterwards the code has the new function and type and all others are as they were. -/
theorem c117_register {σ : Type} (T : Conversions σ) (code : Int) (new : Option (Fn σ)) (type : Byte) :
    (¬ (1 ≤ code ∧ code ≤ 255) → register T code new type = .abort) ∧
    (∀ c : Byte, (c.toNat : Int) = code → c ≠ 0 → ∃ T', register T code new type = .ok ((T c).1, T') ∧ T' c = (new, type) ∧ ∀ x, x ≠ c → T' x = T x) := by
  constructor
  · intro h
    rw [register, if_neg (by omega)]
  · intro c hc hne
    have h0 : c.toNat ≠ 0 := fun h => hne (UInt8.toNat_inj.1 (by simpa using h))
    have hlt : c.toNat < 256 := c.toNat_lt
    have e : UInt8.ofNat code.toNat = c := by
      rw [← hc]; simp
    refine ⟨fun x => if x = c then (new, type) else T x, ?_, by simp, fun x hx => by simp [hx]⟩
    rw [register, if_pos (by omega), e]

/-- C117: registering the returned function again with the old type undoes a registration. -/
theorem c117_restore {σ : Type} (T T1 T2 : Conversions σ) (c : Byte) (new old : Option (Fn σ)) (x : Option (Fn σ)) (type : Byte) (h1 : register T c.toNat new type = .ok (old, T1))
    (h2 : register T1 c.toNat old (T c).2 = .ok (x, T2)) : T2 = T ∧ x = new := by
  have e : UInt8.ofNat ((c.toNat : Int)).toNat = c := by simp
  unfold register at h1 h2
  split at h1
  · rename_i hc
    rw [e] at h1
    cases h1
    rw [if_pos hc, e] at h2
    cases h2
    refine ⟨?_, by simp⟩
    funext y
    by_cases hy : y = c
    · subst hy; simp
    · simp [hy]
  · cases h1

/-- The tables a program can have: the initial one after any registrations. -/
inductive Reg {σ : Type} : Conversions σ → Prop
  | start : Reg initial
  | step {T T' : Conversions σ} {code : Int} {new old : Option (Fn σ)} {type : Byte} : Reg T → register T code new type = .ok (old, T') → Reg T'

theorem Reg.zero {σ : Type} {T : Conversions σ} (h : Reg T) : T 0 = (none, 0) := by
  induction h with
  | start => rfl
  | @step T T' code new old type _ h2 ih =>
      unfold register at h2
      split at h2
      · rename_i hc
        cases h2
        have hne : (0 : Byte) ≠ UInt8.ofNat code.toNat := by
          intro e
          have h3 := congrArg UInt8.toNat e
          simp only [UInt8.toNat_ofNat'] at h3
          have h0 : (0 : UInt8).toNat = 0 := rfl
          omega
        dsimp only
        rw [if_neg hne]
        exact ih
      · cases h2

/-- C117: whatever has been registered, a format that ends before the code of a directive aborts (once the arguments for width and precision have been read): the formatter never reads on behind its end. -/
theorem c117_end {σ : Type} {T : Conversions σ} (h : Reg T) (put : Put σ) (d : Dir) (wf : d.WF) (ap : List Arg) (cl : σ) :
    vformatT T put (d.lead :: (d.flags ++ (d.width.text ++ precText d.prec))) ap cl = (length d.width ap >>= fun w => length d.prec w.2 >>= fun _ => .abort) := by
  obtain ⟨hflags, hwidth, hprec⟩ := scanned wf.flags wf.few wf.width wf.prec (tail := []) (fun c r h => by cases h)
  rw [List.append_nil] at hflags hwidth hprec
  have hd : directiveT T put (d.flags ++ (d.width.text ++ precText d.prec)) ap cl = (length d.width ap >>= fun w => length d.prec w.2 >>= fun _ => .abort) := by
    rw [directiveT, hflags]
    simp only [Outcome.ok_bind]
    rw [hwidth]
    cases length d.width ap with
    | abort => rfl
    | ub => rfl
    | ok w =>
        simp only [Outcome.ok_bind]
        rw [hprec]
        cases length d.prec w.2 with
        | abort => rfl
        | ub => rfl
        | ok p => simp only [Outcome.ok_bind, convertT, h.zero, Outcome.abort_bind]
  have key : ∀ (g : Int × σ × List Byte × List Arg → Outcome (Int × σ)),
      ((length d.width ap >>= fun w => length d.prec w.2 >>= fun _ => (.abort : Outcome (Int × σ × List Byte × List Arg))) >>= g) = (length d.width ap >>= fun w => length d.prec w.2 >>= fun _ => .abort) := by
    intro g
    cases length d.width ap with
    | abort => rfl
    | ub => rfl
    | ok w => simp only [Outcome.ok_bind]; cases length d.prec w.2 <;> rfl
  unfold vformatT
  rw [List.length_cons]
  unfold vformatLoopT
  dsimp only
  rw [if_neg (by rcases wf.lead with h | h <;> simp [h])]
  obtain ⟨c, r, e, hc⟩ := dir_head wf []
  cases hl : d.flags ++ (d.width.text ++ precText d.prec) with
  | nil =>
      dsimp only
      rw [← hl, hd]
      exact key _
  | cons c' r' =>
      have hc' : ¬ (c' = 37 ∨ c' = 126) := by
        have e2 : d.flags ++ (d.width.text ++ (precText d.prec ++ [d.code])) ++ [] = (c' :: r') ++ [d.code] := by rw [← hl]; simp
        rw [e2, List.cons_append] at e
        injection e with e3 _
        rw [e3]; exact hc
      dsimp only
      rw [if_neg hc', ← hl, hd]
      exact key _

/-! ## Streams -/

/-- The characters whose writing did not fail. -/
def kept (fails : Nat → Bool) : Nat → List Byte → List Byte
  | _, [] => []
  | n, b :: bs => if fails n then kept fails (n + 1) bs else b :: kept fails (n + 1) bs

/-- The value returned: the codes of the characters written, less one for each that failed. -/
def total (fails : Nat → Bool) : Nat → List Byte → Int
  | _, [] => 0
  | n, b :: bs => (if fails n then -1 else (b.toNat : Int)) + total fails (n + 1) bs

theorem feed_outc (fails : Nat → Bool) : ∀ (cs : List Int) (t : Int) (f : Stream), feed (outc fails) cs t f =
    .ok (t + total fails f.calls (cs.map toByte), { data := f.data ++ kept fails f.calls (cs.map toByte), calls := f.calls + cs.length }) := by
  intro cs
  induction cs with
  | nil => intro t f; simp [feed, total, kept]
  | cons c cs ih =>
      intro t f
      rw [feed]
      by_cases h : fails f.calls = true
      · simp only [outc, h, if_true, Outcome.ok_bind]
        rw [ih]
        simp [total, kept, h]
        omega
      · have h' : fails f.calls = false := by simpa using h
        rw [show outc fails c f = .ok ((toByte c).toNat, { data := f.data ++ [toByte c], calls := f.calls + 1 }) by simp [outc, h'], Outcome.ok_bind]
        dsimp only
        rw [ih]
        simp [total, kept, h]
        omega

/-- C117: zt_fmt_printf and zt_fmt_fprintf hand the formatted text (C35-C37) to the stream character by character, whether or not writing one of them fails; what has been written before stays. -/
theorem c117_fprintf (fails : Nat → Bool) (fmt : List Byte) (ap : List Arg) (f : Stream) : fprintf fails fmt ap f =
    (text fmt ap >>= fun t => .ok (total fails f.calls t, { data := f.data ++ kept fails f.calls t, calls := f.calls + t.length })) := by
  obtain ⟨cs, fin, h1, h2⟩ := text_codes fmt ap
  unfold fprintf
  rw [h1, h2, feed_outc]
  cases fin <;> simp

theorem kept_all (fails : Nat → Bool) : ∀ (l : List Byte) (n : Nat), (∀ i, fails i = false) → kept fails n l = l := by
  intro l
  induction l with
  | nil => intros; rfl
  | cons b l ih => intro n h; simp [kept, h n, ih _ h]

/-- C117: if the stream does not fail exactly the formatted text is appended to it. -/
theorem c117_printed (fails : Nat → Bool) (ok : ∀ i, fails i = false) (fmt : List Byte) (ap : List Arg) (f : Stream) {t : List Byte} (ht : text fmt ap = .ok t) :
    ∃ n, fprintf fails fmt ap f = .ok (n, { data := f.data ++ t, calls := f.calls + t.length }) := by
  rw [c117_fprintf, ht, Outcome.ok_bind, kept_all fails t _ ok]
  exact ⟨_, rfl⟩

/-- Not C117: the value returned does not tell whether writing succeeded: "ab" with its first character lost (-1 + 98) and "a" written (97) return the same. -/
theorem c117_return_violation : fprintf (fun i => i == 0) [97, 98] [] ⟨[], 0⟩ = .ok (97, ⟨[98], 2⟩) ∧ fprintf (fun _ => false) [97] [] ⟨[], 0⟩ = .ok (97, ⟨[97], 1⟩) := by
  constructor <;> decide +kernel

/-! ## Cases -/

/-- A user conversion: prints the code, and `width` stars. -/
def stars {σ : Type} : Fn σ := fun c _ put _ w _ cl => put c.toNat cl >>= fun r => pad put w 42 r.1 r.2

/-- Not C117: the types 'c' and 'C' named in the comment on the table (zt_format.c 73-81) read no argument: the function gets NULL, and the argument stays for the next directive. -/
theorem c117_char_violation (ap : List Arg) : value 99 ap = .ok (none, ap) ∧ value 67 ap = .ok (none, ap) ∧ fetch 99 ap = .ok (none, ap) ∧ fetch 67 ap = .ok (none, ap) := ⟨rfl, rfl, rfl, rfl⟩

/-- `initial` with `stars` registered for 'Z', type 'i'. -/
def withStars : Conversions (List Byte) := fun c => if c = 90 then (some stars, 105) else initial c

example : register initial 90 (some stars) 105 = .ok ((none, withStars) : Option (Fn (List Byte)) × _) := rfl

example : Reg withStars := .step (code := 90) (new := some stars) (old := none) (type := 105) .start rfl

-- "%3Z%d" with 7, 8
example : vformatT withStars out [37, 51, 90, 37, 100] [.int 7, .int 8] [] = .ok (90 + 3 * 42 + 56, [90, 42, 42, 42, 56]) := by decide +kernel

example : ([.dir ⟨37, [43], .num 3, .absent, 90⟩, .lit 37, .dir ⟨126, [], .star, .num 2, 100⟩] : List Piece).flatMap Piece.text = [37, 43, 51, 90, 37, 37, 126, 42, 46, 50, 100] := by decide +kernel

example : Dir.WF ⟨37, [43], .num 3, .absent, 90⟩ := ⟨.inl rfl, by simp, fun c => Nat.le_trans List.count_le_length (by simp), by simp only [Len.InRange, INT_MAX]; omega, trivial, by simp only [Plain]; decide⟩

end ZT.Format
