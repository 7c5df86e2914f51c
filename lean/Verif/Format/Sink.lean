import Verif.Format.Model

/-!
# Formatting does not depend on the sink

Every conversion hands a sequence of characters to the sink, which is a function of format and arguments only, and then ends normally, aborts or is undefined.
-/

namespace ZT.Format

/-- Hand characters to the sink one after the other, adding up what it returns. -/
def feed {σ : Type} (put : Put σ) : List Int → Int → σ → Outcome (Int × σ)
  | [], t, cl => .ok (t, cl)
  | c :: cs, t, cl => do
      let (r, cl) ← put c cl
      feed put cs (t + r) cl

theorem feed_append {σ : Type} (put : Put σ) : ∀ (a b : List Int) (t : Int) (cl : σ), feed put (a ++ b) t cl = (feed put a t cl >>= fun x => feed put b x.1 x.2) := by
  intro a
  induction a with
  | nil => intro b t cl; rfl
  | cons c a ih =>
      intro b t cl
      simp only [List.cons_append, feed]
      cases put c cl with
      | ok x => simp only [Outcome.ok_bind]; exact ih _ _ _
      | abort => rfl
      | ub => rfl

theorem feed_shift {σ : Type} (put : Put σ) (a : Int) : ∀ (cs : List Int) (t : Int) (cl : σ), feed put cs (a + t) cl = (feed put cs t cl >>= fun x => .ok (a + x.1, x.2)) := by
  intro cs
  induction cs with
  | nil => intro t cl; rfl
  | cons c cs ih =>
      intro t cl
      simp only [feed]
      cases put c cl with
      | ok x => simp only [Outcome.ok_bind]; rw [Int.add_assoc]; exact ih _ _
      | abort => rfl
      | ub => rfl

/-- The characters of a string. -/
def codes (s : List Byte) : List Int := s.map fun b => (b.toNat : Int)

theorem emit_eq {σ : Type} (put : Put σ) : ∀ (s : List Byte) (t : Int) (cl : σ), emit put s t cl = feed put (codes s) t cl := by
  intro s
  induction s with
  | nil => intro t cl; rfl
  | cons b s ih =>
      intro t cl
      simp only [emit, codes, List.map_cons, feed]
      cases put b.toNat cl with
      | ok x => simp only [Outcome.ok_bind]; exact ih _ _
      | abort => rfl
      | ub => rfl

/-- `n` times the character `c`. -/
def rep (n : Int) (c : Int) : List Int := List.replicate n.toNat c

theorem pad_eq {σ : Type} (put : Put σ) (n c t : Int) (cl : σ) : pad put n c t cl = feed put (rep n c) t cl := by
  simp only [pad, rep]
  generalize n.toNat = k
  induction k generalizing t cl with
  | zero => rfl
  | succ k ih =>
      simp only [padLoop, List.replicate_succ, feed]
      cases put c cl with
      | ok x => simp only [Outcome.ok_bind]; exact ih _ _
      | abort => rfl
      | ub => rfl

/-- What zt_fmt_puts emits. -/
def putsCodes (str : List Byte) (flags : Flags) (width precision : Int) : List Int :=
  let str := if precision ≥ 0 ∧ precision < str.length then str.take precision.toNat else str
  (if (normAll width flags precision).2 45 = 0 then rep ((normAll width flags precision).1 - str.length) 32 else []) ++ codes str

theorem puts_eq {σ : Type} (put : Put σ) (str : List Byte) (flags : Flags) (width precision : Int) (cl : σ) :
    puts put str flags width precision cl = feed put (putsCodes str flags width precision) 0 cl := by
  simp only [puts, putsCodes]
  rw [feed_append]
  split
  · rw [pad_eq]
    refine congrArg (Outcome.bind _) ?_
    funext x; exact emit_eq _ _ _ _
  · exact emit_eq _ _ _ _

/-- The sign as characters. -/
def signCodes (sign : Int) : List Int := if sign ≠ 0 then [sign] else []

/-- What zt_fmt_putd emits. -/
def putdCodes (str : List Byte) (flags : Flags) (width precision : Int) : List Int :=
  let w := (normAll width flags precision).1
  let f := (normAll width flags precision).2
  let sign := (takeSign str f).1
  let s := (takeSign str f).2
  let p := if precision < 0 then 1 else precision
  let n := fieldLen s p sign
  signCodes sign ++ (if f 45 ≠ 0 then [] else if f 48 ≠ 0 then rep (w - n) 48 else rep (w - n) 32) ++ rep (p - s.length) 48 ++ codes s ++ (if f 45 ≠ 0 then rep (w - n) 32 else [])

theorem putSign_eq {σ : Type} (put : Put σ) (sign : Int) (cl : σ) : putSign put sign cl = feed put (signCodes sign) 0 cl := by
  simp only [putSign, signCodes]
  split
  · simp only [feed]
    cases put sign cl with
    | ok x => simp only [Outcome.ok_bind]; rw [Int.zero_add]
    | abort => rfl
    | ub => rfl
  · rfl

theorem before_eq {σ : Type} (put : Put σ) (sign : Int) (f : Flags) (fill : Int) (cl : σ) :
    before put sign f fill cl = feed put (signCodes sign ++ (if f 45 ≠ 0 then [] else if f 48 ≠ 0 then rep fill 48 else rep fill 32)) 0 cl := by
  rw [before, feed_append, putSign_eq]
  refine congrArg (Outcome.bind _) ?_
  funext x
  simp only
  split
  · rfl
  · split
    · exact pad_eq _ _ _ _ _
    · exact pad_eq _ _ _ _ _

theorem putd_eq {σ : Type} (put : Put σ) (str : List Byte) (flags : Flags) (width precision : Int) (cl : σ) :
    putd put str flags width precision cl = feed put (putdCodes str flags width precision) 0 cl := by
  simp only [putd, putdCodes]
  rw [feed_append, feed_append, feed_append, before_eq]
  cases hb : feed put _ 0 cl with
  | abort => rfl
  | ub => rfl
  | ok x =>
      simp only [Outcome.ok_bind]
      rw [pad_eq]
      cases hp : feed put _ x.1 x.2 with
      | abort => rfl
      | ub => rfl
      | ok y =>
          simp only [Outcome.ok_bind]
          rw [emit_eq]
          cases he : feed put _ y.1 y.2 with
          | abort => rfl
          | ub => rfl
          | ok z =>
              simp only [Outcome.ok_bind]
              split
              · exact pad_eq _ _ _ _ _
              · rfl

/-- What cvt_c emits. -/
def cvtCCodes (i : Int) (flags : Flags) (width : Int) : List Int :=
  let w := (normWidth width flags).1
  let f := (normWidth width flags).2
  (if f 45 = 0 then rep (w - 1) 32 else []) ++ [Int.bmod i 256] ++ (if f 45 ≠ 0 then rep (w - 1) 32 else [])

theorem cvtC_eq {σ : Type} (put : Put σ) (i : Int) (flags : Flags) (width : Int) (cl : σ) : cvtC put i flags width cl = feed put (cvtCCodes i flags width) 0 cl := by
  simp only [cvtC, cvtCCodes]
  rw [feed_append, feed_append]
  have h : (if (normWidth width flags).2 45 = 0 then pad put ((normWidth width flags).1 - 1) 32 0 cl else pure (0, cl)) =
      feed put (if (normWidth width flags).2 45 = 0 then rep ((normWidth width flags).1 - 1) 32 else []) 0 cl := by
    split
    · exact pad_eq _ _ _ _ _
    · rfl
  rw [h]
  cases feed put _ 0 cl with
  | abort => rfl
  | ub => rfl
  | ok x =>
      simp only [Outcome.ok_bind, feed]
      cases put _ x.2 with
      | abort => rfl
      | ub => rfl
      | ok y =>
          simp only [Outcome.ok_bind]
          split
          · exact pad_eq _ _ _ _ _
          · rfl

/-- The characters and the end are the same for every sink. -/
def Emits {R : Type} (F : (σ : Type) → Put σ → σ → Outcome (Int × σ × R)) (cs : List Int) (fin : Outcome R) : Prop :=
  ∀ (σ : Type) (put : Put σ) (cl : σ), F σ put cl = (feed put cs 0 cl >>= fun x => fin >>= fun r => .ok (x.1, x.2, r))

theorem feed_pair {σ R : Type} (put : Put σ) (cs : List Int) (cl : σ) (r : R) : (do let (t, cl) ← feed put cs 0 cl; pure (t, cl, r)) = (feed put cs 0 cl >>= fun x => .ok (x.1, x.2, r) : Outcome (Int × σ × R)) := rfl

/-- zt_format.c 264-299: one conversion. -/
theorem convert_emits (c : Byte) (ap : List Arg) (flags : Flags) (width precision : Int) : ∃ cs fin, Emits (fun _ put cl => convert put c ap flags width precision cl) cs fin := by
  -- a number conversion
  have num : ∀ (ap' : List Arg) (dl : Outcome (List Byte)) (w p : Int), ∃ cs fin, ∀ (σ : Type) (put : Put σ) (cl : σ),
      ((dl >>= fun s => putd put s flags w p cl) >>= fun x => (.ok (x.1, x.2, ap') : Outcome (Int × σ × List Arg))) = (feed put cs 0 cl >>= fun x => fin >>= fun r => .ok (x.1, x.2, r)) := by
    intro ap' dl w p
    cases dl with
    | ok s => exact ⟨_, .ok ap', fun σ put cl => by rw [Outcome.ok_bind, putd_eq]; rfl⟩
    | abort => exact ⟨[], .abort, fun σ put cl => rfl⟩
    | ub => exact ⟨[], .ub, fun σ put cl => rfl⟩
  by_cases h1 : c = 99 ∨ c = 100
  · rcases ap with _ | ⟨a, ap⟩
    · exact ⟨[], .ub, fun σ put cl => by simp only [convert, if_pos h1]; rfl⟩
    cases a with
    | int i =>
        by_cases hc : c = 99
        · refine ⟨cvtCCodes i flags width, .ok ap, fun σ put cl => ?_⟩
          simp only [convert, if_pos h1, if_pos hc]
          rw [cvtC_eq]; rfl
        · obtain ⟨cs, fin, h⟩ := num ap ((magnitude i >>= fun m => digitLoop 10 42 m []) >>= fun ds => .ok (if i < 0 then 45 :: ds else ds)) width precision
          refine ⟨cs, fin, fun σ put cl => ?_⟩
          rw [← h σ put cl]
          simp only [convert, if_pos h1, if_neg hc, cvtD]
          rw [Outcome.bind_assoc, Outcome.bind_assoc]
          cases magnitude i with
          | ok m =>
              simp only [Outcome.ok_bind]
              cases digitLoop 10 42 m [] with
              | ok ds => rfl
              | abort => rfl
              | ub => rfl
          | abort => rfl
          | ub => rfl
    | uint u => exact ⟨[], .ub, fun σ put cl => by simp only [convert, if_pos h1]; rfl⟩
    | ptr u => exact ⟨[], .ub, fun σ put cl => by simp only [convert, if_pos h1]; rfl⟩
    | str u => exact ⟨[], .ub, fun σ put cl => by simp only [convert, if_pos h1]; rfl⟩
    | dbl => exact ⟨[], .ub, fun σ put cl => by simp only [convert, if_pos h1]; rfl⟩
  · by_cases h2 : c = 111 ∨ c = 117 ∨ c = 120
    · rcases ap with _ | ⟨a, ap⟩
      · exact ⟨[], .ub, fun σ put cl => by simp only [convert, if_neg h1, if_pos h2]; rfl⟩
      cases a with
      | uint u =>
          obtain ⟨cs, fin, h⟩ := num ap (digitLoop (if c = 111 then 8 else if c = 117 then 10 else 16) 43 u []) width precision
          refine ⟨cs, fin, fun σ put cl => ?_⟩
          rw [← h σ put cl]
          simp only [convert, if_neg h1, if_pos h2]
          by_cases e1 : c = 111
          · simp only [if_pos e1, cvtO]; rfl
          · by_cases e2 : c = 117
            · simp only [if_neg e1, if_pos e2, cvtU]; rfl
            · simp only [if_neg e1, if_neg e2, cvtX]; rfl
      | int u => exact ⟨[], .ub, fun σ put cl => by simp only [convert, if_neg h1, if_pos h2]; rfl⟩
      | ptr u => exact ⟨[], .ub, fun σ put cl => by simp only [convert, if_neg h1, if_pos h2]; rfl⟩
      | str u => exact ⟨[], .ub, fun σ put cl => by simp only [convert, if_neg h1, if_pos h2]; rfl⟩
      | dbl => exact ⟨[], .ub, fun σ put cl => by simp only [convert, if_neg h1, if_pos h2]; rfl⟩
    · by_cases h3 : c = 112
      · rcases ap with _ | ⟨a, ap⟩
        · exact ⟨[], .ub, fun σ put cl => by simp only [convert, if_neg h1, if_neg h2, if_pos h3]; rfl⟩
        cases a with
        | ptr u =>
            obtain ⟨cs, fin, h⟩ := num ap (digitLoop 16 64 u []) width INT_MIN
            refine ⟨cs, fin, fun σ put cl => ?_⟩
            rw [← h σ put cl]
            simp only [convert, if_neg h1, if_neg h2, if_pos h3, cvtP]; rfl
        | int u => exact ⟨[], .ub, fun σ put cl => by simp only [convert, if_neg h1, if_neg h2, if_pos h3]; rfl⟩
        | uint u => exact ⟨[], .ub, fun σ put cl => by simp only [convert, if_neg h1, if_neg h2, if_pos h3]; rfl⟩
        | str u => exact ⟨[], .ub, fun σ put cl => by simp only [convert, if_neg h1, if_neg h2, if_pos h3]; rfl⟩
        | dbl => exact ⟨[], .ub, fun σ put cl => by simp only [convert, if_neg h1, if_neg h2, if_pos h3]; rfl⟩
      · by_cases h4 : c = 115
        · rcases ap with _ | ⟨a, ap⟩
          · exact ⟨[], .ub, fun σ put cl => by simp only [convert, if_neg h1, if_neg h2, if_neg h3, if_pos h4]; rfl⟩
          cases a with
          | str s =>
              cases s with
              | none => exact ⟨[], .abort, fun σ put cl => by simp only [convert, if_neg h1, if_neg h2, if_neg h3, if_pos h4, cvtS]; rfl⟩
              | some s =>
                  cases hh : hashStr s flags width with
                  | abort => exact ⟨[], .abort, fun σ put cl => by simp only [convert, if_neg h1, if_neg h2, if_neg h3, if_pos h4, cvtS, hh]; rfl⟩
                  | ub => exact ⟨[], .ub, fun σ put cl => by simp only [convert, if_neg h1, if_neg h2, if_neg h3, if_pos h4, cvtS, hh]; rfl⟩
                  | ok x =>
                      refine ⟨putsCodes x.1 flags x.2 precision, .ok ap, fun σ put cl => ?_⟩
                      simp only [convert, if_neg h1, if_neg h2, if_neg h3, if_pos h4, cvtS, hh, Outcome.ok_bind]
                      rw [puts_eq]; rfl
          | int u => exact ⟨[], .ub, fun σ put cl => by simp only [convert, if_neg h1, if_neg h2, if_neg h3, if_pos h4]; rfl⟩
          | uint u => exact ⟨[], .ub, fun σ put cl => by simp only [convert, if_neg h1, if_neg h2, if_neg h3, if_pos h4]; rfl⟩
          | ptr u => exact ⟨[], .ub, fun σ put cl => by simp only [convert, if_neg h1, if_neg h2, if_neg h3, if_pos h4]; rfl⟩
          | dbl => exact ⟨[], .ub, fun σ put cl => by simp only [convert, if_neg h1, if_neg h2, if_neg h3, if_pos h4]; rfl⟩
        · by_cases h5 : c = 101 ∨ c = 102 ∨ c = 103
          · rcases ap with _ | ⟨a, ap⟩
            · exact ⟨[], .ub, fun σ put cl => by simp only [convert, if_neg h1, if_neg h2, if_neg h3, if_neg h4, if_pos h5]; rfl⟩
            cases a with
            | dbl x =>
                obtain ⟨cs, fin, h⟩ := num ap (sprintfF c x precision) width (precF c precision)
                refine ⟨cs, fin, fun σ put cl => ?_⟩
                rw [← h σ put cl]
                simp only [convert, if_neg h1, if_neg h2, if_neg h3, if_neg h4, if_pos h5, cvtF]; rfl
            | int u => exact ⟨[], .ub, fun σ put cl => by simp only [convert, if_neg h1, if_neg h2, if_neg h3, if_neg h4, if_pos h5]; rfl⟩
            | uint u => exact ⟨[], .ub, fun σ put cl => by simp only [convert, if_neg h1, if_neg h2, if_neg h3, if_neg h4, if_pos h5]; rfl⟩
            | ptr u => exact ⟨[], .ub, fun σ put cl => by simp only [convert, if_neg h1, if_neg h2, if_neg h3, if_neg h4, if_pos h5]; rfl⟩
            | str u => exact ⟨[], .ub, fun σ put cl => by simp only [convert, if_neg h1, if_neg h2, if_neg h3, if_neg h4, if_pos h5]; rfl⟩
          · exact ⟨[], .abort, fun σ put cl => by simp only [convert, if_neg h1, if_neg h2, if_neg h3, if_neg h4, if_neg h5]; rfl⟩

theorem directive_emits (fmt : List Byte) (ap : List Arg) : ∃ cs fin, Emits (R := List Byte × List Arg) (fun _ put cl => directive put fmt ap cl) cs fin := by
  cases h1 : scanFlags (fun _ => 0) fmt with
  | abort => exact ⟨[], .abort, fun σ put cl => by simp only [directive, h1]; rfl⟩
  | ub => exact ⟨[], .ub, fun σ put cl => by simp only [directive, h1]; rfl⟩
  | ok x =>
  obtain ⟨fl, f1⟩ := x
  cases h2 : scanWidth f1 ap with
  | abort => exact ⟨[], .abort, fun σ put cl => by simp only [directive, h1, Outcome.ok_bind, h2]; rfl⟩
  | ub => exact ⟨[], .ub, fun σ put cl => by simp only [directive, h1, Outcome.ok_bind, h2]; rfl⟩
  | ok y =>
  obtain ⟨w, f2, ap2⟩ := y
  cases h3 : scanPrec f2 ap2 with
  | abort => exact ⟨[], .abort, fun σ put cl => by simp only [directive, h1, Outcome.ok_bind, h2, h3]; rfl⟩
  | ub => exact ⟨[], .ub, fun σ put cl => by simp only [directive, h1, Outcome.ok_bind, h2, h3]; rfl⟩
  | ok z =>
  obtain ⟨p, f3, ap3⟩ := z
  cases f3 with
  | nil => exact ⟨[], .abort, fun σ put cl => by simp only [directive, h1, Outcome.ok_bind, h2, h3]; rfl⟩
  | cons c f4 =>
      obtain ⟨cs, fin, h⟩ := convert_emits c ap3 fl w p
      refine ⟨cs, fin >>= fun a => .ok (f4, a), fun σ put cl => ?_⟩
      have hc := h σ put cl
      simp only at hc
      simp only [directive, h1, Outcome.ok_bind, h2, h3]
      rw [hc]
      cases feed put cs 0 cl with
      | abort => rfl
      | ub => rfl
      | ok x => cases fin <;> rfl

theorem vformatLoop_emits : ∀ (fuel : Nat) (fmt : List Byte) (ap : List Arg), ∃ cs, ∃ fin : Outcome Unit, ∀ (σ : Type) (put : Put σ) (t : Int) (cl : σ),
    vformatLoop put fuel fmt ap t cl = (feed put cs t cl >>= fun x => fin >>= fun _ => .ok x) := by
  intro fuel
  induction fuel with
  | zero => intro fmt ap; exact ⟨[], .ub, fun σ put t cl => rfl⟩
  | succ fuel ih =>
      intro fmt ap
      cases fmt with
      | nil => exact ⟨[], .ok (), fun σ put t cl => rfl⟩
      | cons c r =>
          by_cases hc : c ≠ 37 ∧ c ≠ 126
          · obtain ⟨cs, fin, h⟩ := ih r ap
            refine ⟨c.toNat :: cs, fin, fun σ put t cl => ?_⟩
            simp only [vformatLoop, if_pos hc, feed]
            cases put c.toNat cl with
            | abort => rfl
            | ub => rfl
            | ok x => simp only [Outcome.ok_bind]; exact h σ put _ _
          · cases r with
            | nil => exact ⟨[], .abort, fun σ put t cl => by simp only [vformatLoop, if_neg hc]; rfl⟩
            | cons d r' =>
                by_cases hd : d = 37 ∨ d = 126
                · obtain ⟨cs, fin, h⟩ := ih r' ap
                  refine ⟨d.toNat :: cs, fin, fun σ put t cl => ?_⟩
                  simp only [vformatLoop, if_neg hc, if_pos hd, feed]
                  cases put d.toNat cl with
                  | abort => rfl
                  | ub => rfl
                  | ok x => simp only [Outcome.ok_bind]; exact h σ put _ _
                · obtain ⟨cs1, fin1, h1⟩ := directive_emits (d :: r') ap
                  cases fin1 with
                  | abort =>
                      refine ⟨cs1, .abort, fun σ put t cl => ?_⟩
                      have h1 := h1 σ put cl
                      simp only at h1
                      simp only [vformatLoop, if_neg hc, if_neg hd]
                      have hs := feed_shift put t cs1 0 cl
                      rw [Int.add_zero] at hs
                      rw [h1, hs]
                      cases feed put cs1 0 cl <;> rfl
                  | ub =>
                      refine ⟨cs1, .ub, fun σ put t cl => ?_⟩
                      have h1 := h1 σ put cl
                      simp only at h1
                      simp only [vformatLoop, if_neg hc, if_neg hd]
                      have hs := feed_shift put t cs1 0 cl
                      rw [Int.add_zero] at hs
                      rw [h1, hs]
                      cases feed put cs1 0 cl <;> rfl
                  | ok x =>
                      obtain ⟨cs, fin, h⟩ := ih x.1 x.2
                      refine ⟨cs1 ++ cs, fin, fun σ put t cl => ?_⟩
                      have h1 := h1 σ put cl
                      simp only at h1
                      simp only [vformatLoop, if_neg hc, if_neg hd]
                      have hs := feed_shift put t cs1 0 cl
                      rw [Int.add_zero] at hs
                      rw [h1, feed_append, hs]
                      cases feed put cs1 0 cl with
                      | abort => rfl
                      | ub => rfl
                      | ok y => simp only [Outcome.ok_bind]; exact h σ put _ _

/-- Formatting hands the same characters to every sink. -/
theorem vformat_emits (fmt : List Byte) (ap : List Arg) : ∃ cs, ∃ fin : Outcome Unit, ∀ (σ : Type) (put : Put σ) (cl : σ), vformat put fmt ap cl = (feed put cs 0 cl >>= fun x => fin >>= fun _ => .ok x) := by
  obtain ⟨cs, fin, h⟩ := vformatLoop_emits (fmt.length + 1) fmt ap
  exact ⟨cs, fin, fun σ put cl => h σ put 0 cl⟩

end ZT.Format
