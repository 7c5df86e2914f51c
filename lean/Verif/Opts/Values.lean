import Verif.Opts.Lemmas
import Verif.Cfg.Text

/-!
# The callbacks of the library
-/

namespace ZT.Opts

theorem arg_some {argv : List Str} {n : Nat} {a : Str} (h : argv[n]? = some a) : arg argv n = .ok (some a) := by
  rcases List.getElem?_eq_some_iff.1 h with ⟨hl, _⟩
  rw [arg, if_pos hl, h]

theorem afterEq_none : ∀ {l : Str} (_ : (0x3D : Byte) ∉ l), afterEq l = none ∧ ∀ t, afterEq (l ++ 0x3D :: t) = some t := by
  intro l
  induction l with
  | nil => intro _; simp [afterEq]
  | cons b l ih =>
    intro h
    have hb : b ≠ 0x3D := fun e => h (by simp [e])
    have := ih (fun e => h (by simp [e]))
    simp [afterEq, hb, this.1, this.2]

theorem skip_name {l : Str} (h : hd l ≠ 0x2D) (hl : l ≠ []) (t : Str) : skipDashes (0x2D :: 0x2D :: (l ++ t)) = l ++ t := by
  cases l with
  | nil => exact absurd rfl hl
  | cons b l =>
    have hb : b ≠ 0x2D := h
    simp [skipDashes, hb]

section
variable {defs : List Def} (hT : Table defs) (hP : Plain defs) {argv : List Str} {err : Handler Store} {kind : Nat → Kind}

theorem rd_def {x : Nat} {d : Def} (h : defs[x]? = some d) : rd defs x = .ok d := rd_eq_ok.2 h

include hT hP

theorem value_shortSep {σ : Type} {err : Handler σ} {x i : Nat} {v : Str} (hx : HasShort defs x) (hl : HasLong defs x) (h0 : argv[i]? = some [0x2D, shortOf defs x]) (h1 : argv[i + 1]? = some v) (s : σ) :
    getValue defs argv err i x s = .ok (.ret (some v, 1) s) := by
  obtain ⟨d, hd1, hd2, _⟩ := long_facts hT hP hl
  have hne := alnum_ne (short_alnum hT hP hx)
  have e1 : skipDashes [0x2D, shortOf defs x] = [shortOf defs x] := by simp [skipDashes, hne.2.1]
  have e2 : afterEq [shortOf defs x] = none := by simp [afterEq, hne.2.2.1]
  rw [getValue, arg_some h0]
  simp only [Outcome.ok_bind, deref]
  rw [rd_def hd1]
  simp only [Outcome.ok_bind, e1, e2, hd2, deref]
  rw [arg_some h1]
  by_cases e : longOf defs x = [shortOf defs x]
  · rw [if_pos e]; rfl
  · rw [if_neg e]; rfl

theorem value_shortEq {σ : Type} {err : Handler σ} {x i : Nat} {v : Str} (hx : HasShort defs x) (h0 : argv[i]? = some (0x2D :: shortOf defs x :: 0x3D :: v)) (s : σ) :
    getValue defs argv err i x s = .ok (.ret (some v, 0) s) := by
  have hne := alnum_ne (short_alnum hT hP hx)
  obtain ⟨d, hd1, hd2⟩ := hx
  have e1 : skipDashes (0x2D :: shortOf defs x :: 0x3D :: v) = shortOf defs x :: 0x3D :: v := by simp [skipDashes, hne.2.1]
  have e2 : afterEq (shortOf defs x :: 0x3D :: v) = some v := by simp [afterEq, hne.2.2.1]
  rw [getValue, arg_some h0]
  simp only [Outcome.ok_bind, deref]
  rw [rd_def hd1]
  simp only [Outcome.ok_bind, e1, e2]

theorem value_longSep {σ : Type} {err : Handler σ} {x i : Nat} {v : Str} (hl : HasLong defs x) (h0 : argv[i]? = some (0x2D :: 0x2D :: longOf defs x)) (h1 : argv[i + 1]? = some v) (s : σ) :
    getValue defs argv err i x s = .ok (.ret (some v, 1) s) := by
  obtain ⟨d, hd1, hd2, hne, heq, hda⟩ := long_facts hT hP hl
  have e1 : skipDashes (0x2D :: 0x2D :: longOf defs x) = longOf defs x := by have := skip_name hda hne []; simpa using this
  have e2 := (afterEq_none heq).1
  rw [getValue, arg_some h0]
  simp only [Outcome.ok_bind, deref]
  rw [rd_def hd1]
  simp only [Outcome.ok_bind, e1, e2, hd2, deref]
  rw [arg_some h1, if_pos trivial]
  rfl

theorem value_longEq {σ : Type} {err : Handler σ} {x i : Nat} {v : Str} (hl : HasLong defs x) (h0 : argv[i]? = some (0x2D :: 0x2D :: (longOf defs x ++ 0x3D :: v))) (s : σ) :
    getValue defs argv err i x s = .ok (.ret (some v, 0) s) := by
  obtain ⟨d, hd1, hd2, hne, heq, hda⟩ := long_facts hT hP hl
  have e1 := skip_name hda hne (0x3D :: v)
  have e2 := (afterEq_none heq).2 v
  rw [getValue, arg_some h0]
  simp only [Outcome.ok_bind, deref]
  rw [rd_def hd1]
  simp only [Outcome.ok_bind, e1, e2]

end

/-! ## Booleans -/

theorem lower_mem {b : Byte} (l : Byte) (hl : 0x61 ≤ l ∧ l ≤ 0x7A) : lower b = l ↔ b = l ∨ b = l - 0x20 := by
  unfold lower
  have e1 : (0x41 : Byte).toNat = 0x41 := rfl
  have e2 : (0x5A : Byte).toNat = 0x5A := rfl
  have e3 : (0x61 : Byte).toNat = 0x61 := rfl
  have e4 : (0x7A : Byte).toNat = 0x7A := rfl
  have e5 : (0x20 : Byte).toNat = 0x20 := rfl
  have h1 := UInt8.toNat_lt b
  have h2 := UInt8.toNat_lt l
  simp only [UInt8.le_iff_toNat_le, e3, e4] at hl
  simp only [UInt8.le_iff_toNat_le, ← UInt8.toNat_inj, UInt8.toNat_sub, e1, e2, e5]
  split
  · simp only [UInt8.toNat_add, e5]; omega
  · omega

theorem lowered_eq (v : Str) : lowered v = v.map lower := rfl

theorem yes_no {v : Str} (h : Yes v) (h' : No v) : False := by
  unfold Yes at h
  unfold No at h'
  generalize lowered v = w at h h'
  simp only [List.mem_cons, List.not_mem_nil, or_false] at h h'
  rcases h with h | h | h | h <;> subst h <;> revert h' <;> decide

theorem parse_cases (v : Str) : parseBool v = if Yes v then some 1 else if No v then some 0 else none := by
  unfold parseBool
  have eY : Yes v ↔ v.map lower ∈ ([[0x74], [0x79], [0x74, 0x72, 0x75, 0x65], [0x79, 0x65, 0x73]] : List Str) := Iff.rfl
  have eN : No v ↔ v.map lower ∈ ([[0x66], [0x6E], [0x66, 0x61, 0x6C, 0x73, 0x65], [0x6E, 0x6F]] : List Str) := Iff.rfl
  simp only [eY, eN]
  clear eY eN
  by_cases h : v.length = 1
  · rw [if_pos h]
    match v, h with
    | [b], _ =>
      have e : ∀ l : Byte, 0x61 ≤ l ∧ l ≤ 0x7A → (([b].map lower) = [l] ↔ b = l ∨ b = l - 0x20) := fun l hl => by
        rw [← lower_mem l hl]; simp
      have h1 : ([b].map lower ∈ ([[0x74], [0x79], [0x74, 0x72, 0x75, 0x65], [0x79, 0x65, 0x73]] : List Str)) ↔ (hd [b] = 0x74 ∨ hd [b] = 0x54 ∨ hd [b] = 0x79 ∨ hd [b] = 0x59) := by
        simp only [List.mem_cons, List.not_mem_nil, or_false, e 0x74 (by decide), e 0x79 (by decide)]
        simp [hd]
        grind
      have h2 : ([b].map lower ∈ ([[0x66], [0x6E], [0x66, 0x61, 0x6C, 0x73, 0x65], [0x6E, 0x6F]] : List Str)) ↔ (hd [b] = 0x66 ∨ hd [b] = 0x46 ∨ hd [b] = 0x6E ∨ hd [b] = 0x4E) := by
        simp only [List.mem_cons, List.not_mem_nil, or_false, e 0x66 (by decide), e 0x6E (by decide)]
        simp [hd]
        grind
      simp only [h1, h2]
  · rw [if_neg h]
    have hn : ∀ l : Byte, v.map lower ≠ [l] := fun l e => h (by have := congrArg List.length e; simpa using this)
    simp [hn]

theorem parse_yes {v : Str} : parseBool v = some 1 ↔ Yes v := by
  rw [parse_cases]
  by_cases h : Yes v
  · simp [h]
  · by_cases h' : No v <;> simp [h, h']

theorem parse_no {v : Str} : parseBool v = some 0 ↔ No v := by
  rw [parse_cases]
  by_cases h : Yes v
  · have h' : ¬ No v := yes_no h
    simp [h, h']
  · by_cases h' : No v <;> simp [h, h']

/-! ## Numbers -/

theorem numberOf_eq (s : Str) : numberOf s = match Cfg.strtolBody (Cfg.signOf (s.dropWhile Cfg.isSpace)).2 with
  | none => (0, s)
  | some (n, r) => (if (Cfg.signOf (s.dropWhile Cfg.isSpace)).1 then -(n : Int) else n, r) := by
  unfold numberOf Cfg.signOf
  rfl

theorem strtol_numberOf (s : Str) : Cfg.strtol s = (Cfg.clampLong (numberOf s).1, (numberOf s).2) := by
  rw [numberOf_eq, Cfg.strtol_eq]
  cases Cfg.strtolBody (Cfg.signOf (s.dropWhile Cfg.isSpace)).2 with
  | none => rfl
  | some r => rfl

theorem numText_iff (s : Str) (n : Int) : NumText s n ↔ s ≠ [] ∧ numberOf s = (n, []) := by
  constructor
  · intro h
    cases h with
    | plain ws c m hws hc =>
      obtain ⟨b, t, rfl, hb⟩ := Cfg.const_head hc
      refine ⟨by simp, ?_⟩
      rw [numberOf_eq, Cfg.drop_spaces hws (fun x hx => by cases hx; exact (Cfg.dec_not hb).1), Cfg.sign_plain (fun x hx => by cases hx; exact (Cfg.dec_not hb).2), Cfg.body_const hc]
      simp
    | plus ws c m hws hc =>
      refine ⟨by simp, ?_⟩
      rw [numberOf_eq, Cfg.drop_spaces hws (fun x hx => by cases hx; simp [Cfg.Spec.IsSpace])]
      show (match Cfg.strtolBody c with
        | none => (0, ws ++ 43 :: c)
        | some (n, r) => ((if false = true then -(n : Int) else n), r)) = _
      rw [Cfg.body_const hc]
      simp
    | minus ws c m hws hc =>
      refine ⟨by simp, ?_⟩
      rw [numberOf_eq, Cfg.drop_spaces hws (fun x hx => by cases hx; simp [Cfg.Spec.IsSpace])]
      show (match Cfg.strtolBody c with
        | none => (0, ws ++ 45 :: c)
        | some (n, r) => ((if true = true then -(n : Int) else n), r)) = _
      rw [Cfg.body_const hc]
      simp
  · rintro ⟨hs, h⟩
    have hsplit := List.takeWhile_append_dropWhile (p := Cfg.isSpace) (l := s)
    have hws : ∀ b ∈ s.takeWhile Cfg.isSpace, Cfg.Spec.IsSpace b := fun b hb => Cfg.space_iff.1 (Cfg.mem_takeWhile hb)
    rw [numberOf_eq] at h
    generalize ht : s.dropWhile Cfg.isSpace = t at *
    cases hb : Cfg.strtolBody (Cfg.signOf t).2 with
    | none => rw [hb] at h; exact absurd (congrArg Prod.snd h) hs
    | some r =>
      obtain ⟨m, r⟩ := r
      rw [hb] at h
      simp only [Prod.mk.injEq] at h
      obtain ⟨h, rfl⟩ := h
      have hc := Cfg.body_inv hb
      rw [← hsplit]
      rcases Cfg.sign_cases t with ⟨u, h1, h2⟩ | ⟨u, h1, h2⟩ | h2 <;> rw [h2] at hc h
      · rw [h1, ← h]; exact .minus _ _ m hws hc
      · rw [h1, ← h]; exact .plus _ _ m hws hc
      · rw [← h]; exact .plain _ _ m hws hc

theorem clamp_iff (n : Int) : Cfg.clampLong n = n ↔ -2 ^ 63 ≤ n ∧ n < 2 ^ 63 := by
  unfold Cfg.clampLong
  omega

theorem theLong_eq {v : Str} {n : Int} (h : LongText v n) : theLong v = n := by
  have hex : ∃ n, LongText v n := ⟨n, h⟩
  have h2 := hex.choose_spec
  rw [theLong, dif_pos hex]
  have e1 := ((numText_iff v _).1 h2.1).2
  rw [((numText_iff v n).1 h.1).2] at e1
  exact (congrArg Prod.fst e1).symm

theorem long_facts' {v : Str} {n : Int} (h : LongText v n) : numberOf v = (n, []) ∧ Cfg.clampLong n = n ∧ theLong v = n :=
  ⟨((numText_iff v n).1 h.1).2, (clamp_iff n).2 h.2, theLong_eq h⟩

/-! ## Effects -/

def Reps (s : Store) (A : Nat → Val) : Prop := ∀ x, Holds (s x) (A x)

theorem countArr_ok (l : List Str) (junk : List (Option Str)) : countArr (l.map some ++ none :: junk) = .ok (l.length + 1) := by
  induction l with
  | nil => rfl
  | cons a l ih => simp only [List.map_cons, List.cons_append, countArr, ih, Outcome.ok_bind, Outcome.pure_eq, List.length_cons]

theorem appendArr_ok (l : List Str) (junk : List (Option Str)) (v : Str) : appendArr (some (l.map some ++ none :: junk)) v = .ok ((l ++ [v]).map some ++ [none]) := by
  unfold appendArr
  simp only [countArr_ok, Outcome.ok_bind, Outcome.pure_eq, Option.getD_some, Nat.add_sub_cancel]
  have hg : ∃ g, grow (l.map some ++ none :: junk) (l.length + 1 + 1) = l.map some ++ [none, g] := by
    unfold grow
    cases junk with
    | nil =>
      refine ⟨some [0x21], ?_⟩
      have e : l.map some ++ [none] ++ List.replicate (l.length + 1 + 1) (some [0x21]) = (l.map some ++ [none, some [0x21]]) ++ List.replicate (l.length + 1) (some ([0x21] : Str)) := by
        rw [List.replicate_succ]; simp
      rw [e, List.take_left' (by simp)]
    | cons g junk =>
      refine ⟨g, ?_⟩
      have e : l.map some ++ none :: g :: junk ++ List.replicate (l.length + 1 + 1) (some [0x21]) = (l.map some ++ [none, g]) ++ (junk ++ List.replicate (l.length + 1 + 1) (some ([0x21] : Str))) := by simp
      rw [e, List.take_left' (by simp)]
  obtain ⟨g, hg⟩ := hg
  rw [hg, wr_lt (by simp)]
  simp only [Outcome.ok_bind]
  have e1 : (l.map some ++ [none, g]).set l.length (some v) = l.map some ++ [some v, g] := by rw [List.set_append_right _ _ (by simp)]; simp
  rw [e1, wr_lt (by simp)]
  have e2 : (l.map some ++ [some v, g]).set (l.length + 1) none = l.map some ++ [some v, none] := by rw [List.set_append_right _ _ (by simp)]; simp
  rw [e2]
  simp

theorem appendArr_null (v : Str) : appendArr none v = .ok [some v, none] := by rfl

theorem reps_set {s : Store} {A : Nat → Val} (h : Reps s A) {x : Nat} {c : Cell} {B : Nat → Val} (hx : Holds c (B x)) (hB : ∀ y, y ≠ x → B y = A y) : Reps (s.set x c) B := by
  intro y
  by_cases e : y = x
  · subst e; simp only [Store.set, if_true]; exact hx
  · simp only [Store.set, if_neg e, hB y e]; exact h y

theorem reps_same {s : Store} {A : Nat → Val} (h : Reps s A) {B : Nat → Val} (hB : ∀ y, B y = A y) : Reps s B := fun y => by rw [hB y]; exact h y

section
variable {defs : List Def} {argv : List Str} {err : Handler Store} {kind : Nat → Kind}

theorem typed_set {A B : Nat → Val} (h : Typed kind A) (x : Nat) (hB : ∀ y, y ≠ x → B y = A y) (hx : match kind x with
  | .null => True
  | .flag => B x = .null ∨ ∃ n, B x = .int n
  | .bool => B x = .null ∨ ∃ n, B x = .int n
  | .string => ∃ s, B x = .str s
  | .array => ∃ l, B x = .arr l
  | .long => B x = .null ∨ ∃ n, B x = .long n) : Typed kind B := by
  intro y
  by_cases e : y = x
  · subst e; exact hx
  · rw [hB y e]; exact h y

theorem bump_ok {s : Store} {A : Nat → Val} (hr : Reps s A) (ht : Typed kind A) (i : Nat) {x : Nat} (hk : kind x = .null ∨ kind x = .flag) :
    ∃ s', builtin kind defs argv err i x s = .ok (.ret 0 s') ∧ Reps s' (bump kind A x) ∧ Typed kind (bump kind A x) := by
  have hB : ∀ y, y ≠ x → bump kind A x y = A y := fun y e => by simp [bump, e]
  have htx := ht x
  have hrx := hr x
  rcases hk with hk | hk
  · refine ⟨s, by simp [builtin, hk], reps_same hr fun y => ?_, typed_set ht x hB (by rw [hk]; trivial)⟩
    by_cases e : y = x
    · subst e; simp [bump, hk]
    · exact hB y e
  · simp only [hk] at htx
    rcases htx with e | ⟨n, e⟩
    · rw [e] at hrx
      cases hc : s x <;> rw [hc] at hrx <;> cases hrx
      refine ⟨s, by simp [builtin, hk, hc], reps_same hr fun y => ?_, typed_set ht x hB (by simp [hk, bump, e])⟩
      by_cases e2 : y = x
      · subst e2; simp [bump, hk, e]
      · exact hB y e2
    · rw [e] at hrx
      cases hc : s x <;> rw [hc] at hrx <;> cases hrx
      refine ⟨s.set x (.int (n + 1)), by simp [builtin, hk, hc], reps_set hr (by simp only [bump, if_true, hk, e]; exact .int _) hB, typed_set ht x hB (by simp [hk, bump, e])⟩

theorem assign_ok {s : Store} {A : Nat → Val} (hr : Reps s A) (ht : Typed kind A) {i x k : Nat} {v : Str} (hv : ∀ s : Store, getValue defs argv err i x s = .ok (.ret (some v, k) s))
    (hk : (kind x = .bool ∧ (Yes v ∨ No v)) ∨ kind x = .string ∨ kind x = .array ∨ (kind x = .long ∧ ∃ n, LongText v n)) :
    ∃ s', builtin kind defs argv err i x s = .ok (.ret k s') ∧ Reps s' (assign kind A x v) ∧ Typed kind (assign kind A x v) := by
  have hB : ∀ y, y ≠ x → assign kind A x v y = A y := fun y e => by simp [assign, e]
  have htx := ht x
  have hrx := hr x
  rcases hk with ⟨hk, hb⟩ | hk | hk | ⟨hk, n, hn⟩
  · simp only [hk] at htx
    obtain ⟨n, hn, hy⟩ : ∃ n : Int, parseBool v = some n ∧ (if Yes v then 1 else 0) = n := by
      rcases hb with h | h
      · exact ⟨1, parse_yes.2 h, if_pos h⟩
      · exact ⟨0, parse_no.2 h, if_neg fun h' => yes_no h' h⟩
    rcases htx with e | ⟨m, e⟩
    · rw [e] at hrx
      cases hc : s x <;> rw [hc] at hrx <;> cases hrx
      refine ⟨s, by simp [builtin, hk, hv, deref, hn, hc], reps_same hr fun y => ?_, typed_set ht x hB (by simp [hk, assign, e])⟩
      by_cases e2 : y = x
      · subst e2; simp [assign, hk, e]
      · exact hB y e2
    · rw [e] at hrx
      cases hc : s x <;> rw [hc] at hrx <;> cases hrx
      refine ⟨s.set x (.int n), by simp [builtin, hk, hv, deref, hn, hc], reps_set hr (by simp only [assign, if_true, hk, e, hy]; exact .int _) hB, typed_set ht x hB (by simp [hk, assign, e])⟩
  · simp only [hk] at htx
    obtain ⟨o, e⟩ := htx
    rw [e] at hrx
    cases hc : s x <;> rw [hc] at hrx <;> cases hrx
    refine ⟨s.set x (.str (some v)), by simp [builtin, hk, hv, hc], reps_set hr (by simp only [assign, if_true, hk, e]; exact .str _) hB, typed_set ht x hB (by simp [hk, assign, e])⟩
  · simp only [hk] at htx
    obtain ⟨l, e⟩ := htx
    rw [e] at hrx
    cases hc : s x <;> rw [hc] at hrx
    case arr b =>
      cases hrx with
      | none =>
        refine ⟨s.set x (.arr (some [some v, none])), by simp [builtin, hk, hv, hc, appendArr_null], reps_set hr (by simp only [assign, if_true, hk, e]; exact .arr [v] []) hB, typed_set ht x hB (by simp [hk, assign, e])⟩
      | arr _ junk =>
        refine ⟨s.set x (.arr (some ((l ++ [v]).map some ++ [none]))), by simp [builtin, hk, hv, hc, appendArr_ok], reps_set hr (by simp only [assign, if_true, hk, e]; exact .arr (l ++ [v]) []) hB, typed_set ht x hB (by simp [hk, assign, e])⟩
    all_goals cases hrx
  · simp only [hk] at htx
    obtain ⟨h1, h2, h3⟩ := long_facts' hn
    rcases htx with e | ⟨m, e⟩
    · rw [e] at hrx
      cases hc : s x <;> rw [hc] at hrx <;> cases hrx
      refine ⟨s, by simp [builtin, hk, hv, deref, h1, h2, report, hd, hc], reps_same hr fun y => ?_, typed_set ht x hB (by simp [hk, assign, e])⟩
      by_cases e2 : y = x
      · subst e2; simp [assign, hk, e]
      · exact hB y e2
    · rw [e] at hrx
      cases hc : s x <;> rw [hc] at hrx <;> cases hrx
      refine ⟨s.set x (.long n), by simp [builtin, hk, hv, deref, h1, h2, report, hd, hc], reps_set hr (by simp only [assign, if_true, hk, e, h3]; exact .long _) hB, typed_set ht x hB (by simp [hk, assign, e])⟩

theorem bumps_ok (i : Nat) : ∀ (xs : List Nat) {s : Store} {A : Nat → Val}, Reps s A → Typed kind A → (∀ x ∈ xs, kind x = .null ∨ kind x = .flag) →
    ∃ s', Calls (builtin kind defs argv err) i (xs.map fun y => (y, 0)) s s' ∧ Reps s' (xs.foldl (bump kind) A) ∧ Typed kind (xs.foldl (bump kind) A) := by
  intro xs
  induction xs with
  | nil => intro s A hr ht _; exact ⟨s, .nil, hr, ht⟩
  | cons x xs ih =>
    intro s A hr ht hk
    obtain ⟨s1, e1, hr1, ht1⟩ := bump_ok (defs := defs) (argv := argv) (err := err) hr ht i (hk x (by simp))
    obtain ⟨s2, e2, hr2, ht2⟩ := ih hr1 ht1 fun y hy => hk y (by simp [hy])
    exact ⟨s2, .cons e1 e2, hr2, ht2⟩

variable (hT : Table defs) (hP : Plain defs)
include hT hP

/-- One piece of the command line. -/
theorem item_ok {it : Item} (hk : it.known defs) (hf : it.fits kind) (hl : ∀ x v, it = .shortSep x v → HasLong defs x) {i : Nat} {tail : List Str} (ha : argv.drop i = it.text defs ++ tail) {s : Store} {A : Nat → Val}
    (hr : Reps s A) (ht : Typed kind A) : ∃ s', Calls (builtin kind defs argv err) i it.calls s s' ∧ Reps s' (it.effect kind A) ∧ Typed kind (it.effect kind A) := by
  have at0 : ∀ a as, it.text defs = a :: as → argv[i]? = some a := by
    intro a as e
    have := congrArg (fun l => l[0]?) ha
    simp only [List.getElem?_drop, Nat.add_zero, e] at this
    exact this
  have at1 : ∀ a b as, it.text defs = a :: b :: as → argv[i + 1]? = some b := by
    intro a b as e
    have := congrArg (fun l => l[1]?) ha
    simp only [List.getElem?_drop, e] at this
    exact this
  cases it with
  | flags x xs =>
    have := bumps_ok (defs := defs) (argv := argv) (err := err) i (x :: xs) hr ht hf
    exact this
  | long x =>
    have := bumps_ok (defs := defs) (argv := argv) (err := err) i [x] hr ht (fun y hy => by simp at hy; subst hy; exact hf)
    exact this
  | shortSep x v =>
    obtain ⟨s', e, hr', ht'⟩ := assign_ok (err := err) (k := 1) hr ht (fun s => value_shortSep hT hP hk (hl x v rfl) (at0 _ _ rfl) (at1 _ _ _ rfl) s) hf
    exact ⟨s', .cons e .nil, hr', ht'⟩
  | shortEq x v =>
    obtain ⟨s', e, hr', ht'⟩ := assign_ok (err := err) (k := 0) hr ht (fun s => value_shortEq hT hP hk (at0 _ _ rfl) s) hf
    exact ⟨s', .cons e .nil, hr', ht'⟩
  | longSep x v =>
    obtain ⟨s', e, hr', ht'⟩ := assign_ok (err := err) (k := 1) hr ht (fun s => value_longSep hT hP hk (at0 _ _ rfl) (at1 _ _ _ rfl) s) hf
    exact ⟨s', .cons e .nil, hr', ht'⟩
  | longEq x v =>
    obtain ⟨s', e, hr', ht'⟩ := assign_ok (err := err) (k := 0) hr ht (fun s => value_longEq hT hP hk (at0 _ _ rfl) s) hf
    exact ⟨s', .cons e .nil, hr', ht'⟩

theorem items_ok : ∀ (its : List Item) (i : Nat) (tail : List Str), (∀ it ∈ its, it.known defs ∧ it.fits kind ∧ ∀ x v, it = .shortSep x v → HasLong defs x) → argv.drop i = its.flatMap (Item.text defs) ++ tail →
    ∀ {s : Store} {A : Nat → Val}, Reps s A → Typed kind A →
    ∃ s', Does defs (builtin kind defs argv err) i its s s' ∧ Reps s' (its.foldl (fun A it => it.effect kind A) A) ∧ Typed kind (its.foldl (fun A it => it.effect kind A) A) := by
  intro its
  induction its with
  | nil => intro i tail _ _ s A hr ht; exact ⟨s, .nil, hr, ht⟩
  | cons it its ih =>
    intro i tail hk ha s A hr ht
    obtain ⟨h1, h2, h3⟩ := hk it (by simp)
    rw [List.flatMap_cons, List.append_assoc] at ha
    obtain ⟨s1, e1, hr1, ht1⟩ := item_ok (err := err) hT hP h1 h2 h3 ha hr ht
    obtain ⟨s2, e2, hr2, ht2⟩ := ih (i + (it.text defs).length) tail (fun z hz => hk z (by simp [hz])) (by rw [← List.drop_drop, ha]; simp) hr1 ht1
    exact ⟨s2, .cons e1 e2, hr2, ht2⟩

end

end ZT.Opts
