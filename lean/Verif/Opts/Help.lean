import Verif.Opts.HelpModel
import Verif.Fuel

/-!
# C86: the help text
-/

namespace ZT.Opts.Help

/-! ## Specification -/

/-- The words of a text, `cur` being the beginning of the first one. -/
def wordsFrom : Str → Str → List Str
  | cur, [] => if cur = [] then [] else [cur]
  | cur, b :: t => if b = 0x20 then (if cur = [] then [] else [cur]) ++ wordsFrom [] t else wordsFrom (cur ++ [b]) t

/-- The words of a text: what is between blanks. -/
def words (s : Str) : List Str := wordsFrom [] s

/-- The names as they are to be shown: "   -s, --long arg", blanks for what is missing. -/
def Heading (d : Opt) (t : Str) : Prop :=
  (∃ l, d.lopt = some l ∧ d.sopt ≠ NSO ∧ t = [0x20, 0x20, 0x20, 0x2D, d.sopt, 0x2C, 0x20, 0x2D, 0x2D] ++ l ++ [0x20] ++ d.arg.getD []) ∨
  (∃ l, d.lopt = some l ∧ d.sopt = NSO ∧ t = [0x20, 0x20, 0x20, 0x20, 0x20, 0x20, 0x20, 0x2D, 0x2D] ++ l ++ [0x20] ++ d.arg.getD []) ∨
  (d.lopt = none ∧ d.sopt ≠ NSO ∧ t = [0x20, 0x20, 0x20, 0x2D, d.sopt, 0x20, 0x20, 0x20, 0x20, 0x20] ++ d.arg.getD [])

/-- The column where the help begins. -/
def column (depth : Nat) : Nat := if depth ≤ 30 then 30 else 2 * depth - 30

/-- What is to be shown of an option: the names, and the help in one or more lines that begin in the same column, have at most 50 bytes and together the words of the help. -/
def Shown (d : Opt) (t : Str) : Prop :=
  ∃ hd help first rest, Heading d hd ∧ d.help = some help ∧
    t = hd ++ spaces (column hd.length - hd.length) ++ first ++ [0x0A] ++ rest.flatMap (fun l => spaces (column hd.length) ++ l ++ [0x0A]) ∧
    (first :: rest).flatMap words = words help ∧ (∀ l ∈ first :: rest, l.length ≤ 50) ∧ (help.length ≤ 50 → first = help ∧ rest = [])

/-- No word of the help of 50 bytes or more. -/
def ShortWords (d : Opt) : Prop := ∃ help, d.help = some help ∧ ∀ w ∈ words help, w.length < 50

/-! ## Words -/

theorem wordsFrom_append (cur a b : Str) : wordsFrom cur (a ++ 0x20 :: b) = wordsFrom cur a ++ words b := by
  induction a generalizing cur with
  | nil => simp [wordsFrom, words]
  | cons x a ih =>
    simp only [List.cons_append, wordsFrom]
    split
    · rw [ih, List.append_assoc]
    · rw [ih]

theorem words_append (a b : Str) : words (a ++ 0x20 :: b) = words a ++ words b := wordsFrom_append [] a b

theorem words_blank (b : Str) : words (0x20 :: b) = words b := by simp [words, wordsFrom]

theorem wordsFrom_plain (cur w : Str) (h : (0x20 : Byte) ∉ w) : wordsFrom cur w = if cur ++ w = [] then [] else [cur ++ w] := by
  induction w generalizing cur with
  | nil => simp [wordsFrom]
  | cons x w ih =>
    have hx : x ≠ 0x20 := fun e => h (by simp [e])
    rw [wordsFrom, if_neg hx, ih _ (fun e => h (List.mem_cons_of_mem _ e))]
    simp

/-- The first word. -/
theorem words_first {x : Byte} {s : Str} (hx : x ≠ 0x20) : (x :: s).takeWhile (· != 0x20) ∈ words (x :: s) := by
  have hsplit := List.takeWhile_append_dropWhile (p := fun b : Byte => b != 0x20) (l := x :: s)
  have hno : (0x20 : Byte) ∉ (x :: s).takeWhile (· != 0x20) := by
    intro h
    have := List.all_takeWhile (p := fun b : Byte => b != 0x20) (l := x :: s)
    rw [List.all_eq_true] at this
    have := this _ h
    simp at this
  have hne : (x :: s).takeWhile (· != 0x20) ≠ [] := by rw [List.takeWhile_cons, if_pos (by simpa using hx)]; simp
  generalize ht : (x :: s).takeWhile (· != 0x20) = w at *
  have hd : ∀ b, ((x :: s).dropWhile (· != 0x20)).head? = some b → b = 0x20 := by
    intro b hb
    have := List.head?_dropWhile_not (fun b : Byte => b != 0x20) (x :: s)
    rw [hb] at this
    simpa using this
  rw [← hsplit]
  cases hr : (x :: s).dropWhile (· != 0x20) with
  | nil =>
    rw [List.append_nil, words, wordsFrom_plain _ _ hno]
    simp [hne]
  | cons b t =>
    rw [hr] at hd
    have hb := hd b rfl
    subst hb
    rw [words_append, words, wordsFrom_plain _ _ hno]
    simp [hne]

theorem words_skip (n : Nat) (s : Str) : words (spaces n ++ s) = words s := by
  induction n with
  | zero => rfl
  | succ n ih => rw [spaces, List.replicate_succ, List.cons_append, words_blank]; exact ih

/-! ## The parts of the printer -/

theorem indentTo_eq (t p : Int) : indentTo t 5 p = t - p := by
  rw [indentTo]
  have := Int.mul_tdiv_add_tmod (t - p) 5
  rw [Int.mul_comm] at this
  exact this

theorem padded_nil (w : Int) : padded w [] = spaces w.natAbs := by
  unfold padded
  split
  · simp; congr 1; omega
  · simp; congr 1; omega

theorem padded_blank {n : Nat} (h : 0 < n) : padded n [0x20] = spaces n := by
  rw [padded, if_pos (by omega)]
  simp only [Int.toNat_natCast, List.length_singleton]
  rw [show ([0x20] : Str) = spaces 1 from rfl, spaces, spaces, List.replicate_append_replicate, show n - 1 + 1 = n by omega]
  rfl

theorem names_heading (d : Opt) (h : d.sopt ≠ NSO ∨ d.lopt.isSome = true) : Heading d (names d) := by
  cases hl : d.lopt with
  | none =>
    rw [hl] at h
    have hs : d.sopt ≠ NSO := by simpa using h
    refine Or.inr (Or.inr ⟨hl, hs, ?_⟩)
    simp [names, hl, hs, spaces, List.replicate]
  | some l =>
    by_cases hs : d.sopt = NSO
    · refine Or.inr (Or.inl ⟨l, hl, hs, ?_⟩)
      simp [names, hl, hs, spaces, List.replicate]
    · refine Or.inl ⟨l, hl, hs, ?_⟩
      simp [names, hl, hs, spaces, List.replicate]

theorem names_length (d : Opt) : 0 < (names d).length := by simp [names, spaces]

theorem column_eq (n : Nat) : (30 - (n : Int)).natAbs = column n - n ∧ n + (column n - n) = column n := by
  unfold column
  split <;> omega

/-- The rest of the text from `skip` on. -/
theorem skip_spec (help : Str) (offt : Nat) : help.drop offt = spaces (skip help offt - offt) ++ help.drop (skip help offt) ∧ (help.drop (skip help offt)).head? ≠ some 0x20 ∧ offt ≤ skip help offt := by
  have hsplit := List.takeWhile_append_dropWhile (p := fun b : Byte => b == 0x20) (l := help.drop offt)
  have hall : (help.drop offt).takeWhile (· == 0x20) = spaces ((help.drop offt).takeWhile (· == 0x20)).length := by
    rw [spaces, List.eq_replicate_iff]
    refine ⟨rfl, fun b hb => ?_⟩
    have := List.all_takeWhile (p := fun b : Byte => b == 0x20) (l := help.drop offt)
    rw [List.all_eq_true] at this
    simpa using this b hb
  have hdrop : help.drop (skip help offt) = (help.drop offt).dropWhile (· == 0x20) := by
    rw [skip, ← List.drop_drop]
    generalize hA : (help.drop offt).takeWhile (· == 0x20) = A at hsplit ⊢
    conv => lhs; rw [← hsplit]
    rw [List.drop_left]
  refine ⟨?_, ?_, by rw [skip]; omega⟩
  · rw [hdrop, show skip help offt - offt = ((help.drop offt).takeWhile (· == 0x20)).length by rw [skip]; omega, ← hall, hsplit]
  · rw [hdrop]
    intro e
    have := List.head?_dropWhile_not (fun b : Byte => b == 0x20) (help.drop offt)
    rw [e] at this
    simp at this

theorem char_at {help : Str} {k : Nat} (h : k ≤ help.length) : char help k = .ok ((help ++ [0])[k]'(by simp; omega)) := by
  rw [char, if_neg (by omega), Int.toNat_natCast, rd_lt (by simp; omega)]

/-- Going back to a blank. -/
theorem back_spec {help : Str} {offt k : Nat} (hk : help[offt + k]? = some 0x20) : ∀ (j fuel : Nat), offt + k + j ≤ help.length → j < fuel →
    ∃ w, k ≤ w ∧ w ≤ k + j ∧ help[offt + w]? = some 0x20 ∧ back help offt fuel ((k + j : Nat) : Int) = .ok (w : Int) := by
  intro j
  induction j with
  | zero =>
    intro fuel hl hf
    obtain ⟨fuel, rfl⟩ : ∃ n, fuel = n + 1 := ⟨fuel - 1, by omega⟩
    refine ⟨k, by omega, by omega, hk, ?_⟩
    have hlt : offt + k < help.length := (List.getElem?_eq_some_iff.1 hk).1
    rw [back, show ((offt : Int) + ((k + 0 : Nat) : Int)) = ((offt + k : Nat) : Int) by omega, char_at (by omega)]
    simp only [Outcome.ok_bind]
    rw [if_pos (by rw [List.getElem_append_left hlt]; exact (List.getElem?_eq_some_iff.1 hk).2)]
    rfl
  | succ j ih =>
    intro fuel hl hf
    obtain ⟨fuel, rfl⟩ : ∃ n, fuel = n + 1 := ⟨fuel - 1, by omega⟩
    rw [back, show ((offt : Int) + ((k + (j + 1) : Nat) : Int)) = ((offt + (k + j + 1) : Nat) : Int) by omega, char_at (by omega)]
    simp only [Outcome.ok_bind]
    by_cases hc : (help ++ [0])[offt + (k + j + 1)]'(by simp; omega) = 0x20
    · rw [if_pos hc]
      refine ⟨k + j + 1, by omega, by omega, ?_, rfl⟩
      have hlt : offt + (k + j + 1) < help.length := by
        apply Classical.byContradiction
        intro hn
        have : offt + (k + j + 1) = help.length := by omega
        rw [List.getElem_append_right (by omega)] at hc
        simp [this] at hc
      rw [List.getElem_append_left hlt] at hc
      rw [List.getElem?_eq_getElem hlt, hc]
    · rw [if_neg hc, show ((k + (j + 1) : Nat) : Int) - 1 = ((k + j : Nat) : Int) by omega]
      obtain ⟨w, h1, h2, h3, h4⟩ := ih fuel (by omega) (by omega)
      exact ⟨w, h1, by omega, h3, h4⟩

theorem chooseWidth_spec {help : Str} {offt : Nat} (hlt : offt ≤ help.length) (hh : (help.drop offt).head? ≠ some 0x20) (hw : ∀ w ∈ words (help.drop offt), w.length < 50) :
    ∃ w : Nat, chooseWidth help offt = .ok (w : Int) ∧ w ≤ 50 ∧
      ((offt + w = help.length) ∨ (0 < w ∧ help.drop offt = (help.drop offt).take w ++ 0x20 :: help.drop (offt + w + 1) ∧ help.drop (offt + w) = 0x20 :: help.drop (offt + w + 1))) := by
  rw [chooseWidth]
  by_cases hs : 50 > help.length - offt
  · rw [if_pos hs]
    exact ⟨help.length - offt, rfl, by omega, Or.inl (by omega)⟩
  · rw [if_neg hs]
    have hdl : (help.drop offt).length = help.length - offt := List.length_drop
    cases hd' : help.drop offt with
    | nil => rw [hd'] at hdl; simp at hdl; omega
    | cons x s =>
      rw [hd'] at hh hw
      have hx : x ≠ 0x20 := fun e => hh (by rw [e]; rfl)
      have hfirst := hw _ (words_first (s := s) hx)
      have hsplit := List.takeWhile_append_dropWhile (p := fun b : Byte => b != 0x20) (l := x :: s)
      have hpos : 0 < ((x :: s).takeWhile (· != 0x20)).length := by rw [List.takeWhile_cons, if_pos (by simpa using hx)]; simp
      generalize hwd : (x :: s).takeWhile (· != 0x20) = wd at *
      have hat : help[offt + wd.length]? = some 0x20 := by
        rw [← List.getElem?_drop, hd', ← hsplit]
        cases hr : (x :: s).dropWhile (· != 0x20) with
        | nil =>
          rw [hr, List.append_nil] at hsplit
          have := congrArg List.length hsplit
          rw [hd'] at hdl
          omega
        | cons b t =>
          have := List.head?_dropWhile_not (fun b : Byte => b != 0x20) (x :: s)
          rw [hr] at this
          have hb : b = 0x20 := by simpa using this
          rw [hb]
          simp
      obtain ⟨w, h1, h2, h3, h4⟩ := back_spec hat (50 - wd.length) (offt + 52) (by omega) (by omega)
      rw [show ((wd.length + (50 - wd.length) : Nat) : Int) = 50 by omega] at h4
      have hwl : offt + w < help.length := (List.getElem?_eq_some_iff.1 h3).1
      have htail : help.drop (offt + w) = 0x20 :: help.drop (offt + w + 1) := by
        rw [List.drop_eq_getElem_cons hwl, (List.getElem?_eq_some_iff.1 h3).2]
      refine ⟨w, h4, by omega, Or.inr ⟨by omega, ?_, htail⟩⟩
      rw [← htail, ← List.drop_drop, hd', List.take_append_drop]

/-- The lines. -/
theorem lines_spec (help : Str) (depth : Nat) (hdep : 0 < depth) : ∀ (n offt : Nat) (out : Str), help.length - offt ≤ n → offt < help.length → (∀ w ∈ words (help.drop offt), w.length < 50) →
    ∃ first rest, (∀ fuel, n + 2 ≤ fuel → lines help depth fuel offt out = .ok (out ++ (if offt ≠ 0 then spaces depth else []) ++ spaces (column depth - depth) ++ first ++ [0x0A] ++ rest.flatMap (fun l => spaces (column depth) ++ l ++ [0x0A]))) ∧
      (first :: rest).flatMap words = words (help.drop offt) ∧ ∀ l ∈ first :: rest, l.length ≤ 50 := by
  intro n
  induction n with
  | zero => intro offt out h1 h2; omega
  | succ n ih =>
    intro offt out h1 h2 hw
    obtain ⟨s1, s2, s3⟩ := skip_spec help offt
    generalize hsk : skip help offt = o at s1 s2 s3
    have hwo : words (help.drop o) = words (help.drop offt) := by rw [s1, words_skip]
    have hol : o ≤ help.length := by
      apply Classical.byContradiction
      intro hn
      have e := congrArg List.length s1
      simp only [List.length_append, List.length_drop, spaces, List.length_replicate] at e
      omega
    obtain ⟨w, e1, e2, e3⟩ := chooseWidth_spec hol s2 (by rw [hwo]; exact hw)
    obtain ⟨c1, c2⟩ := column_eq depth
    have hpre : ∀ fuel, lines help depth (fuel + 1) offt out
        = lines help depth fuel (o + w) (out ++ (if offt ≠ 0 then spaces depth else []) ++ spaces (column depth - depth) ++ (help.drop o).take w ++ [0x0A]) := by
      intro fuel
      rw [lines, if_pos h2]
      simp only [hsk, e1, Outcome.ok_bind]
      rw [padded_nil, indentTo_eq, c1, padded_blank hdep, show precision (w : Int) (help.drop o) = (help.drop o).take w by rw [precision, if_neg (by omega), Int.toNat_natCast], show ((o : Int) + (w : Int)).toNat = o + w by omega]
      by_cases h0 : offt = 0
      · simp [h0]
      · simp [h0]
    rcases e3 with e3 | ⟨e3, e4, e5⟩
    · refine ⟨(help.drop o).take w, [], ?_, ?_, ?_⟩
      · intro fuel hf
        obtain ⟨fuel, rfl⟩ : ∃ k, fuel = k + 2 := ⟨fuel - 2, by omega⟩
        rw [hpre, lines, if_neg (by omega)]
        simp
      · rw [← hwo, List.flatMap_cons, List.flatMap_nil, List.append_nil, List.take_of_length_le (by rw [List.length_drop]; omega)]
      · intro l hl
        simp only [List.mem_singleton] at hl
        rw [hl, List.length_take]; omega
    · have hlt : o + w < help.length := by
        apply Classical.byContradiction
        intro hn
        rw [List.drop_of_length_le (by omega)] at e5
        cases e5
      have hws : words (help.drop offt) = words ((help.drop o).take w) ++ words (help.drop (o + w)) := by
        rw [← hwo, e5, words_blank]
        conv => lhs; rw [e4]
        rw [words_append]
      obtain ⟨first, rest, f1, f2, f3⟩ := ih (o + w) (out ++ (if offt ≠ 0 then spaces depth else []) ++ spaces (column depth - depth) ++ (help.drop o).take w ++ [0x0A]) (by omega) hlt
        (fun x hx => hw x (by rw [hws]; exact List.mem_append_right _ hx))
      refine ⟨(help.drop o).take w, first :: rest, ?_, ?_, ?_⟩
      · intro fuel hf
        obtain ⟨fuel, rfl⟩ : ∃ k, fuel = k + 1 := ⟨fuel - 1, by omega⟩
        rw [hpre, f1 fuel (by omega), if_pos (show o + w ≠ 0 by omega)]
        have : spaces depth ++ spaces (column depth - depth) = spaces (column depth) := by rw [spaces, spaces, List.replicate_append_replicate, c2]; rfl
        simp only [List.flatMap_cons, List.append_assoc, ← this]
      · rw [List.flatMap_cons, f2, hws]
      · intro l hl
        rcases List.mem_cons.1 hl with rfl | hl
        · rw [List.length_take]; omega
        · exact f3 l hl

theorem printer_spec {d : Opt} (hn : d.sopt ≠ NSO ∨ d.lopt.isSome = true) (hs : ShortWords d) (out : Str) : ∃ t n, Shown d t ∧ ∀ fuel, n ≤ fuel → printer d fuel out = .ok (some (out ++ t)) := by
  obtain ⟨help, hh, hw⟩ := hs
  obtain ⟨c1, c2⟩ := column_eq (names d).length
  by_cases hl : help.length > 50
  · obtain ⟨first, rest, f1, f2, f3⟩ := lines_spec help (names d).length (names_length d) help.length 0 (out ++ names d) (by omega) (by omega) (by rw [List.drop_zero]; exact hw)
    refine ⟨_, help.length + 2, ⟨names d, help, first, rest, names_heading d hn, hh, rfl, by rw [f2, List.drop_zero], f3, fun h => by omega⟩, ?_⟩
    intro fuel hf
    rw [printer, if_pos (by simpa using hn), hh]
    simp only [deref, Outcome.ok_bind]
    rw [if_pos hl, f1 fuel hf]
    simp
  · refine ⟨_, 0, ⟨names d, help, help, [], names_heading d hn, hh, rfl, by simp, ?_, fun _ => ⟨rfl, rfl⟩⟩, ?_⟩
    · intro l hl'
      simp only [List.mem_singleton] at hl'
      rw [hl']; omega
    · intro fuel _
      rw [printer, if_pos (by simpa using hn), hh]
      simp only [deref, Outcome.ok_bind]
      rw [if_neg hl, indentTo_eq, padded_nil, c1]
      simp

/-- "Usage: name help", "Options:" -/
def banner (name : Str) (help : Option Str) : Str := "Usage: ".toUTF8.toList ++ name ++ " ".toUTF8.toList ++ help.getD [] ++ "\nOptions:\n".toUTF8.toList

theorem options_spec : ∀ (opts : List Opt) (out : Str), (∀ d ∈ opts, (d.sopt ≠ NSO ∨ d.lopt.isSome = true) ∧ ShortWords d) →
    ∃ (ts : List Str) (n : Nat), ts.length = opts.length ∧ (∀ (k : Nat) d t, opts[k]? = some d → ts[k]? = some t → Shown d t) ∧ ∀ fuel, n ≤ fuel → ∀ tail, options fuel (opts ++ tail) out = options fuel tail (out ++ ts.flatten) := by
  intro opts
  induction opts with
  | nil => intro out _; exact ⟨[], 0, rfl, by simp, fun fuel _ tail => by simp⟩
  | cons d opts ih =>
    intro out h
    obtain ⟨t, n, h1, h2⟩ := printer_spec (h d (by simp)).1 (h d (by simp)).2 out
    obtain ⟨ts, n', g1, g2, g3⟩ := ih (out ++ t) (fun x hx => h x (by simp [hx]))
    refine ⟨t :: ts, max n n', by simp [g1], ?_, ?_⟩
    · intro k x y hx hy
      cases k with
      | zero => simp at hx hy; subst hx; subst hy; exact h1
      | succ k => exact g2 k x y (by simpa using hx) (by simpa using hy)
    · intro fuel hf tail
      rw [List.cons_append, options, h2 fuel (by omega)]
      simp only [Outcome.ok_bind]
      rw [g3 fuel (by omega)]
      simp

theorem usage_tail (name : Str) (help : Option Str) (opts tail : List Opt) (h : ∀ d ∈ opts, (d.sopt ≠ NSO ∨ d.lopt ≠ none) ∧ ShortWords d) :
    ∃ ts : List Str, ts.length = opts.length ∧ (∀ (k : Nat) d t, opts[k]? = some d → ts[k]? = some t → Shown d t) ∧ ∃ n, ∀ fuel, n ≤ fuel → usage name help (opts ++ tail) fuel = options fuel tail (banner name help ++ ts.flatten) := by
  obtain ⟨ts, n, h1, h2, h3⟩ := options_spec opts (banner name help) (fun d hd => ⟨by
    rcases (h d hd).1 with h | h
    · exact Or.inl h
    · exact Or.inr (by cases hl : d.lopt with | none => exact absurd hl h | some l => rfl), (h d hd).2⟩)
  refine ⟨ts, h1, h2, n, fun fuel hf => ?_⟩
  have hb : [0x55, 0x73, 0x61, 0x67, 0x65, 0x3A, 0x20] ++ name ++ [0x20] ++ help.getD [] ++ [0x0A] ++ [0x4F, 0x70, 0x74, 0x69, 0x6F, 0x6E, 0x73, 0x3A, 0x0A] = banner name help := by
    rw [banner, show "Usage: ".toUTF8.toList = [0x55, 0x73, 0x61, 0x67, 0x65, 0x3A, 0x20] by decide +kernel, show " ".toUTF8.toList = [0x20] by decide +kernel,
      show "\nOptions:\n".toUTF8.toList = [0x0A, 0x4F, 0x70, 0x74, 0x69, 0x6F, 0x6E, 0x73, 0x3A, 0x0A] by decide +kernel]
    simp
  rw [usage, hb]
  exact h3 fuel hf tail

/-- **C86 (usage).** For every table of options with names, all of whose help texts have words below 50 bytes, zt_opt_usage ends, returns 0 and prints the banner and then for each option, in order, what is to be shown of it. Missing: longer
words (`c86_long_violation`, `c86_endless_violation`). -/
theorem c86_usage_partial (name : Str) (help : Option Str) (opts : List Opt) (h : ∀ d ∈ opts, (d.sopt ≠ NSO ∨ d.lopt ≠ none) ∧ ShortWords d) :
    ∃ ts : List Str, ts.length = opts.length ∧ (∀ (k : Nat) d t, opts[k]? = some d → ts[k]? = some t → Shown d t) ∧ Runs (usage name help opts) (0, banner name help ++ ts.flatten) := by
  obtain ⟨ts, h1, h2, n, h3⟩ := usage_tail name help opts [] h
  refine ⟨ts, h1, h2, n, fun fuel hf => ?_⟩
  have := h3 fuel hf
  rw [List.append_nil] at this
  rw [this, options]

/-- **C86 (options without names).** An option without any name ends the list: what comes before it is shown, and the result is -1. -/
theorem c86_nameless (name : Str) (help : Option Str) (opts : List Opt) (h : ∀ d ∈ opts, (d.sopt ≠ NSO ∨ d.lopt ≠ none) ∧ ShortWords d) (d : Opt) (rest : List Opt) (hd : d.sopt = NSO ∧ d.lopt = none) :
    ∃ ts : List Str, ts.length = opts.length ∧ (∀ (k : Nat) d t, opts[k]? = some d → ts[k]? = some t → Shown d t) ∧ Runs (usage name help (opts ++ d :: rest)) (-1, banner name help ++ ts.flatten) := by
  obtain ⟨ts, h1, h2, n, h3⟩ := usage_tail name help opts (d :: rest) h
  refine ⟨ts, h1, h2, n, fun fuel hf => ?_⟩
  rw [h3 fuel hf, options, printer, if_neg (by simp [hd.1, hd.2])]
  rfl

/-! ## Long words -/

theorem back_none {help : Str} {offt : Nat} : ∀ (j fuel : Nat), offt + j ≤ help.length → (∀ k, k ≤ j → help[offt + k]? ≠ some 0x20) → j < fuel → back help offt fuel (j : Int) = back help offt (fuel - (j + 1)) (-1) := by
  intro j
  induction j with
  | zero =>
    intro fuel hl hno hf
    obtain ⟨fuel, rfl⟩ : ∃ n, fuel = n + 1 := ⟨fuel - 1, by omega⟩
    rw [back, show ((offt : Int) + ((0 : Nat) : Int)) = ((offt + 0 : Nat) : Int) by omega, char_at (by omega)]
    simp only [Outcome.ok_bind]
    rw [if_neg ?_]
    · rfl
    · intro hc
      by_cases hlt : offt + 0 < help.length
      · rw [List.getElem_append_left hlt] at hc
        exact hno 0 (by omega) (by rw [List.getElem?_eq_getElem hlt, hc])
      · rw [List.getElem_append_right (by omega)] at hc
        simp [show offt = help.length by omega] at hc
  | succ j ih =>
    intro fuel hl hno hf
    obtain ⟨fuel, rfl⟩ : ∃ n, fuel = n + 1 := ⟨fuel - 1, by omega⟩
    rw [back, show ((offt : Int) + ((j + 1 : Nat) : Int)) = ((offt + (j + 1) : Nat) : Int) by omega, char_at (by omega)]
    simp only [Outcome.ok_bind]
    rw [if_neg ?_, show ((j + 1 : Nat) : Int) - 1 = ((j : Nat) : Int) by omega, ih fuel (by omega) (fun k hk => hno k (by omega)) (by omega)]
    · congr 1; omega
    · intro hc
      by_cases hlt : offt + (j + 1) < help.length
      · rw [List.getElem_append_left hlt] at hc
        exact hno (j + 1) (by omega) (by rw [List.getElem?_eq_getElem hlt, hc])
      · rw [List.getElem_append_right (by omega)] at hc
        simp [show offt + (j + 1) = help.length by omega] at hc

/-- Violation of C86: if the help begins with a word of more than 50 bytes, the bytes in front of the text are read. -/
theorem c86_long_violation (d : Opt) (hn : d.sopt ≠ NSO ∨ d.lopt.isSome = true) {help : Str} (hh : d.help = some help) (hl : 50 < help.length) (hw : ∀ k, k ≤ 50 → help[k]? ≠ some 0x20) (fuel : Nat) (out : Str) : printer d fuel out = .ub := by
  rw [printer, if_pos (by simpa using hn), hh]
  simp only [deref, Outcome.ok_bind]
  rw [if_pos hl]
  cases fuel with
  | zero => rfl
  | succ fuel =>
    have hsk : skip help 0 = 0 := by
      rw [skip, List.drop_zero]
      cases help with
      | nil => rfl
      | cons x s =>
        have : x ≠ 0x20 := fun e => hw 0 (by omega) (by simp [e])
        rw [List.takeWhile_cons, if_neg (by simpa using this)]; rfl
    have hb : chooseWidth help 0 = .ub := by
      rw [chooseWidth, if_neg (by omega), show (50 : Int) = ((50 : Nat) : Int) by rfl, back_none 50 (0 + 52) (by omega) (fun k hk => by rw [Nat.zero_add]; exact hw k hk) (by omega)]
      rfl
    rw [lines, if_pos (by omega)]
    simp only [hsk, hb, Outcome.ub_bind]

/-- Violation of C86: if a later word has 50 bytes or more (`offt` is where it begins), the rest of the text is printed again and again, and the call never returns. -/
theorem c86_endless_violation {help : Str} {depth offt : Nat} (h0 : 0 < offt) (hb : help[offt - 1]? = some 0x20) (hl : offt + 50 ≤ help.length) (hw : ∀ k, k ≤ 50 → help[offt + k]? ≠ some 0x20) :
    ∀ fuel out r, lines help depth fuel offt out ≠ .ok r ∧ lines help depth fuel (offt - 1) out ≠ .ok r := by
  have hs1 : skip help offt = offt := by
    rw [skip, List.drop_eq_getElem_cons (show offt < help.length by omega)]
    have : help[offt]'(by omega) ≠ 0x20 := fun e => hw 0 (by omega) (by rw [Nat.add_zero, List.getElem?_eq_getElem (by omega), e])
    rw [List.takeWhile_cons, if_neg (by simpa using this)]; rfl
  have hs2 : skip help (offt - 1) = offt := by
    have hlt : offt - 1 < help.length := by omega
    rw [skip, List.drop_eq_getElem_cons hlt, (List.getElem?_eq_some_iff.1 hb).2, show offt - 1 + 1 = offt by omega, List.takeWhile_cons, if_pos (by decide)]
    rw [skip] at hs1
    simp only [List.length_cons]
    omega
  have hc : chooseWidth help offt = .ok (-1) := by
    rw [chooseWidth, if_neg (by omega), show (50 : Int) = ((50 : Nat) : Int) by rfl, back_none 50 (offt + 52) (by omega) hw (by omega), show offt + 52 - (50 + 1) = offt + 1 by omega, back,
      show (offt : Int) + -1 = ((offt - 1 : Nat) : Int) by omega, char_at (by omega)]
    simp only [Outcome.ok_bind]
    rw [if_pos (by rw [List.getElem_append_left (by omega)]; exact (List.getElem?_eq_some_iff.1 hb).2)]
  intro fuel
  induction fuel with
  | zero => intro out r; exact ⟨by simp [lines], by simp [lines]⟩
  | succ fuel ih =>
    intro out r
    have hnext : ((offt : Int) + -1).toNat = offt - 1 := by omega
    constructor
    · rw [lines, if_pos (by omega)]
      simp only [hs1, hc, Outcome.ok_bind, hnext]
      exact (ih _ r).2
    · rw [lines, if_pos (by omega)]
      simp only [hs2, hc, Outcome.ok_bind, hnext]
      exact (ih _ r).2

/-- Hypotheses of `c86_usage_partial`: an option with a help of 70 bytes. -/
def demo : Opt := ⟨0x76, some [0x76, 0x65], none, some ((List.replicate 14 [0x61, 0x62, 0x63, 0x64, 0x20]).flatten)⟩

example : (demo.sopt ≠ NSO ∨ demo.lopt ≠ none) ∧ ShortWords demo := ⟨Or.inl (by decide), _, rfl, by decide +kernel⟩

example : printer demo 100 [] = .ok (some ("   -v, --ve                   abcd abcd abcd abcd abcd abcd abcd abcd abcd abcd\n".toUTF8.toList ++ "                              abcd abcd abcd abcd \n".toUTF8.toList)) := by decide +kernel

end ZT.Opts.Help
