import Verif.Unit.Print
import Verif.Unit.ReportSpec

/-!
# C103: the report can be read back
-/

namespace ZT.Unit.Report

open Macros (blank INDENT_TO)

variable {W : Type}

/-! ## Reading one line -/

theorem lines_line {a r : List Byte} (h : 10 ∉ a) : lines (a ++ 10 :: r) = a :: lines r := by
  induction a with
  | nil => simp [lines]
  | cons c a ih =>
      simp only [List.mem_cons, not_or] at h
      have hc : c ≠ 10 := fun e => h.1 e.symm
      rw [List.cons_append, lines, if_neg hc, ih h.2]

theorem read_line {a r : List Byte} (h : 10 ∉ a) : read (a ++ 10 :: r) = readLine a :: read r := by rw [read, lines_line h, List.map_cons]; rfl

theorem readLine_indent {n : Nat} {b : List Byte} (h : b.head? ≠ some 32) : readLine (List.replicate n 32 ++ b) = (n, readBody b) := by
  have h1 : b.takeWhile (· == 32) = [] ∧ b.dropWhile (· == 32) = b := by
    cases b with
    | nil => exact ⟨rfl, rfl⟩
    | cons c b =>
        have : (c == 32) = false := by simpa using h
        simp [List.takeWhile, List.dropWhile, this]
  have h2 : (List.replicate n 32 ++ b).takeWhile (· == (32 : Byte)) = List.replicate n 32 ∧ (List.replicate n 32 ++ b).dropWhile (· == (32 : Byte)) = b := by
    induction n with
    | zero => simpa using h1
    | succ n ih => simp [List.replicate_succ, ih.1, ih.2]
  rw [readLine, h2.1, h2.2, List.length_replicate]

theorem splitKey_pair {a v : List Byte} (h : ¬ [58, 32] <:+: a) : splitKey (a ++ 58 :: 32 :: v) = some (a, some v) := by
  induction a with
  | nil => simp [splitKey]
  | cons c a ih =>
      have ih := ih fun k => h (k.trans (List.suffix_cons c a).isInfix)
      cases a with
      | nil =>
          have e := ih
          simp only [List.nil_append] at e
          simp only [List.cons_append, List.nil_append]
          rw [splitKey, e]
          by_cases hc : c = 58 ∧ (58 : Byte) = 32
          · exact absurd hc.2 (by decide)
          · rw [if_neg hc]; rfl
      | cons d a =>
          simp only [List.cons_append] at ih ⊢
          rw [splitKey, ih]
          by_cases hc : c = 58 ∧ d = 32
          · exact absurd (show [58, 32] <:+: c :: d :: a from by rw [hc.1, hc.2]; exact (List.prefix_append [58, 32] a).isInfix) h
          · rw [if_neg hc]; rfl

theorem splitKey_heading {a : List Byte} (h : ¬ [58, 32] <:+: a) : splitKey (a ++ [58]) = some (a, none) := by
  induction a with
  | nil => simp [splitKey]
  | cons c a ih =>
      have ih := ih fun k => h (k.trans (List.suffix_cons c a).isInfix)
      cases a with
      | nil =>
          have e := ih
          simp only [List.nil_append] at e
          simp only [List.cons_append, List.nil_append]
          rw [splitKey, e]
          by_cases hc : c = 58 ∧ (58 : Byte) = 32
          · exact absurd hc.2 (by decide)
          · rw [if_neg hc]; rfl
      | cons d a =>
          simp only [List.cons_append] at ih ⊢
          rw [splitKey, ih]
          by_cases hc : c = 58 ∧ d = 32
          · exact absurd (show [58, 32] <:+: c :: d :: a from by rw [hc.1, hc.2]; exact (List.prefix_append [58, 32] a).isInfix) h
          · rw [if_neg hc]; rfl

theorem infix_pair {a b : Byte} {l : List Byte} : [a, b] <:+: l ↔ ∃ i, l[i]? = some a ∧ l[i + 1]? = some b := by
  constructor
  · rintro ⟨s, t, rfl⟩
    refine ⟨s.length, ?_, ?_⟩ <;> simp
  · rintro ⟨i, h1, h2⟩
    refine ⟨l.take i, l.drop (i + 2), ?_⟩
    obtain ⟨hi, h1⟩ := List.getElem?_eq_some_iff.1 h1
    obtain ⟨hj, h2⟩ := List.getElem?_eq_some_iff.1 h2
    have e1 : l.drop i = a :: l.drop (i + 1) := by rw [List.drop_eq_getElem_cons hi, h1]
    have e2 : l.drop (i + 1) = b :: l.drop (i + 2) := by rw [List.drop_eq_getElem_cons hj, h2]
    calc l.take i ++ [a, b] ++ l.drop (i + 2) = l.take i ++ l.drop i := by rw [e1, e2]; simp
      _ = l := List.take_append_drop i l

theorem no_colon_pad {n : List Byte} (h : Plain n) (k : Nat) : ¬ [58, 32] <:+: n ++ List.replicate k 32 := by
  intro hh
  obtain ⟨i, h1, h2⟩ := infix_pair.1 hh
  by_cases hi : i < n.length
  · by_cases hj : i + 1 < n.length
    · rw [List.getElem?_append_left hi] at h1
      rw [List.getElem?_append_left hj] at h2
      exact h.colon (infix_pair.2 ⟨i, h1, h2⟩)
    · rw [List.getElem?_append_left hi] at h1
      apply h.last.2
      rw [List.getLast?_eq_getElem?, ← h1]
      congr 1; omega
  · rw [List.getElem?_append_right (by omega), List.getElem?_replicate] at h1
    split at h1
    · exact absurd h1 (by decide)
    · exact absurd h1 (by simp)

theorem trimEnd_pad {n : List Byte} (h : n.getLast? ≠ some 32) (k : Nat) : trimEnd (n ++ List.replicate k 32) = n := by
  unfold trimEnd
  rw [List.reverse_append, List.reverse_replicate]
  have h1 : n.reverse.dropWhile (· == (32 : Byte)) = n.reverse := by
    rw [← List.head?_reverse] at h
    cases hn : n.reverse with
    | nil => rfl
    | cons c r =>
        rw [hn] at h
        have : (c == 32) = false := by simpa using h
        simp [List.dropWhile, this]
  have h2 : (List.replicate k 32 ++ n.reverse).dropWhile (· == (32 : Byte)) = n.reverse := by
    induction k with
    | zero => simpa using h1
    | succ k ih => simp [List.replicate_succ, ih]
  rw [h2, List.reverse_reverse]

theorem Plain.cons {n : List Byte} (h : Plain n) : ∃ c r, n = c :: r ∧ c ≠ 32 := by
  cases n with
  | nil => exact absurd rfl h.nonempty
  | cons c r => exact ⟨c, r, rfl, fun e => h.first (by rw [e]; rfl)⟩

theorem readBody_key {b : List Byte} (h0 : b ≠ []) (h1 : b ≠ [45, 45, 45]) (h2 : ¬ [45, 32] <+: b) : readBody b = match splitKey b with
      | none => .other
      | some (k, none) => .heading k
      | some (k, some v) => match unquote v with
        | some t => .quoted (trimEnd k) t
        | none => .value (trimEnd k) v := by
  unfold readBody
  rw [if_neg h0, if_neg h1]
  split
  · exact absurd (List.prefix_append [45, 32] _) h2
  · rfl

theorem entry_more {n : List Byte} (h : Plain n) (r : List Byte) : ¬ [45, 32] <+: n ++ r := by
  obtain ⟨c, l, rfl, hc⟩ := h.cons
  rintro ⟨t, ht⟩
  cases l with
  | nil => simp at ht; exact h.entry.1 (by rw [← ht.1])
  | cons d l =>
      simp at ht
      exact h.entry.2 ⟨l, by simp [ht.1, ht.2.1]⟩

theorem head_more {n : List Byte} (h : Plain n) (r : List Byte) : (n ++ r).head? ≠ some 32 := by
  obtain ⟨c, l, rfl, hc⟩ := h.cons
  simpa using hc

theorem read_heading {n : List Byte} (h : Plain n) : readBody (n ++ [58]) = .heading n := by
  rw [readBody_key (by simp) _ (entry_more h _), splitKey_heading h.colon]
  intro e
  have := congrArg List.getLast? e
  simp at this

theorem read_pair {n v : List Byte} (h : Plain n) (k : Nat) : readBody (n ++ (List.replicate k 32 ++ 58 :: 32 :: v)) = match unquote v with
    | some t => .quoted n t
    | none => .value n v := by
  rw [readBody_key (by simp) _ (entry_more h _), ← List.append_assoc, splitKey_pair (no_colon_pad h k)]
  · simp only [trimEnd_pad h.last.1]
  intro e
  have : (58 : Byte) ∈ ([45, 45, 45] : List Byte) := by rw [← e]; simp
  exact absurd this (by decide)

theorem unquote_quoted {t : List Byte} (h : 39 ∉ t) : unquote (39 :: (t ++ [39])) = some t := by
  simp [unquote, h]

theorem read_quoted {n t : List Byte} (h : Plain n) (k : Nat) (ht : 39 ∉ t) : readBody (n ++ (List.replicate k 32 ++ 58 :: 32 :: 39 :: (t ++ [39]))) = .quoted n t := by
  rw [read_pair h k, unquote_quoted ht]

theorem read_value {n v : List Byte} (h : Plain n) (k : Nat) (hv : v.head? ≠ some 39) : readBody (n ++ (List.replicate k 32 ++ 58 :: 32 :: v)) = .value n v := by
  have : unquote v = none := by
    unfold unquote
    split
    · exact absurd rfl hv
    · rfl
  rw [read_pair h k, this]

/-! ## Printing one line -/

theorem indent_const : INDENT_TO 32 0 2 0 = .ok 0 ∧ INDENT_TO 32 2 2 0 = .ok 2 ∧ INDENT_TO 32 4 2 0 = .ok 4 ∧ INDENT_TO 32 6 2 0 = .ok 6 := ⟨rfl, rfl, rfl, rfl⟩

theorem indent_col (n : Nat) (h : n < 2 ^ 31) : INDENT_TO 32 30 2 n = .ok (30 - n) := by
  have hf : ∀ x : Int, -(2 ^ 31 : Int) ≤ x → x < 2 ^ 31 → Macros.signed 32 x = .ok x := fun x a b => if_pos ⟨by simpa using a, by simpa using b⟩
  have he := Int.mul_tdiv_add_tmod (30 - (n : Int)) 2
  have hr1 : -2 < (30 - (n : Int)).tmod 2 ∧ (30 - (n : Int)).tmod 2 < 2 := ⟨Int.lt_tmod_of_pos _ (by decide), Int.tmod_lt_of_pos _ (by decide)⟩
  unfold INDENT_TO
  refine Outcome.bind_eq_ok.2 ⟨_, hf _ (by omega) (by omega), ?_⟩
  refine Outcome.bind_eq_ok.2 ⟨_, (if_neg (by omega)).trans (hf _ (by omega) (by omega)), ?_⟩
  refine Outcome.bind_eq_ok.2 ⟨_, (if_neg (by omega)).trans (Outcome.bind_eq_ok.2 ⟨_, hf _ (by omega) (by omega), rfl⟩), ?_⟩
  unfold Macros.INDENT_PAD
  refine Outcome.bind_eq_ok.2 ⟨_, hf _ (by omega) (by omega), ?_⟩
  rw [show (30 - (n : Int)).tdiv 2 * 2 + (30 - (n : Int)).tmod 2 = 30 - n from by omega]
  exact hf _ (by omega) (by omega)

/-- The bytes printed are some lines with these contents. -/
def Shows (x : Outcome (List Byte)) (ls : List (Nat × Item)) : Prop := ∃ o, x = .ok o ∧ ∀ r, read (o ++ r) = ls ++ read r

theorem Shows.append {x y : Outcome (List Byte)} {a b : List (Nat × Item)} (h : Shows x a) (k : Shows y b) : Shows (do let o ← x; let p ← y; pure (o ++ p)) (a ++ b) := by
  obtain ⟨o, e1, h1⟩ := h
  obtain ⟨p, e2, h2⟩ := k
  refine ⟨o ++ p, by rw [e1, e2]; rfl, fun r => ?_⟩
  rw [List.append_assoc, h1, h2, List.append_assoc]

theorem shows_dict {n : List Byte} (h : Plain n) {k : Nat} (hk : INDENT_TO 32 k 2 0 = .ok (k : Int)) : Shows (yamlDict n k) [(k, .heading n)] := by
  refine ⟨_, Outcome.bind_eq_ok.2 ⟨_, hk, rfl⟩, fun r => ?_⟩
  have e : (blank k ++ n ++ [58, 10]) ++ r = (List.replicate k 32 ++ (n ++ [58])) ++ 10 :: r := by simp [blank]
  rw [e, read_line, readLine_indent (head_more h _), read_heading h]; rfl
  simp only [List.mem_append, not_or]
  exact ⟨fun m => absurd (List.eq_of_mem_replicate m) (by decide), h.line, by simp⟩

theorem shows_elt {n : List Byte} (h : 10 ∉ n) {k : Nat} (hk : INDENT_TO 32 k 2 0 = .ok (k : Int)) : Shows (yamlListElt n k) [(k, .entry n)] := by
  refine ⟨_, Outcome.bind_eq_ok.2 ⟨_, hk, rfl⟩, fun r => ?_⟩
  have e : (blank k ++ [45, 32] ++ n ++ [10]) ++ r = (List.replicate k 32 ++ (45 :: 32 :: n)) ++ 10 :: r := by simp [blank]
  rw [e, read_line, readLine_indent (by simp), show readBody (45 :: 32 :: n) = .entry n from by simp [readBody]]; rfl
  simp only [List.mem_append, not_or]
  exact ⟨fun m => absurd (List.eq_of_mem_replicate m) (by decide), by simp [h]⟩

theorem value_bytes {n v : List Byte} {k : Nat} (hk : INDENT_TO 32 k 2 0 = .ok (k : Int)) (hl : k + n.length < 2 ^ 31) :
    yamlValue n k v = .ok (List.replicate k 32 ++ n ++ List.replicate (30 - ((k + n.length : Nat) : Int)).natAbs 32 ++ [58, 32] ++ v ++ [10]) := by
  refine Outcome.bind_eq_ok.2 ⟨_, hk, ?_⟩
  have e : (blank k ++ n).length = k + n.length := by simp [blank]
  refine Outcome.bind_eq_ok.2 ⟨((k + n.length : Nat) : Int), ?_, ?_⟩
  · rw [e]; exact if_pos ⟨by simp; omega, by simp; omega⟩
  refine Outcome.bind_eq_ok.2 ⟨_, indent_col _ hl, ?_⟩
  simp [blank]

theorem shows_pair {n v : List Byte} (h : Plain n) {k : Nat} (hk : INDENT_TO 32 k 2 0 = .ok (k : Int)) (hl : k + n.length < 2 ^ 31) (hv : 10 ∉ v) {it : Item}
    (hr : ∀ m, readBody (n ++ (List.replicate m 32 ++ 58 :: 32 :: v)) = it) : Shows (yamlValue n k v) [(k, it)] := by
  refine ⟨_, value_bytes hk hl, fun r => ?_⟩
  generalize (30 - ((k + n.length : Nat) : Int)).natAbs = m
  have e : (List.replicate k 32 ++ n ++ List.replicate m 32 ++ [58, 32] ++ v ++ [10]) ++ r = (List.replicate k 32 ++ (n ++ (List.replicate m 32 ++ 58 :: 32 :: v))) ++ 10 :: r := by simp
  rw [e, read_line, readLine_indent (head_more h _), hr m]; rfl
  simp only [List.mem_append, not_or]
  exact ⟨fun m => absurd (List.eq_of_mem_replicate m) (by decide), h.line, fun m => absurd (List.eq_of_mem_replicate m) (by decide), by simp [hv]⟩

theorem shows_value {n v : List Byte} (h : Plain n) {k : Nat} (hk : INDENT_TO 32 k 2 0 = .ok (k : Int)) (hl : k + n.length < 2 ^ 31) (hv : 10 ∉ v) (hq : v.head? ≠ some 39) :
    Shows (yamlValue n k v) [(k, .value n v)] := shows_pair h hk hl hv fun m => read_value h m hq

theorem shows_quoted {n t : List Byte} (h : Plain n) {k : Nat} (hk : INDENT_TO 32 k 2 0 = .ok (k : Int)) (hl : k + n.length < 2 ^ 31) (ht : Clean t) :
    Shows (yamlValue n k ([39] ++ t ++ [39])) [(k, .quoted n t)] :=
  shows_pair h hk hl (by simp [ht.1]) fun m => read_quoted h m ht.2

end ZT.Unit.Report
