import Verif.Cfg.Ini

/-!
# C70: which files are read without undefined behaviour
-/

namespace ZT.Cfg

open Spec

/-- A buffer that is a string from any offset. -/
def Buf (m : List Byte) : Prop := m.length = 1024 ∧ m[1023]? = some 0

theorem Buf.set {m : List Byte} (h : Buf m) (i : Nat) : Buf (m.set i 0) := by
  refine ⟨by rw [List.length_set]; exact h.1, ?_⟩
  rw [List.getElem?_set]
  split
  · rename_i e; subst e; rw [if_pos (by rw [h.1]; decide)]
  · exact h.2

theorem Buf.cstr {m : List Byte} (h : Buf m) {o : Nat} (ho : o ≤ 1023) : ∃ s z, cstr m o = .ok s ∧ m.drop o = s ++ 0 :: z ∧ 0x00 ∉ s := by
  refine cstr_total ?_
  have : (m.drop o)[1023 - o]? = some 0 := by rw [List.getElem?_drop, show o + (1023 - o) = 1023 by omega]; exact h.2
  exact List.mem_of_getElem? this

theorem Buf.wr {m : List Byte} (h : Buf m) {i : Nat} (hi : i ≤ 1023) : wr m i 0 = .ok (m.set i 0) := wr_lt (by rw [h.1]; omega)

theorem strip_total (val : Nat) : ∀ (i : Nat) (m : List Byte), Buf m → val + i ≤ 1023 → ∃ m', stripLoop m val i = .ok m' ∧ Buf m' := by
  intro i
  induction i with
  | zero => intro m h _; exact ⟨m, rfl, h⟩
  | succ i ih =>
    intro m h hi
    have hlt : val + (i + 1) < m.length := by rw [h.1]; omega
    rw [stripLoop, rd_lt hlt]
    simp only [Outcome.ok_bind]
    split
    · rw [h.wr hi]
      simp only [Outcome.ok_bind]
      exact ih _ (h.set _) (by omega)
    · exact ⟨m, rfl, h⟩

theorem split_pad {v z w pad : Str} {c : Byte} (hv : 0x00 ∉ v) (hp : Blank pad) (hc : c ≠ 0x00) (h : v ++ 0 :: z = pad ++ c :: w) : ∃ v', v = pad ++ c :: v' ∧ w = v' ++ 0 :: z := by
  induction pad generalizing v with
  | nil =>
    cases v with
    | nil => simp only [List.nil_append, List.cons.injEq] at h; exact absurd h.1.symm hc
    | cons b v => simp only [List.nil_append, List.cons_append, List.cons.injEq] at h; exact ⟨v, by rw [h.1]; rfl, h.2.symm⟩
  | cons p pad ih =>
    cases v with
    | nil =>
      simp only [List.nil_append, List.cons_append, List.cons.injEq] at h
      have := hp p (by simp)
      rw [← h.1] at this
      exact absurd this (by decide)
    | cons b v =>
      simp only [List.cons_append, List.cons.injEq] at h
      obtain ⟨v', e, hw⟩ := ih (fun e => hv (by simp [e])) (fun x hx => hp x (by simp [hx])) h.2
      exact ⟨v', by rw [e, h.1]; rfl, hw⟩

theorem span_le (p : Byte → Bool) : ∀ (s : Str) (i : Nat), (∀ b, s[i]? = some b → p b = false) → span p s ≤ i := by
  intro s
  induction s with
  | nil => intro i _; simp [span]
  | cons b s ih =>
    intro i h
    cases i with
    | zero =>
      have := h b rfl
      simp [span, this]
    | succ i =>
      have := ih i (fun x hx => h x (by simpa using hx))
      unfold span at this ⊢
      rw [List.takeWhile_cons]
      split <;> simp <;> omega

/-- The value that '=' is followed by in the buffer. -/
def HasValue (m : List Byte) (eq : Nat) : Prop := ∃ pad c w, m.drop (eq + 1) = pad ++ c :: w ∧ Blank pad ∧ c ≠ 0x00 ∧ c ≠ 0x0A ∧ c ≠ 0x20 ∧ c ≠ 0x09 ∧ ¬ IsMark c

theorem fields_total {m : List Byte} {len eq : Nat} (hm : Buf m) (he : eq ≤ 1022) (heq : m[eq]? = some 0x3D) (hv : HasValue m eq) : ∃ r, fields m len eq = .ok r := by
  obtain ⟨pad, c, w, hd, hp, hc0, _, hc1, hc2, hmk⟩ := hv
  unfold fields
  obtain ⟨s, z, e1, e2, h0⟩ := hm.cstr (o := 0) (by omega)
  rw [e1]
  simp only [Outcome.ok_bind]
  have hsp : span validName s ≤ eq := by
    refine span_le _ _ _ fun b hb => ?_
    have : m[eq]? = some b := by
      rw [List.drop_zero] at e2
      rw [e2, List.getElem?_append_left (List.getElem?_eq_some_iff.1 hb).1]; exact hb
    rw [heq] at this
    cases this; decide
  rw [hm.wr (by omega)]
  simp only [Outcome.ok_bind]
  have hm1 := hm.set (span validName s)
  generalize hm1e : m.set (span validName s) 0 = m1 at hm1 ⊢
  have hd1 : m1.drop (eq + 1) = pad ++ c :: w := by rw [← hm1e, List.drop_set_of_lt (by omega), hd]
  have hlen1 : (pad ++ c :: w).length = 1024 - (eq + 1) := by rw [← hd1, List.length_drop, hm1.1]
  obtain ⟨v, z1, e3, e4, hv0⟩ := hm1.cstr (o := eq + 1) (by omega)
  rw [e3]
  simp only [Outcome.ok_bind]
  rw [hd1] at e4
  obtain ⟨v', ev, ew⟩ := split_pad hv0 hp hc0 e4.symm
  have hspan : span isBlank v = pad.length := by
    rw [ev]
    refine span_eq (fun b hb => blank_iff.2 (hp b hb)) fun b hb => ?_
    simp only [List.head?_cons, Option.some.injEq] at hb
    subst hb
    cases hb : isBlank c with
    | false => rfl
    | true => rcases blank_iff.1 hb with h | h <;> contradiction
  rw [hspan]
  have hvall : eq + 1 + pad.length ≤ 1022 := by
    rw [ew] at hlen1
    simp only [List.length_append, List.length_cons] at hlen1
    omega
  generalize hval : eq + 1 + pad.length = val at hvall ⊢
  have hd2 : m1.drop val = c :: w := by rw [← hval, ← List.drop_drop, hd1, List.drop_left' rfl]
  obtain ⟨v2, z2, e5, e6, hv2⟩ := hm1.cstr (o := val) (by omega)
  rw [e5]
  simp only [Outcome.ok_bind]
  have hv2c : ∃ v3, v2 = c :: v3 := by
    rw [hd2] at e6
    cases v2 with
    | nil => simp only [List.nil_append, List.cons.injEq] at e6; exact absurd e6.1 hc0
    | cons b v3 => simp only [List.cons_append, List.cons.injEq] at e6; exact ⟨v3, by rw [e6.1]⟩
  obtain ⟨v3, rfl⟩ := hv2c
  have hv2len : val + (c :: v3).length ≤ 1023 := by
    have h1 : (m1.drop val).length = 1024 - val := by rw [List.length_drop, hm1.1]
    rw [e6] at h1
    simp only [List.length_append, List.length_cons] at h1 ⊢
    omega
  have hcut : ∃ m2 w2, cutComment m1 val (c :: v3) = .ok m2 ∧ Buf m2 ∧ m2.drop val = c :: w2 := by
    unfold cutComment
    rw [commentAt, if_neg (by exact hmk)]
    cases hca : commentAt v3 with
    | none => exact ⟨m1, w, rfl, hm1, hd2⟩
    | some i =>
      simp only [Option.map_some]
      have hi : i < v3.length := by
        clear e5 e6 hv2 hv2len
        induction v3 generalizing i with
        | nil => cases hca
        | cons b v3 ih =>
          rw [commentAt] at hca
          split at hca
          · cases hca; simp
          · cases hr : commentAt v3 with
            | none => rw [hr] at hca; cases hca
            | some j => rw [hr] at hca; cases hca; have := ih j hr; simp; omega
      refine ⟨_, w.set i 0, hm1.wr (by simp at hv2len; omega), hm1.set _, ?_⟩
      rw [drop_set_ge, hd2]; rfl
  obtain ⟨m2, w2, e7, hm2, hd3⟩ := hcut
  rw [e7]
  simp only [Outcome.ok_bind]
  obtain ⟨v4, z4, e8, e9, _⟩ := hm2.cstr (o := val) (by omega)
  rw [e8]
  simp only [Outcome.ok_bind]
  have hne : v4.length ≠ 0 := by
    rw [hd3] at e9
    cases v4 with
    | nil => simp only [List.nil_append, List.cons.injEq] at e9; exact absurd e9.1 hc0
    | cons _ _ => simp
  have hv4len : val + v4.length ≤ 1023 := by
    have h1 : (m2.drop val).length = 1024 - val := by rw [List.length_drop, hm2.1]
    rw [e9] at h1
    simp only [List.length_append, List.length_cons] at h1
    omega
  rw [if_neg hne]
  obtain ⟨m3, e10, hm3⟩ := strip_total val (v4.length - 1) m2 hm2 (by omega)
  rw [e10]
  simp only [Outcome.ok_bind]
  split
  · exact ⟨_, rfl⟩
  · obtain ⟨s5, z5, e11, _⟩ := hm3.cstr (o := 0) (by omega)
    obtain ⟨s6, z6, e12, _⟩ := hm3.cstr (o := val) (by omega)
    rw [e11]
    simp only [Outcome.ok_bind]
    rw [e12]
    exact ⟨_, rfl⟩

theorem idx_lt : ∀ {s : Str} {i : Nat}, s.idxOf? (0x3D : Byte) = some i → s[i]? = some 0x3D := by
  intro s
  induction s with
  | nil => intro i h; simp at h
  | cons b s ih =>
    intro i h
    rw [List.idxOf?_cons] at h
    split at h
    · rename_i hb; cases h; simpa using hb
    · cases hr : s.idxOf? (0x3D : Byte) with
      | none => rw [hr] at h; cases h
      | some j => rw [hr] at h; cases h; simpa using ih hr

/-- A pad and a byte that is no newline, in a text with a newline in place `n`, are before it. -/
theorem pad_lt {pad u : Str} {c : Byte} {n : Nat} (hp : Blank pad) (hc : c ≠ 0x0A) (h : (pad ++ c :: u)[n]? = some 0x0A) : pad.length < n := by
  rcases Nat.lt_trichotomy n pad.length with h1 | h1 | h1
  · rw [List.getElem?_append_left h1] at h
    have := hp _ (List.mem_of_getElem? h)
    exact absurd this (by decide)
  · subst h1; simp at h; exact absurd h hc
  · exact h1

theorem parseLine_total {f : Str} (hf : Readable f) : ∃ r, parseLine f = .ok (r, (fgets 1023 f).2) := by
  have h1 := fgets_append 1023 f
  have h2 := fgets_length 1023 f
  unfold parseLine
  generalize fgets 1023 f = q at h1 h2 ⊢
  obtain ⟨line, rest⟩ := q
  simp only at h1 h2 ⊢
  by_cases hl : line = []
  · rw [if_pos hl]; exact ⟨none, rfl⟩
  rw [if_neg hl]
  have hb : Buf (line ++ List.replicate (1024 - line.length) 0) := by
    refine ⟨by simp; omega, ?_⟩
    rw [List.getElem?_append_right (by omega), List.getElem?_replicate, if_pos (by omega)]
  obtain ⟨s, z, e1, e2, h0⟩ := hb.cstr (o := 0) (by omega)
  rw [e1]
  simp only [Outcome.ok_bind]
  rw [List.drop_zero] at e2
  -- the string is in the line
  have hs : ∃ y, line = s ++ y := by
    have : s.length ≤ line.length := by
      apply Nat.le_of_not_lt
      intro hlt
      have h3 : (line ++ List.replicate (1024 - line.length) 0)[line.length]? = some 0 := by
        rw [List.getElem?_append_right (Nat.le_refl _), List.getElem?_replicate, if_pos (by omega)]
      rw [e2, List.getElem?_append_left hlt] at h3
      exact h0 (List.mem_of_getElem? h3)
    have h3 := congrArg (List.take line.length) e2
    rw [List.take_left' rfl, List.take_append, List.take_of_length_le this] at h3
    exact ⟨_, h3⟩
  obtain ⟨y, hy⟩ := hs
  cases hi : s.idxOf? 0x3D with
  | none => exact ⟨none, rfl⟩
  | some eq =>
    simp only
    have hse := idx_lt hi
    have heqlt := (List.getElem?_eq_some_iff.1 hse).1
    have hslen : s.length ≤ line.length := by rw [hy]; simp
    have hbe : (line ++ List.replicate (1024 - line.length) 0)[eq]? = some 0x3D := by rw [e2, List.getElem?_append_left heqlt]; exact hse
    -- what follows '='
    have hfe : f = s.take eq ++ 0x3D :: (s.drop (eq + 1) ++ (y ++ rest)) := by
      have h3 : s = s.take eq ++ 0x3D :: s.drop (eq + 1) := by
        have : s[eq] = 0x3D := (List.getElem?_eq_some_iff.1 hse).2
        rw [← this, ← List.drop_eq_getElem_cons heqlt, List.take_append_drop]
      rw [← h1, hy]
      conv => lhs; rw [h3]
      simp
    obtain ⟨pad, c, u, ht, hp, hc⟩ := hf.values _ _ hfe
    have hdrop : (line ++ List.replicate (1024 - line.length) 0).drop (eq + 1) = s.drop (eq + 1) ++ y ++ List.replicate (1024 - line.length) 0 := by
      rw [hy, List.append_assoc, List.drop_append_of_le_length (by omega)]; simp
    -- in the buffer
    have hpos : ∀ n : Nat, pad.length < n → n ≤ s.length + y.length - (eq + 1) → (s.drop (eq + 1) ++ y) = pad ++ c :: (u.take (s.length + y.length - (eq + 1) - pad.length - 1)) := by
      intro n hn hn2
      have h3 := congrArg (List.take (s.length + y.length - (eq + 1))) ht
      rw [← List.append_assoc, List.take_left' (by simp; omega)] at h3
      rw [h3, List.take_append, List.take_of_length_le (by omega)]
      obtain ⟨k, hk⟩ : ∃ k, s.length + y.length - (eq + 1) - pad.length = k + 1 := ⟨s.length + y.length - (eq + 1) - pad.length - 1, by omega⟩
      rw [hk, List.take_succ_cons]; simp
    unfold chopLine
    have hlt : s.length - 1 < (line ++ List.replicate (1024 - line.length) 0).length := by rw [hb.1]; omega
    rw [rd_lt hlt]
    simp only [Outcome.ok_bind]
    by_cases hnl : (line ++ List.replicate (1024 - line.length) 0)[s.length - 1] = 0x0A
    · rw [if_pos hnl, hb.wr (by omega)]
      simp only [Outcome.ok_bind, Outcome.pure_eq]
      have hsn : s[s.length - 1]? = some 0x0A := by
        have : (line ++ List.replicate (1024 - line.length) 0)[s.length - 1]? = some 0x0A := by rw [List.getElem?_eq_getElem hlt, hnl]
        rw [e2, List.getElem?_append_left (by omega)] at this
        exact this
      have hne : s.length - 1 ≠ eq := by
        intro e; rw [e, hse] at hsn; revert hsn; decide
      have hpl : pad.length < s.length - 1 - (eq + 1) := by
        refine pad_lt (u := u) hp hc.2.1 ?_
        rw [← ht, List.getElem?_append_left (by simp; omega), List.getElem?_drop, show eq + 1 + (s.length - 1 - (eq + 1)) = s.length - 1 by omega]
        exact hsn
      obtain ⟨r, hr⟩ := fields_total (len := s.length - 1) (hb.set (s.length - 1)) (eq := eq) (by omega) (by rw [List.getElem?_set_ne (by omega)]; exact hbe) (by
        refine ⟨pad, c, (u.take (s.length + y.length - (eq + 1) - pad.length - 1) ++ List.replicate (1024 - line.length) 0).set (s.length - 1 - (eq + 1) - pad.length - 1) 0, ?_, hp, hc⟩
        conv => lhs; rw [show s.length - 1 = (eq + 1) + (s.length - 1 - (eq + 1)) by omega, drop_set_ge, hdrop, hpos (pad.length + 1) (by omega) (by omega), List.append_assoc, List.set_append_right _ _ (by omega)]
        obtain ⟨k, hk⟩ : ∃ k, s.length - 1 - (eq + 1) - pad.length = k + 1 := ⟨s.length - 1 - (eq + 1) - pad.length - 1, by omega⟩
        rw [hk, List.cons_append, List.set_cons_succ, Nat.add_sub_cancel])
      rw [hr]; exact ⟨r, rfl⟩
    · rw [if_neg hnl]
      by_cases hre : rest = []
      · rw [if_neg (by simpa using hre)]
        simp only [Outcome.ok_bind, Outcome.pure_eq]
        subst hre
        rw [List.append_nil] at ht
        obtain ⟨r, hr⟩ := fields_total (len := s.length - 1) hb (eq := eq) (by omega) hbe ⟨pad, c, u ++ List.replicate (1024 - line.length) 0, by rw [hdrop, ht]; simp, hp, hc⟩
        rw [hr]; exact ⟨r, rfl⟩
      · rw [if_pos hre]; exact ⟨none, rfl⟩

theorem Readable.suffix {a t : Str} (h : Readable (a ++ t)) : Readable t :=
  ⟨fun a' t' e => h.brackets (a ++ a') t' (by rw [e]; simp), fun a' t' e => h.values (a ++ a') t' (by rw [e]; simp)⟩

theorem discardLine_suffix (t : Str) : ∃ a, t = a ++ discardLine t := by
  induction t with
  | nil => exact ⟨[], rfl⟩
  | cons c t ih =>
    obtain ⟨a, e⟩ := ih
    rw [discardLine]
    split
    · exact ⟨[c], rfl⟩
    · exact ⟨c :: a, by rw [List.cons_append, ← e]⟩

theorem discardWhitespace_suffix (t : Str) : ∃ a, t = a ++ discardWhitespace t := by
  induction t with
  | nil => exact ⟨[], rfl⟩
  | cons c t ih =>
    obtain ⟨a, e⟩ := ih
    rw [discardWhitespace]
    split
    · exact ⟨[], rfl⟩
    · exact ⟨c :: a, by rw [List.cons_append, ← e]⟩

theorem blockName_suffix : ∀ (n : Nat) (t : Str), ∃ a, t = a ++ (blockName n t).2.2 := by
  intro n
  induction n with
  | zero => intro t; cases t with
    | nil => exact ⟨[], rfl⟩
    | cons c t => exact ⟨[c], rfl⟩
  | succ n ih =>
    intro t
    cases t with
    | nil => exact ⟨[], rfl⟩
    | cons c t =>
      obtain ⟨a, e⟩ := ih t
      rw [blockName]
      split
      · exact ⟨[c], rfl⟩
      · exact ⟨c :: a, by rw [List.cons_append, ← e]⟩

theorem blockName_length : ∀ (n : Nat) (t : Str), (t.length ≤ n ∨ ∃ name u, t = name ++ 0x5D :: u ∧ name.length ≤ n) → (blockName (n + 1) t).1.length ≤ n := by
  intro n
  induction n with
  | zero =>
    intro t h
    cases t with
    | nil => simp [blockName]
    | cons c t =>
      rcases h with h | ⟨name, u, e, h⟩
      · simp at h
      · have : name = [] := List.length_eq_zero_iff.1 (by omega)
        subst this
        simp only [List.nil_append, List.cons.injEq] at e
        rw [blockName, if_pos e.1]; simp
  | succ n ih =>
    intro t h
    cases t with
    | nil => simp [blockName]
    | cons c t =>
      rw [blockName]
      split
      · simp
      · rename_i hc
        have := ih t (by
          rcases h with h | ⟨name, u, e, h⟩
          · exact Or.inl (by simpa using h)
          · cases name with
            | nil => simp only [List.nil_append, List.cons.injEq] at e; exact absurd e.1 hc
            | cons b name =>
              simp only [List.cons_append, List.cons.injEq] at e
              exact Or.inr ⟨name, u, e.2, by simpa using h⟩)
        simpa using this

section
variable {F : Type} (fl : Floats F)

theorem addBlock_some (cfg : Cfg F) (b : Str) : lookup b (addBlock cfg b).blocks ≠ none := by
  unfold addBlock
  cases h : lookup b cfg.blocks with
  | some x => simp [h]
  | none => simp [lookup]

theorem insert_total (cfg : Cfg F) (b n s : Str) : ∃ cfg', insert fl cfg b n s = .ok cfg' := by
  unfold insert addVariable
  have := addBlock_some cfg b
  cases h : lookup b (addBlock cfg b).blocks with
  | none => exact absurd h this
  | some vs =>
    simp only
    cases lookup n vs <;> exact ⟨_, rfl⟩

/-- C70: zt_cfg_ini of a readable file, whatever else is in it, returns a configuration or NULL. -/
theorem c70_safe_partial {file : Str} (h : Readable file) : ∃ r, ini fl file = .ok r := by
  have key : ∀ (fuel : Nat) (cfg : Cfg F) (b : Str) (f : Str), Readable f → f.length < fuel → ∃ r, parseLoop fl fuel cfg (some b) f = .ok r := by
    intro fuel
    induction fuel with
    | zero => intro _ _ f _ h; omega
    | succ fuel ih =>
      intro cfg b f hf hlen
      cases f with
      | nil => exact ⟨_, rfl⟩
      | cons c t =>
        have ht : Readable t := Readable.suffix (a := [c]) hf
        have hlen : t.length < fuel := by simpa using hlen
        rw [parseLoop]
        split
        · exact ih cfg b t ht hlen
        split
        · rename_i hc
          have hb : (blockName 1024 t).1.length ≤ 1023 := blockName_length 1023 t (hf.brackets [] t (by rw [hc]; rfl))
          have he : parseBlock t = (some ((blockName 1024 t).1.takeWhile (· ≠ 0)), (blockName 1024 t).2.2) := by
            unfold parseBlock
            simp only
            rw [if_neg (by omega)]
          rw [he]
          simp only
          obtain ⟨a1, e1⟩ := blockName_suffix 1024 t
          obtain ⟨a2, e2⟩ := discardLine_suffix (blockName 1024 t).2.2
          refine ih cfg _ _ (Readable.suffix (a := a2) (by rw [← e2]; exact Readable.suffix (a := a1) (by rw [← e1]; exact ht))) ?_
          have l1 := congrArg List.length e1
          have l2 := congrArg List.length e2
          rw [List.length_append] at l1 l2
          omega
        split
        · obtain ⟨a, e⟩ := discardLine_suffix t
          exact ih cfg b _ (Readable.suffix (a := a) (by rw [← e]; exact ht)) (Nat.lt_of_le_of_lt (discardLine_length t) hlen)
        split
        · obtain ⟨a, e⟩ := discardWhitespace_suffix t
          exact ih cfg b _ (Readable.suffix (a := a) (by rw [← e]; exact ht)) (Nat.lt_of_le_of_lt (discardWhitespace_length t) hlen)
        · obtain ⟨r, hr⟩ := parseLine_total hf
          rw [hr]
          simp only [Outcome.ok_bind]
          cases r with
          | none => exact ⟨none, rfl⟩
          | some p =>
            obtain ⟨var, value⟩ := p
            simp only
            obtain ⟨cfg', hc'⟩ := insert_total fl cfg b var value
            rw [hc']
            simp only [Outcome.ok_bind]
            have e := fgets_append 1023 (c :: t)
            refine ih cfg' b _ (Readable.suffix (a := (fgets 1023 (c :: t)).1) (by rw [e]; exact hf)) ?_
            have : (fgets 1023 (c :: t)).1.length ≠ 0 := by
              rw [show (1023 : Nat) = 1022 + 1 from rfl, fgets]
              split <;> simp
            have l := congrArg List.length e
            rw [List.length_append] at l
            simp only [List.length_cons] at l
            omega
  exact key _ _ _ _ h (Nat.lt_succ_self _)

/-! ## What does not hold -/

/-- A line in a buffer without the newline. -/
theorem parseLine_newline {L : Str} {eq : Nat} (h0 : 0x00 ∉ L) (hnl : 0x0A ∉ L) (hl : L.length ≤ 1022) (he : (L ++ [0x0A]).idxOf? 0x3D = some eq) (rest : Str) :
    parseLine (L ++ 0x0A :: rest) = (fields (L ++ List.replicate (1024 - L.length) 0) L.length eq >>= fun r => .ok (r, rest)) := by
  unfold parseLine
  rw [fgets_line _ _ _ hnl (by omega)]
  simp only
  rw [if_neg (by simp)]
  obtain ⟨k, hk⟩ : ∃ k, 1024 - L.length = k + 2 := ⟨1024 - L.length - 2, by omega⟩
  have hk2 : 1024 - (L ++ [(0x0A : Byte)]).length = k + 1 := by simp; omega
  rw [hk, hk2, cstr_eq (s := L ++ [0x0A]) (z := List.replicate k 0) (by simp [List.replicate_succ]) (by simpa using h0)]
  simp only [Outcome.ok_bind]
  rw [he]
  simp only
  have hc : chopLine (L ++ [0x0A] ++ List.replicate (k + 1) 0) ((L ++ [(0x0A : Byte)]).length - 1) rest = .ok (some (L ++ List.replicate (k + 2) 0)) := by
    have e1 : (L ++ [(0x0A : Byte)]).length - 1 = L.length := by simp
    have e2 : L ++ [0x0A] ++ List.replicate (k + 1) 0 = L ++ 0x0A :: List.replicate (k + 1) 0 := by simp
    rw [e1, e2]
    unfold chopLine
    rw [rd_append_right]
    simp only [Outcome.ok_bind, if_true]
    rw [wr_lt (by simp)]
    simp only [Outcome.ok_bind]
    rw [List.set_append_right _ _ (Nat.le_refl _), Nat.sub_self]
    rfl
  rw [hc]
  simp only [Outcome.ok_bind]
  rw [show (L ++ [(0x0A : Byte)]).length - 1 = L.length by simp]
  rfl

/-- C70 is violated without a value: `x=` and a newline; `val[SIZE_MAX]` is read. -/
theorem c70_empty_violation (rest : Str) : ini fl ([0x78, 0x3D, 0x0A] ++ rest) = .ub := by
  have : parseLine (0x78 :: 0x3D :: 0x0A :: rest) = .ub := by
    have := parseLine_newline (L := [0x78, 0x3D]) (eq := 1) (by decide) (by decide) (by decide) (by decide) rest
    rw [show fields (([0x78, 0x3D] : List Byte) ++ List.replicate (1024 - List.length ([0x78, 0x3D] : List Byte)) 0) (List.length ([0x78, 0x3D] : List Byte)) 1 = .ub by decide +kernel] at this
    exact this
  unfold ini
  simp only [List.cons_append, List.nil_append, List.length_cons]
  rw [parseLoop, if_neg (by decide), if_neg (by decide), if_neg (by decide), if_neg (by decide), this]
  rfl

/-- C70 is violated when only a comment follows: `x=;` and a newline. -/
theorem c70_comment_violation (rest : Str) : ini fl ([0x78, 0x3D, 0x3B, 0x0A] ++ rest) = .ub := by
  have : parseLine (0x78 :: 0x3D :: 0x3B :: 0x0A :: rest) = .ub := by
    have := parseLine_newline (L := [0x78, 0x3D, 0x3B]) (eq := 1) (by decide) (by decide) (by decide) (by decide) rest
    rw [show fields (([0x78, 0x3D, 0x3B] : List Byte) ++ List.replicate (1024 - List.length ([0x78, 0x3D, 0x3B] : List Byte)) 0) (List.length ([0x78, 0x3D, 0x3B] : List Byte)) 1 = .ub by decide +kernel] at this
    exact this
  unfold ini
  simp only [List.cons_append, List.nil_append, List.length_cons]
  rw [parseLoop, if_neg (by decide), if_neg (by decide), if_neg (by decide), if_neg (by decide), this]
  rfl

/-- C69 is violated: a value of one byte in the last line, which has no newline, is a syntax error: `x=1`. -/
theorem c69_last_violation : ini fl [0x78, 0x3D, 0x31] = .ok none := by
  unfold ini
  rw [parseLoop, if_neg (by decide), if_neg (by decide), if_neg (by decide), if_neg (by decide)]
  have : parseLine [0x78, 0x3D, 0x31] = .ok (none, []) := by decide +kernel
  rw [this]; rfl

theorem blockName_over : ∀ (n : Nat) (a : Str) (c : Byte) (t : Str), a.length = n → 0x5D ∉ a → blockName n (a ++ c :: t) = (a, true, t) := by
  intro n
  induction n with
  | zero => intro a c t h _; rw [List.length_eq_zero_iff] at h; subst h; rfl
  | succ n ih =>
    intro a c t h hn
    cases a with
    | nil => simp at h
    | cons b a =>
      rw [List.cons_append, blockName, if_neg (fun e => hn (by simp [e])), ih a c t (by simpa using h) fun e => hn (by simp [e])]

/-- C70 is violated when the name of a section has 1024 bytes or more: the following assignment uses a null block name. -/
theorem c70_section_violation {name : Str} (hn : 0x5D ∉ name) (hnl : 0x0A ∉ name) (hl : 1024 ≤ name.length) : ini fl (0x5B :: name ++ [0x5D, 0x0A, 0x78, 0x3D, 0x31, 0x0A]) = .ub := by
  unfold ini
  generalize hfu : (0x5B :: name ++ [0x5D, 0x0A, 0x78, 0x3D, 0x31, 0x0A] : Str).length = fuel
  obtain ⟨k, rfl⟩ : ∃ k, fuel = k + 1 := ⟨fuel - 1, by rw [← hfu]; simp⟩
  rw [List.cons_append, parseLoop, if_neg (by decide), if_pos rfl]
  have hsplit : ∃ c t, name ++ [0x5D, 0x0A, 0x78, 0x3D, 0x31, 0x0A] = name.take 1024 ++ c :: (t ++ 0x0A :: [0x78, 0x3D, 0x31, 0x0A]) ∧ 0x0A ∉ t := by
    have e0 := (List.take_append_drop 1024 name).symm
    cases hd : name.drop 1024 with
    | nil => rw [hd] at e0; exact ⟨0x5D, [], by conv => { lhs; rw [e0] }
                                                simp, by simp⟩
    | cons c t =>
      rw [hd] at e0
      refine ⟨c, t ++ [0x5D], by conv => { lhs; rw [e0] }
                                 simp, ?_⟩
      have : 0x0A ∉ t := fun h => hnl (List.mem_of_mem_drop (i := 1024) (by rw [hd]; simp [h]))
      simp [this]
  obtain ⟨c, t, e, ht⟩ := hsplit
  have hlt : (name.take 1024).length = 1024 := by rw [List.length_take]; omega
  have hpb : parseBlock (name ++ [0x5D, 0x0A, 0x78, 0x3D, 0x31, 0x0A]) = (none, t ++ 0x0A :: [0x78, 0x3D, 0x31, 0x0A]) := by
    unfold parseBlock
    rw [e, blockName_over 1024 _ _ _ hlt fun h => hn (List.mem_of_mem_take h)]
    simp only
    rw [if_pos (by omega)]
  rw [hpb]
  simp only
  rw [discardLine_eq t _ ht]
  obtain ⟨k2, rfl⟩ : ∃ k2, k = k2 + 1 := ⟨k - 1, by simp at hfu; omega⟩
  rw [parseLoop, if_neg (by decide), if_neg (by decide), if_neg (by decide), if_neg (by decide)]
  have : parseLine [0x78, 0x3D, 0x31, 0x0A] = .ok (some ([0x78], [0x31]), []) := by decide +kernel
  rw [this]; rfl

end

/-- c69_file and c69_get apply: a comment, an assignment, a blank line, a section header with text behind it, an assignment with a comment; and the file is readable. -/
def exampleLines : List Line :=
  [.comment [] 0x23 [0x68, 0x69], .assign [0x20] [0x78] [0x20] [0x20, 0x09] [0x31, 0x32] [0x20], .blank [0x09], .section [] [0x73] [0x20, 0x6A], .assign [] [0x79] [] [] [0x79, 0x65, 0x73] [0x20, 0x3B, 0x63]]

theorem exampleLines_ok : ∀ l ∈ exampleLines, l.ok := by
  have h1 : IsAssign [0x78] [0x20] [0x20, 0x09] [0x31, 0x32] [0x20] :=
    ⟨by simp [IsNameByte], by simp [IsNameByte], by simp [Blank], by simp [IsMark], [0x20], [], rfl, by simp [Blank], Or.inl rfl⟩
  have h2 : IsAssign [0x79] [] [] [0x79, 0x65, 0x73] [0x20, 0x3B, 0x63] :=
    ⟨by simp [IsNameByte], by simp, by simp [Blank], by simp [IsMark], [0x20], [0x3B, 0x63], rfl, by simp [Blank], Or.inr ⟨_, _, rfl, Or.inl rfl⟩⟩
  intro l hl
  simp only [exampleLines, List.mem_cons, List.not_mem_nil, or_false] at hl
  rcases hl with rfl | rfl | rfl | rfl | rfl
  · exact ⟨by decide, by simp [Blank], Or.inr rfl⟩
  · exact ⟨by decide, by simp [Blank], h1, by decide⟩
  · exact ⟨by decide, by simp [Blank]⟩
  · exact ⟨by decide, by simp [Blank], by decide, by decide⟩
  · exact ⟨by decide, by simp [Blank], h2, by decide⟩

/-- The file
```
#hi
 x = 	12 
	
[s] j
y=yes ;c
```
writes `x` = `12` in Global and `y` = `yes` in `s`. -/
example : ∃ cfg, run (⟨fun _ => none, fun _ => []⟩ : Floats Unit) [(globalName, [0x78], [0x31, 0x32]), ([0x73], [0x79], [0x79, 0x65, 0x73])] new = .ok cfg ∧ ini ⟨fun _ => none, fun _ => []⟩ (fileText exampleLines) = .ok (some cfg) :=
  c69_file _ exampleLines_ok

theorem readable_nil : Readable [] := ⟨fun a t e => by simp at e, fun a t e => by simp at e⟩

theorem readable_cons {c : Byte} {f : Str} (hf : Readable f) (h1 : c = 0x5B → f.length ≤ 1023 ∨ ∃ name u, f = name ++ 0x5D :: u ∧ name.length ≤ 1023)
    (h2 : c = 0x3D → ∃ pad c u, f = pad ++ c :: u ∧ Blank pad ∧ c ≠ 0x00 ∧ c ≠ 0x0A ∧ c ≠ 0x20 ∧ c ≠ 0x09 ∧ ¬ IsMark c) : Readable (c :: f) := by
  refine ⟨fun a t e => ?_, fun a t e => ?_⟩
  · cases a with
    | nil => simp only [List.nil_append, List.cons.injEq] at e; rw [← e.2]; exact h1 e.1
    | cons b a => simp only [List.cons_append, List.cons.injEq] at e; exact hf.brackets a t e.2
  · cases a with
    | nil => simp only [List.nil_append, List.cons.injEq] at e; rw [← e.2]; exact h2 e.1
    | cons b a => simp only [List.cons_append, List.cons.injEq] at e; exact hf.values a t e.2

/-- c70_safe_partial applies: `[s`, newline, `= 1`, a NUL, newline, and `]`. -/
example : ∃ r, ini (⟨fun _ => none, fun _ => []⟩ : Floats Unit) [0x5B, 0x73, 0x0A, 0x3D, 0x20, 0x31, 0x00, 0x0A, 0x5D] = .ok r := by
  refine c70_safe_partial _ ?_
  refine readable_cons ?_ (fun _ => Or.inl (by decide)) (fun h => absurd h (by decide))
  refine readable_cons ?_ (fun h => absurd h (by decide)) (fun h => absurd h (by decide))
  refine readable_cons ?_ (fun h => absurd h (by decide)) (fun h => absurd h (by decide))
  refine readable_cons ?_ (fun h => absurd h (by decide)) (fun _ => ⟨[0x20], 0x31, _, rfl, by simp [Blank], by decide, by decide, by decide, by decide, by simp [IsMark]⟩)
  repeat' first | exact readable_nil | refine readable_cons ?_ (fun h => absurd h (by decide)) (fun h => absurd h (by decide))

/-- c69_error and c69_long apply: `hello` behind the lines; a line of 2000 bytes. -/
example : ini (⟨fun _ => none, fun _ => []⟩ : Floats Unit) (fileText exampleLines ++ ([0x20] ++ 0x68 :: [0x65, 0x6C, 0x6C, 0x6F]) ++ 0x0A :: [0x78, 0x3D, 0x31, 0x32]) = .ok none :=
  c69_error _ exampleLines_ok (by simp [Blank]) ⟨by decide, by decide, by simp [IsMark], by decide⟩ (by decide)

example : ini (⟨fun _ => none, fun _ => []⟩ : Floats Unit) (fileText exampleLines ++ ([] ++ 0x78 :: 0x3D :: List.replicate 1998 0x31) ++ 0x0A :: []) = .ok none :=
  c69_long _ exampleLines_ok (by simp [Blank]) ⟨by decide, by decide, by simp [IsMark], by decide⟩ (by rw [List.mem_cons, List.mem_cons, List.mem_replicate]; decide) (by rw [List.mem_cons, List.mem_cons, List.mem_replicate]; decide) (by rw [List.length_cons, List.length_cons, List.length_replicate]; decide)

end ZT.Cfg
