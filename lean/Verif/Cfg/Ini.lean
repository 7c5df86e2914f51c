import Verif.Cfg.Line

/-!
# C69, C70: files
-/

namespace ZT.Cfg

open Spec

section
variable {F : Type} (fl : Floats F)

/-- The result of the loop, with enough fuel. -/
def Parses (cfg : Cfg F) (block : Option Str) (file : Str) (r : Outcome (Option (Cfg F))) : Prop := ∀ fuel, file.length < fuel → parseLoop fl fuel cfg block file = r

theorem discardLine_length (t : Str) : (discardLine t).length ≤ t.length := by
  induction t with
  | nil => simp [discardLine]
  | cons c t ih => rw [discardLine]; split <;> simp <;> omega

theorem discardWhitespace_length (t : Str) : (discardWhitespace t).length ≤ t.length := by
  induction t with
  | nil => simp [discardWhitespace]
  | cons c t ih => rw [discardWhitespace]; split <;> simp <;> omega

theorem discardLine_eq : ∀ (a t : Str), 0x0A ∉ a → discardLine (a ++ 0x0A :: t) = t := by
  intro a
  induction a with
  | nil => intro t _; simp [discardLine]
  | cons c a ih =>
    intro t h
    rw [List.cons_append, discardLine, if_neg (fun e => h (by simp [e])), ih t fun e => h (by simp [e])]

theorem discardWhitespace_eq : ∀ (a t : Str), Blank a → (∀ b, t.head? = some b → ¬ (b = 0x20 ∨ b = 0x09)) → discardWhitespace (a ++ t) = t := by
  intro a
  induction a with
  | nil =>
    intro t _ h
    cases t with
    | nil => rfl
    | cons b t =>
      have := h b rfl
      rw [not_or] at this
      simp only [List.nil_append, discardWhitespace]
      rw [if_pos this]
  | cons c a ih =>
    intro t ha h
    have hc := ha c (by simp)
    rw [List.cons_append, discardWhitespace, if_neg (by rcases hc with rfl | rfl <;> decide)]
    exact ih t (fun b hb => ha b (by simp [hb])) h

variable {fl} {cfg : Cfg F} {block : Option Str} {r : Outcome (Option (Cfg F))}

theorem fuel_succ {n fuel : Nat} (h : n < fuel) : ∃ k, fuel = k + 1 ∧ n ≤ k := ⟨fuel - 1, by omega, by omega⟩

theorem parses_nil : Parses fl cfg block [] (.ok (some cfg)) := by
  intro fuel h
  obtain ⟨k, rfl, _⟩ := fuel_succ h
  rfl

theorem parses_newline {t : Str} (h : Parses fl cfg block t r) : Parses fl cfg block (0x0A :: t) r := by
  intro fuel hf
  obtain ⟨k, rfl, hk⟩ := fuel_succ hf
  rw [parseLoop, if_pos rfl]
  exact h k (by simp at hk; omega)

theorem parses_blanks {ws t : Str} (hw : Blank ws) (ht : ∀ b, t.head? = some b → ¬ (b = 0x20 ∨ b = 0x09)) (h : Parses fl cfg block t r) : Parses fl cfg block (ws ++ t) r := by
  cases ws with
  | nil => exact h
  | cons c ws =>
    intro fuel hf
    obtain ⟨k, rfl, hk⟩ := fuel_succ hf
    have hc := hw c (by simp)
    have hn : c ≠ 0x0A ∧ c ≠ 0x5B ∧ ¬ (c = 0x3B ∨ c = 0x23) ∧ isBlank c = true := by rcases hc with rfl | rfl <;> decide
    rw [List.cons_append, parseLoop, if_neg hn.1, if_neg hn.2.1, if_neg hn.2.2.1, if_pos hn.2.2.2, discardWhitespace_eq ws t (fun b hb => hw b (by simp [hb])) ht]
    exact h k (by simp at hk; omega)

theorem parses_comment {m : Byte} {text t : Str} (hm : IsMark m) (hn : 0x0A ∉ text) (h : Parses fl cfg block t r) : Parses fl cfg block (m :: (text ++ 0x0A :: t)) r := by
  intro fuel hf
  obtain ⟨k, rfl, hk⟩ := fuel_succ hf
  have hc : m ≠ 0x0A ∧ m ≠ 0x5B := by rcases hm with rfl | rfl <;> decide
  rw [parseLoop, if_neg hc.1, if_neg hc.2, if_pos (by exact hm), discardLine_eq text t hn]
  exact h k (by simp at hk; omega)

theorem blockName_eq : ∀ (name t : Str) (n : Nat), name.length < n → 0x5D ∉ name → blockName n (name ++ 0x5D :: t) = (name, false, t) := by
  intro name
  induction name with
  | nil =>
    intro t n h _
    obtain ⟨k, rfl, _⟩ := fuel_succ h
    simp [blockName]
  | cons c name ih =>
    intro t n h hn
    obtain ⟨k, rfl, hk⟩ := fuel_succ h
    rw [List.cons_append, blockName, if_neg (fun e => hn (by simp [e])), ih t k (by simp at hk; omega) fun e => hn (by simp [e])]

theorem takeWhile_all {p : Byte → Bool} {l : Str} (h : ∀ b ∈ l, p b = true) : l.takeWhile p = l := by
  induction l with
  | nil => rfl
  | cons b l ih => rw [List.takeWhile_cons, if_pos (h b (by simp)), ih fun x hx => h x (by simp [hx])]

theorem parseBlock_eq {name t : Str} (hl : name.length ≤ 1023) (hn : 0x5D ∉ name) (h0 : 0x00 ∉ name) : parseBlock (name ++ 0x5D :: t) = (some name, t) := by
  unfold parseBlock
  rw [blockName_eq name t 1024 (by omega) hn]
  simp only
  rw [if_neg (by omega)]
  congr 2
  exact takeWhile_all fun b hb => by
    simp only [ne_eq, decide_eq_true_eq]
    exact fun e => h0 (by rw [← e]; exact hb)

theorem parses_section {name junk t : Str} (hl : name.length ≤ 1023) (hn : 0x5D ∉ name) (h0 : 0x00 ∉ name) (hj : 0x0A ∉ junk) (h : Parses fl cfg (some name) t r) : Parses fl cfg block (0x5B :: (name ++ 0x5D :: (junk ++ 0x0A :: t))) r := by
  intro fuel hf
  obtain ⟨k, rfl, hk⟩ := fuel_succ hf
  rw [parseLoop, if_neg (by decide), if_pos rfl, parseBlock_eq hl hn h0]
  simp only
  rw [discardLine_eq junk t hj]
  exact h k (by simp at hk; omega)

/-- The first byte of a line that is parsed by parse_line. -/
def Plain (c : Byte) : Prop := c ≠ 0x0A ∧ c ≠ 0x5B ∧ ¬ (c = 0x3B ∨ c = 0x23) ∧ isBlank c = false

theorem parses_line {b : Str} {c : Byte} {t rest var value : Str} (hc : Plain c) (hp : parseLine (c :: t) = .ok (some (var, value), rest)) (hl : rest.length ≤ t.length)
    (k : Cfg F → Outcome (Option (Cfg F))) (h : ∀ cfg', Parses fl cfg' (some b) rest (k cfg')) : Parses fl cfg (some b) (c :: t) (insert fl cfg b var value >>= k) := by
  intro fuel hf
  obtain ⟨n, rfl, hn⟩ := fuel_succ hf
  rw [parseLoop, if_neg hc.1, if_neg hc.2.1, if_neg hc.2.2.1, if_neg (by rw [hc.2.2.2]; decide), hp]
  simp only [Outcome.ok_bind]
  congr 1
  funext cfg'
  exact h cfg' n (by simp at hn; omega)

theorem parses_error {c : Byte} {t rest : Str} (hc : Plain c) (hp : parseLine (c :: t) = .ok (none, rest)) : Parses fl cfg block (c :: t) (.ok none) := by
  intro fuel hf
  obtain ⟨n, rfl, hn⟩ := fuel_succ hf
  rw [parseLoop, if_neg hc.1, if_neg hc.2.1, if_neg hc.2.2.1, if_neg (by rw [hc.2.2.2]; decide), hp]
  rfl

theorem plain_name {c : Byte} (h : IsNameByte c) : Plain c := by
  rw [← name_iff] at h
  refine ⟨?_, ?_, ?_, ?_⟩
  · rintro rfl; revert h; decide
  · rintro rfl; revert h; decide
  · rintro (rfl | rfl) <;> revert h <;> decide
  · cases hb : isBlank c with
    | false => rfl
    | true => rcases blank_iff.1 hb with rfl | rfl <;> revert h <;> decide

theorem name_not_blank {c : Byte} (h : IsNameByte c) : ¬ (c = 0x20 ∨ c = 0x09) := by
  rw [← blank_iff, (plain_name h).2.2.2]; decide

/-- The lines of a file, and whatever follows. -/
theorem parses_lines (ls : List Line) (hls : ∀ l ∈ ls, l.ok) : ∀ (cfg : Cfg F) (b : Str) (rest : Str) (k : Cfg F → Outcome (Option (Cfg F))),
    (∀ cfg', Parses fl cfg' (some (lastBlock b ls)) rest (k cfg')) → Parses fl cfg (some b) (fileText ls ++ rest) (run fl (writes b ls) cfg >>= k) := by
  induction ls with
  | nil => intro cfg b rest k h; exact h cfg
  | cons l ls ih =>
    intro cfg b rest k h
    have hl := hls l (by simp)
    have ih := ih fun x hx => hls x (by simp [hx])
    have hft : fileText (l :: ls) ++ rest = l.text ++ 0x0A :: (fileText ls ++ rest) := by simp [fileText]
    rw [hft]
    obtain ⟨⟨h0, hnl⟩, hl⟩ := hl
    cases l with
    | blank ws => exact parses_blanks hl (by simp) (parses_newline (ih cfg b rest k h))
    | comment ws mark text =>
      simp only [Line.text] at hnl ⊢
      rw [List.append_assoc, List.cons_append]
      refine parses_blanks hl.1 (fun c hc => ?_) (parses_comment hl.2 (fun e => hnl (by simp [e])) (ih cfg b rest k h))
      simp only [List.head?_cons, Option.some.injEq] at hc
      subst hc
      rcases hl.2 with e | e <;> rw [e] <;> decide
    | «section» ws name junk =>
      simp only [Line.text] at h0 hnl ⊢
      rw [show ws ++ 0x5B :: (name ++ 0x5D :: junk) ++ 0x0A :: (fileText ls ++ rest) = ws ++ 0x5B :: (name ++ 0x5D :: (junk ++ 0x0A :: (fileText ls ++ rest))) by simp]
      refine parses_blanks hl.1 (fun c hc => ?_) (parses_section hl.2.2 hl.2.1 (fun e => h0 (by simp [e])) (fun e => hnl (by simp [e])) (ih cfg name rest k h))
      simp only [List.head?_cons, Option.some.injEq] at hc
      subst hc; decide
    | assign ws name gap pad value tail =>
      simp only [Line.text] at h0 hnl ⊢
      rw [List.append_assoc]
      obtain ⟨hw, ha, hlen⟩ := hl
      have hp := parseLine_ok ha (fun e => h0 (List.mem_append_right _ e)) (fun e => hnl (List.mem_append_right _ e)) hlen (fileText ls ++ rest)
      have hcons : ∃ c t, name ++ gap ++ 0x3D :: (pad ++ value ++ tail) ++ 0x0A :: (fileText ls ++ rest) = c :: (t ++ 0x0A :: (fileText ls ++ rest)) ∧ IsNameByte c := by
        cases hn : name with
        | nil => exact absurd hn ha.name.1
        | cons c nm => exact ⟨c, nm ++ gap ++ 0x3D :: (pad ++ value ++ tail), by simp, ha.name.2 c (by rw [hn]; simp)⟩
      obtain ⟨c, t, e, hc⟩ := hcons
      rw [e] at hp ⊢
      refine parses_blanks hw (fun x hx => ?_) ?_
      · simp only [List.head?_cons, Option.some.injEq] at hx
        subst hx; exact name_not_blank hc
      · have := parses_line (fl := fl) (cfg := cfg) (b := b) (plain_name hc) hp (by simp; omega) (fun cfg' => run fl (writes b ls) cfg' >>= k) fun cfg' => ih cfg' b rest k h
        simp only [writes, run, Outcome.bind_assoc]
        exact this

end

section
variable {F : Type} (fl : Floats F)

/-- C69: zt_cfg_ini of a well-formed file makes the configuration that writing the assignments one after the other makes, in the block of the last section header before, or "Global". -/
theorem c69_file {ls : List Line} (hls : ∀ l ∈ ls, l.ok) : ∃ cfg, run fl (writes globalName ls) new = .ok cfg ∧ ini fl (fileText ls) = .ok (some cfg) := by
  obtain ⟨M, hM⟩ := c46_total fl (writes globalName ls)
  obtain ⟨cfg, e, _⟩ := c46_get_partial fl hM
  refine ⟨cfg, e, ?_⟩
  have := parses_lines (fl := fl) ls hls new globalName [] (fun cfg => .ok (some cfg)) fun cfg' => parses_nil
  rw [List.append_nil, e] at this
  exact this _ (Nat.lt_succ_self _)

/-- C69: what zt_cfg_get returns for a file that was read: the variables of the file in terms of the lines alone. -/
theorem c69_get {ls : List Line} (hls : ∀ l ∈ ls, l.ok) {M : Map F} (hM : History fl (writes globalName ls) M) :
    ∃ cfg, ini fl (fileText ls) = .ok (some cfg) ∧ (∀ b n, M b n = none → ∀ ty fuel, get fuel cfg b n ty = .ok (-1, none)) ∧
      (∀ b n c, Resolves M b n c → ∀ ty, Runs (fun fuel => get fuel cfg b n ty) (if c.ty = ty then (ty.code, some c) else (-1, none))) := by
  obtain ⟨cfg, e, h1, h2, _⟩ := c46_get_partial fl hM
  obtain ⟨cfg', e', h⟩ := c69_file fl hls
  rw [e] at e'; cases e'
  exact ⟨cfg, h, h1, h2⟩

/-- C69: the last line may lack its newline, if at least two bytes follow its '=' and the blanks. -/
theorem c69_last_partial {ls : List Line} (hls : ∀ l ∈ ls, l.ok) {ws name gap pad value tail : Str} (hl : (Line.assign ws name gap pad value tail).ok) (h2 : 2 ≤ (value ++ tail).length) :
    ∃ cfg, run fl (writes globalName (ls ++ [.assign ws name gap pad value tail])) new = .ok cfg ∧ ini fl (fileText ls ++ (Line.assign ws name gap pad value tail).text) = .ok (some cfg) := by
  obtain ⟨M, hM⟩ := c46_total fl (writes globalName (ls ++ [.assign ws name gap pad value tail]))
  obtain ⟨cfg, e, _⟩ := c46_get_partial fl hM
  refine ⟨cfg, e, ?_⟩
  have hw : ∀ (ls : List Line) (b : Str), writes b (ls ++ [.assign ws name gap pad value tail]) = writes b ls ++ [(lastBlock b ls, name, value)] := by
    intro ls
    induction ls with
    | nil => intro b; rfl
    | cons l ls ih => intro b; cases l <;> simp [writes, lastBlock, ih]
  rw [hw, run_append] at e
  obtain ⟨⟨h0, hnl⟩, hw, ha, hlen⟩ := hl
  simp only [Line.text] at h0 hnl ⊢
  have hp := parseLine_last ha (fun e => h0 (List.mem_append_right _ e)) (fun e => hnl (List.mem_append_right _ e)) (by omega) h2
  have hcons : ∃ c t, name ++ gap ++ 0x3D :: (pad ++ value ++ tail) = c :: t ∧ IsNameByte c := by
    cases hn : name with
    | nil => exact absurd hn ha.name.1
    | cons c nm => exact ⟨c, nm ++ gap ++ 0x3D :: (pad ++ value ++ tail), by simp, ha.name.2 c (by rw [hn]; simp)⟩
  obtain ⟨c, t, e', hc⟩ := hcons
  rw [e'] at hp ⊢
  have := parses_lines (fl := fl) ls hls new globalName (ws ++ c :: t) (fun cfg => insert fl cfg (lastBlock globalName ls) name value >>= fun cfg => .ok (some cfg)) fun cfg' => by
    refine parses_blanks hw (fun x hx => ?_) ?_
    · simp only [List.head?_cons, Option.some.injEq] at hx
      subst hx; exact name_not_blank hc
    · exact parses_line (plain_name hc) hp (by simp) _ fun cfg' => parses_nil
  have := this _ (Nat.lt_succ_self _)
  rw [ini, this]
  obtain ⟨c1, e1, e2⟩ := Outcome.bind_eq_ok.1 e
  rw [e1]
  simp only [Outcome.ok_bind]
  simp only [run] at e2
  obtain ⟨c2, e3, e4⟩ := Outcome.bind_eq_ok.1 e2
  cases e4
  rw [e3]; rfl

theorem fgets_no_eq : ∀ (n : Nat) (L rest : Str), 0x3D ∉ L → 0x3D ∉ (fgets n (L ++ 0x0A :: rest)).1 := by
  intro n
  induction n with
  | zero => intro L rest _; simp [fgets]
  | succ n ih =>
    intro L rest h
    cases L with
    | nil => simp [fgets]
    | cons c L =>
      rw [List.cons_append, fgets]
      split
      · simpa using fun e => h (by simp [e])
      · simp only [List.mem_cons, not_or]
        exact ⟨fun e => h (by simp [e]), ih L rest fun e => h (by simp [e])⟩

theorem fgets_length : ∀ (n : Nat) (f : Str), (fgets n f).1.length ≤ n := by
  intro n
  induction n with
  | zero => intro f; simp [fgets]
  | succ n ih =>
    intro f
    cases f with
    | nil => simp [fgets]
    | cons c f =>
      rw [fgets]
      split
      · simp
      · simpa using ih f

theorem fgets_append : ∀ (n : Nat) (f : Str), (fgets n f).1 ++ (fgets n f).2 = f := by
  intro n
  induction n with
  | zero => intro f; simp [fgets]
  | succ n ih =>
    intro f
    cases f with
    | nil => simp [fgets]
    | cons c f =>
      rw [fgets]
      split
      · simp
      · simpa using ih f

/-- The string in a buffer that has a NUL at or behind the offset: its bytes are those of the buffer up to a NUL. -/
theorem cstr_total {m : List Byte} {o : Nat} (h : 0x00 ∈ m.drop o) : ∃ s z, cstr m o = .ok s ∧ m.drop o = s ++ 0 :: z ∧ 0x00 ∉ s := by
  have : ∀ l : Str, 0x00 ∈ l → ∃ s z, l = s ++ 0 :: z ∧ 0x00 ∉ s := by
    intro l
    induction l with
    | nil => intro h; cases h
    | cons c l ih =>
      intro h
      by_cases hc : c = 0
      · subst hc; exact ⟨[], l, rfl, by simp⟩
      · obtain ⟨s, z, e, hs⟩ := ih (by
          rcases List.mem_cons.1 h with h | h
          · exact absurd h.symm hc
          · exact h)
        exact ⟨c :: s, z, by rw [e]; rfl, by simp only [List.mem_cons, not_or]; exact ⟨fun e => hc e.symm, hs⟩⟩
  obtain ⟨s, z, e, hs⟩ := this _ h
  exact ⟨s, z, cstr_eq e hs, e, hs⟩

/-- C69: a line that is none of these (it does not begin with '[', ';' or '#' and has no '=') is an error, and NULL is returned. -/
theorem c69_error {ls : List Line} (hls : ∀ l ∈ ls, l.ok) {ws bad rest : Str} {c : Byte} (hw : Blank ws) (hc : c ≠ 0x0A ∧ c ≠ 0x5B ∧ ¬ IsMark c ∧ ¬ (c = 0x20 ∨ c = 0x09)) (hb : 0x3D ∉ c :: bad) :
    ini fl (fileText ls ++ (ws ++ c :: bad) ++ 0x0A :: rest) = .ok none := by
  have hp : parseLine (c :: bad ++ 0x0A :: rest) = .ok (none, (fgets 1023 (c :: bad ++ 0x0A :: rest)).2) := by
    have h1 := fgets_no_eq 1023 (c :: bad) rest hb
    have h2 := fgets_length 1023 (c :: bad ++ 0x0A :: rest)
    unfold parseLine
    generalize fgets 1023 (c :: bad ++ 0x0A :: rest) = q at h1 h2 ⊢
    obtain ⟨line, r⟩ := q
    simp only at h1 h2 ⊢
    by_cases hl : line = []
    · rw [if_pos hl]; rfl
    · rw [if_neg hl]
      obtain ⟨k, hk⟩ : ∃ k, 1024 - line.length = k + 1 := ⟨1024 - line.length - 1, by omega⟩
      obtain ⟨s, z, e, he, hs⟩ := cstr_total (m := line ++ List.replicate (1024 - line.length) 0) (o := 0) (by rw [hk]; simp [List.replicate_succ])
      rw [e]
      simp only [Outcome.ok_bind]
      have : s.idxOf? 0x3D = none := by
        rw [List.idxOf?_eq_none_iff]
        intro hm
        have : (0x3D : Byte) ∈ line ++ List.replicate (1024 - line.length) 0 := by rw [List.drop_zero] at he; rw [he]; simp [hm]
        rcases List.mem_append.1 this with h | h
        · exact h1 h
        · have := List.eq_of_mem_replicate h; revert this; decide
      rw [this]; rfl
  have hplain : Plain c := ⟨hc.1, hc.2.1, hc.2.2.1, by
    cases hb : isBlank c with
    | false => rfl
    | true => exact absurd (blank_iff.1 hb) hc.2.2.2⟩
  obtain ⟨M, hM⟩ := c46_total fl (writes globalName ls)
  obtain ⟨cfg, e, _⟩ := c46_get_partial fl hM
  have := parses_lines (fl := fl) ls hls new globalName (ws ++ c :: (bad ++ 0x0A :: rest)) (fun _ => .ok none) fun cfg' => by
    refine parses_blanks hw (fun x hx => ?_) (parses_error hplain hp)
    simp only [List.head?_cons, Option.some.injEq] at hx
    subst hx; exact hc.2.2.2
  have := this _ (Nat.lt_succ_self _)
  rw [show fileText ls ++ (ws ++ c :: bad) ++ 0x0A :: rest = fileText ls ++ (ws ++ c :: (bad ++ 0x0A :: rest)) by simp]
  rw [ini, this, e]; rfl

theorem fgets_long : ∀ (n : Nat) (L rest : Str), 0x0A ∉ L → n ≤ L.length → fgets n (L ++ rest) = (L.take n, L.drop n ++ rest) := by
  intro n
  induction n with
  | zero => intro L rest _ _; simp [fgets]
  | succ n ih =>
    intro L rest h hl
    cases L with
    | nil => simp at hl
    | cons c L =>
      rw [List.cons_append, fgets, if_neg (fun e => h (by simp [e])), ih L rest (fun e => h (by simp [e])) (by simpa using hl)]
      simp

/-- C69: so is a line of more than 1022 bytes, if it is not a comment or a section. -/
theorem c69_long {ls : List Line} (hls : ∀ l ∈ ls, l.ok) {ws L rest : Str} {c : Byte} (hw : Blank ws) (hc : c ≠ 0x0A ∧ c ≠ 0x5B ∧ ¬ IsMark c ∧ ¬ (c = 0x20 ∨ c = 0x09)) (hL : 0x0A ∉ c :: L) (h0 : 0x00 ∉ c :: L) (hlen : 1023 ≤ (c :: L).length) :
    ini fl (fileText ls ++ (ws ++ c :: L) ++ 0x0A :: rest) = .ok none := by
  have hp : parseLine (c :: L ++ 0x0A :: rest) = .ok (none, (c :: L).drop 1023 ++ 0x0A :: rest) := by
    unfold parseLine
    rw [fgets_long 1023 (c :: L) _ hL hlen]
    simp only
    rw [if_neg (by simp)]
    have hlt : ((c :: L).take 1023).length = 1023 := by rw [List.length_take]; omega
    rw [hlt]
    have h0' : 0x00 ∉ (c :: L).take 1023 := fun h => h0 (List.mem_of_mem_take h)
    rw [cstr_eq (s := (c :: L).take 1023) (z := []) (by simp) h0']
    simp only [Outcome.ok_bind]
    cases hi : ((c :: L).take 1023).idxOf? 0x3D with
    | none => rfl
    | some eq =>
      simp only
      unfold chopLine
      rw [hlt]
      have hlt2 : 1023 - 1 < ((c :: L).take 1023 ++ List.replicate (1024 - 1023) 0).length := by rw [List.length_append, hlt]; simp
      rw [rd_lt hlt2]
      simp only [Outcome.ok_bind]
      rw [if_neg (by
        rw [List.getElem_append_left (by rw [hlt]; omega)]
        intro e
        exact hL (by rw [← e]; exact List.mem_of_mem_take (List.getElem_mem _))), if_pos (by simp)]
      rfl
  have hplain : Plain c := ⟨hc.1, hc.2.1, hc.2.2.1, by
    cases hb : isBlank c with
    | false => rfl
    | true => exact absurd (blank_iff.1 hb) hc.2.2.2⟩
  obtain ⟨M, hM⟩ := c46_total fl (writes globalName ls)
  obtain ⟨cfg, e, _⟩ := c46_get_partial fl hM
  have := parses_lines (fl := fl) ls hls new globalName (ws ++ c :: (L ++ 0x0A :: rest)) (fun _ => .ok none) fun cfg' => by
    refine parses_blanks hw (fun x hx => ?_) (parses_error hplain hp)
    simp only [List.head?_cons, Option.some.injEq] at hx
    subst hx; exact hc.2.2.2
  have := this _ (Nat.lt_succ_self _)
  rw [show fileText ls ++ (ws ++ c :: L) ++ 0x0A :: rest = fileText ls ++ (ws ++ c :: (L ++ 0x0A :: rest)) by simp]
  rw [ini, this, e]; rfl

end

end ZT.Cfg
