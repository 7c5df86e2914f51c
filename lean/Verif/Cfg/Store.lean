import Verif.Cfg.Text

/-!
# The lists of blocks and variables represent a map
-/

namespace ZT.Cfg

open Spec

section
variable {F : Type}

theorem lookup_setHead (name b : Str) (vars : List (Str × Nat)) : ∀ (l : List (Str × List (Str × Nat))) (vs : List (Str × Nat)), lookup name l = some vs → lookup b (setHead name vars l) = if b = name then some vars else lookup b l := by
  intro l
  induction l with
  | nil => intro vs h; cases h
  | cons e l ih =>
    obtain ⟨n, ws⟩ := e
    intro vs h
    rw [lookup] at h
    by_cases hn : n = name
    · subst hn
      rw [setHead, if_pos rfl, lookup, lookup]
      by_cases hb : b = n
      · subst hb; simp
      · rw [if_neg (fun e => hb e.symm), if_neg hb, if_neg (fun e => hb e.symm)]
    · rw [if_neg hn] at h
      rw [setHead, if_neg hn, lookup, lookup]
      by_cases hb : n = b
      · rw [if_pos hb, if_neg (by rintro rfl; exact hn hb), if_pos hb]
      · rw [if_neg hb, if_neg hb]; exact ih vs h

theorem addBlock_find (cfg : Cfg F) (block b n : Str) : find (addBlock cfg block) b n = find cfg b n ∧ (lookup block (addBlock cfg block).blocks) ≠ none ∧ (addBlock cfg block).cells = cfg.cells ∧ (addBlock cfg block).next = cfg.next := by
  unfold addBlock
  cases h : lookup block cfg.blocks with
  | some vs => exact ⟨rfl, by simp [h], rfl, rfl⟩
  | none =>
    refine ⟨?_, by simp [lookup], rfl, rfl⟩
    unfold find
    simp only [lookup]
    by_cases hb : block = b
    · subst hb; simp [h, lookup]
    · rw [if_neg hb]

/-- Variables are distinct, and below `next`. -/
structure Inv (cfg : Cfg F) : Prop where
  fresh : ∀ b n x, find cfg b n = some x → x < cfg.next
  inj : ∀ b n b' n' x, find cfg b n = some x → find cfg b' n' = some x → b = b' ∧ n = n'
  closed : ∀ b n x r, find cfg b n = some x → cfg.cells x = .ref r → ∃ b' n', find cfg b' n' = some r

theorem addVariable_ok {cfg : Cfg F} {block name : Str} (hb : lookup block cfg.blocks ≠ none) :
    ∃ cfg' x, addVariable cfg block name = .ok (cfg', x) ∧ find cfg' block name = some x ∧ (∀ b n, ¬ (b = block ∧ n = name) → find cfg' b n = find cfg b n) ∧
      ((find cfg block name = some x ∧ cfg'.next = cfg.next ∧ cfg'.cells = cfg.cells) ∨ (find cfg block name = none ∧ x = cfg.next ∧ cfg'.next = cfg.next + 1 ∧ ∀ y, y ≠ x → cfg'.cells y = cfg.cells y)) := by
  unfold addVariable
  cases h : lookup block cfg.blocks with
  | none => exact absurd h hb
  | some vs =>
    simp only
    cases hx : lookup name vs with
    | some x => exact ⟨cfg, x, rfl, by simp [find, h, hx], fun b n _ => rfl, Or.inl ⟨by simp [find, h, hx], rfl, rfl⟩⟩
    | none =>
      refine ⟨_, cfg.next, rfl, ?_, ?_, Or.inr ⟨by simp [find, h, hx], rfl, rfl, fun y hy => by simp [hy]⟩⟩
      · simp only [find]; rw [lookup_setHead _ _ _ _ vs h]; simp [lookup]
      · intro b n hbn
        simp only [find]
        rw [lookup_setHead _ _ _ _ vs h]
        by_cases e : b = block
        · subst e
          rw [if_pos rfl, h]
          simp only [Option.bind_some, lookup]
          rw [if_neg fun e => hbn ⟨rfl, e.symm⟩]
        · rw [if_neg e]

/-- A cell holds an entry of the map. -/
def CellIs (cfg : Cfg F) (c : Cell F) : Entry F → Prop
  | .val d => c = d ∧ ∀ r, d ≠ .ref r
  | .link p q => ∃ y, find cfg p q = some y ∧ c = .ref y

/-- The configuration represents the map. -/
def Rep (cfg : Cfg F) (M : Map F) : Prop := ∀ b n, match find cfg b n with
  | none => M b n = none
  | some x => ∃ e, M b n = some e ∧ CellIs cfg (cfg.cells x) e

theorem rep_none {cfg : Cfg F} {M : Map F} (h : Rep cfg M) {b n : Str} (hf : find cfg b n = none) : M b n = none := by
  have := h b n; rw [hf] at this; exact this

theorem rep_some {cfg : Cfg F} {M : Map F} (h : Rep cfg M) {b n : Str} {x : Nat} (hf : find cfg b n = some x) : ∃ e, M b n = some e ∧ CellIs cfg (cfg.cells x) e := by
  have := h b n; rw [hf] at this; exact this

theorem rep_def {cfg : Cfg F} {M : Map F} (h : Rep cfg M) {b n : Str} : M b n ≠ none ↔ find cfg b n ≠ none := by
  cases hf : find cfg b n with
  | none => simp [rep_none h hf]
  | some x => obtain ⟨e, he, _⟩ := rep_some h hf; simp [he]

theorem getType_not_ref (fl : Floats F) (s : Str) (r : Nat) : getType fl s ≠ .ref r := by
  have := getType_denotes fl s
  generalize getType fl s = c at this
  cases this <;> simp

theorem splitDot_some {s p q : Str} : splitDot s = some (p, q) ↔ s = p ++ 0x2E :: q ∧ 0x2E ∉ p := by
  induction s generalizing p q with
  | nil => simp [splitDot]
  | cons b t ih =>
    rw [splitDot]
    by_cases hb : b = 0x2E
    · subst hb
      rw [if_pos rfl]
      constructor
      · intro h; cases h; simp
      · rintro ⟨h1, h2⟩
        cases p with
        | nil => simp at h1; simp [h1]
        | cons c p => simp at h1; exact absurd (by rw [h1.1]; simp) h2
    · rw [if_neg hb]
      cases p with
      | nil =>
        constructor
        · intro h
          cases hs : splitDot t with
          | none => rw [hs] at h; cases h
          | some r => rw [hs] at h; cases h
        · rintro ⟨h1, _⟩
          simp at h1; exact absurd h1.1 hb
      | cons c p =>
        constructor
        · intro h
          cases hs : splitDot t with
          | none => rw [hs] at h; cases h
          | some r =>
            rw [hs] at h
            obtain ⟨r1, r2⟩ := r
            simp only [Option.map_some, Option.some.injEq, Prod.mk.injEq, List.cons.injEq] at h
            obtain ⟨⟨h1, h2⟩, h3⟩ := h
            have := ih.1 hs
            subst h1 h2 h3
            refine ⟨by rw [this.1]; rfl, ?_⟩
            intro hm
            rcases List.mem_cons.1 hm with h | h
            · exact hb h.symm
            · exact this.2 h
        · rintro ⟨h1, h2⟩
          simp only [List.cons_append, List.cons.injEq] at h1
          have := (ih (p := p) (q := q)).2 ⟨h1.2, fun hm => h2 (by simp [hm])⟩
          rw [this, h1.1]; rfl

theorem deref_link {cfg : Cfg F} {c : Cell F} {p q : Str} {y : Nat} (hc : c = .str (p ++ 0x2E :: q)) (hp : 0x2E ∉ p) (hf : find cfg p q = some y) : deref cfg c = .ref y := by
  have h := (splitDot_some (s := p ++ 0x2E :: q) (p := p) (q := q)).2 ⟨rfl, hp⟩
  subst hc
  simp only [deref, h, hf]

theorem deref_other {cfg : Cfg F} {c : Cell F} (h : ∀ p q, c = .str (p ++ 0x2E :: q) → 0x2E ∉ p → find cfg p q = none) : deref cfg c = c := by
  cases c with
  | str s =>
    simp only [deref]
    cases hs : splitDot s with
    | none => rfl
    | some r =>
      obtain ⟨p, q⟩ := r
      obtain ⟨h1, h2⟩ := splitDot_some.1 hs
      simp only [h p q (by rw [h1]) h2]
  | _ => rfl

theorem deref_cases (cfg : Cfg F) (c : Cell F) : (∃ p q y, c = .str (p ++ 0x2E :: q) ∧ 0x2E ∉ p ∧ find cfg p q = some y ∧ deref cfg c = .ref y) ∨ ((∀ p q, c = .str (p ++ 0x2E :: q) → 0x2E ∉ p → find cfg p q = none) ∧ deref cfg c = c) := by
  by_cases h : ∀ p q, c = .str (p ++ 0x2E :: q) → 0x2E ∉ p → find cfg p q = none
  · exact Or.inr ⟨h, deref_other h⟩
  · left
    simp only [Classical.not_forall] at h
    obtain ⟨p, q, h1, h2, h3⟩ := h
    cases hf : find cfg p q with
    | none => exact absurd hf h3
    | some y => exact ⟨p, q, y, h1, h2, hf, deref_link h1 h2 hf⟩

/-- Writing a text: the lists change as the map does. -/
theorem insert_rep (fl : Floats F) {cfg : Cfg F} {M : Map F} (hi : Inv cfg) (hr : Rep cfg M) (b n s : Str) :
    ∃ cfg', insert fl cfg b n s = .ok cfg' ∧ Inv cfg' ∧ ∀ M', Wrote fl M b n s M' → Rep cfg' M' := by
  have hA := addBlock_find cfg b
  obtain ⟨c1, x, e1, hf, hother, hx⟩ := addVariable_ok (name := n) (hA b n).2.1
  have hfind : ∀ b' n', ¬ (b' = b ∧ n' = n) → find c1 b' n' = find cfg b' n' := fun b' n' h => by rw [hother b' n' h, (hA b' n').1]
  have hnb := (hA b n)
  rw [hnb.1, hnb.2.2.1, hnb.2.2.2] at hx
  -- facts about the new configuration
  have hcell : ∀ y, y ≠ x → c1.cells y = cfg.cells y := by
    rcases hx with ⟨_, _, h⟩ | ⟨_, _, _, h⟩
    · intro y _; rw [h]
    · exact h
  have hfresh1 : ∀ b' n' y, find c1 b' n' = some y → y < c1.next := by
    intro b' n' y h
    by_cases e : b' = b ∧ n' = n
    · obtain ⟨rfl, rfl⟩ := e
      rw [hf] at h; cases h
      rcases hx with ⟨h1, h2, _⟩ | ⟨_, h1, h2, _⟩
      · rw [h2]; exact hi.fresh _ _ _ h1
      · omega
    · rw [hfind b' n' e] at h
      have := hi.fresh _ _ _ h
      rcases hx with ⟨_, h2, _⟩ | ⟨_, _, h2, _⟩ <;> omega
  have hnot : ∀ b' n' , ¬ (b' = b ∧ n' = n) → find c1 b' n' ≠ some x := by
    intro b' n' e h
    rw [hfind b' n' e] at h
    rcases hx with ⟨h1, _, _⟩ | ⟨_, h1, _, _⟩
    · obtain ⟨rfl, rfl⟩ := hi.inj _ _ _ _ _ h h1; exact e ⟨rfl, rfl⟩
    · have := hi.fresh _ _ _ h; omega
  have hinj1 : ∀ b1 n1 b2 n2 y, find c1 b1 n1 = some y → find c1 b2 n2 = some y → b1 = b2 ∧ n1 = n2 := by
    intro b1 n1 b2 n2 y h1 h2
    by_cases e1 : b1 = b ∧ n1 = n
    · obtain ⟨rfl, rfl⟩ := e1
      rw [hf] at h1; cases h1
      by_cases e2 : b2 = b1 ∧ n2 = n1
      · exact ⟨e2.1.symm, e2.2.symm⟩
      · exact absurd h2 (hnot b2 n2 e2)
    · by_cases e2 : b2 = b ∧ n2 = n
      · obtain ⟨rfl, rfl⟩ := e2
        rw [hf] at h2; cases h2
        exact absurd h1 (hnot b1 n1 e1)
      · rw [hfind _ _ e1] at h1
        rw [hfind _ _ e2] at h2
        exact hi.inj _ _ _ _ _ h1 h2
  have hkeep : ∀ b' n' y, find cfg b' n' = some y → find c1 b' n' = some y := by
    intro b' n' y h
    by_cases e : b' = b ∧ n' = n
    · obtain ⟨rfl, rfl⟩ := e
      rcases hx with ⟨h1, _, _⟩ | ⟨h1, _⟩
      · rw [h1] at h; cases h; exact hf
      · rw [h1] at h; cases h
    · rw [hfind _ _ e]; exact h
  let c2 : Cfg F := { c1 with cells := fun y => if y = x then deref c1 (getType fl s) else c1.cells y }
  have hc2 : ∀ b' n', find c2 b' n' = find c1 b' n' := fun _ _ => rfl
  refine ⟨c2, ?_, ⟨?_, ?_, ?_⟩, ?_⟩
  · unfold insert; rw [e1]; rfl
  · intro b' n' y h; rw [hc2] at h; exact hfresh1 b' n' y h
  · intro b1 n1 b2 n2 y h1 h2; rw [hc2] at h1 h2; exact hinj1 _ _ _ _ _ h1 h2
  · intro b' n' y r h hr'
    rw [hc2] at h
    by_cases e : y = x
    · subst e
      simp only [c2, if_true] at hr'
      rcases deref_cases c1 (getType fl s) with ⟨p, q, z, _, _, hz, hd⟩ | ⟨_, hd⟩
      · rw [hd] at hr'; cases hr'; exact ⟨p, q, hz⟩
      · rw [hd] at hr'; exact absurd hr' (getType_not_ref fl s r)
    · simp only [c2, if_neg e] at hr'
      rw [hcell y e] at hr'
      have hbn : ¬ (b' = b ∧ n' = n) := by rintro ⟨rfl, rfl⟩; rw [hf] at h; cases h; exact e rfl
      rw [hfind _ _ hbn] at h
      obtain ⟨p, q, hpq⟩ := hi.closed _ _ _ _ h hr'
      exact ⟨p, q, hkeep _ _ _ hpq⟩
  · intro M' hw b' n'
    obtain ⟨hw1, c, hden, hw2⟩ := hw
    have hcg := denotes_unique fl hden
    by_cases e : b' = b ∧ n' = n
    · obtain ⟨rfl, rfl⟩ := e
      rw [hc2, hf]
      simp only [c2, if_true]
      have hdef : ∀ p q, (M p q ≠ none ∨ (p = b' ∧ q = n')) ↔ find c1 p q ≠ none := by
        intro p q
        by_cases epq : p = b' ∧ q = n'
        · obtain ⟨rfl, rfl⟩ := epq; simp [hf]
        · rw [hfind _ _ epq, rep_def hr]; simp [epq]
      rcases hw2 with ⟨p, q, ⟨h1, h2, h3⟩, h4⟩ | ⟨h1, h2⟩
      · refine ⟨_, h4, ?_⟩
        have := (hdef p q).1 h3
        cases hpq : find c1 p q with
        | none => exact absurd hpq this
        | some y =>
          refine ⟨y, by rw [hc2]; exact hpq, ?_⟩
          rw [← hcg]; exact deref_link h1 h2 hpq
      · refine ⟨_, h2, ?_⟩
        have hd : deref c1 c = c := by
          refine deref_other fun p q hc hp => ?_
          cases hpq : find c1 p q with
          | none => rfl
          | some y => exact absurd ⟨hc, hp, (hdef p q).2 (by rw [hpq]; simp)⟩ (h1 p q)
        rw [← hcg, hd]
        exact ⟨rfl, fun r => by rw [hcg]; exact getType_not_ref fl s r⟩
    · rw [hc2, hfind _ _ e, hw1 _ _ e]
      cases hfb : find cfg b' n' with
      | none => exact rep_none hr hfb
      | some y =>
        obtain ⟨en, he, hcell'⟩ := rep_some hr hfb
        refine ⟨en, he, ?_⟩
        have hy : y ≠ x := by
          rintro rfl
          exact hnot b' n' e (by rw [hfind _ _ e]; exact hfb)
        simp only [c2, if_neg hy, hcell y hy]
        cases en with
        | val d => exact hcell'
        | link p q =>
          obtain ⟨z, hz, hz2⟩ := hcell'
          exact ⟨z, by rw [hc2]; exact hkeep _ _ _ hz, hz2⟩

theorem wrote_exists (fl : Floats F) (M : Map F) (b n s : Str) : ∃ M', Wrote fl M b n s M' := by
  have hd := getType_denotes fl s
  by_cases h : ∃ p q, Links M b n (getType fl s) p q
  · obtain ⟨p, q, h⟩ := h
    exact ⟨fun b' n' => if b' = b ∧ n' = n then some (.link p q) else M b' n', fun b' n' e => by simp [e], _, hd, Or.inl ⟨p, q, h, by simp⟩⟩
  · exact ⟨fun b' n' => if b' = b ∧ n' = n then some (.val (getType fl s)) else M b' n', fun b' n' e => by simp [e], _, hd, Or.inr ⟨fun p q h' => h ⟨p, q, h'⟩, by simp⟩⟩

theorem new_inv : Inv (new : Cfg F) := ⟨fun _ _ _ h => (by cases h), fun _ _ _ _ _ h => (by cases h), fun _ _ _ _ h => (by cases h)⟩

theorem new_rep : Rep (new : Cfg F) fun _ _ => none := fun _ _ => rfl

theorem run_append (fl : Floats F) (h h' : List (Str × Str × Str)) (cfg : Cfg F) : run fl (h ++ h') cfg = (do let c ← run fl h cfg; run fl h' c) := by
  induction h generalizing cfg with
  | nil => rfl
  | cons e h ih =>
    obtain ⟨b, n, s⟩ := e
    simp only [List.cons_append, run]
    cases insert fl cfg b n s with
    | ok c => simp only [Outcome.ok_bind, ih]
    | abort => rfl
    | ub => rfl

theorem history_exists (fl : Floats F) : ∀ h : List (Str × Str × Str), ∃ M, History fl h M := by
  intro h
  have key : ∀ n, ∀ h : List (Str × Str × Str), h.length = n → ∃ M, History fl h M := by
    intro n
    induction n with
    | zero => intro h hl; rw [List.length_eq_zero_iff] at hl; subst hl; exact ⟨_, .nil⟩
    | succ n ih =>
      intro h hl
      have hne : h ≠ [] := by rintro rfl; cases hl
      obtain ⟨M, hM⟩ := ih h.dropLast (by simp [hl])
      obtain ⟨M', hM'⟩ := wrote_exists fl M (h.getLast hne).1 (h.getLast hne).2.1 (h.getLast hne).2.2
      have := History.snoc hM hM'
      rw [show ((h.getLast hne).1, (h.getLast hne).2.1, (h.getLast hne).2.2) = h.getLast hne from rfl, List.dropLast_concat_getLast] at this
      exact ⟨M', this⟩
  exact key _ h rfl

theorem history_rep (fl : Floats F) {h : List (Str × Str × Str)} {M : Map F} (hM : History fl h M) : ∃ cfg, run fl h new = .ok cfg ∧ Inv cfg ∧ Rep cfg M := by
  induction hM with
  | nil => exact ⟨new, rfl, new_inv, new_rep⟩
  | @snoc h M M' b n s _ hw ih =>
    obtain ⟨cfg, e, hi, hr⟩ := ih
    obtain ⟨cfg', e', hi', hr'⟩ := insert_rep fl hi hr b n s
    refine ⟨cfg', ?_, hi', hr' M' hw⟩
    rw [run_append, e]
    simp only [Outcome.ok_bind, run, e']

/-! ## Reading -/

theorem get_eq (fuel : Nat) (cfg : Cfg F) (b n : Str) (ty : Ty) : get fuel cfg b n ty = match find cfg b n with
  | none => .ok (-1, none)
  | some x => (do
      let c ← follow cfg fuel x
      if c.ty = ty then pure (c.ty.code, some c) else pure (-1, none)) := by
  unfold get find
  cases lookup b cfg.blocks with
  | none => rfl
  | some vs => cases lookup n vs <;> rfl

theorem follow_resolves {cfg : Cfg F} {M : Map F} (hr : Rep cfg M) {b n : Str} {c : Cell F} (h : Resolves M b n c) : ∀ x, find cfg b n = some x → ∃ k, ∀ fuel, k ≤ fuel → follow cfg fuel x = .ok c := by
  induction h with
  | @val b n c hm =>
    intro x hf
    obtain ⟨e, he, hc⟩ := rep_some hr hf
    rw [hm] at he; cases he
    refine ⟨1, fun fuel hfu => ?_⟩
    obtain ⟨k, rfl⟩ : ∃ k, fuel = k + 1 := ⟨fuel - 1, by omega⟩
    rw [follow, hc.1]
    cases c with
    | ref r => exact absurd rfl (hc.2 r)
    | _ => rfl
  | @link b n p q c hm _ ih =>
    intro x hf
    obtain ⟨e, he, hc⟩ := rep_some hr hf
    rw [hm] at he; cases he
    obtain ⟨y, hy, hcy⟩ := hc
    obtain ⟨k, hk⟩ := ih y hy
    refine ⟨k + 1, fun fuel hfu => ?_⟩
    obtain ⟨m, rfl⟩ : ∃ k, fuel = k + 1 := ⟨fuel - 1, by omega⟩
    rw [follow, hcy]
    exact hk m (by omega)

theorem follow_ok {cfg : Cfg F} {M : Map F} (hr : Rep cfg M) : ∀ (fuel : Nat) {b n : Str} {x : Nat} {c : Cell F}, find cfg b n = some x → follow cfg fuel x = .ok c → Resolves M b n c := by
  intro fuel
  induction fuel with
  | zero => intro b n x c _ h; cases h
  | succ fuel ih =>
    intro b n x c hf h
    obtain ⟨e, he, hc⟩ := rep_some hr hf
    rw [follow] at h
    cases e with
    | val d =>
      rw [hc.1] at h
      cases d with
      | ref r => exact absurd rfl (hc.2 r)
      | _ => cases h; exact .val he
    | link p q =>
      obtain ⟨y, hy, hcy⟩ := hc
      rw [hcy] at h
      exact .link he (ih hy h)

theorem follow_total (cfg : Cfg F) : ∀ (fuel x : Nat), follow cfg fuel x = .ub ∨ ∃ c, follow cfg fuel x = .ok c := by
  intro fuel
  induction fuel with
  | zero => intro x; exact Or.inl rfl
  | succ fuel ih =>
    intro x
    rw [follow]
    cases cfg.cells x with
    | ref r => exact ih r
    | _ => exact Or.inr ⟨_, rfl⟩

end

end ZT.Cfg
