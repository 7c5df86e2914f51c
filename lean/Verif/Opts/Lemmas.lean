import Verif.Opts.Spec

/-!
# Processing well-formed command lines
-/

namespace ZT.Opts

theorem alnum_ne {b : Byte} (h : Alnum b) : b ≠ 0 ∧ b ≠ 0x2D ∧ b ≠ 0x3D ∧ b ≠ NSO := by
  unfold Alnum at h
  refine ⟨?_, ?_, ?_, ?_⟩ <;> intro e <;> subst e <;> revert h <;> decide

theorem search_unique {len : Nat} {p : Str} : ∀ (ds : List Def) (k x : Nat), x < ds.length → (∀ (y : Nat) (d : Def), ds[y]? = some d → (matchDef d len p = true ↔ y = x)) → search len p ds k = some (k + x) := by
  intro ds
  induction ds with
  | nil => intro k x h; simp at h
  | cons d ds ih =>
    intro k x hx h
    rw [search]
    have h0 := h 0 d rfl
    cases x with
    | zero => rw [if_pos (h0.2 rfl)]; rfl
    | succ x =>
      rw [if_neg (by rw [h0]; simp)]
      rw [ih (k + 1) x (by simpa using hx) (fun y e hy => by
        have := h (y + 1) e hy
        rw [this]; omega)]
      congr 1; omega

theorem search_none {len : Nat} {p : Str} : ∀ (ds : List Def) (k : Nat), (∀ d ∈ ds, matchDef d len p = false) → search len p ds k = none := by
  intro ds
  induction ds with
  | nil => intro k _; rfl
  | cons d ds ih =>
    intro k h
    rw [search, h d (by simp)]
    exact ih (k + 1) fun e he => h e (by simp [he])

section
variable {σ : Type} {defs : List Def} (hT : Table defs) (hP : Plain defs) {cb : Callback σ}
include hT hP

theorem match_short {d : Def} (hd' : d ∈ defs) (p : Str) : matchDef d 0 p = true ↔ d.sopt ≠ NSO ∧ hd p = d.sopt := by
  unfold matchDef
  cases hl : d.lopt with
  | none => simp
  | some l =>
    have := (hP d hd' l hl).1
    have : (l.length == 0) = false := by cases l; exact absurd rfl this; simp
    simp [this]

theorem search_short {x : Nat} (hx : HasShort defs x) (t : Str) : search 0 (shortOf defs x :: t) defs 0 = some x := by
  obtain ⟨d, hd1, hd2⟩ := hx
  have hs : shortOf defs x = d.sopt := by simp [shortOf, hd1]
  have := search_unique (len := 0) (p := shortOf defs x :: t) defs 0 x (by
    rcases List.getElem?_eq_some_iff.1 hd1 with ⟨h, _⟩; exact h) (by
    intro y e hy
    rw [match_short hT hP (List.mem_of_getElem? hy), hs]
    show e.sopt ≠ NSO ∧ d.sopt = e.sopt ↔ _
    constructor
    · intro h; exact hT.shorts y x e d hy hd1 h.2.symm h.1
    · intro h; subst h; rw [hd1] at hy; cases hy; exact ⟨hd2, rfl⟩)
  simpa using this

theorem short_alnum {x : Nat} (hx : HasShort defs x) : Alnum (shortOf defs x) := by
  obtain ⟨d, hd1, hd2⟩ := hx
  have hs : shortOf defs x = d.sopt := by simp [shortOf, hd1]
  rw [hs]; exact hT.short d (List.mem_of_getElem? hd1) hd2

theorem search_eq_none (v : Str) : search 0 (0x3D :: v) defs 0 = none := by
  refine search_none defs 0 fun d hd' => ?_
  have h := match_short hT hP hd' (0x3D :: v)
  cases hm : matchDef d 0 (0x3D :: v) with
  | false => rfl
  | true =>
    obtain ⟨h1, h2⟩ := h.1 hm
    have : (0x3D : Byte) = d.sopt := h2
    exact absurd this.symm (alnum_ne (hT.short d hd' h1)).2.2.1

theorem long_facts {x : Nat} (hx : HasLong defs x) : ∃ d, defs[x]? = some d ∧ d.lopt = some (longOf defs x) ∧ longOf defs x ≠ [] ∧ 0x3D ∉ longOf defs x ∧ hd (longOf defs x) ≠ 0x2D := by
  obtain ⟨d, hd1, hd2⟩ := hx
  cases hl : d.lopt with
  | none => exact absurd hl hd2
  | some l =>
    have hs : longOf defs x = l := by simp [longOf, hd1, hl]
    have := hP d (List.mem_of_getElem? hd1) l hl
    rw [hs]
    exact ⟨d, hd1, hl, this.1, this.2.1, this.2.2⟩

theorem search_long {x : Nat} (hx : HasLong defs x) (t : Str) : search (longOf defs x).length (longOf defs x ++ t) defs 0 = some x := by
  obtain ⟨d, hd1, hd2, hne, _, _⟩ := long_facts hT hP hx
  have hlen : (longOf defs x).length ≠ 0 := by simpa using hne
  have := search_unique (len := (longOf defs x).length) (p := longOf defs x ++ t) defs 0 x (by
    rcases List.getElem?_eq_some_iff.1 hd1 with ⟨h, _⟩; exact h) (by
    intro y e hy
    have hm : matchDef e (longOf defs x).length (longOf defs x ++ t) = true ↔ e.lopt = some (longOf defs x) := by
      unfold matchDef
      have : ((longOf defs x).length == 0) = false := by simpa using hne
      simp only [this, Bool.false_and, Bool.false_or, List.take_left']
      cases e.lopt with
      | none => simp
      | some l =>
        simp only [Option.some.injEq, Bool.and_eq_true, beq_iff_eq]
        constructor
        · rintro ⟨h1, h2⟩; rw [← h1, List.take_length] at h2; exact h2.symm
        · intro h; subst h; simp
    rw [hm]
    constructor
    · intro h; exact hT.longs y x e d _ hy hd1 h hd2
    · intro h; subst h; rw [hd1] at hy; cases hy; exact hd2)
  simpa using this

/-! ## One argument -/

theorem again_flags {i : Nat} : ∀ (xs : List Nat) (x : Nat) (s s' : σ) (found : Bool), HasShort defs x → (∀ y ∈ xs, HasShort defs y) → Calls cb i ((x, 0) :: xs.map fun y => (y, 0)) s s' →
    again defs cb 0 false false i (shortOf defs x :: xs.map (shortOf defs)) found s = .ok (.next i false s') := by
  intro xs
  induction xs with
  | nil =>
    intro x s s' found hx _ hc
    cases hc with
    | cons h1 h2 =>
      cases h2
      rw [again, search_short hT hP hx]
      simp only [h1, Outcome.ok_bind]
      rfl
  | cons y ys ih =>
    intro x s s' found hx hys hc
    cases hc with
    | cons h1 h2 =>
      rw [again, search_short hT hP hx]
      simp only [h1, Outcome.ok_bind]
      have hy := hys y (by simp)
      have hne : hd (shortOf defs y :: ys.map (shortOf defs)) ≠ 0 := (alnum_ne (short_alnum hT hP hy)).1
      rw [if_neg (by decide), if_pos (by simp)]
      simp only [List.map_cons, if_pos hne]
      exact ih y _ _ true hy (fun z hz => hys z (by simp [hz])) h2

theorem nameLen_eq : ∀ {l : Str} (_ : (0x3D : Byte) ∉ l) (t : Str), nameLen (l ++ 0x3D :: t) = l.length ∧ nameLen l = l.length := by
  intro l
  induction l with
  | nil => intro _ t; simp [nameLen]
  | cons b l ih =>
    intro h t
    have hb : b ≠ 0x3D := fun e => h (by simp [e])
    have := ih (fun e => h (by simp [e])) t
    simp [nameLen, hb, this.1, this.2]

/-- One piece: the processing of its first argument. -/
theorem one_item {it : Item} (hk : it.known defs) {i : Nat} {s s' : σ} (hc : Calls cb i it.calls s s') :
    ∃ a as, it.text defs = a :: as ∧ hd a = 0x2D ∧ one defs cb i a s = .ok (.next (i + as.length) false s') := by
  cases it with
  | flags x xs =>
    refine ⟨_, _, rfl, rfl, ?_⟩
    have hne := (alnum_ne (short_alnum hT hP hk.1)).2.1
    unfold one
    simp only [next, Outcome.ok_bind]
    rw [if_neg (by exact hne)]
    exact again_flags hT hP xs x s s' false hk.1 hk.2 hc
  | shortSep x v =>
    refine ⟨_, _, rfl, rfl, ?_⟩
    have hne := (alnum_ne (short_alnum hT hP hk)).2.1
    cases hc with
    | cons h1 h2 =>
      cases h2
      unfold one
      simp only [next, Outcome.ok_bind]
      rw [if_neg (by exact hne), again, search_short hT hP hk]
      simp only [h1, Outcome.ok_bind]
      rfl
  | shortEq x v =>
    refine ⟨_, _, rfl, rfl, ?_⟩
    have hne := (alnum_ne (short_alnum hT hP hk)).2.1
    cases hc with
    | cons h1 h2 =>
      cases h2
      unfold one
      simp only [next, Outcome.ok_bind]
      rw [if_neg (by exact hne), again, search_short hT hP hk]
      simp only [h1, Outcome.ok_bind]
      rw [if_neg (by decide), if_pos (by simp)]
      have h0 : hd (0x3D :: v) ≠ 0 := by show (0x3D : Byte) ≠ 0; decide
      simp only [if_pos h0]
      rw [again, search_eq_none hT hP]
      rfl
  | long x =>
    refine ⟨_, _, rfl, rfl, ?_⟩
    obtain ⟨d, _, _, _, heq, _⟩ := long_facts hT hP hk
    have hs := search_long hT hP hk []
    rw [List.append_nil] at hs
    cases hc with
    | cons h1 h2 =>
      cases h2
      unfold one
      simp only [next, Outcome.ok_bind]
      rw [if_pos (by rfl), (nameLen_eq hT hP heq []).2, again, hs]
      simp only [h1, Outcome.ok_bind, List.drop_length]
      rfl
  | longSep x v =>
    refine ⟨_, _, rfl, rfl, ?_⟩
    obtain ⟨d, _, _, _, heq, _⟩ := long_facts hT hP hk
    have hs := search_long hT hP hk []
    rw [List.append_nil] at hs
    cases hc with
    | cons h1 h2 =>
      cases h2
      unfold one
      simp only [next, Outcome.ok_bind]
      rw [if_pos (by rfl), (nameLen_eq hT hP heq []).2, again, hs]
      simp only [h1, Outcome.ok_bind, List.drop_length]
      rfl
  | longEq x v =>
    refine ⟨_, _, rfl, rfl, ?_⟩
    obtain ⟨d, _, _, _, heq, _⟩ := long_facts hT hP hk
    have hs := search_long hT hP hk (0x3D :: v)
    cases hc with
    | cons h1 h2 =>
      cases h2
      unfold one
      simp only [next, Outcome.ok_bind]
      rw [if_pos (by rfl), (nameLen_eq hT hP heq v).1, again, hs]
      simp only [h1, Outcome.ok_bind, List.drop_left']
      rfl

/-! ## All arguments -/

theorem text_pos (it : Item) : 0 < (it.text defs).length := by cases it <;> simp [Item.text]

theorem loop_items {argv : List Str} {err : Handler σ} : ∀ (its : List Item) (i n : Nat) (s s' : σ) (rest : List Str), (∀ it ∈ its, it.known defs) → argv.drop i = its.flatMap (Item.text defs) ++ rest → i ≤ argv.length →
    (its.flatMap (Item.text defs)).length ≤ n → Does defs cb i its s s' →
    ∃ m, n ≤ m + (its.flatMap (Item.text defs)).length ∧ loop defs cb argv argv.length err n i s = loop defs cb argv argv.length err m (i + (its.flatMap (Item.text defs)).length) s' := by
  intro its
  induction its with
  | nil => intro i n s s' rest _ _ _ _ hd'; cases hd'; exact ⟨n, by simp, by simp⟩
  | cons it its ih =>
    intro i n s s' rest hk ha hi hn hd'
    cases hd' with
    | cons hc hds =>
      obtain ⟨a, as, ht, hh, ho⟩ := one_item hT hP (hk it (by simp)) hc
      have hlen : (it.text defs).length = as.length + 1 := by rw [ht]; simp
      simp only [List.flatMap_cons, List.length_append, List.append_assoc] at ha hn ⊢
      obtain ⟨n, rfl⟩ : ∃ m, n = m + 1 := ⟨n - 1, by omega⟩
      have hlt : i < argv.length := by
        have := congrArg List.length ha
        simp only [List.length_drop, List.length_append] at this
        omega
      have hget : argv[i]? = some a := by
        have := congrArg (fun l => l[0]?) ha
        simp only [List.getElem?_drop, Nat.add_zero] at this
        rw [this, ht]; rfl
      have hfull : argv.length - i = (it.text defs).length + ((its.flatMap (Item.text defs)).length + rest.length) := by
        have := congrArg List.length ha
        simpa only [List.length_drop, List.length_append] using this
      obtain ⟨m, hm, e⟩ := ih (i + (it.text defs).length) n _ s' rest (fun z hz => hk z (by simp [hz])) (by
        rw [← List.drop_drop, ha]
        simp) (by omega) (by omega) hds
      refine ⟨m, by omega, ?_⟩
      rw [loop, if_pos hlt]
      have harg : arg argv i = .ok (some a) := by rw [arg, if_pos hlt, hget]
      rw [harg]
      simp only [Outcome.ok_bind, deref, if_pos hh]
      rw [ho]
      simp only [Outcome.ok_bind, Bool.false_eq_true, if_false]
      have e1 : i + as.length + 1 = i + (it.text defs).length := by omega
      rw [e1, e, Nat.add_assoc]

end

end ZT.Opts
