import Verif.Opts.Values

/-!
# Arbitrary command lines, and the validation of tables
-/

namespace ZT.Opts

theorem search_some {len : Nat} {p : Str} : ∀ (ds : List Def) (k x : Nat), search len p ds k = some x → ∃ y d, x = k + y ∧ ds[y]? = some d ∧ matchDef d len p = true := by
  intro ds
  induction ds with
  | nil => intro k x h; cases h
  | cons d ds ih =>
    intro k x h
    rw [search] at h
    by_cases hm : matchDef d len p = true
    · rw [if_pos hm] at h; cases h; exact ⟨0, d, rfl, rfl, hm⟩
    · rw [if_neg hm] at h
      obtain ⟨y, e, h1, h2, h3⟩ := ih _ _ h
      exact ⟨y + 1, e, by omega, h2, h3⟩

theorem nameLen_take : ∀ (p : Str), p.drop (nameLen p) = [] ∨ ∃ v, p.drop (nameLen p) = 0x3D :: v := by
  intro p
  induction p with
  | nil => left; rfl
  | cons b t ih =>
    rw [nameLen]
    split
    · rename_i e; subst e; right; exact ⟨t, rfl⟩
    · simpa using ih

theorem hd_eq {p : Str} {b : Byte} (hb : b ≠ 0) (h : hd p = b) : ∃ t, p = b :: t := by
  cases p with
  | nil => exact absurd h.symm hb
  | cons c t => exact ⟨t, by rw [show c = b from h]⟩

section
variable {σ : Type} {defs : List Def} {cb : Callback σ}

/-- What a match says about the argument. -/
theorem names_short {a p : Str} {x : Nat} (hS : ∀ d ∈ defs, d.sopt ≠ 0 ∧ d.lopt ≠ some []) (hs : ∃ u, a = 0x2D :: (u ++ p)) (h : search 0 p defs 0 = some x) : Names defs a x ∧ p ≠ [] := by
  obtain ⟨y, d, h1, h2, h3⟩ := search_some defs 0 x h
  obtain ⟨u, rfl⟩ := hs
  have hx : x = y := by omega
  subst hx
  have hd' := hS d (List.mem_of_getElem? h2)
  have h3 : d.sopt ≠ NSO ∧ hd p = d.sopt := by
    unfold matchDef at h3
    cases e : d.lopt with
    | none =>
      rw [e] at h3
      simpa using h3
    | some l =>
      rw [e] at h3
      cases l with
      | nil => exact absurd e hd'.2
      | cons _ _ => simpa using h3
  obtain ⟨t, ht⟩ := hd_eq hd'.1 h3.2
  refine ⟨⟨d, h2, Or.inl ⟨h3.1, ?_⟩⟩, by rw [ht]; simp⟩
  rw [ht]; simp

theorem names_long {p : Str} {x : Nat} (hS : ∀ d ∈ defs, d.sopt ≠ 0 ∧ d.lopt ≠ some []) (h : search (nameLen p) p defs 0 = some x) : Names defs (0x2D :: 0x2D :: p) x := by
  by_cases h0 : nameLen p = 0
  · rw [h0] at h
    exact (names_short hS ⟨[0x2D], rfl⟩ h).1
  · obtain ⟨y, d, h1, h2, h3⟩ := search_some defs 0 x h
    have hx : x = y := by omega
    subst hx
    unfold matchDef at h3
    have : (nameLen p == 0) = false := by simpa using h0
    rw [this] at h3
    simp only [Bool.false_and, Bool.false_or] at h3
    cases e : d.lopt with
    | none => rw [e] at h3; cases h3
    | some l =>
      rw [e] at h3
      simp only [Bool.and_eq_true, beq_iff_eq] at h3
      have hp : p.take (nameLen p) = l := by rw [h3.2, ← h3.1, List.take_length]
      refine ⟨d, h2, Or.inr ⟨l, e, ?_⟩⟩
      have hsplit := List.take_append_drop (nameLen p) p
      rw [hp] at hsplit
      rcases nameLen_take p with hn | ⟨v, hn⟩
      · left; rw [hn, List.append_nil] at hsplit; rw [← hsplit]
      · right; rw [hn] at hsplit; exact ⟨v, by rw [← hsplit]⟩

/-- What the processing of one argument may end in. -/
def GoodOne (cb : Callback σ) (I : σ → Prop) (i : Nat) : One σ → Prop
  | .error code s => code < 0 ∧ I s ∧ ∃ x s0, cb i x s0 = .ok (.ret code s)
  | .next j _ s => i ≤ j ∧ I s
  | .exit => True

theorem again_short {I : σ → Prop} {a : Str} {i : Nat} (hS : ∀ d ∈ defs, d.sopt ≠ 0 ∧ d.lopt ≠ some [])
    (hcb : ∀ x s, Names defs a x → I s → ∃ r, cb i x s = .ok r ∧ Keeps I r) : ∀ (p : Str) (found : Bool) (s : σ), (∃ u, a = 0x2D :: (u ++ p)) → I s →
    ∃ o, again defs cb 0 false false i p found s = .ok o ∧ GoodOne cb I i o := by
  intro p
  induction p with
  | nil =>
    intro found s hs hI
    cases h : search 0 [] defs 0 with
    | none => exact ⟨.next i (!found) s, by rw [again, h], Nat.le_refl i, hI⟩
    | some x => exact absurd rfl (names_short hS hs h).2
  | cons b t ih =>
    intro found s hs hI
    cases h : search 0 (b :: t) defs 0 with
    | none => exact ⟨.next i (!found) s, by rw [again, h], Nat.le_refl i, hI⟩
    | some x =>
      obtain ⟨r, hr, hk⟩ := hcb x s (names_short hS hs h).1 hI
      cases r with
      | exit => exact ⟨.exit, by rw [again, h]; simp only [hr, Outcome.ok_bind], trivial⟩
      | ret c s1 =>
        by_cases hc : c < 0
        · exact ⟨.error c s1, by rw [again, h]; simp only [hr, Outcome.ok_bind, if_pos hc], hc, hk, x, s, hr⟩
        · by_cases hz : c = 0
          · by_cases ht : hd t ≠ 0
            · obtain ⟨o, ho, hg⟩ := ih true s1 (by obtain ⟨u, hu⟩ := hs; exact ⟨u ++ [b], by rw [hu]; simp⟩) hk
              exact ⟨o, by rw [again, h]; simp only [hr, Outcome.ok_bind, if_neg hc]; rw [if_pos ⟨hz, trivial⟩, if_pos ht]; exact ho, hg⟩
            · refine ⟨.next (i + c.toNat) false s1, ?_, Nat.le_add_right _ _, hk⟩
              rw [again, h]; simp only [hr, Outcome.ok_bind, if_neg hc]; rw [if_pos ⟨hz, trivial⟩, if_neg ht]; rfl
          · refine ⟨.next (i + c.toNat) false s1, ?_, Nat.le_add_right _ _, hk⟩
            rw [again, h]; simp only [hr, Outcome.ok_bind, if_neg hc]; rw [if_neg fun h => hz h.1]; rfl

theorem one_good {I : σ → Prop} {a : Str} {i : Nat} (hS : ∀ d ∈ defs, d.sopt ≠ 0 ∧ d.lopt ≠ some [])
    (hcb : ∀ x s, Names defs a x → I s → ∃ r, cb i x s = .ok r ∧ Keeps I r) (ha : hd a = 0x2D) (s : σ) (hI : I s) : ∃ o, one defs cb i a s = .ok o ∧ GoodOne cb I i o := by
  obtain ⟨p, rfl⟩ := hd_eq (by decide) ha
  unfold one
  simp only [next, Outcome.ok_bind]
  by_cases h2 : hd p = 0x2D
  · rw [if_pos h2]
    obtain ⟨p, rfl⟩ := hd_eq (by decide) h2
    simp only [Outcome.ok_bind]
    generalize (hd (p.drop (nameLen p)) == 0x3D) = comb
    cases h : search (nameLen p) p defs 0 with
    | none => exact ⟨.next i true s, by rw [again, h]; rfl, Nat.le_refl i, hI⟩
    | some x =>
      obtain ⟨r, hr, hk⟩ := hcb x s (names_long hS h) hI
      cases r with
      | exit => exact ⟨.exit, by rw [again, h]; simp only [hr, Outcome.ok_bind], trivial⟩
      | ret c s1 =>
        by_cases hc : c < 0
        · exact ⟨.error c s1, by rw [again, h]; simp only [hr, Outcome.ok_bind, if_pos hc], hc, hk, x, s, hr⟩
        · refine ⟨.next (if comb then i else i + c.toNat) false s1, ?_, by split <;> omega, hk⟩
          rw [again, h]; simp only [hr, Outcome.ok_bind, if_neg hc]
          rw [if_neg (by simp)]
  · rw [if_neg h2]
    exact again_short hS hcb p false s ⟨[], rfl⟩ hI

/-- How the processing of a command line may end. -/
def GoodEnd (cb : Callback σ) (I : σ → Prop) (argv : List Str) : Res (Int × Nat) σ → Prop
  | .exit => True
  | .ret (code, k) s => I s ∧ ((code < 0 ∧ k = argv.length ∧ ∃ i x s0, cb i x s0 = .ok (.ret code s)) ∨ (code = 0 ∧ 1 ≤ k ∧ ∀ a, argv[k]? = some a → hd a ≠ 0x2D))

theorem loop_good {I : σ → Prop} {argv : List Str} {err : Handler σ} (hS : ∀ d ∈ defs, d.sopt ≠ 0 ∧ d.lopt ≠ some [])
    (hcb : ∀ i a x s, 0 < i → argv[i]? = some a → hd a = 0x2D → Names defs a x → I s → ∃ r, cb i x s = .ok r ∧ Keeps I r) (herr : ∀ s s', I s → err s = some s' → I s') :
    ∀ (n i : Nat) (s : σ), 0 < i → 0 < n ∧ argv.length < n + i → I s → ∃ r, loop defs cb argv argv.length err n i s = .ok r ∧ GoodEnd cb I argv r := by
  have stop : ∀ (i : Nat) (s : σ), 0 < i → I s → (∀ a, argv[i]? = some a → hd a ≠ 0x2D) → GoodEnd cb I argv (.ret (0, i) s) := fun i s h0 hI ha => ⟨hI, Or.inr ⟨rfl, h0, ha⟩⟩
  intro n
  induction n with
  | zero => intro i s h0 hn hI; exact absurd hn.1 (Nat.not_lt_zero _)
  | succ n ih =>
    intro i s h0 hn hI
    rw [loop]
    by_cases hi : i < argv.length
    · rw [if_pos hi, arg_some (List.getElem?_eq_getElem hi)]
      simp only [Outcome.ok_bind, deref]
      by_cases ha : hd argv[i] = 0x2D
      · rw [if_pos ha]
        obtain ⟨o, ho, hg⟩ := one_good (i := i) hS (fun x s => hcb i argv[i] x s h0 (List.getElem?_eq_getElem hi) ha) ha s hI
        rw [ho]
        simp only [Outcome.ok_bind]
        cases o with
        | exit => exact ⟨.exit, rfl, trivial⟩
        | error code s1 => exact ⟨.ret (code, argv.length) s1, rfl, hg.2.1, Or.inl ⟨hg.1, rfl, i, hg.2.2⟩⟩
        | next j unknown s1 =>
          have hj : i ≤ j := hg.1
          cases unknown with
          | false => exact ih (j + 1) s1 (by omega) ⟨by omega, by omega⟩ hg.2
          | true =>
            simp only [if_true]
            cases he : err s1 with
            | none => exact ⟨.exit, rfl, trivial⟩
            | some s2 => exact ih (j + 1) s2 (by omega) ⟨by omega, by omega⟩ (herr s1 s2 hg.2 he)
      · rw [if_neg ha]
        exact ⟨_, rfl, stop i s h0 hI fun a e => by rw [List.getElem?_eq_getElem hi] at e; cases e; exact ha⟩
    · rw [if_neg hi]
      exact ⟨_, rfl, stop i s h0 hI fun a e => by rw [List.getElem?_eq_none (by omega)] at e; cases e⟩

end

/-! ## Validation -/

theorem badShort_iff (b : Byte) : badShort b = false ↔ (b ≠ NSO → Alnum b) := by
  unfold badShort Alnum
  have e1 : (0x30 : Byte).toNat = 0x30 := rfl
  have e2 : (0x39 : Byte).toNat = 0x39 := rfl
  have e3 : (0x41 : Byte).toNat = 0x41 := rfl
  have e4 : (0x5A : Byte).toNat = 0x5A := rfl
  have e5 : (0x61 : Byte).toNat = 0x61 := rfl
  have e6 : (0x7A : Byte).toNat = 0x7A := rfl
  have e7 : NSO.toNat = 0xFF := rfl
  by_cases h : b = NSO
  · simp [h]
  · simp only [bne_iff_ne.2 h, Bool.true_and, ne_eq, h, not_false_eq_true, true_imp_iff, Bool.and_eq_false_imp, Bool.or_eq_true, Bool.or_eq_false_iff, decide_eq_true_eq, decide_eq_false_iff_not, Bool.and_eq_true, gt_iff_lt, UInt8.le_iff_toNat_le, UInt8.lt_iff_toNat_lt, e1, e2, e3, e4, e5, e6]
    omega

theorem duplicates_zero (d : Def) (i : Nat) : ∀ (ds : List Def) (k : Nat), duplicates d i ds k = 0 ↔
    ∀ (y : Nat) (e : Def), ds[y]? = some e → k + y ≠ i → ¬ (e.sopt ≠ NSO ∧ e.sopt = d.sopt) ∧ ¬ (e.lopt ≠ none ∧ e.lopt = d.lopt) := by
  intro ds
  induction ds with
  | nil => intro k; simp [duplicates]
  | cons e ds ih =>
    intro k
    have tail : (∀ (y : Nat) (f : Def), ds[y]? = some f → (k + 1) + y ≠ i → ¬ (f.sopt ≠ NSO ∧ f.sopt = d.sopt) ∧ ¬ (f.lopt ≠ none ∧ f.lopt = d.lopt)) ↔
        (∀ (y : Nat) (f : Def), (e :: ds)[y + 1]? = some f → k + (y + 1) ≠ i → ¬ (f.sopt ≠ NSO ∧ f.sopt = d.sopt) ∧ ¬ (f.lopt ≠ none ∧ f.lopt = d.lopt)) := by
      have : ∀ y, (k + 1) + y = k + (y + 1) := by omega
      simp [this]
    rw [duplicates]
    have hsplit : ∀ Q : Nat → Def → Prop, (∀ (y : Nat) (f : Def), (e :: ds)[y]? = some f → Q y f) ↔ Q 0 e ∧ ∀ (y : Nat) (f : Def), (e :: ds)[y + 1]? = some f → Q (y + 1) f := by
      intro Q
      constructor
      · intro h; exact ⟨h 0 e rfl, fun y f => h (y + 1) f⟩
      · rintro ⟨h1, h2⟩ y f hf
        cases y with
        | zero => cases hf; exact h1
        | succ y => exact h2 y f hf
    rw [hsplit (fun y f => k + y ≠ i → ¬ (f.sopt ≠ NSO ∧ f.sopt = d.sopt) ∧ ¬ (f.lopt ≠ none ∧ f.lopt = d.lopt)), ← tail]
    by_cases hk : k = i
    · rw [if_pos hk, ih]
      simp [hk]
    · rw [if_neg hk, Nat.add_eq_zero_iff, ih]
      have hl : ((e.lopt.isSome && d.lopt.isSome && e.lopt == d.lopt) = true) ↔ (e.lopt ≠ none ∧ e.lopt = d.lopt) := by
        cases e.lopt <;> cases d.lopt <;> simp
      have hs : ((e.sopt != NSO && e.sopt == d.sopt) = true) ↔ (e.sopt ≠ NSO ∧ e.sopt = d.sopt) := by simp
      simp only [hl, hs, Nat.add_zero, ne_eq, hk, not_false_eq_true, true_imp_iff]
      by_cases h1 : ¬ e.sopt = NSO ∧ e.sopt = d.sopt <;> by_cases h2 : ¬ e.lopt = none ∧ e.lopt = d.lopt <;> simp [h1, h2]

theorem problems_zero (all : List Def) : ∀ (ds : List Def) (k : Nat), problems all ds k = 0 ↔
    ∀ (y : Nat) (d : Def), ds[y]? = some d → (d.sopt ≠ NSO ∨ d.lopt ≠ none) ∧ d.help = true ∧ (d.sopt ≠ NSO → Alnum d.sopt) ∧ duplicates d (k + y) all 0 = 0 := by
  intro ds
  induction ds with
  | nil => intro k; simp [problems]
  | cons e ds ih =>
    intro k
    rw [problems]
    simp only [Nat.add_eq_zero_iff, ih, ← badShort_iff]
    constructor
    · rintro ⟨⟨⟨⟨h1, h2⟩, h3⟩, h4⟩, h5⟩ y d hd'
      cases y with
      | zero =>
        cases hd'
        refine ⟨?_, ?_, ?_, h4⟩
        · simp only [Bool.and_eq_true, beq_iff_eq] at h1
          by_cases a : e.sopt = NSO
          · right; intro b; rw [if_pos ⟨a, b⟩] at h1; cases h1
          · exact Or.inl a
        · cases hh : e.help with
          | true => rfl
          | false => rw [hh] at h2; cases h2
        · cases hh : badShort e.sopt with
          | false => rfl
          | true => rw [hh] at h3; cases h3
      | succ y =>
        have := h5 y d hd'
        have e : k + (y + 1) = k + 1 + y := by omega
        rw [e]; exact this
    · intro h
      have h0 := h 0 e rfl
      refine ⟨⟨⟨⟨?_, ?_⟩, ?_⟩, h0.2.2.2⟩, fun y d hd' => ?_⟩
      · rw [if_neg]; simp only [Bool.and_eq_true, beq_iff_eq]; rintro ⟨a, b⟩; rcases h0.1 with c | c
        · exact c a
        · exact c b
      · rw [if_pos h0.2.1]
      · rw [h0.2.2.1]; rfl
      · have := h (y + 1) d hd'
        have e : k + (y + 1) = k + 1 + y := by omega
        rw [e] at this; exact this

theorem problems_iff (defs : List Def) : problems defs defs 0 = 0 ↔ Table defs := by
  rw [problems_zero]
  simp only [Nat.zero_add, duplicates_zero]
  constructor
  · intro h
    refine ⟨fun d hd' => ?_, fun d hd' => ?_, fun d hd' => ?_, ?_, ?_⟩
    · obtain ⟨y, hy⟩ := List.getElem?_of_mem hd'; exact (h y d hy).1
    · obtain ⟨y, hy⟩ := List.getElem?_of_mem hd'; exact (h y d hy).2.1
    · obtain ⟨y, hy⟩ := List.getElem?_of_mem hd'; exact (h y d hy).2.2.1
    · intro x y d e hx hy he hn
      apply Classical.byContradiction
      intro hne
      exact ((h y e hy).2.2.2 x d hx hne).1 ⟨hn, he⟩
    · intro x y d e l hx hy hl hl'
      apply Classical.byContradiction
      intro hne
      exact ((h y e hy).2.2.2 x d hx hne).2 ⟨by rw [hl]; simp, by rw [hl, hl']⟩
  · intro h y d hy
    have hm := List.mem_of_getElem? hy
    refine ⟨h.named d hm, h.help d hm, h.short d hm, fun z e hz hne => ⟨?_, ?_⟩⟩
    · rintro ⟨h1, h2⟩; exact hne (h.shorts z y e d hz hy h2 h1)
    · rintro ⟨h1, h2⟩
      cases hl : e.lopt with
      | none => exact h1 hl
      | some l => exact hne (h.longs z y e d l hz hy hl (by rw [← h2, hl]))

end ZT.Opts
