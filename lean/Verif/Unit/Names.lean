import Verif.Unit.Run

/-!
# Selecting suites and tests by name
-/

namespace ZT.Unit

variable {W : Type}

theorem countLoop_eq (d : Byte) (s : Str) (n : Nat) : countLoop d s n = n + s.count d := by
  induction s generalizing n with
  | nil => simp [countLoop]
  | cons b p ih =>
      rw [countLoop]
      by_cases h : b = d
      · rw [if_pos h]
        subst h
        by_cases hp : p = []
        · simp [hp]
        · rw [if_neg hp, ih]; simp; omega
      · rw [if_neg h, ih, List.count_cons_of_ne h]

theorem strsep_last {d : Byte} {s : Str} (h : d ∉ s) : strsep d s = (s, none) := by
  unfold strsep
  have h1 : s.takeWhile (· != d) = s := by
    have k : ∀ x ∈ s, (x != d) = true := by
      intro x hx
      simp only [bne_iff_ne, ne_eq]
      intro e; subst e; exact h hx
    have := List.takeWhile_append_of_pos (l₂ := []) k
    simpa using this
  simp [h1, h]

theorem strsep_more {d : Byte} {a b : Str} (h : d ∉ a) : strsep d (a ++ d :: b) = (a, some b) := by
  unfold strsep
  have h1 : ∀ x ∈ a, (x != d) = true := by
    intro x hx
    simp only [bne_iff_ne, ne_eq]
    intro e; subst e; exact h hx
  simp [List.takeWhile_append_of_pos h1, List.dropWhile_append_of_pos h1]

/-- A text with a delimiter, cut at the first one. -/
theorem cut_first {d : Byte} {s : Str} (h : d ∈ s) : ∃ a b, s = a ++ d :: b ∧ d ∉ a := by
  obtain ⟨a, b, e, k⟩ := List.append_of_mem h |> fun _ => List.eq_append_cons_of_mem h
  exact ⟨a, b, e, k⟩

theorem split_plain {d : Byte} {s : Str} (h : d ∉ s) : strSplit s d = (if s = [] then [] else [s], 1) := by
  unfold strSplit
  simp only [countLoop_eq, List.count_eq_zero_of_not_mem h, splitLoop, strsep_last h]
  by_cases e : s = []
  · subst e; simp [splitLoop]
  · simp [e]

theorem split_pair {d : Byte} {a b : Str} (ha : d ∉ a) (hb : d ∉ b) : strSplit (a ++ d :: b) d = ([a, b].filter (· ≠ []), 2) := by
  unfold strSplit
  have hc : countLoop d (a ++ d :: b) 1 = 2 := by
    rw [countLoop_eq]
    simp [List.count_eq_zero_of_not_mem ha, List.count_eq_zero_of_not_mem hb]
  have hl : (a ++ d :: b).length + 1 = (a.length + b.length) + 1 + 1 := by simp; omega
  simp only [hc]
  rw [hl, splitLoop, strsep_more ha]
  simp only
  by_cases e : a = []
  · subst e
    simp only [ne_eq, not_true_eq_false, if_false]
    rw [splitLoop, strsep_last hb]
    by_cases f : b = []
    · subst f; cases h : List.length ([] : Str) + List.length ([] : Str) <;> simp [splitLoop]
    · simp only [ne_eq, f, not_false_eq_true, if_true]
      simp [f]
      cases b with
      | nil => exact absurd rfl f
      | cons x y => simp [splitLoop]
  · simp only [ne_eq, e, not_false_eq_true, if_true]
    rw [if_neg (by omega), splitLoop, strsep_last hb]
    by_cases f : b = []
    · subst f
      simp [e]
      cases a with
      | nil => exact absurd rfl e
      | cons x y => simp [splitLoop]
    · simp [e, f]

/-- A text with exactly one delimiter. -/
theorem one_dot {d : Byte} {s : Str} (h : s.count d = 1) : ∃ a b, s = a ++ d :: b ∧ d ∉ a ∧ d ∉ b := by
  obtain ⟨a, b, e, k⟩ := cut_first (d := d) (s := s) (List.count_pos_iff.1 (by omega))
  subst e
  refine ⟨a, b, rfl, k, ?_⟩
  simp [List.count_eq_zero_of_not_mem k] at h
  exact fun hb => absurd (List.count_pos_iff.2 hb) (by omega)

theorem First.unique {α : Type} {l : List α} {name : α → Str} {n : Str} {x y : α} (h : First l name n x) (k : First l name n y) : x = y := by
  obtain ⟨a, b, e, hx, ha⟩ := h
  obtain ⟨a', b', e', hy, ha'⟩ := k
  subst e
  induction a generalizing a' with
  | nil =>
      cases a' with
      | nil => simp at e'; exact e'.1
      | cons z a' =>
          simp at e'
          exact absurd (e'.1 ▸ hx) (ha' z (by simp))
  | cons z a ih =>
      cases a' with
      | nil =>
          simp at e'
          exact absurd (e'.1.symm ▸ hy) (ha z (by simp))
      | cons z' a' =>
          simp at e'
          exact ih (fun y hy => ha y (by simp [hy])) a' (fun y hy => ha' y (by simp [hy])) e'.2

theorem dot_inj {a b a' b' : Str} (h : a ++ 46 :: b = a' ++ 46 :: b') (ha : (46 : Byte) ∉ a) (ha' : (46 : Byte) ∉ a') : a = a' ∧ b = b' := by
  induction a generalizing a' with
  | nil =>
      cases a' with
      | nil => simpa using h
      | cons x a' => simp at h; exact absurd h.1 (by intro e; exact ha' (by simp [e]))
  | cons x a ih =>
      cases a' with
      | nil => simp at h; exact absurd h.1 (by intro e; exact ha (by simp [e]))
      | cons x' a' =>
          simp at h ha ha'
          obtain ⟨h1, h2⟩ := ih h.2 ha.2 ha'.2
          exact ⟨by rw [h.1, h1], h2⟩

theorem Selects.unique {p : List (Str × List (Job W))} {n : Str} {x y : List (Job W)} (h : Selects p n x) (k : Selects p n y) : x = y := by
  cases h with
  | suite _ s h1 h2 =>
      generalize hm : n = m at k
      cases k with
      | suite _ s' k1 k2 => subst hm; rw [h2.unique k2]
      | test a b s' j k1 k2 k3 k4 => subst hm; simp at h1
  | test a b s j h1 h2 h3 h4 =>
      generalize hm : a ++ 46 :: b = m at k
      cases k with
      | suite _ s' k1 k2 => subst hm; simp at k1
      | test a' b' s' j' k1 k2 k3 k4 =>
          obtain ⟨e1, e2⟩ := dot_inj hm h1 k1
          subst e1 e2
          have := h3.unique k3
          subst this
          rw [h4.unique k4]

theorem first_map {α β : Type} {l : List α} {f : α → β} {name : β → Str} {n : Str} {i : Nat} {x : α} (hi : l[i]? = some x) (hx : name (f x) = n) (hb : ∀ k y, k < i → l[k]? = some y → name (f y) ≠ n) :
    First (l.map f) name n (f x) := by
  have hlt : i < l.length := by
    rw [List.getElem?_eq_some_iff] at hi; exact hi.1
  refine ⟨(l.take i).map f, (l.drop (i + 1)).map f, ?_, hx, ?_⟩
  · rw [← List.map_cons, ← List.map_append]
    congr 1
    rw [List.getElem?_eq_some_iff] at hi
    obtain ⟨_, hi⟩ := hi
    rw [← hi, List.getElem_cons_drop, List.take_append_drop]
  · intro y hy
    simp only [List.mem_map] at hy
    obtain ⟨z, hz, rfl⟩ := hy
    rw [List.mem_iff_getElem?] at hz
    obtain ⟨k, hk⟩ := hz
    rw [List.getElem?_take] at hk
    split at hk
    · exact hb k z (by assumption) hk
    · cases hk

theorem not_first {α β : Type} {l : List α} {f : α → β} {name : β → Str} {n : Str} (h : ∀ x ∈ l, name (f x) ≠ n) (y : β) : ¬ First (l.map f) name n y := by
  rintro ⟨a, b, e, hy, -⟩
  have : y ∈ l.map f := by rw [e]; simp
  obtain ⟨x, hx, rfl⟩ := List.mem_map.1 this
  exact h x hx hy

theorem findSuite_none {n : Str} {ss : List (Suite W)} (h : findSuite n ss = none) : ∀ s ∈ ss, s.name ≠ n := by
  unfold findSuite at h
  rw [List.findIdx?_eq_none_iff] at h
  intro s hs e
  have := h s hs
  simp [e] at this

theorem findSuite_some {n : Str} {ss : List (Suite W)} {i : Nat} (h : findSuite n ss = some i) : ∃ s, ss[i]? = some s ∧ s.name = n ∧ ∀ k y, k < i → ss[k]? = some y → y.name ≠ n := by
  unfold findSuite at h
  rw [List.findIdx?_eq_some_iff_getElem] at h
  obtain ⟨hi, h1, h2⟩ := h
  refine ⟨ss[i], by simp [hi], ?_, ?_⟩
  · simp at h1; exact h1.2
  · intro k y hk hy e
    have := h2 k hk
    rw [List.getElem?_eq_some_iff] at hy
    obtain ⟨_, hy⟩ := hy
    simp [hy, e] at this

theorem findTest_none {n : Str} {ts : List (Test W)} (h : findTest n ts = none) : ∀ t ∈ ts, t.name ≠ n := by
  unfold findTest at h
  rw [List.findIdx?_eq_none_iff] at h
  intro s hs e
  have := h s hs
  simp [e] at this

theorem findTest_some {n : Str} {ts : List (Test W)} {i : Nat} (h : findTest n ts = some i) : ∃ t, ts[i]? = some t ∧ t.name = n ∧ ∀ k y, k < i → ts[k]? = some y → y.name ≠ n := by
  unfold findTest at h
  rw [List.findIdx?_eq_some_iff_getElem] at h
  obtain ⟨hi, h1, h2⟩ := h
  refine ⟨ts[i], by simp [hi], ?_, ?_⟩
  · simp at h1; exact h1.2
  · intro k y hk hy e
    have := h2 k hk
    rw [List.getElem?_eq_some_iff] at hy
    obtain ⟨_, hy⟩ := hy
    simp [hy, e] at this

end ZT.Unit
