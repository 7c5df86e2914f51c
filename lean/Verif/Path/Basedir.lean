import Verif.Path.MkdirBad

/-!
# C80: zt_find_basedir
-/

namespace ZT.Path

open ZT.Cstr

variable {W : Type}

/-- `q` is the path or a text in front of one of its slashes. -/
def Anc (path q : Str) : Prop := q = path ∨ ∃ r, path = q ++ 47 :: r

/-- What zt_find_basedir should return: the longest ancestor that contains the trigger, with a slash behind it. -/
def Basedir (os : Os W) (w : W) (path t : Str) : Option (List Byte) → Prop
  | some m => ∃ q, Anc path q ∧ os.stat w (q ++ 47 :: t) = true ∧ (∀ q', Anc path q' → os.stat w (q' ++ 47 :: t) = true → q'.length ≤ q.length) ∧ IsStr m (q ++ [47])
  | none => ∀ q, Anc path q → os.stat w (q ++ 47 :: t) = false

theorem Anc.length {l q : Str} (h : Anc l q) : q.length ≤ l.length := by
  rcases h with rfl | ⟨r, rfl⟩
  · exact Nat.le_refl _
  · simp

theorem anc_split {l b : Str} (hb : (47 : Byte) ∉ b) {q : Str} : Anc (l ++ 47 :: b) q ↔ q = l ++ 47 :: b ∨ Anc l q := by
  constructor
  · rintro (h | ⟨r, h⟩)
    · exact Or.inl h
    · right
      rcases Nat.lt_trichotomy q.length l.length with hlt | heq | hgt
      · right
        rw [List.append_eq_append_iff] at h
        rcases h with ⟨a, rfl, h⟩ | ⟨a, rfl, h⟩
        · exfalso; rw [List.length_append] at hlt; omega
        · cases a with
          | nil => simp at hlt
          | cons x a => simp at h; exact ⟨a, by rw [h.1]⟩
      · exact Or.inl (List.append_inj_left h heq.symm).symm
      · exfalso
        rw [List.append_eq_append_iff] at h
        rcases h with ⟨a, rfl, h⟩ | ⟨a, rfl, h⟩
        · cases a with
          | nil => simp at hgt
          | cons x a => simp at h; exact hb (by rw [h.2]; simp)
        · simp at hgt; omega
  · rintro (h | h | ⟨r, rfl⟩)
    · exact Or.inl h
    · exact Or.inr ⟨b, by rw [h]⟩
    · exact Or.inr ⟨r ++ 47 :: b, by simp⟩

theorem anc_none {l q : Str} (h : (47 : Byte) ∉ l) : Anc l q ↔ q = l := by
  constructor
  · rintro (h1 | ⟨r, rfl⟩)
    · exact h1
    · simp at h
  · intro e; exact Or.inl e

/-- The last slash. -/
theorem last_sep {l : Str} (h : (47 : Byte) ∈ l) : ∃ a b, l = a ++ 47 :: b ∧ (47 : Byte) ∉ b := by
  obtain ⟨a, b, e, hb⟩ := split_sep (rest := l.reverse) (by simpa using h)
  exact ⟨b.reverse, a.reverse, by rw [← List.reverse_reverse l, e]; simp, by simpa using hb⟩

theorem stat_take {os : Os W} {w : W} {pm : Nat} (hlong : ∀ p, pm ≤ p.length → os.stat w p = false) (p : Str) : os.stat w (p.take pm) = os.stat w p := by
  by_cases h : p.length ≤ pm
  · rw [List.take_of_length_le h]
  · rw [hlong p (by omega), hlong (p.take pm) (by simp; omega)]

theorem basedir_loop {os : Os W} {w : W} {pm : Nat} (hlong : ∀ p, pm ≤ p.length → os.stat w p = false) {mt t : List Byte} (ht : IsStr mt t) : ∀ (n : Nat) (l lpath : List Byte), IsStr lpath l → l.length ≤ n → ∀ fuel, n < fuel →
    ∃ r, basedirLoop os w pm mt fuel lpath = .ok r ∧ Basedir os w l t r ∧ ∀ fuel', n < fuel' → basedirLoop os w pm mt fuel' lpath = .ok r := by
  intro n
  induction n with
  | zero =>
      intro l lpath hl hn fuel hf
      have : l = [] := List.length_eq_zero_iff.1 (by omega)
      subst this
      have hr : ∀ fuel, 0 < fuel → basedirLoop os w pm mt fuel lpath = .ok (if os.stat w (47 :: t) then some [47, 0] else none) := by
        intro fuel hf
        obtain ⟨f, rfl⟩ : ∃ f, fuel = f + 1 := ⟨fuel - 1, by omega⟩
        rw [basedirLoop, text_ok hl, text_ok ht]
        simp only [Outcome.ok_bind, stat_take hlong, List.nil_append, List.length_nil, if_true]
        split <;> rfl
      refine ⟨_, hr fuel hf, ?_, hr⟩
      split
      next h => exact ⟨[], Or.inl rfl, h, fun q hq _ => hq.length, by decide, [], rfl⟩
      next h =>
        intro q hq
        rw [(anc_none (by simp)).1 hq]
        simpa using h
  | succ n ih =>
      intro l lpath hl hn fuel hf
      cases hst : os.stat w (l ++ 47 :: t) with
      | true =>
          have hr : ∀ fuel, n + 1 < fuel → basedirLoop os w pm mt fuel lpath = .ok (some (l ++ [47, 0])) := by
            intro fuel hf
            obtain ⟨f, rfl⟩ : ∃ f, fuel = f + 1 := ⟨fuel - 1, by omega⟩
            rw [basedirLoop, text_ok hl, text_ok ht]
            simp only [Outcome.ok_bind, stat_take hlong, hst, if_true]
          refine ⟨_, hr fuel hf, ⟨l, Or.inl rfl, hst, fun q hq _ => hq.length, ?_, [], by simp⟩, hr⟩
          intro b hb e
          subst e
          simp at hb
          exact hl.1 0 hb rfl
      | false =>
          by_cases hl0 : l = []
          · subst hl0
            obtain ⟨r, e, h1, h2⟩ := ih [] lpath hl (by simp) (n + 1) (by omega)
            exact ⟨r, h2 fuel (by omega), h1, fun f hf => h2 f (by omega)⟩
          have hlp := List.length_pos_iff.2 hl0
          have hb : bounds l.length 0 (-1) = some (0, l.length - 1) := bounds_all (a := 0) (by omega)
          obtain ⟨k1, k2⟩ := rfind_sep hl (j := -1) hl0 hb
          have hz : ¬ l.length = 0 := by omega
          by_cases hs : (47 : Byte) ∈ l
          · obtain ⟨a, b, rfl, hbb⟩ := last_sep hs
            have hrf := k1 a.length (by simp) (by simp) (by
              intro k' h1 h2 e
              rw [List.getElem?_append_right (by omega)] at e
              obtain ⟨d, hd⟩ : ∃ d, k' - a.length = d + 1 := ⟨k' - a.length - 1, by omega⟩
              rw [hd, List.getElem?_cons_succ] at e
              exact hbb (List.mem_of_getElem? e))
            have hal : a.length < lpath.length := by have := hl.length; simp at this; omega
            have hwr : wr lpath a.length 0 = .ok (lpath.set a.length 0) := wr_lt hal
            have hstr : IsStr (lpath.set a.length 0) a := by
              obtain ⟨h0, rest, rfl⟩ := hl
              refine ⟨fun x hx => h0 x (by simp [hx]), b ++ 0 :: rest, ?_⟩
              rw [List.append_assoc, List.set_append_right _ _ (Nat.le_refl _)]
              simp
            have hneg : ¬ ((a.length : Int) = -1) := by omega
            have hr : ∀ fuel, basedirLoop os w pm mt (fuel + 1) lpath = basedirLoop os w pm mt fuel (lpath.set a.length 0) := by
              intro fuel
              rw [basedirLoop, text_ok hl, text_ok ht]
              simp only [Outcome.ok_bind, stat_take hlong, hst, Bool.false_eq_true, if_false, if_neg hz, hrf, if_neg hneg, Int.toNat_natCast, hwr]
            obtain ⟨r, e, h1, h2⟩ := ih a _ hstr (by simp at hn; omega) (n + 1) (by omega)
            have hr2 : ∀ fuel, n + 1 < fuel → basedirLoop os w pm mt fuel lpath = .ok r := by
              intro fuel hf
              obtain ⟨f, rfl⟩ : ∃ f, fuel = f + 1 := ⟨fuel - 1, by omega⟩
              rw [hr, h2 f (by omega)]
            refine ⟨r, hr2 fuel hf, ?_, hr2⟩
            cases r with
            | none =>
                intro q hq
                rcases (anc_split hbb).1 hq with rfl | hq
                · exact hst
                · exact h1 q hq
            | some m =>
                obtain ⟨q, ha, hs1, hmax, hm⟩ := h1
                refine ⟨q, (anc_split hbb).2 (Or.inr ha), hs1, ?_, hm⟩
                intro q' hq' hs'
                rcases (anc_split hbb).1 hq' with rfl | hq'
                · rw [hst] at hs'; cases hs'
                · exact hmax q' hq' hs'
          · have hrf := k2 (fun k _ e => hs (List.mem_of_getElem? e))
            have hr : ∀ fuel, n + 1 < fuel → basedirLoop os w pm mt fuel lpath = .ok none := by
              intro fuel hf
              obtain ⟨f, rfl⟩ : ∃ f, fuel = f + 1 := ⟨fuel - 1, by omega⟩
              rw [basedirLoop, text_ok hl, text_ok ht]
              simp only [Outcome.ok_bind, stat_take hlong, hst, Bool.false_eq_true, if_false, if_neg hz, hrf, if_true]
            refine ⟨none, hr fuel hf, ?_, hr⟩
            intro q hq
            rw [(anc_none hs).1 hq]
            exact hst

/-- C80 (partial). zt_find_basedir returns the longest of the path and its ancestors that contains the trigger, or NULL, for paths of at most PATH_MAX bytes; stat fails for texts of PATH_MAX bytes and more. Not proved, since
false: longer paths (`c80_long_violation`). -/
theorem c80_basedir_partial (os : Os W) (w : W) (pm : Nat) (hlong : ∀ p, pm ≤ p.length → os.stat w p = false) {mp path mt t : List Byte} (hp : IsStr mp path) (ht : IsStr mt t) (hpm : path.length ≤ pm) :
    ∃ r, Runs (findBasedir os w pm mp mt) r ∧ Basedir os w path t r := by
  have hlp : memcpy (List.replicate (pm + 1) 0) mp (min path.length (pm + 1)) = .ok (path ++ List.replicate (pm + 1 - path.length) 0) := by
    have := hp.length
    rw [Nat.min_eq_left (by omega), memcpy, if_pos (by simp; omega), List.drop_replicate]
    obtain ⟨_, rest, rfl⟩ := hp
    rw [List.take_left' rfl]
  have hstr : IsStr (path ++ List.replicate (pm + 1 - path.length) 0) path :=
    ⟨hp.1, List.replicate (pm - path.length) 0, by rw [← List.replicate_succ, show pm - path.length + 1 = pm + 1 - path.length by omega]⟩
  obtain ⟨r, e, h1, h2⟩ := basedir_loop hlong ht path.length path _ hstr (Nat.le_refl _) (path.length + 1) (by omega)
  refine ⟨r, ⟨path.length + 1, fun fuel hf => ?_⟩, h1⟩
  rw [findBasedir, strlen_ok hp]
  simp only [Outcome.ok_bind, hlp]
  exact h2 fuel (by omega)

/-- The file system answers like that. -/
theorem fs_long (pm : Nat) (nw : Bool) (fs : FS) : ∀ p, pm ≤ p.length → (fsOs pm nw).stat fs p = false := by
  intro p hp
  rw [fsOs_stat, FS.stat, if_pos (Or.inr hp)]

/-- C80 (violation). For a path of more than PATH_MAX bytes the local copy has no terminator and is read past its end. -/
theorem c80_long_violation (os : Os W) (w : W) (pm : Nat) {mp path : List Byte} (mt : List Byte) (hp : IsStr mp path) (hpm : pm < path.length) (fuel : Nat) : findBasedir os w pm mp mt (fuel + 1) = .ub := by
  have hl := hp.length
  have hlp : memcpy (List.replicate (pm + 1) 0) mp (min path.length (pm + 1)) = .ok (path.take (pm + 1)) := by
    rw [Nat.min_eq_right (by omega), memcpy, if_pos (by simp; omega), List.drop_replicate]
    obtain ⟨_, rest, rfl⟩ := hp
    rw [List.take_append_of_le_length (by omega)]
    simp
  rw [findBasedir, strlen_ok hp]
  simp only [Outcome.ok_bind, hlp]
  rw [basedirLoop, text, strlen_none fun b hb => hp.1 b (List.mem_of_mem_take hb)]
  rfl

/-- zt_path_exists returns 0 exactly if stat succeeds. -/
theorem c80_exists (os : Os W) (w : W) {mp path : List Byte} (hp : IsStr mp path) : exists_ os w mp = .ok (if os.stat w path then 0 else -1) := by
  rw [exists_, text_ok hp]
  rfl

/-- "/h/j/t" with the trigger "s" in "/h": the result is "/h/". -/
example : findBasedir (W := Unit) { stat := fun _ p => p = [47, 104, 47, 115], mkdir := fun w _ => (w, none) } () 16 [47, 104, 47, 106, 47, 116, 0] [115, 0] 8 = .ok (some [47, 104, 47, 0]) := by decide +kernel
example : findBasedir (W := Unit) { stat := fun _ p => p = [47, 115], mkdir := fun w _ => (w, none) } () 16 [47, 104, 47, 106, 0] [115, 0] 8 = .ok (some [47, 0]) := by decide +kernel

end ZT.Path
