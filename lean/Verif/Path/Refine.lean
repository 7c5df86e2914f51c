import Verif.Path.Spec

/-!
# zt_path.c works on the parent texts of a path
-/

namespace ZT.Path

open ZT.Cstr

variable {W : Type}

/-- The parents in turn. -/
def makeAll (os : Os W) : W → List Str → W × Bool
  | w, [] => (w, true)
  | w, p :: ps =>
      match parent os w p with
      | (w, true) => makeAll os w ps
      | (w, false) => (w, false)

/-- The texts in front of the slashes between the parts, but the empty one. -/
def pre : Str → List Str → List Str
  | _, [] => []
  | _, [_] => []
  | done, s :: t :: ss => (if done ++ s = [] then [] else [done ++ s]) ++ pre (done ++ s ++ [47]) (t :: ss)

theorem segs_ne (s : Str) : segs s ≠ [] := by
  induction s with
  | nil => simp [segs]
  | cons c s ih =>
      rw [segs]
      split
      · simp
      · cases h : segs s with
        | nil => exact absurd h ih
        | cons w ws => simp

theorem segs_sep (a b : Str) (h : (47 : Byte) ∉ a) : segs (a ++ 47 :: b) = a :: segs b := by
  induction a with
  | nil => simp [segs]
  | cons c a ih =>
      have hc : c ≠ 47 := fun e => h (by simp [e])
      rw [List.cons_append, segs, if_neg hc, ih (fun k => h (by simp [k]))]

theorem segs_one (a : Str) (h : (47 : Byte) ∉ a) : segs a = [a] := by
  induction a with
  | nil => simp [segs]
  | cons c a ih =>
      have hc : c ≠ 47 := fun e => h (by simp [e])
      rw [segs, if_neg hc, ih (fun k => h (by simp [k]))]

theorem text_ok {m s : List Byte} (h : IsStr m s) : text m = .ok s := by
  obtain ⟨h0, rest, rfl⟩ := h
  rw [text, strlen_eq s rest h0]
  simp

/-- The next slash. -/
theorem find_sep {m done rest : List Byte} (h : IsStr m (done ++ rest)) (hr : rest ≠ []) :
    (∃ a b, rest = a ++ 47 :: b ∧ (47 : Byte) ∉ a ∧ find m (done.length : Int) (-1) SEP = .ok ((done.length + a.length : Nat) : Int)) ∨ ((47 : Byte) ∉ rest ∧ find m (done.length : Int) (-1) SEP = .ok (-1)) := by
  have hrl := List.length_pos_iff.2 hr
  have hl : (done ++ rest).length = done.length + rest.length := by simp
  have hb := bounds_all (n := (done ++ rest).length) (a := done.length) (by omega)
  have hne : done ++ rest ≠ [] := fun e => by rw [e] at hl; simp at hl; omega
  obtain ⟨r, e, hf⟩ := c39_find h hne isStr_sep (by decide) hb
  have hbs := bounds_some (by omega) hb
  rcases hf with ⟨k, rfl, h1, h2, h3, h4⟩ | ⟨rfl, hno⟩
  · left
    have ho := ((occurs_sep hbs.2).1 h3).2
    rw [List.getElem?_append_right h1] at ho
    have hk : k - done.length < rest.length := by
      rcases Nat.lt_or_ge (k - done.length) rest.length with h | h
      · exact h
      · rw [List.getElem?_eq_none h] at ho; cases ho
    refine ⟨rest.take (k - done.length), rest.drop (k - done.length + 1), ?_, ?_, ?_⟩
    · rw [List.getElem?_eq_getElem hk] at ho
      have : rest.drop (k - done.length) = 47 :: rest.drop (k - done.length + 1) := by
        rw [List.drop_eq_getElem_cons hk, Option.some.inj ho]
      rw [← this, List.take_append_drop]
    · intro hm
      obtain ⟨j, hj, hj2⟩ := List.mem_iff_getElem.1 hm
      simp only [List.length_take] at hj
      refine h4 (done.length + j) (by omega) (by omega) ((occurs_sep hbs.2).2 ⟨by omega, ?_⟩)
      rw [List.getElem?_append_right (by omega), Nat.add_sub_cancel_left, List.getElem?_eq_getElem (by omega)]
      rw [List.getElem_take] at hj2
      rw [hj2]
    · rw [e]
      congr 2
      simp; omega
  · right
    refine ⟨fun hm => ?_, e⟩
    obtain ⟨j, hj, hj2⟩ := List.mem_iff_getElem.1 hm
    refine hno (done.length + j) (by omega) (by omega) ((occurs_sep hbs.2).2 ⟨by omega, ?_⟩)
    rw [List.getElem?_append_right (by omega), Nat.add_sub_cancel_left, List.getElem?_eq_getElem (by omega), hj2]

/-- The loop goes through the parent texts. -/
theorem parents_eq (os : Os W) {m path : List Byte} (h : IsStr m path) (pm : Nat) (hpm : path.length ≤ pm) : ∀ (n : Nat) (done rest : Str), rest.length ≤ n → path = done ++ rest → ∀ (fuel k : Nat) (w : W), n < fuel → k ≤ done.length →
    parents os m path.length fuel w (path.take k ++ List.replicate (pm + 1 - k) 0) done.length = .ok (makeAll os w (pre done (segs rest))) := by
  intro n
  induction n with
  | zero =>
      intro done rest hr hp fuel k w hf hk
      have : rest = [] := List.length_eq_zero_iff.1 (by omega)
      subst this
      obtain ⟨fuel, rfl⟩ : ∃ f, fuel = f + 1 := ⟨fuel - 1, by omega⟩
      rw [parents, if_neg (by rw [hp]; simp)]
      rfl
  | succ n ih =>
      intro done rest hr hp fuel k w hf hk
      obtain ⟨fuel, rfl⟩ : ∃ f, fuel = f + 1 := ⟨fuel - 1, by omega⟩
      have hl : path.length = done.length + rest.length := by rw [hp]; simp
      by_cases hre : rest = []
      · subst hre
        rw [parents, if_neg (by rw [hp]; simp)]
        rfl
      have hrl := List.length_pos_iff.2 hre
      rw [parents, if_pos (by omega)]
      rcases find_sep (hp ▸ h) hre with ⟨a, b, hab, ha, e⟩ | ⟨hno, e⟩
      · rw [e]
        have hrl2 : rest.length = a.length + (b.length + 1) := by rw [hab]; simp
        have hml := h.length
        have hcl : (path.take k ++ List.replicate (pm + 1 - k) (0 : Byte)).length = pm + 1 := by simp; omega
        have hmin : min (pm + 1) (done.length + a.length) = done.length + a.length := by omega
        have hpa : m.take (done.length + a.length) = done ++ a := by
          obtain ⟨_, r, rfl⟩ := h
          rw [List.take_append_of_le_length (by omega), hp, hab, ← List.append_assoc]
          exact List.take_left' (by simp)
        have hpa2 : path.take (done.length + a.length) = done ++ a := by
          rw [hp, hab, ← List.append_assoc]
          exact List.take_left' (by simp)
        have hcp : memcpy (path.take k ++ List.replicate (pm + 1 - k) (0 : Byte)) m (min (path.take k ++ List.replicate (pm + 1 - k) (0 : Byte)).length (done.length + a.length)) =
            .ok (path.take (done.length + a.length) ++ List.replicate (pm + 1 - (done.length + a.length)) 0) := by
          rw [hcl, hmin, memcpy, if_pos (by omega), hpa, hpa2, List.drop_append, List.drop_eq_nil_of_le (by simp; omega), List.drop_replicate]
          simp only [List.nil_append, List.length_take]
          congr 3
          omega
        have hneg : ¬ (((done.length + a.length : Nat) : Int) = -1) := by omega
        have hih : ∀ w', parents os m path.length fuel w' (path.take (done.length + a.length) ++ List.replicate (pm + 1 - (done.length + a.length)) 0) (done.length + a.length + 1) =
            .ok (makeAll os w' (pre (done ++ a ++ [47]) (segs b))) := by
          intro w'
          have := ih (done ++ a ++ [47]) b (by omega) (by rw [hp, hab]; simp) fuel (done.length + a.length) w' (by omega) (by simp)
          simpa [Nat.add_assoc] using this
        simp only [Outcome.ok_bind, if_neg hneg, Int.toNat_natCast, hcp]
        obtain ⟨t, ts, hts⟩ := List.exists_cons_of_ne_nil (segs_ne b)
        rw [hab, segs_sep a b ha, hts, pre, ← hts]
        by_cases hz : done.length + a.length + 1 = 1
        · have : done ++ a = [] := List.length_eq_zero_iff.1 (by rw [List.length_append]; omega)
          rw [if_pos hz, if_pos this, hih]
          rfl
        · have hda : done ++ a ≠ [] := fun e => hz (by have := congrArg List.length e; rw [List.length_append, List.length_nil] at this; omega)
          have hstr : IsStr (path.take (done.length + a.length) ++ List.replicate (pm + 1 - (done.length + a.length)) 0) (done ++ a) := by
            rw [hpa2]
            refine ⟨fun x hx => h.1 x (by rw [hp, hab]; simp at hx ⊢; rcases hx with hx | hx <;> simp [hx]), List.replicate (pm - (done.length + a.length)) 0, ?_⟩
            rw [← List.replicate_succ]
            congr 2; omega
          rw [if_neg hz, text_ok hstr, if_neg hda]
          simp only [Outcome.ok_bind, List.cons_append, List.nil_append, makeAll]
          cases hpr : parent os w (done ++ a) with
          | mk w' r =>
              cases r
              · rfl
              · exact hih w'
      · rw [e, segs_one _ hno]
        rfl

/-- All from the beginning. -/
theorem parents_all (os : Os W) {m path : List Byte} (h : IsStr m path) (pm : Nat) (hpm : path.length ≤ pm) (fuel : Nat) (hf : path.length < fuel) (w : W) :
    parents os m path.length fuel w (List.replicate (pm + 1) 0) 0 = .ok (makeAll os w (pre [] (segs path))) := by
  have := parents_eq os h pm hpm path.length [] path (Nat.le_refl _) rfl fuel 0 w hf (Nat.le_refl _)
  simpa using this

end ZT.Path
