import Verif.Common

/-!
# Loop bounds

Loops of the model carry a bound on the number of iterations and give `ub` when it is exceeded. `Le x y` says that `y` has every result of `x`;
it is used to show that a larger bound gives the same result.
-/

namespace ZT

/-- `y` completes normally with the same result whenever `x` does. -/
def Le {α : Type} (x y : Outcome α) : Prop := ∀ r, x = .ok r → y = .ok r

namespace Le

theorem refl {α : Type} (x : Outcome α) : Le x x := fun _ h => h

theorem ub {α : Type} (y : Outcome α) : Le .ub y := fun _ h => by cases h

theorem bind {α β : Type} {x y : Outcome α} {f g : α → Outcome β} (h : Le x y) (k : ∀ a, Le (f a) (g a)) : Le (x >>= f) (y >>= g) := by
  intro r e
  rw [Outcome.bind_eq_ok] at e ⊢
  obtain ⟨a, e1, e2⟩ := e
  exact ⟨a, h a e1, k a r e2⟩

theorem ite {α : Type} {c : Prop} [Decidable c] {x y x' y' : Outcome α} (h : c → Le x x') (k : ¬ c → Le y y') : Le (if c then x else y) (if c then x' else y') := by
  split
  · exact h ‹_›
  · exact k ‹_›

end Le

/-- The C function ends and returns `r`: the loop-bounded program `f` gives `r` whenever it is allowed enough iterations. -/
def Runs {α : Type} (f : Nat → Outcome α) (r : α) : Prop := ∃ n, ∀ fuel, n ≤ fuel → f fuel = .ok r

theorem Runs.unique {α : Type} {f : Nat → Outcome α} {r s : α} (h : Runs f r) (k : Runs f s) : r = s := by
  obtain ⟨n, h⟩ := h
  obtain ⟨m, k⟩ := k
  have h1 := h (max n m) (by omega)
  have h2 := k (max n m) (by omega)
  rw [h1] at h2; cases h2; rfl

/-- With a monotone bound one normal completion suffices. -/
theorem Runs.of {α : Type} {f : Nat → Outcome α} (mono : ∀ n, Le (f n) (f (n + 1))) {n : Nat} {r : α} (h : f n = .ok r) : Runs f r := by
  refine ⟨n, fun fuel hf => ?_⟩
  obtain ⟨k, rfl⟩ : ∃ k, fuel = n + k := ⟨fuel - n, by omega⟩
  clear hf
  induction k with
  | zero => exact h
  | succ k ih => exact mono _ _ ih

end ZT
