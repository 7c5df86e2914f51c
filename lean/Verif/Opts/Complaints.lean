import Verif.Opts.Props

/-!
# C68: the number of complaints of zt_opt_validate_default
-/

namespace ZT.Opts

instance (b : Byte) : Decidable (Alnum b) := inferInstanceAs (Decidable ((0x30 ≤ b ∧ b ≤ 0x39) ∨ (0x41 ≤ b ∧ b ≤ 0x5A) ∨ (0x61 ≤ b ∧ b ≤ 0x7A)))

/-- 1 for yes. -/
def tally (p : Prop) [Decidable p] : Nat := if p then 1 else 0

/-- The complaints zt_opt_validate_default owes about the `i`-th definition `d`: no name, no help text, a short name that is no letter or digit, and one for each other definition with the same short name and each with the same long name. -/
def owed (defs : List Def) (d : Def) (i : Nat) : Nat :=
  tally (d.sopt = NSO ∧ d.lopt = none) + tally (d.help = false) + tally (d.sopt ≠ NSO ∧ ¬ Alnum d.sopt) +
    defs.zipIdx.countP (fun e => e.2 != i && (e.1.sopt != NSO && e.1.sopt == d.sopt)) + defs.zipIdx.countP (fun e => e.2 != i && (e.1.lopt != none && e.1.lopt == d.lopt))

theorem duplicates_count (d : Def) (i : Nat) : ∀ (ds : List Def) (k : Nat), duplicates d i ds k =
    (ds.zipIdx k).countP (fun e => e.2 != i && (e.1.sopt != NSO && e.1.sopt == d.sopt)) + (ds.zipIdx k).countP (fun e => e.2 != i && (e.1.lopt != none && e.1.lopt == d.lopt)) := by
  intro ds
  induction ds with
  | nil => intro k; rfl
  | cons e ds ih =>
    intro k
    rw [duplicates, List.zipIdx_cons, List.countP_cons, List.countP_cons, ih]
    by_cases hk : k = i
    · simp [hk]
    · have hl : (e.lopt.isSome && d.lopt.isSome && e.lopt == d.lopt) = (e.lopt != none && e.lopt == d.lopt) := by
        cases e.lopt <;> cases d.lopt <;> simp
      simp only [hl, if_neg hk, bne_iff_ne.2 hk, Bool.true_and]
      omega

theorem problems_sum (all : List Def) : ∀ (ds : List Def) (k : Nat), problems all ds k = ((ds.zipIdx k).map fun d => owed all d.1 d.2).sum := by
  intro ds
  induction ds with
  | nil => intro k; rfl
  | cons d ds ih =>
    intro k
    rw [problems, List.zipIdx_cons, List.map_cons, List.sum_cons, ih, duplicates_count, owed]
    have h1 : (if (d.sopt == NSO && d.lopt == none) = true then 1 else 0) = tally (d.sopt = NSO ∧ d.lopt = none) := by simp [tally]
    have h2 : (if d.help = true then 0 else 1) = tally (d.help = false) := by cases d.help <;> rfl
    have h3 : (if badShort d.sopt = true then 1 else 0) = tally (d.sopt ≠ NSO ∧ ¬ Alnum d.sopt) := by
      have := badShort_iff d.sopt
      unfold tally
      cases hb : badShort d.sopt with
      | false =>
          rw [if_neg (fun (h : d.sopt ≠ NSO ∧ ¬ Alnum d.sopt) => h.2 (this.1 hb h.1))]; rfl
      | true =>
          have hn : d.sopt ≠ NSO ∧ ¬ Alnum d.sopt := by
            apply Classical.byContradiction
            intro h
            have h' : d.sopt ≠ NSO → Alnum d.sopt := fun a => Classical.byContradiction fun b => h ⟨a, b⟩
            rw [this.2 h'] at hb; cases hb
          rw [if_pos hn]; rfl
    rw [h1, h2, h3]
    dsimp only
    omega

/-- C68: the number of calls of the error function is exactly the number of complaints owed, for every table. -/
theorem c68_count (defs : List Def) (n : Nat) : validateDefault (fun k : Nat => some (k + 1)) defs n = some (n + (defs.zipIdx.map fun d => owed defs d.1 d.2).sum) := by
  have count : ∀ k n : Nat, errors (fun k : Nat => some (k + 1)) k n = some (n + k) := by
    intro k
    induction k with
    | zero => intro n; rfl
    | succ k ih => intro n; rw [errors]; show errors _ k (n + 1) = _; rw [ih]; congr 1; omega
  rw [validateDefault, count, problems_sum]

/-- Two definitions with the same names and one without any: two complaints about the first, two about the second, one about the third. -/
example : (([⟨97, some [98], true⟩, ⟨97, some [98], true⟩, ⟨NSO, none, true⟩] : List Def).zipIdx.map fun d => owed [⟨97, some [98], true⟩, ⟨97, some [98], true⟩, ⟨NSO, none, true⟩] d.1 d.2) = [2, 2, 1] := by decide +kernel

end ZT.Opts
