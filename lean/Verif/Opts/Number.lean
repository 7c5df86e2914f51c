import Verif.Opts.Props

/-!
# C85: options with a number
-/

namespace ZT.Opts

section
variable {kind : Nat → Kind} {defs : List Def} {argv : List Str} {err : Handler Store} {i x k : Nat} {v : Str} {s : Store}

/-- **C85 (numbers are stored).** For every value that is an integer of 64 bits (decimal, octal, hexadecimal), the variable is that integer; the error handler is not called and the other variables stay. -/
theorem c85_stores (hk : kind x = .long) (hv : getValue defs argv err i x s = .ok (.ret (some v, k) s)) {n m : Int} (hn : LongText v n) (hc : s x = .long m) :
    builtin kind defs argv err i x s = .ok (.ret k (s.set x (.long n))) := by
  obtain ⟨h1, h2, -⟩ := long_facts' hn
  simp [builtin, hk, hv, deref, h1, h2, report, hd, hc]

/-- **C85 (no variable).** Without a variable the value is only checked. -/
theorem c85_checks (hk : kind x = .long) (hv : getValue defs argv err i x s = .ok (.ret (some v, k) s)) {n : Int} (hn : LongText v n) (hc : s x = .null) :
    builtin kind defs argv err i x s = .ok (.ret k s) := by
  obtain ⟨h1, h2, -⟩ := long_facts' hn
  simp [builtin, hk, hv, deref, h1, h2, report, hd, hc]

theorem takeDigits_tail (base : Nat) : ∀ (t : Str) (acc : Nat), (∀ b ∈ t, b ≠ 0) → ∀ b ∈ (Cfg.takeDigits base t acc).2, b ≠ 0 := by
  intro t
  induction t with
  | nil => intro acc _ b hb; cases hb
  | cons c t ih =>
    intro acc h b hb
    rw [Cfg.takeDigits] at hb
    cases hd' : Cfg.digitOf c with
    | none => rw [hd'] at hb; exact h b hb
    | some d =>
      rw [hd'] at hb
      simp only at hb
      by_cases hlt : d < base
      · rw [if_pos hlt] at hb; exact ih _ (fun x hx => h x (List.mem_cons_of_mem _ hx)) b hb
      · rw [if_neg hlt] at hb; exact h b hb

theorem body_tail {u r : Str} {m : Nat} (h : Cfg.strtolBody u = some (m, r)) (hu : ∀ b ∈ u, b ≠ 0) : ∀ b ∈ r, b ≠ 0 := by
  unfold Cfg.strtolBody at h
  split at h
  · rename_i x t
    split at h
    · have := takeDigits_tail 16 t 0 (fun b hb => hu b (by simp [hb]))
      rw [Option.some.inj h] at this
      exact this
    · have := takeDigits_tail 8 (0x30 :: x :: t) 0 hu
      rw [Option.some.inj h] at this
      exact this
  · cases h; intro b hb; cases hb
  · split at h
    · have := takeDigits_tail 10 _ 0 hu
      rw [Option.some.inj h] at this
      exact this
    · cases h

theorem rest_ne {v : Str} (h0 : ∀ b ∈ v, b ≠ 0) : ∀ b ∈ (numberOf v).2, b ≠ 0 := by
  have hd' : ∀ b ∈ v.dropWhile Cfg.isSpace, b ≠ 0 := fun b hb => h0 b ((List.dropWhile_sublist _).subset hb)
  have hs : ∀ b ∈ (Cfg.signOf (v.dropWhile Cfg.isSpace)).2, b ≠ 0 := by
    rcases Cfg.sign_cases (v.dropWhile Cfg.isSpace) with ⟨u, h1, h2⟩ | ⟨u, h1, h2⟩ | h2 <;> rw [h2]
    · intro b hb; exact hd' b (by rw [h1]; exact List.mem_cons_of_mem _ hb)
    · intro b hb; exact hd' b (by rw [h1]; exact List.mem_cons_of_mem _ hb)
    · exact hd'
  rw [numberOf_eq]
  cases hb : Cfg.strtolBody (Cfg.signOf (v.dropWhile Cfg.isSpace)).2 with
  | none => exact h0
  | some r => exact body_tail (m := r.1) hb hs

/-- **C85 (everything else is an error).** With the handler of the library, a value that is not empty and not an integer of 64 bits ends the process. Missing: the empty value (`c85_empty_violation`), and handlers that return
(`c85_stored_violation`). -/
theorem c85_rejects_partial (hk : kind x = .long) (hv : getValue defs argv exits i x s = .ok (.ret (some v, k) s)) (h0 : ∀ b ∈ v, b ≠ 0) (hne : v ≠ []) (hn : ∀ n, ¬ LongText v n) : builtin kind defs argv exits i x s = .ok .exit := by
  by_cases h1 : Cfg.clampLong (numberOf v).1 = (numberOf v).1
  · by_cases h2 : hd (numberOf v).2 = 0
    · exfalso
      have hr : (numberOf v).2 = [] := by
        cases hl : (numberOf v).2 with
        | nil => rfl
        | cons b t =>
          rw [hl] at h2
          exact absurd h2 (rest_ne h0 b (by rw [hl]; simp))
      exact hn (numberOf v).1 ⟨(numText_iff v _).2 ⟨hne, by rw [← hr]⟩, (clamp_iff _).1 h1⟩
    · simp [builtin, hk, hv, deref, report, h1, h2, exits]
  · simp [builtin, hk, hv, deref, report, h1, exits]

/-- Violation of C85: the empty value (`--num=`) is stored as 0 and not reported, whatever the handler. -/
theorem c85_empty_violation (hk : kind x = .long) (hv : getValue defs argv err i x s = .ok (.ret (some [], k) s)) {m : Int} (hc : s x = .long m) :
    builtin kind defs argv err i x s = .ok (.ret k (s.set x (.long 0))) := by
  have h1 : numberOf [] = (0, []) := by decide
  have h2 : Cfg.clampLong 0 = 0 := by decide
  simp [builtin, hk, hv, deref, report, h1, h2, hd, hc]

end

namespace Demo2

/-- One option with a number: -n, --num. -/
def defs : List Def := [⟨0x6E, some [0x6E, 0x75, 0x6D], true⟩]

def run (argv : List Str) (err : Handler Store) : Outcome (Option (Int × Nat × Cell)) := do
  let r ← process defs (builtin (fun _ => .long) defs argv err) argv argv.length (validateDefault err) err (fun _ => .long 7)
  pure (match r with
    | .exit => none
    | .ret (code, k) s => some (code, k, s 0))

/-- `-n 0x1F`, `--num= -017`: the hypotheses of `c85_stores`, in whole runs. -/
example : run [[], [0x2D, 0x6E], [0x30, 0x78, 0x31, 0x46]] exits = .ok (some (0, 3, .long 31)) ∧ run [[], [0x2D, 0x2D, 0x6E, 0x75, 0x6D, 0x3D, 0x20, 0x2D, 0x30, 0x31, 0x37]] exits = .ok (some (0, 2, .long (-15))) := by
  decide +kernel

example : LongText [0x30, 0x78, 0x31, 0x46] 31 := by
  have h : NumText ([] ++ [0x30, 0x78, 0x31, 0x46]) ((Cfg.Spec.number 16 [0x31, 0x46] : Nat) : Int) :=
    .plain [] _ _ (by simp) (.hex 0x78 [0x31, 0x46] (Or.inl rfl) (by simp) (by
      intro b hb
      simp only [List.mem_cons, List.not_mem_nil, or_false] at hb
      rcases hb with rfl | rfl
      · exact Or.inl ⟨by decide, by decide⟩
      · exact Or.inr (Or.inr ⟨by decide, by decide⟩)))
  exact ⟨h, by decide, by decide⟩

end Demo2

/-- `-n 12x` and `-n 9223372036854775808` end the process (`c85_rejects_partial`). -/
theorem c85_rejects_example : Demo2.run [[], [0x2D, 0x6E], [0x31, 0x32, 0x78]] exits = .ok none ∧
    Demo2.run [[], [0x2D, 0x6E], [0x39, 0x32, 0x32, 0x33, 0x33, 0x37, 0x32, 0x30, 0x33, 0x36, 0x38, 0x35, 0x34, 0x37, 0x37, 0x35, 0x38, 0x30, 0x38]] exits = .ok none := by decide +kernel

/-- Violation of C85: if the error handler returns, a wrong value is stored nevertheless: of `-n 12x` the number 12, of 2^63 the largest `long`. -/
theorem c85_stored_violation : Demo2.run [[], [0x2D, 0x6E], [0x31, 0x32, 0x78]] some = .ok (some (0, 3, .long 12)) ∧
    Demo2.run [[], [0x2D, 0x6E], [0x39, 0x32, 0x32, 0x33, 0x33, 0x37, 0x32, 0x30, 0x33, 0x36, 0x38, 0x35, 0x34, 0x37, 0x37, 0x35, 0x38, 0x30, 0x38]] some = .ok (some (0, 3, .long (2 ^ 63 - 1))) := by decide +kernel

/-- Violation of C85: a missing number is a NULL pointer, which is read if the handler returns. -/
theorem c85_missing_violation : Demo2.run [[], [0x2D, 0x6E]] some = .ub := by decide +kernel

end ZT.Opts
