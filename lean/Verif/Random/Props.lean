import Verif.Random.Key

/-!
# C49: the random generator
-/

namespace ZT.Random

/-- C49: after zt_random_srandom any number of calls of zt_random_uint32 return the outputs of MT19937 for that seed, whatever the state held before and whatever the clock shows; no access is outside of the arrays. -/
theorem c49_seeded {s : State} (h : s.mt.length = 624) (seed : Word) (now : Nat → Word) (n : Nat) :
    ∃ s1 s2, srandom s seed = .ok s1 ∧ outputs now n s1 = .ok (s2, (List.range n).map fun k => Spec.temper (Spec.mt (Spec.fromSeed seed) (624 + k))) := by
  obtain ⟨mt, e, hm⟩ := srandom_ok h seed
  obtain ⟨s2, e2, _⟩ := (after_init hm).outputs now n
  exact ⟨_, s2, e, e2⟩

/-- C49: the same after zt_random_initstate with a key of any length but 0. -/
theorem c49_keyed {s : State} (h : s.mt.length = 624) {key : List Word} (hk : key ≠ []) (now : Nat → Word) (n : Nat) :
    ∃ s1 s2, initstate s key key.length = .ok s1 ∧ outputs now n s1 = .ok (s2, (List.range n).map fun k => Spec.temper (Spec.mt (Spec.fromKey key) (624 + k))) := by
  obtain ⟨mt, e, hm⟩ := initstate_ok h hk
  obtain ⟨s2, e2, _⟩ := (after_init hm).outputs now n
  exact ⟨_, s2, e, e2⟩

/-- C49: a state that was never initialised is seeded with the clock. -/
theorem c49_unseeded {s : State} (h : s.mt.length = 624) (hi : s.initialized ≠ INITIALIZED) (now : Nat → Word) (n : Nat) :
    ∃ s2, outputs now (n + 1) s = .ok (s2, (List.range (n + 1)).map fun k => Spec.temper (Spec.mt (Spec.fromSeed (now 0)) (624 + k))) := by
  obtain ⟨mt, e, hm⟩ := srandom_ok h (now 0)
  have ha := after_init hm
  have first : uint32 (now 0) s = uint32 (now 0) ⟨mt, 624#32, INITIALIZED⟩ := by
    rw [uint32, if_pos hi, e]
    simp only [Outcome.ok_bind]
    rw [uint32, if_neg (by simp)]
    rfl
  have all : ∀ n, outputs now (n + 1) s = outputs now (n + 1) ⟨mt, 624#32, INITIALIZED⟩ := by
    intro n
    induction n with
    | zero => simp only [outputs, Outcome.ok_bind, first]
    | succ n ih => rw [outputs, ih]; rfl
  rw [all]
  obtain ⟨s2, e2, _⟩ := ha.outputs now (n + 1)
  exact ⟨s2, e2⟩

/-- C49: zt_random_uint32 is memory safe for every content of a state, also one that was overwritten. -/
theorem c49_safe {s : State} (h : s.mt.length = 624) (now : Word) : ∃ s' v, uint32 now s = .ok (s', v) ∧ s'.mt.length = 624 := by
  have gen : ∀ s : State, s.mt.length = 624 → ∃ s' v, generate s = .ok (s', v) ∧ s'.mt.length = 624 := by
    intro s h
    by_cases hge : s.mti ≥ 624#32
    · -- any array of 624 words begins a sequence
      obtain ⟨m, e, hm⟩ := refill_ok (G := Spec.mt fun i => s.mt.getD i 0#32) (mt_rec _) ((is_of_length h).congr fun i hi => (mt_first (fun i => s.mt.getD i 0#32) hi).symm)
      simp only [generate, if_pos hge]
      rw [e]
      simp only [Outcome.ok_bind, Outcome.pure_eq]
      rw [hm.rd (by show (0#32 : Word).toNat < 624; decide)]
      exact ⟨_, _, rfl, hm.1⟩
    · have hlt : s.mti.toNat < 624 := by
        have : ¬(624 ≤ s.mti.toNat) := hge
        omega
      simp only [generate, if_neg hge, Outcome.pure_eq, Outcome.ok_bind]
      rw [(is_of_length h).rd hlt]
      exact ⟨_, _, rfl, h⟩
  unfold uint32
  split
  · obtain ⟨mt, e, hm⟩ := srandom_ok h now
    rw [e]
    exact gen _ hm.1
  · exact gen s h

/-- C49, violated: an empty key is read out of bounds. -/
theorem c49_empty_key_violation {s : State} (h : s.mt.length = 624) : initstate s [] 0 = .ub := by
  obtain ⟨mt, e, hm⟩ := srandom_ok h 19650218#32
  rw [initstate]
  simp only [e, Outcome.ok_bind, if_pos (by decide : 624 > 0)]
  show (keyLoop [] 0 (623 + 1) 1 0 mt >>= _) = _
  rw [keyLoop, hm.rd (by decide : 1 < 624), hm.rd (by decide : 1 - 1 < 624)]
  rfl

/-- The hypotheses are met by a fresh state, and the first words for two seeds (5489 is the default of the reference implementation) are those of the reference implementation. -/
example : ∃ s : State, s.mt.length = 624 ∧ s.initialized ≠ INITIALIZED := ⟨⟨List.replicate 624 0#32, 0#32, 0#32⟩, List.length_replicate, by decide⟩

example : Spec.fromSeed 5489#32 1 = 1301868182#32 ∧ Spec.fromSeed 19650218#32 1 = 2194844435#32 := by decide

example : ([0x123#32, 0x234#32, 0x345#32, 0x456#32] : List Word) ≠ [] := by simp

end ZT.Random
