import Verif.Random.Gen

/-!
# Initialisation by a key
-/

namespace ZT.Random

open Spec (place pass1 pass2 len1)

theorem place_lt (n : Nat) : place n < 624 ∧ 1 ≤ place n := by
  unfold place
  have := Nat.mod_lt (n - 1) (by decide : 623 > 0)
  omega

theorem place_eq {n m : Nat} (h1 : 1 ≤ n) (hnm : n < m) (hm : m < n + 623) : place n ≠ place m := by
  unfold place
  intro e
  have e2 : (n - 1) % 623 = (m - 1) % 623 := by omega
  omega

theorem place_add (n : Nat) (h : 1 ≤ n) : place (n + 623) = place n := by
  unfold place
  have : n + 623 - 1 = n - 1 + 623 := by omega
  rw [this, Nat.add_mod_right]

/-- The places cycle through 1 to 623. -/
theorem place_succ {n : Nat} (h : 1 ≤ n) : place (n + 1) = if place n + 1 ≥ 624 then 1 else place n + 1 := by
  unfold place
  have := Nat.mod_lt (n - 1) (by decide : 623 > 0)
  have e : n + 1 - 1 = n - 1 + 1 := by omega
  rw [e]
  split
  · omega
  · omega

/-- Before element `n` is computed: the 623 elements before it are at their places, and the word before its place is the element before it. -/
def Win (P : Nat → Word) (prev : Word) (n : Nat) (mt : List Word) : Prop :=
  mt.length = 624 ∧ (∀ m, n ≤ m + 623 → m < n → mt[place m]? = some (P m)) ∧ mt[place n - 1]? = some prev

theorem Win.step {P : Nat → Word} {prev : Word} {n : Nat} {mt : List Word} (h : Win P prev n mt) (hn : 624 ≤ n) {v : Word} (hv : v = P n) :
    ∃ m1 m2, wr mt (place n) v = .ok m1 ∧ rd m1 (place n) = .ok v ∧ wr m1 (place n) v = .ok m2 ∧
      ∃ m3, (if place n + 1 ≥ 624 then do
          let l ← rd m2 (624 - 1)
          let mt ← wr m2 0 l
          pure (1, mt)
        else pure (place n + 1, m2) : Outcome (Nat × List Word)) = .ok (place (n + 1), m3) ∧ Win P (P n) (n + 1) m3 := by
  obtain ⟨hl, h1, h2⟩ := h
  have hp := place_lt n
  have hlen : place n < mt.length := by omega
  refine ⟨mt.set (place n) v, mt.set (place n) v, wr_lt hlen, ?_, ?_, ?_⟩
  · rw [rd_eq_ok]; simp [hlen]
  · rw [wr_lt (by simpa using hlen)]; simp
  have win : ∀ m, n + 1 ≤ m + 623 → m < n + 1 → (mt.set (place n) v)[place m]? = some (P m) := by
    intro m hm1 hm2
    rw [List.getElem?_set]
    by_cases e : m = n
    · subst e; rw [if_pos rfl, if_pos hlen, hv]
    · rw [if_neg (by have := place_eq (n := m) (m := n) (by omega) (by omega) (by omega); exact Ne.symm this)]
      exact h1 m (by omega) (by omega)
  have hs := place_succ (n := n) (by omega)
  by_cases hge : place n + 1 ≥ 624
  · rw [if_pos hge] at hs ⊢
    have e623 : place n = 623 := by omega
    refine ⟨(mt.set (place n) v).set 0 v, ?_, ?_⟩
    · have : rd (mt.set (place n) v) (624 - 1) = .ok v := by rw [rd_eq_ok, e623]; simp [hl]
      rw [this]
      simp only [Outcome.ok_bind]
      rw [wr_lt (by simp [hl]), hs]
      rfl
    · refine ⟨by simp [hl], ?_, ?_⟩
      · intro m hm1 hm2
        rw [List.getElem?_set, if_neg (by have := place_lt m; omega)]
        exact win m hm1 hm2
      · rw [hs, ← hv]; simp [hl]
  · rw [if_neg hge] at hs ⊢
    refine ⟨mt.set (place n) v, by rw [hs]; rfl, by simp [hl], win, ?_⟩
    rw [hs, Nat.add_sub_cancel]
    exact win n (by omega) (by omega)

theorem pass1_rec (key : List Word) {n : Nat} (h : 624 ≤ n) : pass1 key n =
    (pass1 key (n - 623) ^^^ (Spec.fold (if n = 624 then Spec.fromSeed 19650218#32 0 else pass1 key (n - 1)) * 1664525#32)) + key.getD ((n - 624) % key.length) 0#32 + BitVec.ofNat 32 ((n - 624) % key.length) := by
  conv => lhs; rw [pass1]
  rw [if_neg (by omega)]

theorem keyLoop_ok {key : List Word} (hk : key ≠ []) : ∀ (k n : Nat) (mt : List Word), 624 ≤ n → Win (pass1 key) (if n = 624 then Spec.fromSeed 19650218#32 0 else pass1 key (n - 1)) n mt →
    ∃ mt', keyLoop key key.length k (place n) ((n - 624) % key.length) mt = .ok (place (n + k), mt') ∧ Win (pass1 key) (if n + k = 624 then Spec.fromSeed 19650218#32 0 else pass1 key (n + k - 1)) (n + k) mt' := by
  have hpos : 0 < key.length := by cases key; exact absurd rfl hk; simp
  intro k
  induction k with
  | zero => intro n mt hn h; exact ⟨mt, rfl, h⟩
  | succ k ih =>
    intro n mt hn h
    generalize hprev : (if n = 624 then Spec.fromSeed 19650218#32 0 else pass1 key (n - 1)) = prev at h
    have hj := Nat.mod_lt (n - 624) hpos
    generalize hjj : (n - 624) % key.length = j at hj
    have e1 : rd mt (place n) = .ok (pass1 key (n - 623)) := by
      rw [rd_eq_ok]
      have := h.2.1 (n - 623) (by omega) (by omega)
      rw [← place_add (n - 623) (by omega)] at this
      have e : n - 623 + 623 = n := by omega
      rw [e] at this; exact this
    have e2 : rd mt (place n - 1) = .ok prev := by rw [rd_eq_ok]; exact h.2.2
    have e3 : rd key j = .ok (key.getD j 0#32) := by rw [rd_eq_ok]; simp [List.getD, hj]
    have hv : (pass1 key (n - 623) ^^^ (Spec.fold prev * 1664525#32)) + key.getD j 0#32 + BitVec.ofNat 32 j = pass1 key n := by
      rw [pass1_rec key hn, hprev, hjj]
    obtain ⟨m1, m2, w1, w2, w3, m3, w4, w5⟩ := h.step hn hv
    rw [keyLoop, e1, e2, e3]
    simp only [Outcome.ok_bind, key_word]
    rw [w1]
    simp only [Outcome.ok_bind]
    rw [w2]
    simp only [Outcome.ok_bind, and_ones]
    rw [w3]
    simp only [Outcome.ok_bind]
    rw [w4]
    simp only [Outcome.ok_bind]
    have ej : (if j + 1 ≥ key.length then 0 else j + 1) = (n + 1 - 624) % key.length := by
      have : n + 1 - 624 = n - 624 + 1 := by omega
      rw [this, Nat.add_mod, hjj]
      by_cases h1 : key.length = 1
      · rw [h1]; have : j = 0 := by omega
        subst this; simp [Nat.mod_one]
      · rw [Nat.mod_eq_of_lt (by omega : 1 < key.length)]
        split
        · have : j + 1 = key.length := by omega
          rw [this, Nat.mod_self]
        · rw [Nat.mod_eq_of_lt (by omega)]
    rw [ej]
    have w5' : Win (pass1 key) (if n + 1 = 624 then Spec.fromSeed 19650218#32 0 else pass1 key (n + 1 - 1)) (n + 1) m3 := by rw [if_neg (by omega), Nat.add_sub_cancel]; exact w5
    obtain ⟨m, e, hm⟩ := ih (n + 1) m3 (by omega) w5'
    have : n + 1 + k = n + (k + 1) := by omega
    rw [this] at e hm
    exact ⟨m, e, hm⟩

theorem pass2_rec (key : List Word) {n : Nat} (h : len1 key ≤ n) : pass2 key n = (pass2 key (n - 623) ^^^ (Spec.fold (pass2 key (n - 1)) * 1566083941#32)) - BitVec.ofNat 32 (place n) := by
  conv => lhs; rw [pass2]
  have : 624 ≤ len1 key := by unfold len1; omega
  rw [if_neg (by omega), if_neg (by omega)]

theorem mixLoop_ok {key : List Word} : ∀ (k n : Nat) (mt : List Word), len1 key ≤ n → Win (pass2 key) (pass2 key (n - 1)) n mt →
    ∃ mt', mixLoop k (place n) mt = .ok mt' ∧ Win (pass2 key) (pass2 key (n + k - 1)) (n + k) mt' := by
  have hlen : 624 ≤ len1 key := by unfold len1; omega
  intro k
  induction k with
  | zero => intro n mt hn h; exact ⟨mt, rfl, h⟩
  | succ k ih =>
    intro n mt hn h
    have e1 : rd mt (place n) = .ok (pass2 key (n - 623)) := by
      rw [rd_eq_ok]
      have := h.2.1 (n - 623) (by omega) (by omega)
      rw [← place_add (n - 623) (by omega)] at this
      have e : n - 623 + 623 = n := by omega
      rw [e] at this; exact this
    have e2 : rd mt (place n - 1) = .ok (pass2 key (n - 1)) := by rw [rd_eq_ok]; exact h.2.2
    obtain ⟨m1, m2, w1, w2, w3, m3, w4, w5⟩ := h.step (by omega) (pass2_rec key hn).symm
    rw [mixLoop, e1, e2]
    simp only [Outcome.ok_bind, mix_word]
    rw [w1]
    simp only [Outcome.ok_bind]
    rw [w2]
    simp only [Outcome.ok_bind, and_ones]
    rw [w3]
    simp only [Outcome.ok_bind]
    rw [w4]
    simp only [Outcome.ok_bind]
    obtain ⟨m, e, hm⟩ := ih (n + 1) m3 (by omega) (by rw [Nat.add_sub_cancel]; exact w5)
    have : n + 1 + k = n + (k + 1) := by omega
    rw [this] at hm
    exact ⟨m, e, hm⟩

theorem initstate_ok {s : State} (h : s.mt.length = 624) {key : List Word} (hk : key ≠ []) : ∃ mt, initstate s key key.length = .ok ⟨mt, 624#32, INITIALIZED⟩ ∧ Is mt (Spec.fromKey key) := by
  obtain ⟨m0, e0, h0⟩ := srandom_ok h 19650218#32
  have hw0 : Win (pass1 key) (if 624 = 624 then Spec.fromSeed 19650218#32 0 else pass1 key (624 - 1)) 624 m0 := by
    refine ⟨h0.1, ?_, ?_⟩
    · intro m hm1 hm2
      have : place m = m := by unfold place; rw [Nat.mod_eq_of_lt (by omega)]; omega
      rw [this, h0.2 m (by omega), pass1, if_pos hm2]
    · rw [if_pos rfl]
      exact h0.2 0 (by decide)
  have ek : (if 624 > key.length then 624 else key.length) = max 624 key.length := by split <;> omega
  obtain ⟨m1, e1, h1⟩ := keyLoop_ok hk (max 624 key.length) 624 m0 (Nat.le_refl _) hw0
  have hl : 624 + max 624 key.length = len1 key := rfl
  rw [hl] at e1 h1
  have hlen : 1248 ≤ len1 key := by unfold len1; omega
  rw [if_neg (by omega)] at h1
  have p12 : ∀ n, n < len1 key → pass1 key n = pass2 key n := fun n hn => by rw [pass2, if_pos hn]
  have h1' : Win (pass2 key) (pass2 key (len1 key - 1)) (len1 key) m1 := by
    refine ⟨h1.1, ?_, ?_⟩
    · intro m hm1 hm2; rw [← p12 m hm2]; exact h1.2.1 m hm1 hm2
    · rw [← p12 _ (by omega)]; exact h1.2.2
  obtain ⟨m2, e2, h2⟩ := mixLoop_ok 623 (len1 key) m1 (Nat.le_refl _) h1'
  refine ⟨m2.set 0 0x80000000#32, ?_, by simp [h2.1], ?_⟩
  · rw [initstate]
    simp only [ek]
    rw [e0]
    simp only [Outcome.ok_bind]
    have : keyLoop key key.length (max 624 key.length) 1 0 m0 = .ok (place (len1 key), m1) := by
      have hp : place 624 = 1 := by decide
      have hz : (624 - 624) % key.length = 0 := by simp
      rw [hp, hz] at e1; exact e1
    rw [this]
    simp only [Outcome.ok_bind]
    have : mixLoop (624 - 1) (place (len1 key)) m1 = .ok m2 := e2
    rw [this]
    simp only [Outcome.ok_bind]
    rw [wr_lt (by rw [h2.1]; decide)]
    rfl
  · intro i hi
    unfold Spec.fromKey
    by_cases e : i = 0
    · subst e; rw [if_pos rfl]; simp [h2.1]
    · rw [if_neg e, List.getElem?_set, if_neg (by omega)]
      cases hf : ((List.range 623).map (· + len1 key)).find? fun n => place n = i with
      | some n =>
        have h3 := List.find?_some hf
        have h4 := List.mem_of_find?_eq_some hf
        simp only [decide_eq_true_eq] at h3
        simp only [List.mem_map, List.mem_range] at h4
        obtain ⟨a, ha, rfl⟩ := h4
        rw [← h3, h2.2.1 _ (by omega) (by omega)]
        rfl
      | none =>
        exfalso
        rw [List.find?_eq_none] at hf
        -- the element at place `i`
        have hm := Nat.mod_lt (len1 key - 1) (by decide : 623 > 0)
        have := hf (len1 key + (i - 1 + 623 - (len1 key - 1) % 623) % 623) (by
          simp only [List.mem_map, List.mem_range]
          exact ⟨(i - 1 + 623 - (len1 key - 1) % 623) % 623, Nat.mod_lt _ (by decide), by omega⟩)
        apply this
        simp only [decide_eq_true_eq]
        unfold place
        omega

end ZT.Random
