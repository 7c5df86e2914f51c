import Verif.Random.Lemmas

/-!
# Generation
-/

namespace ZT.Random

theorem joinBits_eq (a b : Word) : joinBits a b = Spec.concat a b := by
  apply BitVec.eq_of_getLsbD_eq
  intro i hi
  have m1 : ∀ i, i < 32 → (0x80000000#32).getLsbD i = decide (i = 31) := by decide
  have m2 : ∀ i, i < 32 → (0x7fffffff#32).getLsbD i = decide (i < 31) := by decide
  simp only [joinBits, Spec.concat, BitVec.getLsbD_or, BitVec.getLsbD_and, BitVec.getLsbD_cons, BitVec.getLsbD_setWidth, m1 i hi, m2 i hi]
  by_cases e : i = 31
  · subst e; simp
  · have : i < 31 := by omega
    simp [e, this]

theorem mag01_eq (y : Word) : rd mag01 (y &&& 1#32).toNat = .ok (if y.getLsbD 0 then 0x9908b0df#32 else 0#32) := by
  have e : (y &&& 1#32).toNat = if y.getLsbD 0 then 1 else 0 := by
    rw [BitVec.toNat_and]
    have : (1#32).toNat = 1 := rfl
    rw [this, Nat.and_one_is_mod]
    have h : y.getLsbD 0 = y.toNat.testBit 0 := rfl
    rw [h, Nat.testBit_zero]
    by_cases h : y.toNat % 2 = 1
    · simp [h]
    · simp [h]; omega
  rw [e]
  split <;> rfl

theorem twist_eq (m y : Word) : m ^^^ (y >>> 1) ^^^ (if y.getLsbD 0 then 0x9908b0df#32 else 0#32) = m ^^^ Spec.timesA y := by
  unfold Spec.timesA
  split
  · rw [BitVec.xor_assoc]
  · simp

/-- The array in the middle of a refill: the first `k` elements are those of the next block. -/
def Part (G : Nat → Word) (k : Nat) (mt : List Word) : Prop := Is mt (fun i => G (if i < k then i + 624 else i))

theorem Part.set {G : Nat → Word} {k : Nat} {mt : List Word} (h : Part G k mt) (hk : k < 624) {v : Word} (hv : v = G (k + 624)) : ∃ mt', wr mt k v = .ok mt' ∧ Part G (k + 1) mt' := by
  obtain ⟨m, e, hm⟩ := Is.wr h hk v
  refine ⟨m, e, hm.congr fun i _ => ?_⟩
  by_cases e : i = k
  · subst e; rw [if_pos rfl, if_pos (by omega), hv]
  · rw [if_neg e]
    by_cases e2 : i < k
    · rw [if_pos e2, if_pos (by omega)]
    · rw [if_neg e2, if_neg (by omega)]

theorem Part.new {G : Nat → Word} {k : Nat} {mt : List Word} (h : Part G k mt) {i : Nat} (hk : i < 624) (hi : i < k) : rd mt i = .ok (G (i + 624)) := by
  have := Is.rd h hk
  simp only [if_pos hi] at this
  exact this

theorem Part.old {G : Nat → Word} {k : Nat} {mt : List Word} (h : Part G k mt) {i : Nat} (hk : i < 624) (hi : k ≤ i) : rd mt i = .ok (G i) := by
  have := Is.rd h hk
  simp only [if_neg (by omega : ¬i < k)] at this
  exact this

section
variable {G : Nat → Word} (hG : ∀ n, G (n + 624) = G (n + 397) ^^^ Spec.timesA (Spec.concat (G n) (G (n + 1))))
include hG

theorem loop1_ok : ∀ (n k : Nat) (mt : List Word), k + n = 227 → Part G k mt → ∃ mt', loop1 n k mt = .ok mt' ∧ Part G 227 mt' := by
  intro n
  induction n with
  | zero => intro k mt h hp; have : k = 227 := by omega
            subst this; exact ⟨mt, rfl, hp⟩
  | succ n ih =>
    intro k mt h hp
    rw [loop1, hp.old (by omega) (Nat.le_refl k), hp.old (by omega : k + 1 < 624) (by omega), hp.old (by omega : k + 397 < 624) (by omega)]
    simp only [Outcome.ok_bind, mag01_eq, twist_eq, joinBits_eq]
    obtain ⟨m, e, hm⟩ := hp.set (by omega) (hG k).symm
    rw [e]
    exact ih (k + 1) m (by omega) hm

theorem loop2_ok : ∀ (n k : Nat) (mt : List Word), k + n = 623 → 227 ≤ k → Part G k mt → ∃ mt', loop2 n k mt = .ok mt' ∧ Part G 623 mt' := by
  intro n
  induction n with
  | zero => intro k mt h _ hp; have : k = 623 := by omega
            subst this; exact ⟨mt, rfl, hp⟩
  | succ n ih =>
    intro k mt h h2 hp
    have e1 : ¬((k : Int) + (397 - 624) < 0) := by omega
    have e2 : ((k : Int) + (397 - 624)).toNat = k - 227 := by omega
    rw [loop2, hp.old (by omega) (Nat.le_refl k), hp.old (by omega : k + 1 < 624) (by omega)]
    simp only [Outcome.ok_bind, if_neg e1, e2]
    rw [hp.new (by omega : k - 227 < 624) (by omega)]
    simp only [Outcome.ok_bind, mag01_eq, twist_eq, joinBits_eq]
    obtain ⟨m, e, hm⟩ := hp.set (by omega) (hG k).symm
    have e3 : k - 227 + 624 = k + 397 := by omega
    rw [e3, e]
    exact ih (k + 1) m (by omega) (by omega) hm

theorem refill_ok {mt : List Word} (h : Is mt G) : ∃ mt', refill mt = .ok mt' ∧ Is mt' (fun i => G (i + 624)) := by
  have h0 : Part G 0 mt := h.congr fun i _ => by rw [if_neg (by omega)]
  obtain ⟨m1, e1, h1⟩ := loop1_ok hG 227 0 mt (by decide) h0
  obtain ⟨m2, e2, h2⟩ := loop2_ok hG 396 227 m1 (by decide) (by decide) h1
  obtain ⟨m3, e3, h3⟩ := h2.set (by decide) (hG 623).symm
  refine ⟨m3, ?_, Is.congr h3 fun i hi => by rw [if_pos (by omega)]⟩
  rw [refill, e1]
  simp only [Outcome.ok_bind]
  rw [e2]
  simp only [Outcome.ok_bind]
  rw [h2.old (by decide : 624 - 1 < 624) (by decide), h2.new (by decide : 0 < 624) (by decide), h2.new (by decide : 397 - 1 < 624) (by decide)]
  simp only [Outcome.ok_bind, mag01_eq, twist_eq, joinBits_eq]
  exact e3

end

theorem mt_first (first : Nat → Word) {n : Nat} (h : n < 624) : Spec.mt first n = first n := by rw [Spec.mt, if_pos h]

theorem mt_rec (first : Nat → Word) (n : Nat) : Spec.mt first (n + 624) = Spec.mt first (n + 397) ^^^ Spec.timesA (Spec.concat (Spec.mt first n) (Spec.mt first (n + 1))) := by
  conv => lhs; rw [Spec.mt]
  rw [if_neg (by omega), Nat.add_sub_cancel]

/-- The state after `n` outputs. -/
def After (first : Nat → Word) (n : Nat) (s : State) : Prop :=
  s.initialized = INITIALIZED ∧ ∃ b, Is s.mt (fun i => Spec.mt first (624 * b + i)) ∧ s.mti.toNat ≤ 624 ∧ 624 + n = 624 * b + s.mti.toNat

theorem After.next {first : Nat → Word} {n : Nat} {s : State} (h : After first n s) (now : Word) : ∃ s', uint32 now s = .ok (s', Spec.temper (Spec.mt first (624 + n))) ∧ After first (n + 1) s' := by
  obtain ⟨hi, b, hm, hle, hn⟩ := h
  rw [uint32, if_neg (by rw [hi]; simp)]
  simp only [Outcome.pure_eq, Outcome.ok_bind]
  have next : ∀ (s : State) (b : Nat), s.initialized = INITIALIZED → Is s.mt (fun i => Spec.mt first (624 * b + i)) → s.mti.toNat < 624 → 624 + n = 624 * b + s.mti.toNat →
      ∃ s' : State, (do let y ← rd s.mt s.mti.toNat; (.ok ({ s with mti := s.mti + 1#32 }, tempering y) : Outcome (State × Word))) = .ok (s', Spec.temper (Spec.mt first (624 + n))) ∧ After first (n + 1) s' := by
    intro s b hi hm hlt hn
    refine ⟨{ s with mti := s.mti + 1#32 }, ?_, ?_⟩
    · rw [hm.rd hlt]
      simp only [Outcome.ok_bind, hn]
      rfl
    · have e : (s.mti + 1#32).toNat = s.mti.toNat + 1 := by
        rw [BitVec.toNat_add]
        simp only [BitVec.toNat_ofNat]
        omega
      exact ⟨hi, b, hm, by simp only [e]; omega, by simp only [e]; omega⟩
  by_cases hge : s.mti ≥ 624#32
  · have e624 : s.mti.toNat = 624 := by
      have : 624 ≤ s.mti.toNat := hge
      omega
    obtain ⟨m, e, hm'⟩ := refill_ok (G := fun i => Spec.mt first (624 * b + i)) (fun k => by
      have := mt_rec first (624 * b + k)
      simp only [Nat.add_assoc] at this ⊢
      exact this) hm
    simp only [generate, if_pos hge]
    rw [e]
    simp only [Outcome.ok_bind, Outcome.pure_eq]
    refine next { s with mt := m, mti := 0#32 } (b + 1) hi ?_ (by show (0#32 : Word).toNat < 624; decide) ?_
    · refine Is.congr hm' fun i _ => ?_
      show Spec.mt first (624 * b + (i + 624)) = _
      congr 1; omega
    · show 624 + n = 624 * (b + 1) + 0
      omega
  · have hlt : s.mti.toNat < 624 := by
      have : ¬(624 ≤ s.mti.toNat) := hge
      omega
    simp only [generate, if_neg hge, Outcome.pure_eq, Outcome.ok_bind]
    exact next s b hi hm hlt hn

theorem After.outputs {first : Nat → Word} {s : State} (now : Nat → Word) (h : After first 0 s) : ∀ n, ∃ s', outputs now n s = .ok (s', (List.range n).map fun k => Spec.temper (Spec.mt first (624 + k))) ∧ After first n s' := by
  intro n
  induction n with
  | zero => exact ⟨s, rfl, h⟩
  | succ n ih =>
    obtain ⟨s1, e1, h1⟩ := ih
    obtain ⟨s2, e2, h2⟩ := h1.next (now n)
    refine ⟨s2, ?_, h2⟩
    rw [Random.outputs, e1]
    simp only [Outcome.ok_bind]
    rw [e2]
    simp only [Outcome.ok_bind, Outcome.pure_eq, List.range_succ, List.map_append, List.map_cons, List.map_nil]

theorem after_init {first : Nat → Word} {mt : List Word} (h : Is mt first) : After first 0 ⟨mt, 624#32, INITIALIZED⟩ :=
  ⟨rfl, 0, h.congr fun i hi => by rw [Nat.mul_zero, Nat.zero_add, mt_first first hi], by show (624#32 : Word).toNat ≤ 624; decide, by show 624 + 0 = 624 * 0 + (624#32 : Word).toNat; decide⟩

end ZT.Random
