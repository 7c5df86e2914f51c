import Verif.Random.Model
import Verif.Random.Spec

/-!
# Auxiliary facts
-/

namespace ZT.Random

/-- The array holds the values `f 0` to `f 623`. -/
def Is (mt : List Word) (f : Nat → Word) : Prop := mt.length = 624 ∧ ∀ i, i < 624 → mt[i]? = some (f i)

theorem Is.rd {mt : List Word} {f : Nat → Word} (h : Is mt f) {i : Nat} (hi : i < 624) : rd mt i = .ok (f i) := rd_eq_ok.2 (h.2 i hi)

theorem Is.wr {mt : List Word} {f : Nat → Word} (h : Is mt f) {i : Nat} (hi : i < 624) (v : Word) : ∃ mt', wr mt i v = .ok mt' ∧ Is mt' (fun x => if x = i then v else f x) := by
  refine ⟨mt.set i v, wr_lt (by rw [h.1]; exact hi), by simp [h.1], ?_⟩
  intro j hj
  rw [List.getElem?_set]
  by_cases e : i = j
  · subst e; simp [h.1, hi]
  · rw [if_neg e]; simp only [if_neg (Ne.symm e)]; exact h.2 j hj

theorem Is.congr {mt : List Word} {f g : Nat → Word} (h : Is mt f) (e : ∀ i, i < 624 → f i = g i) : Is mt g := ⟨h.1, fun i hi => by rw [h.2 i hi, e i hi]⟩

theorem is_of_length {mt : List Word} (h : mt.length = 624) : Is mt (fun i => mt.getD i 0#32) := by
  refine ⟨h, fun i hi => ?_⟩
  have : i < mt.length := by omega
  simp [List.getD, this]

theorem and_ones (w : Word) : w &&& 0xffffffff#32 = w := by
  have : (0xffffffff#32 : Word) = BitVec.allOnes 32 := by decide
  rw [this, BitVec.and_allOnes]

/-! ## Seeding -/

/-- 64-bit arithmetic cut to 32 bits is 32-bit arithmetic. -/
theorem seed_word (p : Word) (k : Word) : (1812433253#64 * (p ^^^ (p >>> 30)).setWidth 64 + k.setWidth 64).setWidth 32 = 1812433253#32 * Spec.fold p + k := by
  apply BitVec.eq_of_toNat_eq
  simp only [Spec.fold, BitVec.toNat_setWidth, BitVec.toNat_add, BitVec.toNat_mul]
  generalize (p ^^^ p >>> 30).toNat = a
  generalize k.toNat = b
  simp only [BitVec.toNat_ofNat]
  omega

theorem key_word (a p s : Word) (j : Nat) : ((a.setWidth 64 ^^^ ((p ^^^ (p >>> 30)).setWidth 64 * 1664525#64)) + s.setWidth 64 + ((BitVec.ofNat 64 j).setWidth 32).setWidth 64).setWidth 32 =
    (a ^^^ (Spec.fold p * 1664525#32)) + s + BitVec.ofNat 32 j := by
  have e1 : ∀ x y : BitVec 64, (x + y).setWidth 32 = x.setWidth 32 + y.setWidth 32 := fun x y => BitVec.setWidth_add x y (by decide)
  have e2 : ∀ x y : BitVec 64, (x * y).setWidth 32 = x.setWidth 32 * y.setWidth 32 := fun x y => BitVec.setWidth_mul x y (by decide)
  have e3 : ∀ x y : BitVec 64, (x ^^^ y).setWidth 32 = x.setWidth 32 ^^^ y.setWidth 32 := fun x y => BitVec.setWidth_xor
  have e4 : ∀ x : Word, (x.setWidth 64).setWidth 32 = x := fun x => by simp
  rw [e1, e1, e3, e2, e4, e4, e4, e4]
  have e5 : (BitVec.ofNat 64 j).setWidth 32 = BitVec.ofNat 32 j := by
    apply BitVec.eq_of_toNat_eq
    simp only [BitVec.toNat_setWidth, BitVec.toNat_ofNat]
    omega
  rw [e5]
  rfl

theorem mix_word (a p : Word) (i : Nat) : ((a.setWidth 64 ^^^ ((p ^^^ (p >>> 30)).setWidth 64 * 1566083941#64)) - ((BitVec.ofNat 64 i).setWidth 32).setWidth 64).setWidth 32 =
    (a ^^^ (Spec.fold p * 1566083941#32)) - BitVec.ofNat 32 i := by
  have e1 : ∀ x y : BitVec 64, (x - y).setWidth 32 = x.setWidth 32 - y.setWidth 32 := fun x y => by
    apply BitVec.eq_of_toNat_eq
    simp only [BitVec.toNat_setWidth, BitVec.toNat_sub]
    have := x.isLt; have := y.isLt
    omega
  have e2 : ∀ x y : BitVec 64, (x * y).setWidth 32 = x.setWidth 32 * y.setWidth 32 := fun x y => BitVec.setWidth_mul x y (by decide)
  have e3 : ∀ x y : BitVec 64, (x ^^^ y).setWidth 32 = x.setWidth 32 ^^^ y.setWidth 32 := fun x y => BitVec.setWidth_xor
  have e4 : ∀ x : Word, (x.setWidth 64).setWidth 32 = x := fun x => by simp
  rw [e1, e3, e2, e4, e4, e4]
  have e5 : (BitVec.ofNat 64 i).setWidth 32 = BitVec.ofNat 32 i := by
    apply BitVec.eq_of_toNat_eq
    simp only [BitVec.toNat_setWidth, BitVec.toNat_ofNat]
    omega
  rw [e5]
  rfl

theorem seedLoop_ok (seed : Word) : ∀ (n i : Nat) (mt : List Word) (f : Nat → Word), i + n = 625 → 1 ≤ i → i ≤ 624 → Is mt f → (∀ x, x < i → f x = Spec.fromSeed seed x) →
    ∃ mt', seedLoop n (BitVec.ofNat 32 i) mt = .ok (mt', 624#32) ∧ Is mt' (Spec.fromSeed seed) := by
  intro n
  induction n with
  | zero => intro i mt f h h1 h2 hm hf; omega
  | succ n ih =>
    intro i mt f h h1 h624 hm hf
    have hn : (BitVec.ofNat 32 i).toNat = i := by simp only [BitVec.toNat_ofNat]; omega
    by_cases hi : i < 624
    · have hlt : BitVec.ofNat 32 i < 624#32 := by rw [BitVec.lt_def, hn]; exact hi
      have hs : (BitVec.ofNat 32 i - 1#32).toNat = i - 1 := by
        simp only [BitVec.toNat_sub, BitVec.toNat_ofNat]
        omega
      rw [seedLoop, if_pos hlt, hs, hn, hm.rd (by omega : i - 1 < 624)]
      simp only [Outcome.ok_bind, seed_word]
      obtain ⟨m1, e1, h1'⟩ := hm.wr hi (1812433253#32 * Spec.fold (f (i - 1)) + BitVec.ofNat 32 i)
      rw [e1]
      simp only [Outcome.ok_bind]
      rw [h1'.rd hi]
      simp only [Outcome.ok_bind, if_true, and_ones]
      obtain ⟨m2, e2, h2'⟩ := h1'.wr hi (1812433253#32 * Spec.fold (f (i - 1)) + BitVec.ofNat 32 i)
      rw [e2]
      simp only [Outcome.ok_bind]
      have e3 : BitVec.ofNat 32 i + 1#32 = BitVec.ofNat 32 (i + 1) := by
        apply BitVec.eq_of_toNat_eq
        simp only [BitVec.toNat_add, BitVec.toNat_ofNat]
        omega
      rw [e3]
      refine ih (i + 1) m2 _ (by omega) (by omega) (by omega) h2' ?_
      intro x hx
      by_cases e : x = i
      · subst e
        rw [if_pos rfl, hf (x - 1) (by omega)]
        obtain ⟨y, rfl⟩ : ∃ y, x = y + 1 := ⟨x - 1, by omega⟩
        rfl
      · rw [if_neg e, if_neg e]; exact hf x (by omega)
    · have : i = 624 := by omega
      subst this
      rw [seedLoop, if_neg (by decide)]
      exact ⟨mt, rfl, hm.congr fun x hx => hf x hx⟩

theorem srandom_ok {s : State} (h : s.mt.length = 624) (seed : Word) : ∃ mt, srandom s seed = .ok ⟨mt, 624#32, INITIALIZED⟩ ∧ Is mt (Spec.fromSeed seed) := by
  obtain ⟨m1, e1, h1⟩ := (is_of_length h).wr (by decide : 0 < 624) (seed &&& 0xffffffff#32)
  obtain ⟨m2, e2, h2⟩ := seedLoop_ok seed 624 1 m1 _ (by decide) (by decide) (by decide) h1 (by
    intro x hx
    have : x = 0 := by omega
    subst this
    rw [if_pos rfl, and_ones]; rfl)
  refine ⟨m2, ?_, h2⟩
  rw [srandom, e1]
  simp only [Outcome.ok_bind]
  rw [e2]
  rfl

end ZT.Random
