import Verif.PtrArray.Model

/-! # C29: the pointer array as a sequence -/

namespace ZT.PtrArray

/-- The array holds the sequence `L` of non-NULL pointers, in a block of `size` slots. -/
structure Holds (a : PA) (L : List Ptr) : Prop where
  count : a.count = L.length
  block : a.arr.length = a.size
  fits : L.length ≤ a.size
  data : a.arr.take L.length = L
  nonnull : ∀ p ∈ L, p ≠ 0

theorem fresh_length (junk : Nat → Ptr) (n : Nat) : (fresh junk n).length = n := by simp [fresh]

/-- **C29 (init).** A new array is empty. -/
theorem c29_init (junk : Nat → Ptr) (cb : Bool) : Holds (init junk cb) [] :=
  ⟨rfl, fresh_length _ _, by simp, rfl, by simp⟩

theorem copyData_spec (src : List Ptr) (n : Nat) : ∀ (i : Nat) (dst : List Ptr), i + n ≤ src.length → i + n ≤ dst.length → dst.take i = src.take i →
    ∃ d, copyData src n i dst = .ok d ∧ d.length = dst.length ∧ d.take (i + n) = src.take (i + n) := by
  induction n with
  | zero => intro i dst _ _ h; exact ⟨dst, rfl, rfl, h⟩
  | succ n ih =>
      intro i dst h1 h2 h
      obtain ⟨d, e1, e2, e3⟩ := ih (i + 1) (dst.set i src[i]) (by omega) (by simp; omega) (by
        rw [List.take_succ_eq_append_getElem (by simp; omega), List.take_succ_eq_append_getElem (by omega), List.take_set_of_le (Nat.le_refl _), h]
        simp)
      refine ⟨d, ?_, by rw [e2, List.length_set], by rw [show i + (n + 1) = i + 1 + n by omega]; exact e3⟩
      rw [copyData, rd_lt (by omega)]
      simp only [Outcome.ok_bind]
      rw [wr_lt (by omega)]
      exact e1

theorem resize_spec {a : PA} {L : List Ptr} (h : Holds a L) (junk : Nat → Ptr) {e : Nat} (hs : a.size + (if e = 0 then 32 else e) < 2 ^ 31) :
    ∃ a', resize junk a e = .ok (0, a') ∧ Holds a' L ∧ a'.size = a.size + (if e = 0 then 32 else e) ∧ a'.cb = a.cb := by
  obtain ⟨h1, h2, h3, h4, h5⟩ := h
  have he : (if (e : Int) = 0 then 32 else (e : Int)) = ((if e = 0 then 32 else e : Nat) : Int) := by split <;> simp_all
  generalize (if e = 0 then 32 else e) = k at *
  have hn : ((a.size : Int) + (k : Int)).toNat = a.size + k := by omega
  obtain ⟨d, e1, e2, e3⟩ := copyData_spec a.arr a.count 0 (fresh junk (a.size + k)) (by omega) (by rw [fresh_length]; omega) rfl
  refine ⟨{ a with arr := d, size := a.size + k }, ?_, ⟨h1, ?_, by simp only; omega, ?_, h5⟩, rfl, rfl⟩
  · simp only [resize, he]
    rw [if_neg (by omega), if_neg (by omega), hn, e1]; rfl
  · simp only [e2, fresh_length]
  · simp only
    rw [Nat.zero_add, h1, h4] at e3
    exact e3

/-- **C29 (add).** Appends; the block grows when full. Adding NULL changes nothing. Sizes below `2 ^ 31 - 33`. -/
theorem c29_add {a : PA} {L : List Ptr} (h : Holds a L) (junk : Nat → Ptr) {p : Ptr} (hp : p ≠ 0) (hs : a.size + 32 < 2 ^ 31) :
    ∃ a', add junk a p = .ok (0, a') ∧ Holds a' (L ++ [p]) ∧ a'.size ≤ a.size + 32 ∧ a'.cb = a.cb := by
  have grown : ∃ a1, grow junk a = .ok (0, a1) ∧ Holds a1 L ∧ L.length < a1.size ∧ a1.size ≤ a.size + 32 ∧ a1.cb = a.cb := by
    by_cases hf : a.count ≥ a.size
    · obtain ⟨a1, e1, e2, e3, e4⟩ := resize_spec h junk (e := 0) (by simpa using hs)
      have := h.fits
      simp only [if_true] at e3
      exact ⟨a1, by rw [grow, if_pos hf]; exact e1, e2, by omega, by omega, e4⟩
    · refine ⟨a, by rw [grow, if_neg hf]; rfl, h, ?_, by omega, rfl⟩
      have := h.count; omega
  obtain ⟨a1, e1, ⟨h1, h2, h3, h4, h5⟩, hlt, hle, hcb⟩ := grown
  refine ⟨{ a1 with arr := a1.arr.set a1.count p, count := a1.count + 1 }, ?_, ⟨by simp [h1], by simp [h2], by simp; omega, ?_, ?_⟩, hle, hcb⟩
  · rw [add, if_neg hp]
    refine Outcome.bind_eq_ok.2 ⟨_, e1, ?_⟩
    simp only
    rw [if_neg (by omega), wr_lt (by omega)]; rfl
  · simp only [h1, List.length_append, List.length_singleton]
    rw [List.take_succ_eq_append_getElem (by simp; omega), List.take_set_of_le (Nat.le_refl _), h4]
    simp
  · intro q hq
    rcases List.mem_append.1 hq with hq | hq
    · exact h5 q hq
    · simp only [List.mem_singleton] at hq; rw [hq]; exact hp

/-- **C29 (add NULL).** -/
theorem c29_add_null (junk : Nat → Ptr) (a : PA) : add junk a 0 = .ok (0, a) := by simp [add]

/-- **C29 (get_idx).** Index `i` below the count: the `i`-th pointer; above: NULL; -1: the last one. -/
theorem c29_get {a : PA} {L : List Ptr} (h : Holds a L) :
    (∀ i (hi : i < L.length), getIdx a i = .ok L[i]) ∧ (∀ i : Nat, L.length ≤ i → getIdx a i = .ok 0) ∧ (∀ hL : L ≠ [], getIdx a (-1) = .ok (L.getLast hL)) := by
  obtain ⟨h1, h2, h3, h4, _⟩ := h
  have rdL : ∀ i (hi : i < L.length), rd a.arr i = .ok L[i] := by
    intro i hi
    rw [rd_eq_ok]
    have : (a.arr.take L.length)[i]? = L[i]? := by rw [h4]
    rw [List.getElem?_take, if_pos hi] at this
    rw [this, List.getElem?_eq_getElem]
  refine ⟨fun i hi => ?_, fun i hi => ?_, fun hL => ?_⟩
  · rw [getIdx, if_neg (by omega), if_neg (by omega), rdI, if_neg (by omega)]
    exact rdL i hi
  · rw [getIdx, if_neg (by omega), if_pos (by omega)]
  · have := List.length_pos_iff.2 hL
    rw [getIdx, if_pos rfl, rdI, if_neg (by omega), List.getLast_eq_getElem, show ((a.count : Int) - 1).toNat = L.length - 1 by omega]
    exact rdL _ _

/-- **C29 (get_idx, outside).** The last element of an empty array and indices below -1 are read outside the block. -/
theorem c29_get_outside {a : PA} {L : List Ptr} (h : Holds a L) : (L = [] → getIdx a (-1) = .ub) ∧ ∀ i : Int, i < -1 → getIdx a i = .ub := by
  refine ⟨fun hL => ?_, fun i hi => ?_⟩
  · have := h.count
    rw [hL] at this
    rw [getIdx, if_pos rfl, rdI, if_pos (by simp at this; omega)]
  · rw [getIdx, if_neg (by omega), if_neg (by omega), rdI, if_pos (by omega)]

/-! ## Deletion -/

namespace Spec

/-- One deletion in the code's way: the last pointer takes the place of the deleted one. -/
def swapOut (L : List Ptr) (i : Nat) : List Ptr := (L.set i (L.getLastD 0)).dropLast

end Spec

theorem set_dropLast_perm {L : List Ptr} {i : Nat} (hi : i < L.length) : (Spec.swapOut L i ++ [L[i]]).Perm L := by
  have hne : L ≠ [] := by rintro rfl; simp at hi
  obtain ⟨M, x, rfl⟩ : ∃ M x, L = M ++ [x] := ⟨L.dropLast, L.getLast hne, (List.dropLast_concat_getLast hne).symm⟩
  simp only [Spec.swapOut]
  have hl : (M ++ [x]).getLastD 0 = x := by simp
  rw [hl]
  by_cases h : i < M.length
  · rw [List.set_append_left _ _ h, List.dropLast_concat, List.getElem_append_left h]
    refine (List.perm_append_comm.trans ?_)
    simp only [List.singleton_append]
    rw [List.set_eq_take_append_cons_drop, if_pos h]
    have hM : M = M.take i ++ M[i] :: M.drop (i + 1) := by rw [List.getElem_cons_drop, List.take_append_drop]
    have e1 : (M[i] :: (M.take i ++ x :: M.drop (i + 1))).Perm (M.take i ++ M[i] :: x :: M.drop (i + 1)) := List.perm_middle.symm
    have e2 : (M.take i ++ M[i] :: x :: M.drop (i + 1)).Perm (M.take i ++ M[i] :: (M.drop (i + 1) ++ [x])) :=
      List.Perm.append_left _ (List.Perm.cons _ (List.perm_append_comm (l₁ := [x])))
    refine e1.trans (e2.trans ?_)
    have : M.take i ++ M[i] :: (M.drop (i + 1) ++ [x]) = M ++ [x] := by
      rw [← List.cons_append, ← List.append_assoc, ← hM]
    rw [this]
  · have : i = M.length := by simp at hi; omega
    subst this
    simp

theorem holds_rd {a : PA} {L : List Ptr} (h : Holds a L) {i : Nat} (hi : i < L.length) : rd a.arr i = .ok L[i] := by
  rw [rd_eq_ok]
  have : (a.arr.take L.length)[i]? = L[i]? := by rw [h.data]
  rw [List.getElem?_take, if_pos hi] at this
  rw [this, List.getElem?_eq_getElem]

theorem swap_spec {a : PA} {L : List Ptr} (h : Holds a L) {i : Nat} (hi : i < L.length) :
    ∃ a', moveIdx a ((a.count : Int) - 1) i = .ok (0, a') ∧ Holds { a' with count := a'.count - 1 } (Spec.swapOut L i) ∧ a'.cb = a.cb ∧ a'.size = a.size := by
  have hc := h.count
  have hb := h.block
  have hf := h.fits
  have hne : L ≠ [] := by rintro rfl; simp at hi
  have hlast : L.getLastD 0 = L[L.length - 1] := by rw [List.getLastD_eq_getLast?, List.getLast?_eq_getElem?, List.getElem?_eq_getElem (by omega)]; rfl
  refine ⟨{ a with arr := a.arr.set i (L.getLastD 0) }, ?_, ?_, rfl, rfl⟩
  · rw [moveIdx, if_neg (by omega), if_neg (by omega), rdI, if_neg (by omega), show ((a.count : Int) - 1).toNat = L.length - 1 by omega, holds_rd h (by omega)]
    simp only [Outcome.ok_bind]
    rw [wrI, if_neg (by omega), wr_lt (by simp; omega), hlast]; rfl
  · have hlen : (Spec.swapOut L i).length = L.length - 1 := by simp [Spec.swapOut]
    refine ⟨by simp [hlen, hc], by simp [hb], by simp only [hlen]; omega, ?_, ?_⟩
    · rw [hlen, Spec.swapOut]
      rw [List.dropLast_eq_take, List.length_set]
      have : L.set i (L.getLastD 0) = (a.arr.set i (L.getLastD 0)).take L.length := by rw [List.take_set, h.data]
      rw [this, List.take_take, Nat.min_eq_left (by omega)]
    · intro q hq
      have hp := set_dropLast_perm hi
      exact h.nonnull q ((hp.mem_iff).1 (List.mem_append_left _ hq))

theorem swapOut_length (L : List Ptr) (i : Nat) : (Spec.swapOut L i).length = L.length - 1 := by simp [Spec.swapOut]

theorem delLoop_spec (p : Ptr) (fuel : Nat) : ∀ (a : PA) (L : List Ptr) (i : Nat) (freed : List Ptr), Holds a L → L.length < fuel + i → 0 < fuel →
    ∃ a' L' m, delLoop p fuel a i freed = .ok (a', freed ++ List.replicate (if a.cb then m else 0) p) ∧ Holds a' L' ∧ (L' ++ List.replicate m p).Perm L ∧
      (p ∈ L.drop i → 0 < m) ∧ (p ∉ L.drop i → L' = L ∧ m = 0) ∧ a'.size = a.size ∧ a'.cb = a.cb ∧
      (∀ j (hj : j < L.length), i ≤ j → L[j] = p → L.count p = 1 → L' = Spec.swapOut L j) := by
  induction fuel with
  | zero => intro a L i freed _ _ h; omega
  | succ fuel ih =>
      intro a L i freed h hf _
      have hc := h.count
      rw [delLoop]
      by_cases hi : i < L.length
      · rw [if_pos (by omega), holds_rd h hi]
        simp only [Outcome.ok_bind]
        have hd : L.drop i = L[i] :: L.drop (i + 1) := by rw [List.getElem_cons_drop]
        by_cases hp : L[i] = p
        · rw [if_pos hp]
          obtain ⟨a1, e1, h1, c1, s1⟩ := swap_spec h hi
          have hl := swapOut_length L i
          have hsw := set_dropLast_perm hi
          rw [hp] at hsw
          obtain ⟨a2, L', m, e2, h2, hperm, hpos, hnone, hsz, hcb, _⟩ := ih { a1 with count := a1.count - 1 } (Spec.swapOut L i) (i + 1) (if a1.cb then freed ++ [p] else freed) h1 (by omega) (by omega)
          refine ⟨a2, L', m + 1, ?_, h2, ?_, fun _ => by omega, fun hn => absurd (by rw [hd, hp]; simp) hn, by rw [hsz]; exact s1, by rw [hcb]; exact c1, ?_⟩
          · refine Outcome.bind_eq_ok.2 ⟨_, e1, ?_⟩
            simp only
            rw [e2]
            simp only [c1]
            cases a.cb
            · simp
            · simp [List.replicate_succ]
          · rw [List.replicate_succ', ← List.append_assoc]
            exact (List.Perm.append_right [p] hperm).trans hsw
          · intro j hj hij hjp hone
            have hcount : (Spec.swapOut L i).count p = 0 := by
              have := hsw.count_eq p
              simp only [List.count_append, List.count_singleton, beq_self_eq_true, if_true] at this
              omega
            have hnot : p ∉ Spec.swapOut L i := List.count_eq_zero.1 hcount
            have hL' := (hnone (fun hm => hnot (List.mem_of_mem_drop hm))).1
            rw [hL']
            -- the two positions coincide
            by_cases hji : j = i
            · rw [hji]
            · exfalso
              have h2 : L.count p ≥ 2 := by
                have hsplit : L = L.take (i + 1) ++ L.drop (i + 1) := (List.take_append_drop _ _).symm
                have hA : p ∈ L.take (i + 1) := by rw [List.mem_take_iff_getElem]; exact ⟨i, by omega, hp⟩
                have hB : p ∈ L.drop (i + 1) := by rw [List.mem_drop_iff_getElem]; exact ⟨j - (i + 1), by omega, by rw [← hjp]; congr 1; omega⟩
                have h1 := List.count_pos_iff.2 hA
                have h2 := List.count_pos_iff.2 hB
                rw [hsplit, List.count_append]; omega
              omega
        · rw [if_neg hp]
          obtain ⟨a2, L', m, e2, h2, hperm, hpos, hnone, hsz, hcb, huniq⟩ := ih a L (i + 1) freed h (by omega) (by omega)
          have hmem : p ∈ L.drop i ↔ p ∈ L.drop (i + 1) := by rw [hd, List.mem_cons]; exact ⟨fun h => h.resolve_left (fun h => hp h.symm), Or.inr⟩
          refine ⟨a2, L', m, e2, h2, hperm, fun hm => hpos (hmem.1 hm), fun hn => hnone (fun hm => hn (hmem.2 hm)), hsz, hcb, ?_⟩
          intro j hj hij hjp hone
          refine huniq j hj ?_ hjp hone
          by_cases hji : j = i
          · subst hji; exact absurd hjp hp
          · omega
      · rw [if_neg (by omega)]
        have hd : L.drop i = [] := List.drop_eq_nil_of_le (by omega)
        refine ⟨a, L, 0, by simp, h, by simp, by simp [hd], fun _ => ⟨rfl, rfl⟩, rfl, rfl, ?_⟩
        intro j hj hij; omega

/-- **C29 (del, general).** Deleting `p` never loses another pointer: what is left, with the `m` deleted copies of `p`, is a rearrangement of what
was there; at least one copy is deleted if there is one, nothing changes if there is none; `free_cb` (if set) is called once per deleted copy.
The function always returns -1. -/
theorem c29_del {a : PA} {L : List Ptr} (h : Holds a L) {p : Ptr} (hp : p ≠ 0) :
    ∃ a' L' m, del a p = .ok (-1, a', List.replicate (if a.cb then m else 0) p) ∧ Holds a' L' ∧ (L' ++ List.replicate m p).Perm L ∧
      (p ∈ L → 0 < m) ∧ (p ∉ L → L' = L ∧ m = 0) ∧ a'.size = a.size := by
  obtain ⟨a', L', m, e, h1, h2, h3, h4, h5, _, _⟩ := delLoop_spec p (a.count + 1) a L 0 [] h (by rw [h.count]; omega) (by omega)
  refine ⟨a', L', m, ?_, h1, h2, by simpa using h3, by simpa using h4, h5⟩
  rw [del, if_neg hp, e]; simp

/-- **C29 (del, a pointer that occurs once).** Exactly that pointer is removed, and the last pointer takes its place. -/
theorem c29_del_once {a : PA} {L : List Ptr} (h : Holds a L) {j : Nat} (hj : j < L.length) (hone : L.count L[j] = 1) :
    ∃ a', del a L[j] = .ok (-1, a', if a.cb then [L[j]] else []) ∧ Holds a' (Spec.swapOut L j) ∧ L[j] ∉ Spec.swapOut L j ∧ (Spec.swapOut L j).Perm (L.erase L[j]) := by
  have hp : L[j] ≠ 0 := h.nonnull _ (List.getElem_mem _)
  obtain ⟨a', L', m, e, h1, h2, h3, h4, h5, h6, h7⟩ := delLoop_spec L[j] (a.count + 1) a L 0 [] h (by rw [h.count]; omega) (by omega)
  have hL' := h7 j hj (by omega) rfl hone
  have hsw := set_dropLast_perm hj
  have hc : (Spec.swapOut L j).count L[j] = 0 := by
    have := hsw.count_eq L[j]
    simp only [List.count_append, List.count_singleton, beq_self_eq_true, if_true] at this
    omega
  have hm : m = 1 := by
    have := h2.count_eq L[j]
    rw [hL'] at this
    simp only [List.count_append, List.count_replicate_self] at this
    omega
  refine ⟨a', ?_, hL' ▸ h1, List.count_eq_zero.1 hc, ?_⟩
  · rw [del, if_neg hp, e, hm]
    cases a.cb <;> rfl
  · have h8 := (hsw.symm.erase L[j])
    refine (h8.trans ?_).symm
    rw [List.erase_append_right _ (List.count_eq_zero.1 hc)]
    simp

/-- **C29 (del NULL).** -/
theorem c29_del_null (a : PA) : del a 0 = .ok (-1, a, []) := by simp [del]

/-- Violation of C29: in `[p, q, p]` one `zt_ptr_array_del(p)` leaves a `p` (the pointer swapped in is not examined). -/
theorem del_leaves_copy (junk : Nat → Ptr) : ∃ a1 a2 a3 a4, add junk (init junk false) 5 = .ok (0, a1) ∧ add junk a1 6 = .ok (0, a2) ∧ add junk a2 5 = .ok (0, a3) ∧
    del a3 5 = .ok (-1, a4, []) ∧ Holds a4 [5, 6] := by
  obtain ⟨a1, e1, h1, s1, c1⟩ := c29_add (c29_init junk false) junk (p := 5) (by decide) (by simp [init])
  obtain ⟨a2, e2, h2, s2, c2⟩ := c29_add h1 junk (p := 6) (by decide) (by simp only [init] at s1; omega)
  obtain ⟨a3, e3, h3, s3, c3⟩ := c29_add h2 junk (p := 5) (by decide) (by simp only [init] at s1; omega)
  simp only [List.nil_append, List.cons_append] at h3
  have hcb : a3.cb = false := by rw [c3, c2, c1]; rfl
  obtain ⟨a4, x1, h4, c4⟩ := swap_spec h3 (i := 0) (by simp)
  have hsw : Spec.swapOut [5, 6, 5] 0 = [5, 6] := rfl
  rw [hsw] at h4
  refine ⟨a1, a2, a3, { a4 with count := a4.count - 1 }, e1, e2, e3, ?_, h4⟩
  rw [del, if_neg (by decide), h3.count]
  have hc4 := h4.count
  have r1 := holds_rd h4 (i := 1) (by simp)
  simp only [List.length_cons, List.length_nil, Nat.zero_add, Nat.reduceAdd, List.getElem_cons_succ, List.getElem_cons_zero] at r1 hc4 ⊢
  have hloop : delLoop 5 4 a3 0 [] = .ok ({ a4 with count := a4.count - 1 }, []) := by
    rw [delLoop, if_pos (by rw [h3.count]; simp), holds_rd h3 (by simp)]
    simp only [Outcome.ok_bind, List.getElem_cons_zero, if_true]
    refine Outcome.bind_eq_ok.2 ⟨_, x1, ?_⟩
    simp only [c4.1, hcb]
    rw [delLoop, if_pos (by simp only; omega)]
    refine Outcome.bind_eq_ok.2 ⟨_, r1, ?_⟩
    rw [if_neg (by decide), delLoop, if_neg (by simp only; omega)]; simp
  rw [hloop]; rfl

/-! ## Concatenation, release, resizing -/

theorem catLoop_spec (junk : Nat → Ptr) {src : PA} {M : List Ptr} (hm : Holds src M) (n : Nat) : ∀ (i : Nat) (dst : PA) (L : List Ptr), Holds dst L → i + n = M.length →
    dst.size + 32 * n < 2 ^ 31 → ∃ d, catLoop junk src n i dst = .ok (0, d) ∧ Holds d (L ++ M.drop i) := by
  induction n with
  | zero => intro i dst L h hi _; exact ⟨dst, rfl, by rw [List.drop_eq_nil_of_le (by omega)]; simpa using h⟩
  | succ n ih =>
      intro i dst L h hi hs
      have hg := (c29_get hm).1 i (by omega)
      obtain ⟨d1, e1, h1, s1, _⟩ := c29_add h junk (p := M[i]) (hm.nonnull _ (List.getElem_mem _)) (by omega)
      obtain ⟨d2, e2, h2⟩ := ih (i + 1) d1 (L ++ [M[i]]) h1 (by omega) (by omega)
      refine ⟨d2, ?_, ?_⟩
      · rw [catLoop, hg]
        simp only [Outcome.ok_bind]
        rw [e1]
        simp only [Outcome.ok_bind]
        rw [if_neg (by simp)]
        exact e2
      · rw [List.append_assoc, List.singleton_append, List.getElem_cons_drop] at h2
        exact h2

/-- **C29 (cat).** Two different arrays: the pointers of `src` follow those of `dst`, in order. -/
theorem c29_cat (junk : Nat → Ptr) {dst src : PA} {L M : List Ptr} (hd : Holds dst L) (hm : Holds src M) (hs : dst.size + 32 * M.length < 2 ^ 31) :
    ∃ d, cat junk dst src = .ok (0, d) ∧ Holds d (L ++ M) := by
  rw [cat, hm.count]
  obtain ⟨d, e, h⟩ := catLoop_spec junk hm M.length 0 dst L hd (by omega) hs
  exact ⟨d, e, by simpa using h⟩

/-- Violation of C29: concatenating a non-empty array to itself never returns 0: after any number of iterations the loop is still running, or the
size has overflowed. -/
theorem self_cat_never_ends (junk : Nat → Ptr) (fuel : Nat) : ∀ {a : PA} {L : List Ptr} {i : Nat}, Holds a L → i < L.length → a.size < 2 ^ 31 → ∀ r, catSelf junk fuel a i ≠ .ok (some r) := by
  induction fuel with
  | zero => intro a L i _ _ _ r; simp [catSelf]
  | succ fuel ih =>
      intro a L i h hi hs r
      rw [catSelf, if_pos (by rw [h.count]; exact hi), (c29_get h).1 i hi]
      simp only [Outcome.ok_bind]
      by_cases hg : a.size + 32 < 2 ^ 31
      · obtain ⟨a1, e1, h1, s1, _⟩ := c29_add h junk (p := L[i]) (h.nonnull _ (List.getElem_mem _)) hg
        rw [e1]
        simp only [Outcome.ok_bind]
        rw [if_neg (by simp)]
        exact ih h1 (by simp; omega) (by omega) r
      · have hp : L[i] ≠ 0 := h.nonnull _ (List.getElem_mem _)
        have hc := h.count
        have hf := h.fits
        by_cases hfull : a.count ≥ a.size
        · have : add junk a L[i] = .ub := by
            have hr : resize junk a 0 = .ub := by
              rw [resize]; simp only [if_true]; rw [if_pos (by omega)]
            rw [add, if_neg hp, grow, if_pos hfull, hr]; rfl
          rw [this]; simp
        · have : ∃ a1, add junk a L[i] = .ok (0, a1) ∧ Holds a1 (L ++ [L[i]]) ∧ a1.size = a.size := by
            refine ⟨{ a with arr := a.arr.set a.count L[i], count := a.count + 1 }, ?_, ⟨by simp [hc], by simp [h.block], by simp; omega, ?_, ?_⟩, rfl⟩
            · rw [add, if_neg hp, grow, if_neg hfull]
              simp only [Outcome.pure_eq, Outcome.ok_bind]
              rw [if_neg (by omega), wr_lt (by have := h.block; omega)]; rfl
            · simp only [hc, List.length_append, List.length_singleton]
              have := h.block
              rw [List.take_succ_eq_append_getElem (by simp; omega), List.take_set_of_le (Nat.le_refl _), h.data]
              simp
            · intro q hq
              rcases List.mem_append.1 hq with hq | hq
              · exact h.nonnull q hq
              · simp only [List.mem_singleton] at hq; rw [hq]; exact hp
          obtain ⟨a1, e1, h1, s1⟩ := this
          rw [e1]
          simp only [Outcome.ok_bind]
          rw [if_neg (by simp)]
          exact ih h1 (by simp; omega) (by omega) r

/-- **C29 (resize).** A positive (or default) growth keeps the sequence; a negative one is refused and changes nothing. -/
theorem c29_resize {a : PA} {L : List Ptr} (h : Holds a L) (junk : Nat → Ptr) :
    (∀ e : Nat, a.size + (if e = 0 then 32 else e) < 2 ^ 31 → ∃ a', resize junk a e = .ok (0, a') ∧ Holds a' L ∧ a'.size = a.size + (if e = 0 then 32 else e)) ∧
    ∀ e : Int, e < 0 → a.size < 2 ^ 31 → resize junk a e = .ok (-1, a) := by
  refine ⟨fun e he => ?_, fun e he hs => ?_⟩
  · obtain ⟨a', e1, e2, e3, _⟩ := resize_spec h junk he
    exact ⟨a', e1, e2, e3⟩
  · simp only [resize]; rw [if_neg (by omega : ¬ e = 0), if_neg (by omega), if_pos (by omega)]

/-- **C29 (free).** With `free_members`, every pointer of the sequence is released, once per position and in order; otherwise none. -/
theorem c29_free {a : PA} {L : List Ptr} (h : Holds a L) (f : Int) : free a f = .ok (0, if f > 0 then L else []) := by
  have key : ∀ (n i : Nat) (acc : List Ptr), i + n = L.length → freeLoop a.arr n i acc = .ok (acc ++ L.drop i) := by
    intro n
    induction n with
    | zero => intro i acc hi; rw [List.drop_eq_nil_of_le (by omega)]; simp [freeLoop]
    | succ n ih =>
        intro i acc hi
        rw [freeLoop, holds_rd h (by omega)]
        simp only [Outcome.ok_bind]
        rw [if_neg (h.nonnull _ (List.getElem_mem _)), ih (i + 1) _ (by omega), List.append_assoc, List.singleton_append, List.getElem_cons_drop]
  rw [free]
  by_cases hf : f > 0
  · rw [if_pos hf, if_pos hf, h.count, key L.length 0 [] (by omega)]; simp
  · rw [if_neg hf, if_neg hf]; rfl

/-- **C29 (move).** For two positions of the sequence, `zt_ptr_array_move_idx_to_idx` overwrites the second with the pointer at the first and returns 0; when either index is beyond the count it returns -1 and nothing changes. -/
theorem c29_move {a : PA} {L : List Ptr} (h : Holds a L) :
    (∀ s d, (hs : s < L.length) → d < L.length → ∃ a', moveIdx a s d = .ok (0, a') ∧ Holds a' (L.set d L[s]) ∧ a'.size = a.size ∧ a'.cb = a.cb) ∧
    ∀ s d : Int, (L.length < s ∨ L.length < d) → moveIdx a s d = .ok (-1, a) := by
  have hc := h.count
  have hb := h.block
  have hf := h.fits
  refine ⟨fun s d hs hd => ?_, fun s d hsd => ?_⟩
  · refine ⟨{ a with arr := a.arr.set d L[s] }, ?_, ⟨?_, ?_, ?_, ?_, ?_⟩, rfl, rfl⟩
    · rw [moveIdx, if_neg (by omega), if_neg (by omega), rdI, if_neg (by omega), Int.toNat_natCast, holds_rd h hs]
      simp only [Outcome.ok_bind]
      rw [wrI, if_neg (by omega), Int.toNat_natCast, wr_lt (by omega)]
      rfl
    · simp [hc]
    · simp [hb]
    · simp [hf]
    · simp only [List.length_set]
      rw [List.take_set, h.data]
    · intro p hp
      rcases List.mem_or_eq_of_mem_set hp with hp | rfl
      · exact h.nonnull p hp
      · exact h.nonnull _ (List.getElem_mem _)
  · rw [moveIdx]
    by_cases h1 : s > a.count
    · rw [if_pos h1]
    · rw [if_neg h1, if_pos (by omega)]

/-- Finding: zt_ptr_array_move_idx_to_idx accepts `src_idx == count`; when the block is full that reads the slot after its end. -/
theorem move_reads_past {a : PA} {L : List Ptr} (h : Holds a L) (hfull : L.length = a.size) : moveIdx a L.length 0 = .ub := by
  have hc := h.count
  have hb := h.block
  rw [moveIdx, if_neg (by omega), if_neg (by omega), rdI, if_neg (by omega), rd_ge (by omega)]; rfl

/-! ## Histories -/

/-- A call on one array. -/
inductive Op where
  | add (p : Ptr)
  | del (p : Ptr)
  | get (i : Nat)
  deriving Repr, DecidableEq

/-- The code: the value returned by get_idx is shown (0 for the other calls). -/
def exec (junk : Nat → Ptr) (a : PA) : Op → Outcome (PA × Ptr)
  | .add p => do let (_, a) ← add junk a p; pure (a, 0)
  | .del p => do let (_, a, _) ← del a p; pure (a, 0)
  | .get i => do let p ← getIdx a i; pure (a, p)

/-- A history of calls. -/
def runs (junk : Nat → Ptr) : PA → List Op → Outcome (PA × List Ptr)
  | a, [] => .ok (a, [])
  | a, o :: os => do
      let (a, v) ← exec junk a o
      let (a, vs) ← runs junk a os
      pure (a, v :: vs)

namespace Spec

/-- The sequence after a call. -/
def exec (L : List Ptr) : Op → List Ptr × Ptr
  | .add p => (if p = 0 then L else L ++ [p], 0)
  | .del p => (if p ∈ L then swapOut L (L.idxOf p) else L, 0)
  | .get i => (L, L.getD i 0)

/-- The sequence after a history, and what get_idx must have returned. -/
def runs : List Ptr → List Op → List Ptr × List Ptr
  | L, [] => (L, [])
  | L, o :: os => let r := runs (exec L o).1 os; (r.1, (exec L o).2 :: r.2)

/-- No pointer is deleted while it occurs more than once. -/
def Distinct : List Ptr → List Op → Prop
  | _, [] => True
  | L, o :: os => (∀ p, o = .del p → L.count p ≤ 1) ∧ Distinct (exec L o).1 os

end Spec

theorem exec_spec {a : PA} {L : List Ptr} (h : Holds a L) (junk : Nat → Ptr) {o : Op} (hd : ∀ p, o = .del p → L.count p ≤ 1) (hs : a.size + 32 < 2 ^ 31) :
    ∃ a', exec junk a o = .ok (a', (Spec.exec L o).2) ∧ Holds a' (Spec.exec L o).1 ∧ a'.size ≤ a.size + 32 := by
  cases o with
  | add p =>
      by_cases hp : p = 0
      · subst hp
        exact ⟨a, by simp only [exec, c29_add_null]; rfl, by simpa [Spec.exec] using h, by omega⟩
      · obtain ⟨a', e, h', s', _⟩ := c29_add h junk hp hs
        exact ⟨a', by simp only [exec, e]; rfl, by simpa [Spec.exec, hp] using h', s'⟩
  | del p =>
      by_cases hp : p = 0
      · subst hp
        have : 0 ∉ L := fun hm => h.nonnull 0 hm rfl
        exact ⟨a, by simp only [exec, c29_del_null]; rfl, by simpa [Spec.exec, this] using h, by omega⟩
      · by_cases hm : p ∈ L
        · have hj : L.idxOf p < L.length := List.idxOf_lt_length_iff.2 hm
          have hge : L[L.idxOf p] = p := List.getElem_idxOf hj
          have hone : L.count p = 1 := by
            have := hd p rfl
            have := List.count_pos_iff.2 hm
            omega
          obtain ⟨a', e, h', _⟩ := c29_del_once h hj (by rw [hge]; exact hone)
          rw [hge] at e
          obtain ⟨a2, L2, m2, e2, _, _, _, _, s2⟩ := c29_del h hp
          rw [e] at e2
          simp only [Outcome.ok.injEq, Prod.mk.injEq] at e2
          refine ⟨a', by simp only [exec, e]; rfl, by simpa [Spec.exec, hm] using h', ?_⟩
          rw [e2.2.1, s2]; omega
        · obtain ⟨a', L', m, e, h', _, _, hn, s'⟩ := c29_del h hp
          refine ⟨a', by simp only [exec, e]; rfl, ?_, by omega⟩
          have := (hn hm).1
          subst this
          simpa [Spec.exec, hm] using h'
  | get i =>
      refine ⟨a, ?_, h, by omega⟩
      by_cases hi : i < L.length
      · simp only [exec, (c29_get h).1 i hi]
        simp [Spec.exec, List.getD, hi]
      · simp only [exec, (c29_get h).2.1 i (by omega)]
        simp [Spec.exec, List.getD, List.getElem?_eq_none (Nat.le_of_not_lt hi)]

/-- **C29 (histories, partial).** Any history of additions, deletions and reads on a new array, deleting a pointer only while it occurs at most once:
nothing is undefined, and every read returns what the sequence holds. Missing: deletion of a pointer that occurs several times, where the code
leaves copies behind (`del_leaves_copy`). -/
theorem c29_history_partial (junk : Nat → Ptr) (cb : Bool) (os : List Op) (hd : Spec.Distinct [] os) (hs : os.length < 2 ^ 25) :
    ∃ a', runs junk (init junk cb) os = .ok (a', (Spec.runs [] os).2) ∧ Holds a' (Spec.runs [] os).1 := by
  have key : ∀ (os : List Op) (a : PA) (L : List Ptr), Holds a L → Spec.Distinct L os → a.size + 32 * os.length < 2 ^ 31 - 32 →
      ∃ a', runs junk a os = .ok (a', (Spec.runs L os).2) ∧ Holds a' (Spec.runs L os).1 := by
    intro os
    induction os with
    | nil => intro a L h _ _; exact ⟨a, rfl, h⟩
    | cons o os ih =>
        intro a L h hd hs
        simp only [List.length_cons] at hs
        obtain ⟨a1, e1, h1, s1⟩ := exec_spec h junk hd.1 (by omega)
        obtain ⟨a2, e2, h2⟩ := ih a1 _ h1 hd.2 (by omega)
        refine ⟨a2, ?_, h2⟩
        rw [runs]
        refine Outcome.bind_eq_ok.2 ⟨_, e1, Outcome.bind_eq_ok.2 ⟨_, e2, rfl⟩⟩
  exact key os _ _ (c29_init junk cb) hd (by simp only [init]; omega)

/-- A history with additions, a deletion in the middle and reads meets the hypotheses. -/
example : Spec.Distinct [] [.add 7, .add 8, .add 9, .del 7, .get 0, .add 7, .get 2] ∧
    (Spec.runs [] [.add 7, .add 8, .add 9, .del 7, .get 0, .add 7, .get 2]).2 = [0, 0, 0, 0, 9, 0, 7] := by
  refine ⟨?_, by decide⟩
  simp [Spec.Distinct, Spec.exec]

end ZT.PtrArray
