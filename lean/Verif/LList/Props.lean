import Verif.LList.Lemmas

/-!
# Property theorems for zt_llist (C15, C16, C57)

`IsL H p l` (Lemmas.lean): the pairs reachable from `p` are the cells `l` (address, item), ending in NULL.
-/

namespace ZT.LList
variable {V : Type}

/-- The items of a chain. -/
def items (l : List (Nat × V)) : List V := l.map (·.2)

/-- What a comparison function must provide: `cmp b a` nonzero only if `a` may precede `b`, zero only if `b` may precede `a`, for
some transitive relation. Both `b >= a` and `b > a` style functions qualify. -/
structure Orders (cmp : V → V → Bool) (le : V → V → Prop) : Prop where
  trans : ∀ a b c, le a b → le b c → le a c
  yes : ∀ a b, cmp b a = true → le a b
  no : ∀ a b, cmp b a = false → le b a

theorem mergeSpec_sorted (cmp : V → V → Bool) (le : V → V → Prop) (ho : Orders cmp le) (l1 l2 : List (Nat × V))
    (h1 : l1.Pairwise fun x y => le x.2 y.2) (h2 : l2.Pairwise fun x y => le x.2 y.2) :
    (mergeSpec cmp l1 l2).Pairwise fun x y => le x.2 y.2 := by
  fun_induction mergeSpec cmp l1 l2 with
  | case1 => exact h2
  | case2 => exact h1
  | case3 x xs y ys h ih =>
      rw [List.pairwise_cons] at h1 ⊢
      refine ⟨?_, ih h1.2 h2⟩
      intro z hz
      rw [(mergeSpec_perm cmp _ _).mem_iff, List.mem_append] at hz
      have hxy := ho.yes x.2 y.2 h
      rcases hz with hz | hz
      · exact h1.1 z hz
      · rw [List.pairwise_cons] at h2
        rcases List.mem_cons.mp hz with rfl | hz
        · exact hxy
        · exact ho.trans _ _ _ hxy (h2.1 z hz)
  | case4 x xs y ys h ih =>
      have hyx := ho.no x.2 y.2 (by simpa using h)
      rw [List.pairwise_cons] at h2
      rw [List.pairwise_cons]
      refine ⟨?_, ih h1 h2.2⟩
      intro z hz
      rw [(mergeSpec_perm cmp _ _).mem_iff, List.mem_append] at hz
      rcases hz with hz | hz
      · rw [List.pairwise_cons] at h1
        rcases List.mem_cons.mp hz with rfl | hz
        · exact hyx
        · exact ho.trans _ _ _ hyx (h1.1 z hz)
      · exact h2.1 z hz

theorem msort_sorted (cmp : V → V → Bool) (le : V → V → Prop) (ho : Orders cmp le) (l : List (Nat × V)) :
    (msort cmp l).Pairwise fun x y => le x.2 y.2 := by
  generalize hn : l.length = n
  induction n using Nat.strongRecOn generalizing l with
  | _ n ih =>
    rw [msort]
    split
    · match l with
      | [] => simp
      | [x] => simp
      | x :: y :: r => simp at *; omega
    · exact mergeSpec_sorted cmp le ho _ _ (ih (l.take ((l.length + 1) / 2)).length (by simp; omega) _ rfl)
        (ih (l.drop ((l.length + 1) / 2)).length (by simp; omega) _ rfl)

/-- **C15** `zt_llist_sort` terminates on every list, returns a chain of the same cells (no allocation, no other cell touched)
whose items are a permutation of the input in which no item precedes one that must come before it. -/
theorem sort_sorts (cmp : V → V → Bool) (le : V → V → Prop) (ho : Orders cmp le) (H : Heap V) (p : Ptr) (l : List (Nat × V)) (h : IsL H p l) :
    ∃ n, ∀ fuel ≥ n, ∃ H' q l', sort cmp fuel H p = .ok (H', q) ∧ IsL H' q l' ∧ l'.Perm l ∧ (items l').Perm (items l) ∧
      (items l').Pairwise le ∧ H'.brk = H.brk ∧ ∀ a, a ∉ adr l → H'.cells a = H.cells a := by
  refine ⟨l.length + 2, fun fuel hf => ?_⟩
  obtain ⟨H', q, e, hq, hb, hout⟩ := sort_spec cmp l H p fuel h (by omega)
  refine ⟨H', q, _, e, hq, msort_perm cmp l, (msort_perm cmp l).map _, ?_, hb, hout⟩
  rw [items, List.pairwise_map]
  exact msort_sorted cmp le ho l

/-- Both common styles of comparison satisfy the hypothesis. -/
example : Orders (fun b a : Nat => decide (a ≤ b)) (· ≤ ·) ∧ Orders (fun b a : Nat => decide (a < b)) (· ≤ ·) := by
  refine ⟨⟨?_, ?_, ?_⟩, ⟨?_, ?_, ?_⟩⟩
  · intro a b c; exact Nat.le_trans
  · intro a b h; simpa using h
  · intro a b h; simp at h; omega
  · intro a b c; exact Nat.le_trans
  · intro a b h; simp at h; omega
  · intro a b h; simpa using h

/-- A three-element chain. -/
def sampleHeap : Heap Nat :=
  { cells := fun a => if a = 1 then some ⟨30, some 2⟩ else if a = 2 then some ⟨10, some 3⟩ else if a = 3 then some ⟨20, none⟩ else none, brk := 4 }

example : IsL sampleHeap (some 1) [(1, 30), (2, 10), (3, 20)] := ⟨rfl, _, rfl, rfl, _, rfl, rfl, _, rfl, rfl⟩

/-- Elements equivalent under the preorder. -/
def eqv (le : V → V → Bool) (v : V) (x : Nat × V) : Bool := le x.2 v && le v x.2

theorem mergeSpec_stable (le : V → V → Bool) (tr : ∀ a b c, le a b = true → le b c = true → le a c = true) (v : V) (l1 l2 : List (Nat × V))
    (h1 : l1.Pairwise fun x y => le x.2 y.2 = true) :
    (mergeSpec (fun b a => le a b) l1 l2).filter (eqv le v) = l1.filter (eqv le v) ++ l2.filter (eqv le v) := by
  fun_induction mergeSpec (fun b a => le a b) l1 l2 with
  | case1 => simp
  | case2 => simp
  | case3 x xs y ys h ih =>
      rw [List.pairwise_cons] at h1
      rw [List.filter_cons, List.filter_cons, ih h1.2]
      split <;> simp
  | case4 x xs y ys h ih =>
      rw [List.filter_cons (x := y), List.filter_cons (x := y), ih h1]
      split
      · rename_i hy
        have hy' := hy
        rw [eqv, Bool.and_eq_true] at hy'
        have hnil : (x :: xs).filter (eqv le v) = [] := by
          rw [List.filter_eq_nil_iff]
          intro z hz hzv
          rw [eqv, Bool.and_eq_true] at hzv
          apply h
          rw [List.pairwise_cons] at h1
          rcases List.mem_cons.mp hz with rfl | hz
          · exact tr _ _ _ hzv.1 hy'.2
          · exact tr _ _ _ (h1.1 z hz) (tr _ _ _ hzv.1 hy'.2)
        rw [hnil]; simp
      · rfl

/-- **C15** With a `>=`-style comparison the sort is stable: equivalent elements keep their order. -/
theorem sort_stable (le : V → V → Bool) (tr : ∀ a b c, le a b = true → le b c = true → le a c = true)
    (tot : ∀ a b, le a b = true ∨ le b a = true) (H : Heap V) (p : Ptr) (l : List (Nat × V)) (h : IsL H p l) :
    ∃ n, ∀ fuel ≥ n, ∃ H' q l', sort (fun b a => le a b) fuel H p = .ok (H', q) ∧ IsL H' q l' ∧
      ∀ v, l'.filter (eqv le v) = l.filter (eqv le v) := by
  refine ⟨l.length + 2, fun fuel hf => ?_⟩
  obtain ⟨H', q, e, hq, hb, hout⟩ := sort_spec (fun b a => le a b) l H p fuel h (by omega)
  refine ⟨H', q, _, e, hq, fun v => ?_⟩
  have ho : Orders (fun b a => le a b) (fun a b => le a b = true) :=
    ⟨tr, fun _ _ h => h, fun a b h => by rcases tot a b with h' | h' <;> simp_all⟩
  clear e hq hb hout h hf
  generalize hn : l.length = n
  induction n using Nat.strongRecOn generalizing l with
  | _ n ih =>
    rw [msort]
    split
    · rfl
    · rw [mergeSpec_stable le tr v _ _ (msort_sorted _ _ ho _), ih (l.take ((l.length + 1) / 2)).length (by simp; omega) _ rfl,
        ih (l.drop ((l.length + 1) / 2)).length (by simp; omega) _ rfl, ← List.filter_append, List.take_append_drop]

/-- Finding: a three-way comparison (as for qsort: nonzero means different) does not sort: 1, 2 comes out as given in either
order. Here the sorted-looking chain 2, 1 is returned unchanged. -/
theorem sort_threeway_wrong : msort (fun b a : Nat => decide (b ≠ a)) [(1, 2), (2, 1)] = [(1, 2), (2, 1)] := by
  rw [msort, if_neg (by simp)]
  simp only [List.length_cons, List.length_nil]
  rw [show List.take ((0 + 1 + 1 + 1) / 2) [((1 : Nat), (2 : Nat)), (2, 1)] = [(1, 2)] from rfl,
    show List.drop ((0 + 1 + 1 + 1) / 2) [((1 : Nat), (2 : Nat)), (2, 1)] = [(2, 1)] from rfl,
    msort, if_pos (by simp), msort, if_pos (by simp)]
  simp [mergeSpec]

/-! ## Reversal -/

/-- **C16** Destructive reversal: the same cells in opposite order, nothing else touched. -/
theorem nreverse_reverses (H : Heap V) (p : Ptr) (l : List (Nat × V)) (h : IsL H p l) :
    ∃ n, ∀ fuel ≥ n, ∃ H' q, nreverse fuel H p = .ok (H', q) ∧ IsL H' q l.reverse ∧ H'.brk = H.brk ∧ ∀ a, a ∉ adr l → H'.cells a = H.cells a :=
  ⟨l.length + 1, fun fuel hf => nreverse_spec l H p fuel h (by omega)⟩

/-- Cells at or above the allocation mark are unused. -/
def Fresh (H : Heap V) : Prop := ∀ a, H.brk ≤ a → H.cells a = none

theorem cons_isL (H : Heap V) (hf : Fresh H) (v : V) (p : Ptr) (l : List (Nat × V)) (h : IsL H p l) :
    IsL (cons H v p).1 (cons H v p).2 ((H.brk, v) :: l) ∧ Fresh (cons H v p).1 ∧ (∀ a, a < H.brk → (cons H v p).1.cells a = H.cells a) := by
  refine ⟨⟨rfl, p, by simp [cons], isL_frame H _ p l ?_ h⟩, ?_, ?_⟩
  · intro a ha
    have := isL_cells H p l h a ha
    simp only [cons]
    rw [if_neg]; rintro rfl; exact this (hf _ (Nat.le_refl _))
  · intro a ha
    simp only [cons] at ha ⊢
    rw [if_neg (by omega)]; exact hf a (by omega)
  · intro a ha
    simp only [cons]; rw [if_neg (by omega)]

theorem revLoop_spec (l m : List (Nat × V)) (H : Heap V) (p r : Ptr) (fuel : Nat) (hfr : Fresh H) (hl : IsL H p l) (hm : IsL H r m) (hf : l.length < fuel) :
    ∃ H' q l', revLoop fuel H p r = .ok (H', q) ∧ IsL H' q (l' ++ m) ∧ items l' = (items l).reverse ∧ Fresh H' ∧ (∀ a ∈ adr l', H.brk ≤ a) ∧
      H.brk ≤ H'.brk ∧ ∀ a, a < H.brk → H'.cells a = H.cells a := by
  induction l generalizing m H p r fuel with
  | nil =>
      simp only [IsL] at hl; subst hl
      match fuel with
      | f + 1 => exact ⟨H, r, [], rfl, by simpa using hm, rfl, hfr, by simp [adr], Nat.le_refl _, fun _ _ => rfl⟩
  | cons x xs ih =>
      obtain ⟨a, v⟩ := x
      have h0 := hl
      simp only [IsL] at hl
      obtain ⟨rfl, t, hc, hl⟩ := hl
      match fuel with
      | f + 1 =>
        obtain ⟨c1, c2, c3⟩ := cons_isL H hfr v r m hm
        have lt : ∀ b ∈ adr ((a, v) :: xs), b < H.brk := by
          intro b hb
          have := isL_cells H _ _ h0 b hb
          apply Decidable.byContradiction
          intro hh; exact this (hfr b (by omega))
        have hl' : IsL (cons H v r).1 t xs := isL_frame H _ t xs (fun b hb => c3 b (lt b (by simp [adr] at hb ⊢; right; exact hb))) hl
        have hc' : (cons H v r).1.cells a = some ⟨v, t⟩ := by rw [c3 a (lt a (by simp [adr])), hc]
        obtain ⟨H', q, l', e, hq, hi, hfr', hnew, hbk, ho⟩ := ih ((H.brk, v) :: m) _ t _ f c2 hl' c1 (by simpa using hf)
        have hb1 : (cons H v r).1.brk = H.brk + 1 := rfl
        refine ⟨H', q, l' ++ [(H.brk, v)], ?_, by simpa using hq, ?_, hfr', ?_, by omega, ?_⟩
        · rw [revLoop, load_some H a _ hc, Outcome.ok_bind]
          simp only
          rw [load_some _ a _ hc', Outcome.ok_bind]
          exact e
        · simp [items] at hi ⊢; rw [hi]
        · intro b hb
          simp only [adr, List.map_append, List.mem_append] at hb
          rcases hb with hb | hb
          · have := hnew b hb; omega
          · simp at hb; omega
        · intro b hb
          rw [ho b (by omega), c3 b hb]

/-- **C16** Copying reversal: a new chain of fresh cells with the items in opposite order; the original chain is still there. -/
theorem reverse_reverses (H : Heap V) (hfr : Fresh H) (p : Ptr) (l : List (Nat × V)) (h : IsL H p l) :
    ∃ n, ∀ fuel ≥ n, ∃ H' q l', reverse fuel H p = .ok (H', q) ∧ IsL H' q l' ∧ items l' = (items l).reverse ∧ IsL H' p l ∧
      (∀ a ∈ adr l', a ∉ adr l) ∧ Fresh H' := by
  refine ⟨l.length + 1, fun fuel hf => ?_⟩
  obtain ⟨H', q, l', e, hq, hi, hfr', hnew, _, ho⟩ := revLoop_spec l [] H p none fuel hfr h rfl (by omega)
  rw [List.append_nil] at hq
  have lt : ∀ b ∈ adr l, b < H.brk := by
    intro b hb
    have := isL_cells H _ _ h b hb
    apply Decidable.byContradiction
    intro hh; exact this (hfr b (by omega))
  refine ⟨H', q, l', e, hq, hi, isL_frame H H' p l (fun b hb => ho b (lt b hb)) h, ?_, hfr'⟩
  intro a ha hm
  have := hnew a ha
  have := lt a hm
  omega

/-- **C16** Reversing twice restores the sequence: destructively (same cells) and by copying (same items). -/
theorem nreverse_twice (H : Heap V) (p : Ptr) (l : List (Nat × V)) (h : IsL H p l) :
    ∃ n, ∀ fuel ≥ n, ∃ H1 q1 H2 q2, nreverse fuel H p = .ok (H1, q1) ∧ nreverse fuel H1 q1 = .ok (H2, q2) ∧ IsL H2 q2 l := by
  refine ⟨l.length + 1, fun fuel hf => ?_⟩
  obtain ⟨H1, q1, e1, h1, _⟩ := nreverse_spec l H p fuel h (by omega)
  obtain ⟨H2, q2, e2, h2, _⟩ := nreverse_spec l.reverse H1 q1 fuel h1 (by simp; omega)
  exact ⟨H1, q1, H2, q2, e1, e2, by simpa using h2⟩

theorem reverse_twice (H : Heap V) (hfr : Fresh H) (p : Ptr) (l : List (Nat × V)) (h : IsL H p l) :
    ∃ n, ∀ fuel ≥ n, ∃ H1 q1 H2 q2 l2, reverse fuel H p = .ok (H1, q1) ∧ reverse fuel H1 q1 = .ok (H2, q2) ∧ IsL H2 q2 l2 ∧ items l2 = items l := by
  refine ⟨l.length + 1, fun fuel hf => ?_⟩
  obtain ⟨H1, q1, l1, e1, h1, hi1, hfr1, _, _, _⟩ := revLoop_spec l [] H p none fuel hfr h rfl (by omega)
  rw [List.append_nil] at h1
  have hl : l1.length = l.length := by have := congrArg List.length hi1; simpa [items] using this
  obtain ⟨H2, q2, l2, e2, h2, hi2, _, _, _, _⟩ := revLoop_spec l1 [] H1 q1 none fuel hfr1 h1 rfl (by omega)
  rw [List.append_nil] at h2
  exact ⟨H1, q1, H2, q2, l2, e1, e2, h2, by rw [hi2, hi1, List.reverse_reverse]⟩

/-! ## Stack use, indexing, freeing (C57) -/

/-- **C57** push prepends. -/
theorem push_spec (H : Heap V) (hf : Fresh H) (v : V) (p : Ptr) (l : List (Nat × V)) (h : IsL H p l) :
    ∃ a, a ∉ adr l ∧ IsL (push H v p).1 (push H v p).2 ((a, v) :: l) ∧ Fresh (push H v p).1 := by
  obtain ⟨c1, c2, _⟩ := cons_isL H hf v p l h
  refine ⟨H.brk, ?_, c1, c2⟩
  intro hm
  exact isL_cells H p l h _ hm (hf _ (Nat.le_refl _))

/-- **C57** pop returns and frees the first cell; NULL on the empty list. -/
theorem pop_spec (H : Heap V) (p : Ptr) (l : List (Nat × V)) (h : IsL H p l) :
    ∃ H' q, pop H p = .ok ((items l).head?, H', q) ∧ IsL H' q l.tail ∧ (∀ a v r, l = (a, v) :: r → H'.cells a = none) ∧
      ∀ a, a ∉ adr (l.take 1) → H'.cells a = H.cells a := by
  cases l with
  | nil =>
      simp only [IsL] at h; subst h
      exact ⟨H, none, rfl, rfl, by simp, fun _ _ => rfl⟩
  | cons x xs =>
      obtain ⟨a, v⟩ := x
      have hnd := isL_nodup H p _ h
      simp only [IsL] at h
      obtain ⟨rfl, t, hc, h⟩ := h
      refine ⟨H.upd a none, t, ?_, ?_, ?_, ?_⟩
      · rw [pop, ppop, load_some H a _ hc]
        simp only [Outcome.ok_bind, Outcome.pure_eq]
        rw [load_some H a _ hc, Outcome.ok_bind, free]
        simp [hc, items]
      · refine isL_frame H _ t xs ?_ h
        intro b hb
        rw [upd_cells, if_neg]; rintro rfl
        simp [adr] at hnd hb; exact hnd.1 _ hb.choose_spec
      · intro b w r e; cases e; simp [upd_cells]
      · intro b hb
        rw [upd_cells, if_neg]; rintro rfl; simp [adr] at hb

/-- **C57** `zt_llist_nth` returns the item at a position and aborts beyond the end; a negative offset means 0. -/
theorem nth_spec (H : Heap V) (p : Ptr) (l : List (Nat × V)) (h : IsL H p l) (offt : Int) :
    nth H p offt = match (items l)[offt.toNat]? with | some v => .ok v | none => .abort := by
  rw [nth]
  generalize offt.toNat = n
  induction l generalizing p n with
  | nil =>
      simp only [IsL] at h; subst h
      cases n <;> simp [walk, items]
  | cons x xs ih =>
      obtain ⟨a, v⟩ := x
      simp only [IsL] at h
      obtain ⟨rfl, t, hc, h⟩ := h
      cases n with
      | zero => simp [walk, items, load_some H a _ hc]
      | succ n =>
          rw [walk, load_some H a _ hc, Outcome.ok_bind]
          have := ih t h n
          simpa [items] using this

/-- **C57** `zt_llist_nthtail` returns the rest of the list after a position (NULL when the position is the last one) and aborts beyond the end; a negative offset means 0. -/
theorem nthtail_spec (H : Heap V) (p : Ptr) (l : List (Nat × V)) (h : IsL H p l) (offt : Int) :
    (offt.toNat < l.length → ∃ q, nthtail H p offt = .ok q ∧ IsL H q (l.drop (offt.toNat + 1))) ∧ (l.length ≤ offt.toNat → nthtail H p offt = .abort) := by
  unfold nthtail
  generalize offt.toNat = n
  induction l generalizing p n with
  | nil =>
      simp only [IsL] at h; subst h
      refine ⟨fun h => absurd h (by simp), fun _ => ?_⟩
      cases n <;> rfl
  | cons x xs ih =>
      obtain ⟨a, v⟩ := x
      simp only [IsL] at h
      obtain ⟨rfl, t, hc, h⟩ := h
      cases n with
      | zero =>
          refine ⟨fun _ => ⟨t, ?_, by simpa using h⟩, fun h => absurd h (by simp)⟩
          simp [walk, load_some H a _ hc]
      | succ n =>
          rw [walk, load_some H a _ hc, Outcome.ok_bind]
          have := ih t h n
          simpa using this

/-- **C57** Freeing a list frees each of its cells exactly once and no other cell. -/
theorem free_spec (H : Heap V) (p : Ptr) (l : List (Nat × V)) (h : IsL H p l) :
    ∃ n, ∀ fuel ≥ n, ∃ H', freeList fuel H p = .ok H' ∧ (∀ a ∈ adr l, H'.cells a = none) ∧ ∀ a, a ∉ adr l → H'.cells a = H.cells a := by
  refine ⟨l.length + 1, fun fuel hf => ?_⟩
  induction l generalizing H p fuel with
  | nil =>
      simp only [IsL] at h; subst h
      match fuel with
      | f + 1 => exact ⟨H, rfl, by simp [adr], fun _ _ => rfl⟩
  | cons x xs ih =>
      obtain ⟨a, v⟩ := x
      have hnd := isL_nodup H p _ h
      simp only [IsL] at h
      obtain ⟨rfl, t, hc, h⟩ := h
      have ha : a ∉ adr xs := by simp [adr] at hnd ⊢; exact hnd.1
      match fuel with
      | f + 1 =>
        have h' : IsL (H.upd a none) t xs := isL_frame H _ t xs (by
          intro b hb; rw [upd_cells, if_neg]; rintro rfl; exact ha hb) h
        obtain ⟨H', e, h1, h2⟩ := ih _ t h' f (by simp at hf; omega)
        refine ⟨H', ?_, ?_, ?_⟩
        · rw [freeList, load_some H a _ hc, Outcome.ok_bind, free]
          simp only [hc]
          exact e
        · intro b hb
          simp [adr] at hb
          rcases hb with rfl | hb
          · rw [h2 b ha, upd_cells, if_pos rfl]
          · exact h1 b (by simp [adr]; exact hb)
        · intro b hb
          simp [adr] at hb
          rw [h2 b (by simp [adr]; exact hb.2), upd_cells, if_neg hb.1]

/-- C57 (split): zt_llist_split cuts the list in two halves, in place: the first half (the longer one if the number of items is odd) stays, the rest is returned. An empty list gives NULL; a list of one item is returned itself. Only cells of the list change. -/
theorem split_halves (l : List (Nat × V)) (H : Heap V) (p : Ptr) (fuel : Nat) (h : IsL H p l) (hf : l.length ≤ fuel) :
    ∃ H' q, split fuel H p = .ok (H', q) ∧ (∀ a, a ∉ adr l → H'.cells a = H.cells a) ∧
      (if l.length < 2 then q = p ∧ H' = H else IsL H' p (l.take ((l.length + 1) / 2)) ∧ IsL H' q (l.drop ((l.length + 1) / 2))) := by
  match l, h with
  | [], h =>
      simp only [IsL] at h; subst h
      exact ⟨H, none, rfl, fun _ _ => rfl, by simp⟩
  | [(a, v)], h =>
      simp only [IsL] at h
      obtain ⟨rfl, t, hc, rfl⟩ := h
      refine ⟨H, some a, ?_, fun _ _ => rfl, by simp⟩
      rw [split, load_some H a _ hc, Outcome.ok_bind]; rfl
  | x :: y :: rest, h =>
      obtain ⟨H', q, e, h1, h2, _, h3⟩ := split_spec (x :: y :: rest) H p fuel h (by simp) hf
      refine ⟨H', q, e, h3, ?_⟩
      rw [if_neg (by simp)]
      exact ⟨h1, h2⟩

end ZT.LList
