import Verif.EList.Model

/-!
# Well-formed circular lists
-/

namespace ZT.EList

/-- `a`, then the nodes `xs` in order, then `b`: every `next` pointer leads one step forward and every `prev` pointer one step
back. -/
def Linked (H : Heap) (a : Addr) : List Addr → Addr → Prop
  | [], b => H.next a = b ∧ H.prev b = a
  | x :: xs, b => H.next a = x ∧ H.prev x = a ∧ Linked H x xs b

/-- The circular list headed by `h` contains exactly `xs`, in order. -/
def IsList (H : Heap) (h : Addr) (xs : List Addr) : Prop := Linked H h xs h ∧ (h :: xs).Nodup

theorem sp_p (H : Heap) (a v x : Addr) : (H.setPrev a v).prev x = if x = a then v else H.prev x := rfl
theorem sp_n (H : Heap) (a v x : Addr) : (H.setPrev a v).next x = H.next x := rfl
theorem sn_p (H : Heap) (a v x : Addr) : (H.setNext a v).prev x = H.prev x := rfl
theorem sn_n (H : Heap) (a v x : Addr) : (H.setNext a v).next x = if x = a then v else H.next x := rfl

theorem add_n (H : Heap) (h x y : Addr) : (add H h x).next y = if y = h then x else if y = x then H.next h else H.next y := rfl
theorem add_p (H : Heap) (h x y : Addr) : (add H h x).prev y = if y = x then h else if y = H.next h then x else H.prev y := rfl
theorem addTail_n (H : Heap) (h x y : Addr) : (addTail H h x).next y = if y = H.prev h then x else if y = x then h else H.next y := rfl
theorem addTail_p (H : Heap) (h x y : Addr) : (addTail H h x).prev y = if y = x then H.prev h else if y = h then x else H.prev y := rfl
theorem remove_n (H : Heap) (x y : Addr) : (remove H x).next y = if y = H.prev x then H.next x else H.next y := rfl
theorem remove_p (H : Heap) (x y : Addr) : (remove H x).prev y = if y = H.next x then H.prev x else H.prev y := rfl
theorem join_n (H : Heap) (h L y : Addr) : (join H h L).next y = if y = H.prev L then H.next h else if y = h then H.next L else H.next y := rfl
theorem join_p (H : Heap) (h L y : Addr) : (join H h L).prev y = if y = H.next h then H.prev L else if y = H.next L then h else H.prev y := rfl

theorem linked_append (H : Heap) (a b y : Addr) (xs ys : List Addr) :
    Linked H a (xs ++ y :: ys) b ↔ Linked H a xs y ∧ Linked H y ys b := by
  induction xs generalizing a with
  | nil => simp [Linked, and_assoc]
  | cons x xs ih => simp [Linked, ih, and_assoc]

/-- Only the `next` of `a :: xs` and the `prev` of `xs ++ [b]` matter. -/
theorem linked_frame (H H' : Heap) (a b : Addr) (xs : List Addr) (hn : ∀ x ∈ a :: xs, H'.next x = H.next x)
    (hp : ∀ x ∈ xs ++ [b], H'.prev x = H.prev x) (h : Linked H a xs b) : Linked H' a xs b := by
  induction xs generalizing a with
  | nil =>
      simp only [Linked] at *
      rw [hn a (by simp), hp b (by simp)]; exact h
  | cons x xs ih =>
      simp only [Linked] at *
      refine ⟨by rw [hn a (by simp)]; exact h.1, by rw [hp x (by simp)]; exact h.2.1, ih x ?_ ?_ h.2.2⟩
      · intro y hy; exact hn y (by simp at hy ⊢; right; exact hy)
      · intro y hy; exact hp y (by simp at hy ⊢; right; exact hy)

theorem isList_frame (H H' : Heap) (h : Addr) (xs : List Addr) (hl : IsList H h xs)
    (hn : ∀ x ∈ h :: xs, H'.next x = H.next x ∧ H'.prev x = H.prev x) : IsList H' h xs :=
  ⟨linked_frame H H' h h xs (fun x hx => (hn x hx).1) (fun x hx => (hn x (by simp at hx ⊢; exact hx.symm)).2) hl.1, hl.2⟩

theorem linked_prev_mem (H : Heap) (a b : Addr) (xs : List Addr) (h : Linked H a xs b) : H.prev b ∈ a :: xs := by
  induction xs generalizing a with
  | nil => simp [Linked] at h; simp [h.2]
  | cons x xs ih =>
      have := ih x h.2.2
      simp at this ⊢; right; exact this

theorem linked_next_mem (H : Heap) (a b : Addr) (xs : List Addr) (h : Linked H a xs b) : H.next a ∈ xs ++ [b] := by
  cases xs with
  | nil => simp [Linked] at h; simp [h.1]
  | cons x xs => simp [Linked] at h; simp [h.1]

/-! ### the four operations on one list -/

theorem reset_isList (H : Heap) (h : Addr) : IsList (reset H h) h [] := by
  simp [IsList, Linked, reset, sp_p, sn_p, sn_n]

theorem add_isList (H : Heap) (h x : Addr) (xs : List Addr) (hl : IsList H h xs) (hx : x ∉ h :: xs) :
    IsList (add H h x) h (x :: xs) := by
  obtain ⟨hl, hn⟩ := hl
  refine ⟨?_, by grind⟩
  cases xs with
  | nil => simp only [Linked] at *; grind [add_n, add_p]
  | cons q t =>
      simp only [Linked] at *
      refine ⟨by grind [add_n, add_p], by grind [add_n, add_p],
        by grind [add_n, add_p], by grind [add_n, add_p], ?_⟩
      exact linked_frame H _ q h t (by grind [add_n, add_p]) (by grind [add_n, add_p]) hl.2.2

theorem snoc_cases (l : List Addr) : l = [] ∨ ∃ t p, l = t ++ [p] := by
  rcases List.eq_nil_or_concat l with h | ⟨t, p, h⟩
  · exact .inl h
  · exact .inr ⟨t, p, by simpa using h⟩

theorem addTail_isList (H : Heap) (h x : Addr) (xs : List Addr) (hl : IsList H h xs) (hx : x ∉ h :: xs) :
    IsList (addTail H h x) h (xs ++ [x]) := by
  obtain ⟨hl, hn⟩ := hl
  refine ⟨?_, by grind⟩
  rw [linked_append]
  rcases snoc_cases xs with rfl | ⟨t, p, rfl⟩
  · simp only [Linked] at *; grind [addTail_n, addTail_p]
  · rw [linked_append] at *
    simp only [Linked] at *
    refine ⟨⟨?_, by grind [addTail_n, addTail_p]⟩, by grind [addTail_n, addTail_p]⟩
    exact linked_frame H _ h p t (by grind [addTail_n, addTail_p]) (by grind [addTail_n, addTail_p]) hl.1

theorem remove_isList (H : Heap) (h x : Addr) (l r : List Addr) (hl : IsList H h (l ++ x :: r)) :
    IsList (remove H x) h (l ++ r) := by
  obtain ⟨hl, hn⟩ := hl
  refine ⟨?_, by grind⟩
  rw [linked_append] at hl
  obtain ⟨h1, h2⟩ := hl
  rcases snoc_cases l with rfl | ⟨t, p, rfl⟩
  · cases r with
    | nil => simp only [Linked, List.append_nil] at *; grind [remove_n, remove_p]
    | cons q s =>
        simp only [Linked, List.nil_append] at *
        refine ⟨by grind [remove_n, remove_p], by grind [remove_n, remove_p], ?_⟩
        exact linked_frame H _ q h s (by grind [remove_n, remove_p]) (by grind [remove_n, remove_p]) h2.2.2
  · rw [linked_append] at h1
    have e : t ++ [p] ++ r = t ++ p :: r := by simp
    rw [e, linked_append]
    cases r with
    | nil =>
        simp only [Linked] at *
        refine ⟨?_, by grind [remove_n, remove_p]⟩
        exact linked_frame H _ h p t (by grind [remove_n, remove_p]) (by grind [remove_n, remove_p]) h1.1
    | cons q s =>
        simp only [Linked] at *
        refine ⟨?_, by grind [remove_n, remove_p], by grind [remove_n, remove_p], ?_⟩
        · exact linked_frame H _ h p t (by grind [remove_n, remove_p]) (by grind [remove_n, remove_p]) h1.1
        · exact linked_frame H _ q h s (by grind [remove_n, remove_p]) (by grind [remove_n, remove_p]) h2.2.2

theorem join_isList (H : Heap) (h L : Addr) (xs ys : List Addr) (hx : IsList H h xs) (hy : IsList H L ys) (hne : ys ≠ [])
    (hd : ∀ a ∈ h :: xs, a ∉ L :: ys) : IsList (join H h L) h (ys ++ xs) := by
  obtain ⟨hx, hnx⟩ := hx
  obtain ⟨hy, hny⟩ := hy
  refine ⟨?_, by grind⟩
  have hmem := linked_next_mem H h h xs hx
  have key : ∀ f t, ys = f :: t → ∀ s p, ys = s ++ [p] → Linked (join H h L) h (ys ++ xs) h := by
    intro f t hf s p hp
    have hlast : H.prev L = p := by rw [hp, linked_append] at hy; simp only [Linked] at hy; exact hy.2.2
    have hfirst : H.next L = f := by rw [hf] at hy; simp only [Linked] at hy; exact hy.1
    have e : ys ++ xs = s ++ p :: xs := by rw [hp]; simp
    rw [e, linked_append]
    constructor
    · rw [hp, linked_append] at hy
      cases s with
      | nil =>
          simp only [Linked] at *
          grind [join_n, join_p]
      | cons g s' =>
          have hgf : g = f := by rw [hp] at hf; simp at hf; exact hf.1
          subst hgf
          simp only [Linked] at *
          refine ⟨by grind [join_n, join_p], by grind [join_n, join_p], ?_⟩
          exact linked_frame H _ g p s' (by grind [join_n, join_p]) (by grind [join_n, join_p]) hy.1.2.2
    · cases xs with
      | nil => simp only [Linked] at *; grind [join_n, join_p]
      | cons q r =>
          simp only [Linked] at *
          refine ⟨by grind [join_n, join_p], by grind [join_n, join_p], ?_⟩
          exact linked_frame H _ q h r (by grind [join_n, join_p]) (by grind [join_n, join_p]) hx.2.2
  obtain ⟨f, t, hf⟩ := List.exists_cons_of_ne_nil hne
  rcases snoc_cases ys with h0 | ⟨s, p, hp⟩
  · exact absurd h0 hne
  · exact key f t hf s p hp

/-! ### what the operations leave alone -/

/-- Nodes outside the list and other than `x` keep their pointers. -/
theorem add_outside (H : Heap) (h x : Addr) (xs : List Addr) (hl : IsList H h xs) (y : Addr) (hy : y ∉ x :: h :: xs) :
    (add H h x).next y = H.next y ∧ (add H h x).prev y = H.prev y := by
  have := linked_next_mem H h h xs hl.1
  grind [add_n, add_p]

theorem addTail_outside (H : Heap) (h x : Addr) (xs : List Addr) (hl : IsList H h xs) (y : Addr) (hy : y ∉ x :: h :: xs) :
    (addTail H h x).next y = H.next y ∧ (addTail H h x).prev y = H.prev y := by
  have := linked_prev_mem H h h xs hl.1
  grind [addTail_n, addTail_p]

theorem remove_outside (H : Heap) (h x : Addr) (xs : List Addr) (hl : IsList H h xs) (hx : x ∈ xs) (y : Addr) (hy : y ∉ h :: xs) :
    (remove H x).next y = H.next y ∧ (remove H x).prev y = H.prev y := by
  obtain ⟨l, r, rfl⟩ := List.append_of_mem hx
  have h1 := (linked_append H h h x l r).mp hl.1
  have := linked_prev_mem H h x l h1.1
  have := linked_next_mem H x h r h1.2
  grind [remove_n, remove_p]

theorem join_outside (H : Heap) (h L : Addr) (xs ys : List Addr) (hx : IsList H h xs) (hy : IsList H L ys) (y : Addr)
    (hy1 : y ∉ h :: xs) (hy2 : y ∉ L :: ys) : (join H h L).next y = H.next y ∧ (join H h L).prev y = H.prev y := by
  have := linked_next_mem H h h xs hx.1
  have := linked_prev_mem H L L ys hy.1
  have := linked_next_mem H L L ys hy.1
  grind [join_n, join_p]

theorem reset_outside (H : Heap) (h y : Addr) (hy : y ≠ h) : (reset H h).next y = H.next y ∧ (reset H h).prev y = H.prev y := by
  grind [reset, sp_p, sp_n, sn_p, sn_n]

/-! ### traversals -/

theorem forEach_linked (H : Heap) (a h : Addr) (xs : List Addr) (hl : Linked H a xs h) (hh : h ∉ xs) (fuel : Nat) (hf : xs.length < fuel) :
    forEach H h fuel (H.next a) = some xs := by
  induction xs generalizing a fuel with
  | nil =>
      match fuel with
      | f + 1 => simp [Linked] at hl; simp [forEach, hl.1]
  | cons x xs ih =>
      match fuel with
      | f + 1 =>
          simp only [Linked] at hl
          have hx : x ≠ h := by rintro rfl; simp at hh
          rw [hl.1, forEach, if_pos hx, ih x hl.2.2 (by simp at hh; exact hh.2) f (by simpa using hf)]
          rfl

theorem backEach_linked (H : Heap) (h b : Addr) (xs : List Addr) (hl : Linked H h xs b) (hh : h ∉ xs) (fuel : Nat) (hf : xs.length < fuel) :
    backEach H h fuel (H.prev b) = some xs.reverse := by
  generalize hn : xs.length = n at hf
  induction n generalizing xs b fuel with
  | zero =>
      have := List.length_eq_zero_iff.mp hn
      subst this
      match fuel with
      | f + 1 => simp [Linked] at hl; simp [backEach, hl.2]
  | succ n ih =>
      rcases snoc_cases xs with rfl | ⟨t, p, rfl⟩
      · simp at hn
      · match fuel with
        | f + 1 =>
          rw [linked_append] at hl
          simp only [Linked] at hl
          have hx : p ≠ h := by rintro rfl; simp at hh
          rw [hl.2.2, backEach, if_pos hx, ih p t hl.1 (by simp at hh; exact hh.1) f (by simpa using hn) (by omega)]
          simp

end ZT.EList
