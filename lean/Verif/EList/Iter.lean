import Verif.EList.Props

/-!
# C137: lists that change while they are iterated over

`zt_elist_for_each` and `zt_elist_for_each_safe` (zt_list.h 43-49) with bodies that insert, remove, move and join; insertion next to a member (zt_elist_add and zt_elist_add_tail
with a member in the place of the head).
-/

namespace ZT.EList

/-! ## Model -/

/-- The statement after `zt_elist_for_each(h, p)` or `zt_elist_for_each_safe(h, p, n)` (zt_list.h 43-49): a program with a state of its own; which operations it performs may depend
on this state, on the node and on all pointers. -/
abbrev Body (σ : Type) := σ → Addr → Heap → List Op × σ

/-- zt_list.h 43-45 `zt_elist_for_each`: at most `k` rounds from `p`. The result: for each round the node and the operations performed; the states; and `p`, which is `h` if the
loop has ended. -/
def rounds {σ : Type} (body : Body σ) (h : Addr) : (k : Nat) → σ → Heap → Addr → List (Addr × List Op) × σ × Heap × Addr
  | 0, s, H, p => ([], s, H, p)
  | k + 1, s, H, p =>
      if p = h then ([], s, H, p)
      else
        let b := body s p H
        let H' := b.1.foldl exec H
        let r := rounds body h k b.2 H' (H'.next p)
        ((p, b.1) :: r.1, r.2)

/-- zt_list.h 43-45 from the beginning. -/
def forEachDo {σ : Type} (body : Body σ) (h : Addr) (k : Nat) (s : σ) (H : Heap) : List (Addr × List Op) × σ × Heap × Addr := rounds body h k s H (H.next h)

/-- zt_list.h 47-49 `zt_elist_for_each_safe`: at most `k` rounds. -/
def roundsSafe {σ : Type} (body : Body σ) (h : Addr) : (k : Nat) → σ → Heap → (p n : Addr) → List (Addr × List Op) × σ × Heap × Addr
  | 0, s, H, p, _ => ([], s, H, p)
  | k + 1, s, H, p, n =>
      if p = h then ([], s, H, p)
      else
        let b := body s p H
        let H' := b.1.foldl exec H
        let r := roundsSafe body h k b.2 H' n (H'.next n)
        ((p, b.1) :: r.1, r.2)

/-- zt_list.h 47-49 from the beginning. -/
def forEachSafeDo {σ : Type} (body : Body σ) (h : Addr) (k : Nat) (s : σ) (H : Heap) : List (Addr × List Op) × σ × Heap × Addr :=
  roundsSafe body h k s H (H.next h) (H.next (H.next h))

/-! ## Specification -/

/-- The legal operations: those of C12, and insertion after or before a member. -/
inductive Change : Abs → Op → Abs → Prop
  | step {A op B} : Step A op B → Change A op B
  | after {A h p x l r} : A h = some (l ++ p :: r) → Free A x → Change A (.add p x) (A.set h (some (l ++ p :: x :: r)))
  | before {A h p x l r} : A h = some (l ++ p :: r) → Free A x → Change A (.addTail p x) (A.set h (some (l ++ x :: p :: r)))

/-- Legal operations on any lists that do not remove `keep`, do not empty the list `h` and do not move it into another one. -/
inductive Does (h keep : Addr) : Abs → List Op → Abs → Prop
  | nil {A} : Does h keep A [] A
  | cons {A B C op ops} : Change A op B → op ≠ .remove keep → op ≠ .reset h → (∀ g, op ≠ .join g h) → Does h keep B ops C → Does h keep A (op :: ops) C

/-- The first of `r`, or the head. -/
def firstOr (h : Addr) (r : List Addr) : Addr := r.head?.getD h

/-- What `zt_elist_for_each` does to sequences: after each round it goes on with what follows the visited node then. -/
inductive Replay (h : Addr) : Abs → Addr → List (Addr × List Op) → Abs → Addr → Prop
  | stop {A p} : Replay h A p [] A p
  | round {A B C p q l r l' r' ops tr} : A h = some (l ++ p :: r) → Does h p A ops B → B h = some (l' ++ p :: r') → Replay h B (firstOr h r') tr C q → Replay h A p ((p, ops) :: tr) C q

/-- `zt_elist_for_each_safe`: it goes on with what followed the visited node before the round. -/
inductive ReplaySafe (h : Addr) : Abs → Addr → List (Addr × List Op) → Abs → Addr → Prop
  | stop {A p} : ReplaySafe h A p [] A p
  | round {A B C p q l r ops tr} : A h = some (l ++ p :: r) → Does h (firstOr h r) A ops B → ReplaySafe h B (firstOr h r) tr C q → ReplaySafe h A p ((p, ops) :: tr) C q

/-- The nodes visited. -/
def visited (tr : List (Addr × List Op)) : List Addr := tr.map (·.1)

/-- All operations performed. -/
def made (tr : List (Addr × List Op)) : List Op := tr.flatMap (·.2)

/-- The nodes inserted somewhere. -/
def added : List Op → List Addr
  | [] => []
  | .add _ x :: ops => x :: added ops
  | .addTail _ x :: ops => x :: added ops
  | .reset _ :: ops => added ops
  | .remove _ :: ops => added ops
  | .join _ _ :: ops => added ops

/-! ## Proof -/

theorem rotate {H : Heap} {h p : Addr} {l r : List Addr} (L : IsList H h (l ++ p :: r)) : IsList H p (r ++ h :: l) := by
  obtain ⟨h1, h2⟩ := L
  rw [linked_append] at h1
  refine ⟨(linked_append H p p h r l).2 ⟨h1.2, h1.1⟩, ?_⟩
  grind

theorem rep_ins {H H' : Heap} {A : Abs} {h x : Addr} {xs xs' : List Addr} (R : Rep H A) (hx : A h = some xs) (hf : Free A x) (hp : ∀ y, y ∈ xs' ↔ y = x ∨ y ∈ xs) (hl : IsList H' h xs')
    (ho : ∀ y, y ∉ x :: h :: xs → H'.next y = H.next y ∧ H'.prev y = H.prev y) : Rep H' (A.set h (some xs')) := by
  have d := R.disjoint
  have f1 := hf.1
  have f2 := hf.2
  constructor
  · intro h' ys hy
    rw [set_eq] at hy
    split at hy
    · subst_vars; cases hy; exact hl
    · rename_i hne
      refine isList_frame H _ h' ys (R.lists _ _ hy) ?_
      intro y hm
      refine ho y ?_
      have := d _ _ _ _ hy hx hne y hm
      have := f2 _ _ hy
      grind
  · intro h1 h2 l1 l2 e1 e2 hne y hy
    rw [set_eq] at e1 e2
    split at e1 <;> split at e2
    · subst_vars; exact absurd rfl hne
    · have := d h h2 xs l2 hx e2; have := f2 h2 l2 e2; have := hp y; grind
    · have := d h1 h l1 xs e1 hx; have := f2 h1 l1 e1; have := hp y; grind
    · exact d _ _ _ _ e1 e2 hne y hy

theorem change_rep {H : Heap} {A B : Abs} {op : Op} (R : Rep H A) (s : Change A op B) : Rep (exec H op) B := by
  cases s with
  | step s => exact step_rep H A B op R s
  | @after h p x l r hx hf =>
      have L := R.lists _ _ hx
      have hxn : x ∉ h :: (l ++ p :: r) := by have := hf.2 _ _ hx; have := hf.1; grind
      have L' := rotate L
      refine rep_ins R hx hf (xs' := l ++ p :: x :: r) (by intro y; simp; grind) ?_ ?_
      · have := add_isList H p x _ L' (by grind)
        exact rotate (l := x :: r) this
      · intro y hy
        exact add_outside H p x _ L' y (by grind)
  | @before h p x l r hx hf =>
      have L := R.lists _ _ hx
      have hxn : x ∉ h :: (l ++ p :: r) := by have := hf.2 _ _ hx; have := hf.1; grind
      have L' := rotate L
      refine rep_ins R hx hf (xs' := l ++ x :: p :: r) (by intro y; simp; grind) ?_ ?_
      · have := addTail_isList H p x _ L' (by grind)
        have e : (r ++ h :: l) ++ [x] = r ++ h :: (l ++ [x]) := by simp
        rw [e] at this
        have := rotate this
        show IsList (addTail H p x) h _
        simpa using this
      · intro y hy
        exact addTail_outside H p x _ L' y (by grind)

theorem does_rep {h keep : Addr} {A B : Abs} {ops : List Op} (D : Does h keep A ops B) : ∀ {H : Heap}, Rep H A → Rep (ops.foldl exec H) B := by
  induction D with
  | nil => intro H R; exact R
  | cons c _ _ _ _ ih => intro H R; exact ih (change_rep R c)

theorem split_two {c p : Addr} {l r l0 r0 : List Addr} (h : l0 ++ p :: r0 = l ++ c :: r) :
    (∃ m, l = l0 ++ p :: m ∧ r0 = m ++ c :: r) ∨ (l = l0 ∧ p = c ∧ r0 = r) ∨ (∃ m, r = m ++ p :: r0 ∧ l0 = l ++ c :: m) := by
  rcases List.append_eq_append_iff.1 h with ⟨m, h1, h2⟩ | ⟨m, h1, h2⟩
  · cases m with
    | nil => simp at h1 h2; exact .inr (.inl ⟨h1, h2.1, h2.2⟩)
    | cons q m => simp at h2; obtain ⟨rfl, rfl⟩ := h2; exact .inl ⟨m, h1, rfl⟩
  · cases m with
    | nil => simp at h1 h2; exact .inr (.inl ⟨h1.symm, h2.1.symm, h2.2.symm⟩)
    | cons q m => simp at h2; obtain ⟨rfl, rfl⟩ := h2; exact .inr (.inr ⟨m, rfl, h1⟩)

/-- What happens to the parts of a list before and after a node that stays. -/
structure Kept (l r l' r' : List Addr) (c : Addr) (ops : List Op) : Prop where
  front : ∀ P : Addr → Bool, (∀ y, P y = true → y ∈ l ++ c :: r ∧ .remove y ∉ ops) → l'.filter P = l.filter P
  back : ∀ P : Addr → Bool, (∀ y, P y = true → y ∈ l ++ c :: r ∧ .remove y ∉ ops) → r'.filter P = r.filter P
  size : r'.length ≤ r.length + (added ops).length
  new : ∀ y ∈ r', y ∈ r ∨ y ∈ added ops

theorem filter_without {P : Addr → Bool} {x : Addr} (h : P x = false) (l r : List Addr) : (l ++ x :: r).filter P = (l ++ r).filter P := by
  simp [h]

theorem change_kept {H : Heap} {A B : Abs} {op : Op} {h c : Addr} {l r : List Addr} (R : Rep H A) (s : Change A op B) (hA : A h = some (l ++ c :: r)) (h1 : op ≠ .remove c) (h2 : op ≠ .reset h)
    (h3 : ∀ g, op ≠ .join g h) : ∃ l' r', B h = some (l' ++ c :: r') ∧ Kept l r l' r' c [op] := by
  have same : ∀ {n : Nat}, r.length ≤ r.length + n := by omega
  have fresh : ∀ {x}, Free A x → x ∉ l ++ c :: r := fun hf => hf.2 _ _ hA
  cases s with
  | step s =>
      cases s with
      | @reset g hf =>
          have hg : h ≠ g := by rintro rfl; exact h2 rfl
          exact ⟨l, r, by rw [set_eq, if_neg hg]; exact hA, fun _ _ => rfl, fun _ _ => rfl, same, fun _ hy => .inl hy⟩
      | @add g x xs hg hf =>
          by_cases hgh : h = g
          · subst hgh
            rw [hA] at hg; cases hg
            refine ⟨x :: l, r, by rw [set_eq, if_pos rfl]; rfl, fun P hP => ?_, fun _ _ => rfl, same, fun _ hy => .inl hy⟩
            have : P x = false := by
              cases hq : P x with
              | false => rfl
              | true => exact absurd (hP x hq).1 (fresh hf)
            simp [this]
          · exact ⟨l, r, by rw [set_eq, if_neg hgh]; exact hA, fun _ _ => rfl, fun _ _ => rfl, same, fun _ hy => .inl hy⟩
      | @addTail g x xs hg hf =>
          by_cases hgh : h = g
          · subst hgh
            rw [hA] at hg; cases hg
            refine ⟨l, r ++ [x], by rw [set_eq, if_pos rfl]; simp, fun _ _ => rfl, fun P hP => ?_, by simp [added], by simp [added] <;> grind⟩
            have : P x = false := by
              cases hq : P x with
              | false => rfl
              | true => exact absurd (hP x hq).1 (fresh hf)
            simp [this]
          · exact ⟨l, r, by rw [set_eq, if_neg hgh]; exact hA, fun _ _ => rfl, fun _ _ => rfl, same, fun _ hy => .inl hy⟩
      | @remove g x l0 r0 hg =>
          by_cases hgh : h = g
          · subst hgh
            rw [hA, Option.some.injEq] at hg
            have px : ∀ P : Addr → Bool, (∀ y, P y = true → y ∈ l ++ c :: r ∧ .remove y ∉ [Op.remove x]) → P x = false := by
              intro P hP
              cases hq : P x with
              | false => rfl
              | true => exact absurd (by simp) (hP x hq).2
            rcases split_two hg.symm with ⟨m, rfl, rfl⟩ | ⟨rfl, rfl, rfl⟩ | ⟨m, rfl, rfl⟩
            · exact ⟨l0 ++ m, r, by rw [set_eq, if_pos rfl]; simp, fun P hP => (filter_without (px P hP) _ _).symm, fun _ _ => rfl, same, fun _ hy => .inl hy⟩
            · exact absurd rfl h1
            · refine ⟨l, m ++ r0, by rw [set_eq, if_pos rfl]; simp, fun _ _ => rfl, fun P hP => (filter_without (px P hP) _ _).symm, by simp; omega, by simp [added] <;> grind⟩
          · exact ⟨l, r, by rw [set_eq, if_neg hgh]; exact hA, fun _ _ => rfl, fun _ _ => rfl, same, fun _ hy => .inl hy⟩
      | @join g k xs ys hg hk hgk hne =>
          have hkh : h ≠ k := by rintro rfl; exact h3 g rfl
          by_cases hgh : h = g
          · subst hgh
            have hd := R.disjoint _ _ _ _ hg hk hgk
            rw [hA] at hg; cases hg
            refine ⟨ys ++ l, r, by rw [set_eq, if_neg hkh, set_eq, if_pos rfl]; simp, fun P hP => ?_, fun _ _ => rfl, same, fun _ hy => .inl hy⟩
            rw [List.filter_append]
            have : ys.filter P = [] := by
              rw [List.filter_eq_nil_iff]
              intro y hy hq
              exact hd y (List.mem_cons_of_mem _ (hP y hq).1) (List.mem_cons_of_mem _ hy)
            rw [this]; rfl
          · exact ⟨l, r, by rw [set_eq, if_neg hkh, set_eq, if_neg hgh]; exact hA, fun _ _ => rfl, fun _ _ => rfl, same, fun _ hy => .inl hy⟩
  | @after g p x l0 r0 hg hf =>
      by_cases hgh : h = g
      · subst hgh
        rw [hA, Option.some.injEq] at hg
        have px : ∀ P : Addr → Bool, (∀ y, P y = true → y ∈ l ++ c :: r ∧ .remove y ∉ [Op.add p x]) → P x = false := by
          intro P hP
          cases hq : P x with
          | false => rfl
          | true => exact absurd (hP x hq).1 (fresh hf)
        rcases split_two hg.symm with ⟨m, rfl, rfl⟩ | ⟨rfl, rfl, rfl⟩ | ⟨m, rfl, rfl⟩
        · refine ⟨l0 ++ p :: x :: m, r, by rw [set_eq, if_pos rfl]; simp, fun P hP => ?_, fun _ _ => rfl, same, fun _ hy => .inl hy⟩
          simp [List.filter_cons, px P hP]
        · refine ⟨l, x :: r0, by rw [set_eq, if_pos rfl], fun _ _ => rfl, fun P hP => ?_, by simp [added], by simp [added] <;> grind⟩
          simp [px P hP]
        · refine ⟨l, m ++ p :: x :: r0, by rw [set_eq, if_pos rfl]; simp, fun _ _ => rfl, fun P hP => ?_, by simp [added]; omega, by simp [added] <;> grind⟩
          simp [List.filter_cons, px P hP]
      · exact ⟨l, r, by rw [set_eq, if_neg hgh]; exact hA, fun _ _ => rfl, fun _ _ => rfl, same, fun _ hy => .inl hy⟩
  | @before g p x l0 r0 hg hf =>
      by_cases hgh : h = g
      · subst hgh
        rw [hA, Option.some.injEq] at hg
        have px : ∀ P : Addr → Bool, (∀ y, P y = true → y ∈ l ++ c :: r ∧ .remove y ∉ [Op.addTail p x]) → P x = false := by
          intro P hP
          cases hq : P x with
          | false => rfl
          | true => exact absurd (hP x hq).1 (fresh hf)
        rcases split_two hg.symm with ⟨m, rfl, rfl⟩ | ⟨rfl, rfl, rfl⟩ | ⟨m, rfl, rfl⟩
        · refine ⟨l0 ++ x :: p :: m, r, by rw [set_eq, if_pos rfl]; simp, fun P hP => ?_, fun _ _ => rfl, same, fun _ hy => .inl hy⟩
          simp [List.filter_cons, px P hP]
        · refine ⟨l ++ [x], r0, by rw [set_eq, if_pos rfl]; simp, fun P hP => ?_, fun _ _ => rfl, same, fun _ hy => .inl hy⟩
          simp [px P hP]
        · refine ⟨l, m ++ x :: p :: r0, by rw [set_eq, if_pos rfl]; simp, fun _ _ => rfl, fun P hP => ?_, by simp [added]; omega, by simp [added] <;> grind⟩
          simp [List.filter_cons, px P hP]
      · exact ⟨l, r, by rw [set_eq, if_neg hgh]; exact hA, fun _ _ => rfl, fun _ _ => rfl, same, fun _ hy => .inl hy⟩

theorem added_append (a b : List Op) : added (a ++ b) = added a ++ added b := by
  induction a with
  | nil => rfl
  | cons op a ih => cases op <;> simp [added, ih]

theorem does_kept {h c : Addr} {A B : Abs} {ops : List Op} (D : Does h c A ops B) : ∀ {H : Heap} {l r : List Addr}, Rep H A → A h = some (l ++ c :: r) →
    ∃ l' r', B h = some (l' ++ c :: r') ∧ Kept l r l' r' c ops := by
  induction D with
  | nil => intro H l r R hA; exact ⟨l, r, hA, fun _ _ => rfl, fun _ _ => rfl, by simp [added], fun _ hy => .inl hy⟩
  | @cons A B C op ops s h1 h2 h3 _ ih =>
      intro H l r R hA
      obtain ⟨l1, r1, hB, k1⟩ := change_kept R s hA h1 h2 h3
      obtain ⟨l2, r2, hC, k2⟩ := ih (change_rep R s) hB
      have ad : added (op :: ops) = added [op] ++ added ops := added_append [op] ops
      have step : ∀ P : Addr → Bool, (∀ y, P y = true → y ∈ l ++ c :: r ∧ .remove y ∉ op :: ops) →
          (∀ y, P y = true → y ∈ l ++ c :: r ∧ .remove y ∉ [op]) ∧ (∀ y, P y = true → y ∈ l1 ++ c :: r1 ∧ .remove y ∉ ops) := by
        intro P hP
        have q1 : ∀ y, P y = true → y ∈ l ++ c :: r ∧ .remove y ∉ [op] := fun y hy => ⟨(hP y hy).1, fun hm => (hP y hy).2 (by simp at hm; simp [hm])⟩
        refine ⟨q1, fun y hy => ⟨?_, fun hm => (hP y hy).2 (by simp [hm])⟩⟩
        have f := k1.front P q1
        have b := k1.back P q1
        rcases List.mem_append.1 (hP y hy).1 with hm | hm
        · have : y ∈ l1.filter P := by rw [f]; exact List.mem_filter.2 ⟨hm, hy⟩
          exact List.mem_append_left _ (List.mem_filter.1 this).1
        · rcases List.mem_cons.1 hm with rfl | hm
          · simp
          · have : y ∈ r1.filter P := by rw [b]; exact List.mem_filter.2 ⟨hm, hy⟩
            exact List.mem_append_right _ (List.mem_cons_of_mem _ (List.mem_filter.1 this).1)
      refine ⟨l2, r2, hC, fun P hP => ?_, fun P hP => ?_, ?_, ?_⟩
      · rw [k2.front P (step P hP).2, k1.front P (step P hP).1]
      · rw [k2.back P (step P hP).2, k1.back P (step P hP).1]
      · have a := k1.size; have b := k2.size
        rw [ad, List.length_append]; omega
      · intro y hy
        rw [ad, List.mem_append]
        rcases k2.new y hy with h | h
        · rcases k1.new y h with h | h
          · exact .inl h
          · exact .inr (.inl h)
        · exact .inr (.inr h)

theorem change_head {A B : Abs} {op : Op} {h : Addr} (s : Change A op B) (h3 : ∀ g, op ≠ .join g h) (hA : (A h).isSome) : (B h).isSome := by
  cases s with
  | step s =>
      cases s with
      | reset _ => rw [set_eq]; split <;> simp [hA]
      | add _ _ => rw [set_eq]; split <;> simp [hA]
      | addTail _ _ => rw [set_eq]; split <;> simp [hA]
      | remove _ => rw [set_eq]; split <;> simp [hA]
      | @join g k _ _ _ _ _ _ =>
          have hkh : h ≠ k := by rintro rfl; exact h3 g rfl
          rw [set_eq, if_neg hkh, set_eq]; split <;> simp [hA]
  | after _ _ => rw [set_eq]; split <;> simp [hA]
  | before _ _ => rw [set_eq]; split <;> simp [hA]

theorem does_head {h c : Addr} {A B : Abs} {ops : List Op} (D : Does h c A ops B) (hA : (A h).isSome) : (B h).isSome := by
  induction D with
  | nil => exact hA
  | cons s _ _ h3 _ ih => exact ih (change_head s h3 hA)

theorem next_member {H : Heap} {h p : Addr} {l r : List Addr} (L : IsList H h (l ++ p :: r)) : H.next p = firstOr h r := by
  have := ((linked_append H h h p l r).1 L.1).2
  cases r with
  | nil => exact this.1
  | cons q r => exact this.1

theorem next_head {H : Heap} {h : Addr} {xs : List Addr} (L : IsList H h xs) : H.next h = firstOr h xs := by
  have := L.1
  cases xs with
  | nil => exact this.1
  | cons q r => exact this.1

theorem rounds_ok {σ : Type} {body : Body σ} {h : Addr} {Inv : σ → Abs → Prop}
    (hb : ∀ s p H A l r, Inv s A → Rep H A → A h = some (l ++ p :: r) → ∃ B, Does h p A (body s p H).1 B ∧ Inv (body s p H).2 B) (k : Nat) :
    ∀ {H : Heap} {A : Abs} {l r : List Addr} (s : σ), Inv s A → Rep H A → A h = some (l ++ r) →
    ∃ tr s' H' q B, rounds body h k s H (firstOr h r) = (tr, s', H', q) ∧ Inv s' B ∧ Rep H' B ∧ Replay h A (firstOr h r) tr B q ∧ (q = h ∨ tr.length = k) := by
  induction k with
  | zero => intro H A l r s I R hA; exact ⟨[], s, H, _, A, rfl, I, R, .stop, .inr rfl⟩
  | succ k ih =>
      intro H A l r s I R hA
      cases r with
      | nil => exact ⟨[], s, H, h, A, by simp [rounds, firstOr], I, R, .stop, .inl rfl⟩
      | cons p r =>
          have hne : p ≠ h := by have := (R.lists _ _ hA).2; grind
          obtain ⟨B, D, I'⟩ := hb s p H A l r I R hA
          have R' := does_rep D R
          obtain ⟨l', r', hB, -⟩ := does_kept D R hA
          have hnx := next_member (R'.lists _ _ hB)
          obtain ⟨tr, s', H', q, C, e, i1, i2, i3, i4⟩ := ih (l := l' ++ [p]) (r := r') _ I' R' (by rw [hB]; simp)
          refine ⟨(p, (body s p H).1) :: tr, s', H', q, C, ?_, i1, i2, .round hA D hB i3, ?_⟩
          · show rounds body h (k + 1) s H p = _
            simp only [rounds, if_neg hne, hnx, e]
          · rcases i4 with h | h
            · exact .inl h
            · exact .inr (by simp [h])

theorem roundsSafe_ok {σ : Type} {body : Body σ} {h : Addr} {Inv : σ → Abs → Prop}
    (hb : ∀ s p H A l r, Inv s A → Rep H A → A h = some (l ++ p :: r) → ∃ B, Does h (firstOr h r) A (body s p H).1 B ∧ Inv (body s p H).2 B) (k : Nat) :
    ∀ {H : Heap} {A : Abs} {l r : List Addr} (s : σ), Inv s A → Rep H A → A h = some (l ++ r) →
    ∃ tr s' H' q B, roundsSafe body h k s H (firstOr h r) (H.next (firstOr h r)) = (tr, s', H', q) ∧ Inv s' B ∧ Rep H' B ∧ ReplaySafe h A (firstOr h r) tr B q ∧ (q = h ∨ tr.length = k) := by
  induction k with
  | zero => intro H A l r s I R hA; exact ⟨[], s, H, _, A, rfl, I, R, .stop, .inr rfl⟩
  | succ k ih =>
      intro H A l r s I R hA
      cases r with
      | nil => exact ⟨[], s, H, h, A, by simp [roundsSafe, firstOr], I, R, .stop, .inl rfl⟩
      | cons p r =>
          have hne : p ≠ h := by have := (R.lists _ _ hA).2; grind
          obtain ⟨B, D, I'⟩ := hb s p H A l r I R hA
          have R' := does_rep D R
          have hnx := next_member (R.lists _ _ hA)
          have hB : ∃ l' r', B h = some (l' ++ r') ∧ firstOr h r' = firstOr h r := by
            cases r with
            | nil =>
                obtain ⟨xs, hx⟩ := Option.isSome_iff_exists.1 (does_head D (by rw [hA]; rfl))
                exact ⟨xs, [], by simpa using hx, rfl⟩
            | cons n r =>
                obtain ⟨l', r', hB, -⟩ := does_kept (l := l ++ [p]) (r := r) D R (by rw [hA]; simp [firstOr])
                exact ⟨l', n :: r', hB, rfl⟩
          obtain ⟨l', r', hB, hf⟩ := hB
          obtain ⟨tr, s', H', q, C, e, i1, i2, i3, i4⟩ := ih (l := l') (r := r') _ I' R' hB
          rw [hf] at e i3
          refine ⟨(p, (body s p H).1) :: tr, s', H', q, C, ?_, i1, i2, .round hA D i3, ?_⟩
          · show roundsSafe body h (k + 1) s H p (H.next p) = _
            simp only [roundsSafe, if_neg hne, hnx, e]
          · rcases i4 with h | h
            · exact .inl h
            · exact .inr (by simp [h])

/-- What both loops guarantee about the rounds `tr` over the list `h` that begin with the elements `xs` and lead to the lists `B`, with `q` as the node to go on with (`h` if the
loop has ended). -/
structure Visits (h : Addr) (xs : List Addr) (tr : List (Addr × List Op)) (B : Abs) (q : Addr) : Prop where
  /-- The elements that were there at the beginning and are never removed are visited exactly once, in their order; those not yet visited are ahead. (`P`: any set of such
  elements.) -/
  stable : ∃ front rest, B h = some (front ++ rest) ∧ q = firstOr h rest ∧
    ∀ P : Addr → Bool, (∀ y, P y = true → y ∈ xs ∧ .remove y ∉ made tr) → (visited tr).filter P ++ rest.filter P = xs.filter P
  /-- Nothing else is visited than what was there or has been inserted. -/
  sound : ∀ v ∈ visited tr, v ∈ xs ∨ v ∈ added (made tr)
  /-- The loop ends if insertions end. -/
  ends : tr.length ≤ xs.length + (added (made tr)).length

/-- The general form, from the middle of a loop. -/
structure VisitsFrom (h : Addr) (l r : List Addr) (tr : List (Addr × List Op)) (B : Abs) (q : Addr) : Prop where
  stable : ∃ front rest, B h = some (front ++ rest) ∧ q = firstOr h rest ∧
    ∀ P : Addr → Bool, (∀ y, P y = true → y ∈ l ++ r ∧ .remove y ∉ made tr) → (visited tr).filter P ++ rest.filter P = r.filter P
  sound : ∀ v ∈ visited tr, v ∈ r ∨ v ∈ added (made tr)
  ends : tr.length ≤ r.length + (added (made tr)).length

theorem visits_cons {h p : Addr} {l r l' r' : List Addr} {ops : List Op} {tr : List (Addr × List Op)} {C : Abs} {q : Addr}
    (k1 : ∀ P : Addr → Bool, (∀ y, P y = true → y ∈ l ++ p :: r ∧ .remove y ∉ ops) → r'.filter P = r.filter P)
    (k2 : ∀ y, y ∈ l ++ p :: r → .remove y ∉ ops → y ∈ l' ++ r') (k3 : r'.length ≤ r.length + (added ops).length) (k4 : ∀ y ∈ r', y ∈ r ∨ y ∈ added ops)
    (V : VisitsFrom h l' r' tr C q) : VisitsFrom h l (p :: r) ((p, ops) :: tr) C q := by
  have mk : made ((p, ops) :: tr) = ops ++ made tr := rfl
  refine ⟨?_, ?_, ?_⟩
  · obtain ⟨front, rest, e1, e2, e3⟩ := V.stable
    refine ⟨front, rest, e1, e2, fun P hP => ?_⟩
    have hP' : ∀ y, P y = true → y ∈ l ++ p :: r ∧ .remove y ∉ ops := fun y hy => ⟨(hP y hy).1, fun hm => (hP y hy).2 (by rw [mk]; exact List.mem_append_left _ hm)⟩
    have := e3 P (fun y hy => ⟨k2 y (hP' y hy).1 (hP' y hy).2, fun hm => (hP y hy).2 (by rw [mk]; exact List.mem_append_right _ hm)⟩)
    rw [k1 P hP'] at this
    show (p :: visited tr).filter P ++ rest.filter P = (p :: r).filter P
    simp only [List.filter_cons]
    split
    · rw [List.cons_append, this]
    · exact this
  · intro v hv
    rw [mk, added_append, List.mem_append]
    rcases List.mem_cons.1 hv with rfl | hv
    · exact .inl (by simp)
    · rcases V.sound v hv with h | h
      · rcases k4 v h with h | h
        · exact .inl (by simp [h])
        · exact .inr (.inl h)
      · exact .inr (.inr h)
  · have := V.ends
    rw [mk, added_append]
    simp only [List.length_cons, List.length_append]; omega

theorem visits_stop {h : Addr} {l r : List Addr} {A : Abs} (hA : A h = some (l ++ r)) : VisitsFrom h l r [] A (firstOr h r) :=
  ⟨⟨l, r, hA, rfl, fun _ _ => rfl⟩, fun _ hv => (by cases hv), by simp⟩

theorem first_split {h p : Addr} {l r l0 r0 xs : List Addr} (nd : (h :: xs).Nodup) (e1 : xs = l ++ r) (e2 : xs = l0 ++ p :: r0) (hp : p = firstOr h r) : l = l0 ∧ r = p :: r0 := by
  subst e1
  cases r with
  | nil =>
      exfalso
      simp only [firstOr, List.head?_nil, Option.getD_none] at hp
      subst hp
      rw [e2] at nd
      grind
  | cons a r =>
      have hpa : p = a := hp
      subst hpa
      rcases split_two e2.symm with ⟨m, rfl, rfl⟩ | ⟨rfl, -, rfl⟩ | ⟨m, rfl, rfl⟩
      · exfalso; grind
      · exact ⟨rfl, rfl⟩
      · exfalso; grind

theorem kept_stay {l r l' r' : List Addr} {c : Addr} {ops : List Op} (k : Kept l r l' r' c ops) {y : Addr} (hy : y ∈ l ++ c :: r) (hr : .remove y ∉ ops) : y ∈ l' ++ c :: r' := by
  have hP : ∀ z, (z == y) = true → z ∈ l ++ c :: r ∧ .remove z ∉ ops := by
    intro z hz
    have : z = y := by simpa using hz
    subst this; exact ⟨hy, hr⟩
  have f := k.front (· == y) hP
  have b := k.back (· == y) hP
  rcases List.mem_append.1 hy with hm | hm
  · have : y ∈ l'.filter (· == y) := by rw [f]; exact List.mem_filter.2 ⟨hm, by simp⟩
    exact List.mem_append_left _ (List.mem_filter.1 this).1
  · rcases List.mem_cons.1 hm with rfl | hm
    · simp
    · have : y ∈ r'.filter (· == y) := by rw [b]; exact List.mem_filter.2 ⟨hm, by simp⟩
      exact List.mem_append_right _ (List.mem_cons_of_mem _ (List.mem_filter.1 this).1)

theorem replay_visits {h : Addr} {A : Abs} {p : Addr} {tr : List (Addr × List Op)} {C : Abs} {q : Addr} (P : Replay h A p tr C q) : ∀ {H : Heap} {l r : List Addr}, Rep H A → A h = some (l ++ r) →
    p = firstOr h r → VisitsFrom h l r tr C q := by
  induction P with
  | stop => intro H l r R hA hp; subst hp; exact visits_stop hA
  | @round A B C p q l0 r0 l' r' ops tr hA0 D hB _ ih =>
      intro H l r R hA hp
      obtain ⟨rfl, rfl⟩ := first_split (R.lists _ _ hA).2 rfl (by rw [hA] at hA0; injection hA0) hp
      obtain ⟨l2, r2, hB2, k⟩ := does_kept D R hA0
      have R' := does_rep D R
      have nd := (R'.lists _ _ hB).2
      have e : l' ++ p :: r' = l2 ++ p :: r2 := by rw [hB] at hB2; injection hB2
      have e' : l' = l2 ∧ r' = r2 := by
        rcases split_two e with ⟨m, rfl, rfl⟩ | ⟨rfl, -, rfl⟩ | ⟨m, rfl, rfl⟩
        · exfalso; grind
        · exact ⟨rfl, rfl⟩
        · exfalso; grind
      obtain ⟨rfl, rfl⟩ := e'
      have V := ih (l := l' ++ [p]) (r := r') R' (by rw [hB]; simp) rfl
      refine visits_cons k.back (fun y hy hr => ?_) k.size k.new V
      have := kept_stay k hy hr
      simpa using this

theorem does_other {h c y : Addr} {A B : Abs} {ops : List Op} (D : Does h c A ops B) : .remove y ∉ ops → Does h y A ops B := by
  induction D with
  | nil => intro _; exact .nil
  | cons s _ h2 h3 _ ih =>
      intro hr
      simp only [List.mem_cons, not_or] at hr
      exact .cons s (fun e => hr.1 e.symm) h2 h3 (ih hr.2)

theorem replaySafe_visits {h : Addr} {A : Abs} {p : Addr} {tr : List (Addr × List Op)} {C : Abs} {q : Addr} (P : ReplaySafe h A p tr C q) : ∀ {H : Heap} {l r : List Addr}, Rep H A →
    A h = some (l ++ r) → p = firstOr h r → VisitsFrom h l r tr C q := by
  induction P with
  | stop => intro H l r R hA hp; subst hp; exact visits_stop hA
  | @round A B C p q l0 r0 ops tr hA0 D _ ih =>
      intro H l r R hA hp
      obtain ⟨rfl, rfl⟩ := first_split (R.lists _ _ hA).2 rfl (by rw [hA] at hA0; injection hA0) hp
      have R' := does_rep D R
      cases r0 with
      | nil =>
          obtain ⟨xs, hx⟩ := Option.isSome_iff_exists.1 (does_head D (by rw [hA]; rfl))
          have V := ih (l := xs) (r := []) R' (by simpa using hx) rfl
          refine visits_cons (r' := []) (fun _ _ => rfl) (fun y hy hr => ?_) (by simp) (fun _ hy => by cases hy) V
          obtain ⟨a, b, hab⟩ := List.append_of_mem hy
          obtain ⟨a', b', hB, -⟩ := does_kept (does_other D hr) R (by rw [hA, hab])
          rw [hx] at hB
          cases hB
          simp
      | cons n r0 =>
          obtain ⟨l2, r2, hB2, k⟩ := does_kept (l := l ++ [p]) (r := r0) D R (by rw [hA]; simp [firstOr])
          have V := ih (l := l2) (r := n :: r2) R' hB2 rfl
          refine visits_cons (r' := n :: r2) (fun P hP => ?_) (fun y hy hr => kept_stay k (by simpa [firstOr] using hy) hr) (by have := k.size; simp; omega) (fun y hy => ?_) V
          · have := k.back P (fun y hy => ⟨by have := (hP y hy).1; simpa [firstOr] using this, (hP y hy).2⟩)
            have this : r2.filter P = r0.filter P := this
            simp only [List.filter_cons, this]
          · rcases List.mem_cons.1 hy with rfl | hy
            · exact .inl (by simp)
            · rcases k.new y hy with h | h
              · exact .inl (by simp [h])
              · exact .inr h

theorem visits_of {h : Addr} {xs : List Addr} {tr : List (Addr × List Op)} {B : Abs} {q : Addr} (V : VisitsFrom h [] xs tr B q) : Visits h xs tr B q := ⟨V.stable, V.sound, V.ends⟩

/-! ## The theorems -/

/-- The lists `A` that the legal operations `ops` make, from arbitrary memory. -/
inductive Changes : Abs → List Op → Abs → Prop
  | nil {A} : Changes A [] A
  | cons {A B C op ops} : Change A op B → Changes B ops C → Changes A (op :: ops) C

theorem changes_rep {A B : Abs} {ops : List Op} (c : Changes A ops B) : ∀ {H : Heap}, Rep H A → Rep (ops.foldl exec H) B := by
  induction c with
  | nil => intro H R; exact R
  | cons c _ ih => intro H R; exact ih (change_rep R c)

/-- **C137 (insertion next to members).** C12 also for insertions after and before members: after any history every list traverses forwards to its sequence and backwards to the
reverse. -/
theorem c137_history (H : Heap) (ops : List Op) (A : Abs) (s : Changes (fun _ => none) ops A) (h : Addr) (xs : List Addr) (hx : A h = some xs) :
    (∀ fuel > xs.length, traverse (ops.foldl exec H) h fuel = some xs) ∧ (∀ fuel > xs.length, backEach (ops.foldl exec H) h fuel ((ops.foldl exec H).prev h) = some xs.reverse) := by
  have R := changes_rep s (H := H) ⟨by simp, by simp⟩
  have L := R.lists h xs hx
  have hn : h ∉ xs := by have := L.2; simp at this; exact this.1
  exact ⟨fun fuel hf => forEach_linked _ h h xs L.1 hn fuel hf, fun fuel hf => backEach_linked _ h h xs L.1 hn fuel hf⟩

/-- **C137 (zt_elist_for_each).** After any history, with a body that performs any legal operations on any lists but does not remove the node it is called for, nor empty the list or
give it away: after any number of rounds the lists are those of the operations, and the loop goes on with what follows the node then. `Inv`: what the caller knows about the lists. -/
theorem c137_for_each {σ : Type} {body : Body σ} {h : Addr} {Inv : σ → Abs → Prop}
    (hb : ∀ s p H A l r, Inv s A → Rep H A → A h = some (l ++ p :: r) → ∃ B, Does h p A (body s p H).1 B ∧ Inv (body s p H).2 B)
    (H : Heap) (ops : List Op) (A : Abs) (c : Changes (fun _ => none) ops A) (xs : List Addr) (hx : A h = some xs) (s : σ) (I : Inv s A) (k : Nat) :
    ∃ tr s' H' q B, forEachDo body h k s (ops.foldl exec H) = (tr, s', H', q) ∧ (q = h ∨ tr.length = k) ∧ Rep H' B ∧ Inv s' B ∧ Replay h A (firstOr h xs) tr B q ∧ Visits h xs tr B q := by
  have R := changes_rep c (H := H) ⟨by simp, by simp⟩
  obtain ⟨tr, s', H', q, B, e, i1, i2, i3, i4⟩ := rounds_ok hb k (l := []) (r := xs) s I R hx
  exact ⟨tr, s', H', q, B, by rw [forEachDo, next_head (R.lists _ _ hx), e], i4, i2, i1, i3, visits_of (replay_visits i3 R hx rfl)⟩

/-- **C137 (zt_elist_for_each_safe).** With a body that does not remove the node that comes next (it may remove, move or reuse the one it is called for): the loop goes on with this
next node. -/
theorem c137_for_each_safe {σ : Type} {body : Body σ} {h : Addr} {Inv : σ → Abs → Prop}
    (hb : ∀ s p H A l r, Inv s A → Rep H A → A h = some (l ++ p :: r) → ∃ B, Does h (firstOr h r) A (body s p H).1 B ∧ Inv (body s p H).2 B)
    (H : Heap) (ops : List Op) (A : Abs) (c : Changes (fun _ => none) ops A) (xs : List Addr) (hx : A h = some xs) (s : σ) (I : Inv s A) (k : Nat) :
    ∃ tr s' H' q B, forEachSafeDo body h k s (ops.foldl exec H) = (tr, s', H', q) ∧ (q = h ∨ tr.length = k) ∧ Rep H' B ∧ Inv s' B ∧ ReplaySafe h A (firstOr h xs) tr B q ∧
      Visits h xs tr B q := by
  have R := changes_rep c (H := H) ⟨by simp, by simp⟩
  obtain ⟨tr, s', H', q, B, e, i1, i2, i3, i4⟩ := roundsSafe_ok hb k (l := []) (r := xs) s I R hx
  exact ⟨tr, s', H', q, B, by rw [forEachSafeDo, next_head (R.lists _ _ hx), e], i4, i2, i1, i3, visits_of (replaySafe_visits i3 R hx rfl)⟩

/-! ## The usual bodies meet the hypotheses -/

/-- Moving the visited node to the end of another list. -/
def moveTo (g : Addr) : Body Unit := fun s p _ => ([.remove p, .addTail g p], s)

theorem moveTo_legal (g h : Addr) (hg : h ≠ g) : ∀ (s : Unit) p H A l r, (A g).isSome = true → Rep H A → A h = some (l ++ p :: r) →
    ∃ B, Does h (firstOr h r) A (moveTo g s p H).1 B ∧ (B g).isSome = true := by
  intro s p H A l r hs R hA
  obtain ⟨ys, hy⟩ := Option.isSome_iff_exists.1 hs
  have nd := (R.lists _ _ hA).2
  have hp : p ≠ firstOr h r := by
    cases r with
    | nil => simp only [firstOr, List.head?_nil, Option.getD_none]; grind
    | cons n r => simp only [firstOr, List.head?_cons, Option.getD_some]; grind
  have d := R.disjoint
  have hfree : Free (A.set h (some (l ++ r))) p := by
    refine ⟨?_, ?_⟩
    · rw [set_eq, if_neg (by grind)]
      cases hq : A p with
      | none => rfl
      | some zs =>
          have := d p h zs _ hq hA (by grind) p (by simp)
          simp at this
    · intro k zs hk
      rw [set_eq] at hk
      split at hk
      · cases hk; grind
      · rename_i hne
        have := d h k _ zs hA hk (fun e => hne e.symm) p (by simp)
        simp at this; exact this.2
  refine ⟨_, .cons (.step (.remove hA)) (by simp; exact hp) (by simp) (by simp) (.cons (.step (.addTail (xs := ys) ?_ hfree)) (by simp) (by simp) (by simp) .nil), ?_⟩
  · rw [set_eq, if_neg (fun e => hg e.symm)]; exact hy
  · rw [set_eq, if_pos rfl]; rfl

/-- **C137 (moving).** Moving every node of a list to the end of another one while iterating: all arrive, in order, and the loop ends. -/
theorem c137_move (g h : Addr) (hg : h ≠ g) : ∀ (xs : List Addr) (H : Heap) (A : Abs) (ys : List Addr), Rep H A → A h = some xs → A g = some ys → ∀ k, xs.length ≤ k →
    ∃ H' B, roundsSafe (moveTo g) h k () H (firstOr h xs) (H.next (firstOr h xs)) = (xs.map fun p => (p, [.remove p, .addTail g p]), (), H', h) ∧ Rep H' B ∧
      B h = some [] ∧ B g = some (ys ++ xs) := by
  intro xs
  induction xs with
  | nil =>
      intro H A ys R hA hy k _
      refine ⟨H, A, ?_, R, hA, by simpa using hy⟩
      cases k <;> simp [roundsSafe, firstOr]
  | cons p r ih =>
      intro H A ys R hA hy k hk
      obtain ⟨k, rfl⟩ : ∃ j, k = j + 1 := ⟨k - 1, by simp at hk; omega⟩
      have nd := (R.lists _ _ hA).2
      have hne : p ≠ h := by grind
      have hnx := next_member (l := []) (R.lists _ _ hA)
      have d := R.disjoint
      have hfree : Free (A.set h (some r)) p := by
        refine ⟨?_, ?_⟩
        · rw [set_eq, if_neg hne]
          cases hq : A p with
          | none => rfl
          | some zs =>
              have := d p h zs _ hq hA hne p (by simp)
              simp at this
        · intro k zs hk
          rw [set_eq] at hk
          split at hk
          · cases hk; grind
          · rename_i hne
            have := d h k _ zs hA hk (fun e => hne e.symm) p (by simp)
            simp at this; exact this.2
      have R1 := step_rep H A _ (.remove p) R (Step.remove (l := []) hA)
      have R2 := step_rep _ _ _ (.addTail g p) R1 (Step.addTail (xs := ys) (by rw [set_eq, if_neg (fun e => hg e.symm)]; exact hy) hfree)
      obtain ⟨H', B, e, R3, b1, b2⟩ := ih _ _ (ys ++ [p]) R2 (by rw [set_eq, if_neg hg, set_eq, if_pos rfl]; rfl) (by rw [set_eq, if_pos rfl]) k (by simp at hk; omega)
      refine ⟨H', B, ?_, R3, b1, by rw [b2]; simp⟩
      show roundsSafe (moveTo g) h (k + 1) () H p (H.next p) = _
      simp only [roundsSafe, if_neg hne, hnx, moveTo, List.foldl_cons, List.foldl_nil, List.map_cons]
      have e' : roundsSafe (moveTo g) h k () (exec (exec H (.remove p)) (.addTail g p)) (firstOr h r) ((exec (exec H (.remove p)) (.addTail g p)).next (firstOr h r)) = _ := e
      rw [e']

/-- A body for zt_elist_for_each: a new node, taken from the caller's stock `s`, before and after each visited one, until there are none left. -/
example : ∃ A, Changes (fun _ => none) [.reset 1, .add 1 10, .add 1 11] A ∧ A 1 = some [11, 10] ∧
    visited (forEachDo (fun (s : List Addr) p _ => match s with | a :: b :: s => ([Op.add p a, .addTail p b], s) | s => ([], s)) 1 10 [20, 21, 22, 23]
      ([Op.reset 1, .add 1 10, .add 1 11].foldl exec ⟨fun _ => 0, fun _ => 0⟩)).1 = [11, 20, 22, 10] := by
  refine ⟨_, .cons (.step (.reset (.inl ⟨rfl, by simp⟩))) (.cons (.step (.add (h := 1) (xs := []) rfl ?_)) (.cons (.step (.add (h := 1) (xs := [10]) rfl ?_)) .nil)), rfl, by decide +kernel⟩
  all_goals simp [Free, Abs.set]
  all_goals grind

/-- Two lists, and the move: the hypotheses hold. -/
example : ∃ A, Changes (fun _ => none) [.reset 1, .reset 2, .add 1 10, .add 10 11, .addTail 11 12] A ∧ A 1 = some [10, 12, 11] ∧ A 2 = some [] := by
  refine ⟨_, .cons (.step (.reset (.inl ⟨rfl, by simp⟩))) (.cons (.step (.reset ?_)) (.cons (.step (.add (h := 1) (xs := []) rfl ?_)) (.cons (.after (h := 1) (l := []) (r := []) rfl ?_)
    (.cons (.before (h := 1) (l := [10]) (r := []) rfl ?_) .nil)))), rfl, rfl⟩
  all_goals simp [Free, Abs.set]
  all_goals grind

/-! ## What is excluded is wrong -/

/-- Moving the node that `f` says to the end of the list `g` in the first round, nothing later. -/
def moveOnce (g : Addr) (f : Addr → Heap → Addr) : Body Bool := fun s p H => (if s then [.remove (f p H), .addTail g (f p H)] else [], false)

/-- A loop that has left its list for another one never ends. -/
theorem lost (f : Addr → Heap → Addr) (h g p : Addr) (hg : h ≠ g) (hp : h ≠ p) : ∀ (k : Nat) (H : Heap), H.next g = p → H.next p = g →
    ((rounds (moveOnce g f) h k false H g).2.2.2 ≠ h ∧ (rounds (moveOnce g f) h k false H g).1.length = k) ∧
    ((rounds (moveOnce g f) h k false H p).2.2.2 ≠ h ∧ (rounds (moveOnce g f) h k false H p).1.length = k) ∧
    ((roundsSafe (moveOnce g f) h k false H g p).2.2.2 ≠ h ∧ (roundsSafe (moveOnce g f) h k false H g p).1.length = k) ∧
    ((roundsSafe (moveOnce g f) h k false H p g).2.2.2 ≠ h ∧ (roundsSafe (moveOnce g f) h k false H p g).1.length = k) := by
  intro k
  have hg' : ¬ g = h := fun e => hg e.symm
  have hp' : ¬ p = h := fun e => hp e.symm
  induction k with
  | zero => intro H _ _; exact ⟨⟨hg', rfl⟩, ⟨hp', rfl⟩, ⟨hg', rfl⟩, hp', rfl⟩
  | succ k ih =>
      intro H h1 h2
      obtain ⟨i1, i2, i3, i4⟩ := ih H h1 h2
      refine ⟨?_, ?_, ?_, ?_⟩ <;> simp only [rounds, roundsSafe, if_neg hg', if_neg hp', moveOnce, Bool.false_eq_true, if_false, List.foldl_nil, h1, h2, List.length_cons]
      · exact ⟨i2.1, by rw [i2.2]⟩
      · exact ⟨i1.1, by rw [i1.2]⟩
      · exact ⟨i4.1, by rw [i4.2]⟩
      · exact ⟨i3.1, by rw [i3.2]⟩

theorem moved {H : Heap} {A : Abs} {h g p : Addr} {l r : List Addr} (R : Rep H A) (hg : h ≠ g) (hA : A h = some (l ++ p :: r)) (hy : A g = some []) :
    ((exec (exec H (.remove p)) (.addTail g p)).next g = p ∧ (exec (exec H (.remove p)) (.addTail g p)).next p = g) ∧ h ≠ p := by
  have nd := (R.lists _ _ hA).2
  have hne : p ≠ h := by grind
  have d := R.disjoint
  have hfree : Free (A.set h (some (l ++ r))) p := by
    refine ⟨?_, ?_⟩
    · rw [set_eq, if_neg hne]
      cases hq : A p with
      | none => rfl
      | some zs =>
          have := d p h zs _ hq hA hne p (by simp)
          simp at this
    · intro k zs hk
      rw [set_eq] at hk
      split at hk
      · cases hk; grind
      · rename_i hne
        have := d h k _ zs hA hk (fun e => hne e.symm) p (by simp)
        simp at this; exact this.2
  have R1 := step_rep H A _ (.remove p) R (Step.remove hA)
  have R2 := step_rep _ _ _ (.addTail g p) R1 (Step.addTail (xs := []) (by rw [set_eq, if_neg (fun e => hg e.symm)]; exact hy) hfree)
  have L := (R2.lists g [p] (by rw [set_eq, if_pos rfl]; rfl)).1
  exact ⟨⟨L.1, L.2.2.1⟩, fun e => hne e.symm⟩

/-- **C137 (excluded: removing the visited node in zt_elist_for_each).** In every list with an element: if the body moves the first node to an empty list `g`, the loop never ends. -/
theorem c137_current_violation {H : Heap} {A : Abs} {h g p : Addr} {r : List Addr} (R : Rep H A) (hg : h ≠ g) (hA : A h = some (p :: r)) (hy : A g = some []) (k : Nat) :
    (forEachDo (moveOnce g (fun x _ => x)) h k true H).1.length = k ∧ (forEachDo (moveOnce g (fun x _ => x)) h k true H).2.2.2 ≠ h := by
  obtain ⟨⟨m1, m2⟩, hp⟩ := moved (l := []) R hg hA hy
  have hn : H.next h = p := next_head (R.lists _ _ hA)
  have hp' : ¬ p = h := fun e => hp e.symm
  rw [forEachDo, hn]
  cases k with
  | zero => exact ⟨rfl, hp'⟩
  | succ k =>
      obtain ⟨i1, -, -, -⟩ := lost (fun x _ => x) h g p hg hp k _ m1 m2
      have e : rounds (moveOnce g (fun x _ => x)) h (k + 1) true H p =
          ((p, [.remove p, .addTail g p]) :: (rounds (moveOnce g (fun x _ => x)) h k false (exec (exec H (.remove p)) (.addTail g p)) g).1,
            (rounds (moveOnce g (fun x _ => x)) h k false (exec (exec H (.remove p)) (.addTail g p)) g).2) := by
        rw [rounds, if_neg hp']
        simp only [moveOnce, if_true, List.foldl_cons, List.foldl_nil, m2]
      rw [e]
      exact ⟨by simp [i1.2], i1.1⟩

/-- **C137 (excluded: removing the next node in zt_elist_for_each_safe).** In every list with two elements or more: if the body moves the second node to an empty list `g` when it is
called for the first, the loop never ends. -/
theorem c137_next_violation {H : Heap} {A : Abs} {h g p n : Addr} {r : List Addr} (R : Rep H A) (hg : h ≠ g) (hA : A h = some (p :: n :: r)) (hy : A g = some []) (k : Nat) :
    (forEachSafeDo (moveOnce g (fun x H => H.next x)) h k true H).1.length = k ∧ (forEachSafeDo (moveOnce g (fun x H => H.next x)) h k true H).2.2.2 ≠ h := by
  obtain ⟨⟨m1, m2⟩, hn'⟩ := moved (l := [p]) (p := n) R hg hA hy
  have hn : H.next h = p := next_head (R.lists _ _ hA)
  have hpn : H.next p = n := next_member (l := []) (R.lists _ _ hA)
  have hp' : ¬ p = h := by have := (R.lists _ _ hA).2; grind
  rw [forEachSafeDo, hn, hpn]
  cases k with
  | zero => exact ⟨rfl, hp'⟩
  | succ k =>
      obtain ⟨-, -, -, i4⟩ := lost (fun x H => H.next x) h g n hg hn' k _ m1 m2
      have e : roundsSafe (moveOnce g (fun x H => H.next x)) h (k + 1) true H p n =
          ((p, [.remove n, .addTail g n]) :: (roundsSafe (moveOnce g (fun x H => H.next x)) h k false (exec (exec H (.remove n)) (.addTail g n)) n g).1,
            (roundsSafe (moveOnce g (fun x H => H.next x)) h k false (exec (exec H (.remove n)) (.addTail g n)) n g).2) := by
        rw [roundsSafe, if_neg hp']
        simp only [moveOnce, if_true, List.foldl_cons, List.foldl_nil, hpn, m2]
      rw [e]
      exact ⟨by simp [i4.2], i4.1⟩

end ZT.EList
