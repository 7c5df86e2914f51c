import Verif.RbTree.Search
import Verif.Fuel

namespace ZT.RbTree

theorem insertColourLoop_mono (n : Nat) : ∀ (S : St) (e : Nat), Le (insertColourLoop n S e) (insertColourLoop (n + 1) S e) := by
  induction n with
  | zero => intro S e; exact Le.ub _
  | succ n ih =>
      intro S e
      rw [insertColourLoop, insertColourLoop.eq_2 S e (n + 1)]
      split
      · exact Le.refl _
      · simp only [bind_assoc]
        repeat (first | exact ih _ _ | exact Le.refl _ | apply Le.ite <;> intro _ | (apply Le.bind <;> first | exact Le.refl _ | intro _))

theorem rcLeft_mono {k k' : St → Ptr → Ptr → Outcome (St × Ptr)} (h : ∀ S p e, Le (k S p e) (k' S p e)) (S : St) (a b : Nat) : Le (rcLeft k S a b) (rcLeft k' S a b) := by
  simp only [rcLeft]
  exact Le.ite (fun _ => h _ _ _) (fun _ => Le.refl _)

theorem rcRight_mono {k k' : St → Ptr → Ptr → Outcome (St × Ptr)} (h : ∀ S p e, Le (k S p e) (k' S p e)) (S : St) (a b : Nat) : Le (rcRight k S a b) (rcRight k' S a b) := by
  simp only [rcRight]
  exact Le.ite (fun _ => h _ _ _) (fun _ => Le.refl _)

theorem removeColourLoop_mono (n : Nat) : ∀ (S : St) (p e : Ptr), Le (removeColourLoop n S p e) (removeColourLoop (n + 1) S p e) := by
  induction n with
  | zero => intro S p e; exact Le.ub _
  | succ n ih =>
      intro S p e
      rw [removeColourLoop, removeColourLoop.eq_2 S p e (n + 1)]
      have hl := rcLeft_mono ih
      have hr := rcRight_mono ih
      refine Le.ite (fun _ => Le.refl _) (fun _ => Le.bind (Le.refl _) (fun par => Le.ite (fun _ => ?_) (fun _ => ?_)))
      · refine Le.bind (Le.refl _) (fun tmp => Le.ite (fun _ => Le.bind (Le.refl _) (fun x => ?_)) (fun _ => hl _ _ _))
        obtain ⟨S', y⟩ := x
        simp only
        split
        · exact Le.refl _
        · exact hl _ _ _
      · refine Le.bind (Le.refl _) (fun tmp => Le.ite (fun _ => Le.bind (Le.refl _) (fun x => ?_)) (fun _ => hr _ _ _))
        obtain ⟨S', y⟩ := x
        simp only
        split
        · exact Le.refl _
        · exact hr _ _ _

theorem leftmost_mono (S : St) (n : Nat) : ∀ a, Le (leftmost S n a) (leftmost S (n + 1) a) := by
  induction n with
  | zero => intro a; exact Le.ub _
  | succ n ih =>
      intro a
      rw [leftmost, leftmost.eq_2 S a (n + 1)]
      split
      · exact ih _
      · exact Le.refl _

theorem insertSearch_mono (cmp : Nat → Nat → Int) (S : St) (e n : Nat) : ∀ t p c, Le (insertSearch cmp S e n t p c) (insertSearch cmp S e (n + 1) t p c) := by
  induction n with
  | zero => intro t p c; exact Le.ub _
  | succ n ih =>
      intro t p c
      cases t with
      | none => exact Le.refl _
      | some t => exact Le.ite (fun _ => ih _ _ _) (fun _ => Le.ite (fun _ => ih _ _ _) (fun _ => Le.refl _))

theorem insert_mono (cmp : Nat → Nat → Int) (S : St) (e n : Nat) : Le (insert cmp n S e) (insert cmp (n + 1) S e) := by
  refine Le.bind (insertSearch_mono cmp S e n _ _ _) (fun r => ?_)
  split
  · exact Le.refl _
  · exact Le.bind (Le.bind (insertColourLoop_mono n _ _) (fun _ => Le.refl _)) (fun _ => Le.refl _)

theorem removeColour_mono (S : St) (p e : Ptr) (n : Nat) : Le (removeColour n S p e) (removeColour (n + 1) S p e) :=
  Le.bind (removeColourLoop_mono n _ _ _) (fun _ => Le.refl _)

theorem remove_mono (S : St) (e n : Nat) : Le (remove n S e) (remove (n + 1) S e) := by
  simp only [remove]
  split
  · refine Le.bind (leftmost_mono S n _) (fun y => Le.bind (Le.refl _) (fun S' => Le.ite (fun _ => removeColour_mono _ _ _ _) (fun _ => Le.refl _)))
  · exact Le.ite (fun _ => removeColour_mono _ _ _ _) (fun _ => Le.refl _)

end ZT.RbTree
