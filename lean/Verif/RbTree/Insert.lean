import Verif.RbTree.Lemmas

namespace ZT.RbTree

theorem loop_black {S : St} {x p : Nat} (fuel : Nat) (h : S.parent x = some p) (hc : S.colour p = .black) : insertColourLoop (fuel + 1) S x = .ok S := by
  rw [insertColourLoop]; simp [h, hc]

theorem left_ne {S : St} {c : Colour} {l r : Tree} {a : Nat} {cs : Ctx} (W : Whole S (.node c l a r) cs) {x : Nat} (h : r.root = some x) : S.left a ≠ some x := by
  intro e
  rw [W.tree.2.2.1] at e
  have h1 := root_mem e
  have h2 := root_mem h
  have := W.nodup
  simp only [Tree.toList, List.nodup_append, List.mem_cons, List.mem_append] at this
  grind

theorem right_ne {S : St} {c : Colour} {l r : Tree} {a : Nat} {cs : Ctx} (W : Whole S (.node c l a r) cs) {x : Nat} (h : l.root = some x) : S.right a ≠ some x := by
  intro e
  rw [W.tree.2.2.2.1] at e
  have h1 := root_mem e
  have h2 := root_mem h
  have := W.nodup
  simp only [Tree.toList, List.nodup_append, List.mem_cons, List.mem_append] at this
  grind

/-- The result of repairing a tree. -/
def Fixed (S' : St) (l : List Nat) : Prop := ∃ t' c m, Whole S' t' [] ∧ t'.toList = l ∧ RBT t' c m

theorem fixed_of {S : St} {t : Tree} {cs : Ctx} {c pc : Colour} {n : Nat} (W : Whole S t cs) (h : RBT t c n) (k : CtxRB cs pc n) (hc : pc = .red → c = .black) :
    Fixed S (plug t cs).toList := by
  obtain ⟨m, hm⟩ := plug_rbt h k hc
  exact ⟨_, .black, m, W.close, rfl, hm⟩

/-- Shape after the last rotation of an insertion. -/
theorem insert_done {S : St} {l r : Tree} {p n : Nat} {cs : Ctx} {pc : Colour} (W : Whole S (.node .black l p r) cs) (hl : RBT l .red n) (hr : RBT r .red n)
    (k : CtxRB cs pc (n + 1)) {L : List Nat} (e : (plug (.node .black l p r) cs).toList = L) : Fixed S L := by
  subst e; exact fixed_of W (.blk hl hr) k (fun _ => rfl)

theorem insert_loop (k : Nat) : ∀ (S : St) (l r : Tree) (a : Nat) (cs : Ctx) (n : Nat) (pc : Colour) (fuel : Nat), cs.length ≤ k → cs.length < fuel →
    Whole S (.node .red l a r) cs → RBT (.node .red l a r) .red n → CtxRB cs pc n →
    ∃ S', insertColourLoop fuel S a = .ok S' ∧ Fixed S' (plug (.node .red l a r) cs).toList := by
  induction k with
  | zero =>
      intro S l r a cs n pc fuel hk hf W hr hc
      have : cs = [] := List.length_eq_zero_iff.1 (by omega)
      subst this
      obtain ⟨fuel, rfl⟩ : ∃ m, fuel = m + 1 := ⟨fuel - 1, by simp at hf; omega⟩
      have hp : S.parent a = none := W.tree.1
      refine ⟨S, by rw [insertColourLoop]; simp [hp], _, _, _, W, rfl, hr⟩
  | succ k ih =>
      intro S l r a cs n pc fuel hk hf W hr hc
      obtain ⟨fuel, rfl⟩ : ∃ m, fuel = m + 1 := ⟨fuel - 1, by omega⟩
      cases hc with
      | nil =>
          have hp : S.parent a = none := W.tree.1
          exact ⟨S, by rw [insertColourLoop]; simp [hp], _, _, _, W, rfl, hr⟩
      | @blk b p n s c pc cs hk2 hs =>
          exact ⟨S, loop_black fuel W.tree.1 W.ctx.2.1, fixed_of W hr (.blk (b := b) hk2 hs) (fun h => by cases h)⟩
      | @red b p n s cs hk2 hs =>
          cases hk2 with
          | @blk b2 g n u uc pc cs hk3 hu =>
              obtain ⟨fuel, rfl⟩ : ∃ m, fuel = m + 1 := ⟨fuel - 1, by simp at hf; omega⟩
              have hpar : S.parent a = some p := W.tree.1
              have hcol : S.colour p = .red := W.ctx.2.1
              have hgp : S.parent p = some g := W.ctx.2.2.1
              have W1 := W.up
              cases b2
              · -- the parent is the right child of the grandparent
                have W2 := W1.upR
                have hne : S.left g ≠ some p := left_ne W2 (by cases b <;> rfl)
                have hU : S.left g = u.root := W2.tree.2.2.1
                have hur : isRed S u.root = decide (uc = .red) := isRed_rep W2.tree.2.2.2.2.1 hu
                rw [insertColourLoop]
                simp only [hpar, hcol, if_true, hgp, deref, Outcome.ok_bind, if_neg hne]
                simp only [hU, hur]
                by_cases huc : uc = .red
                · subst huc
                  cases hu with
                  | red h1 h2 =>
                    rename_i ul ur ua
                    simp only [decide_true, if_true, Tree.root, Outcome.ok_bind]
                    have W3 := ((W2.downL.setC .black).upL.downR)
                    obtain ⟨S3, hS3, W3⟩ : ∃ S3, S3 = (S.setC ua .black) ∧ Whole S3 (Frame.fill ⟨b, .red, p, s⟩ (.node .red l a r)) (⟨false, .black, g, .node .black ul ua ur⟩ :: cs) := ⟨_, rfl, W3⟩
                    rw [← hS3]
                    have W4 : Whole (S3.setC p .black) (Frame.fill ⟨b, .black, p, s⟩ (.node .red l a r)) (⟨false, .black, g, .node .black ul ua ur⟩ :: cs) := by
                      cases b <;> exact W3.setC .black
                    have W5 : Whole (setBlackRed S3 p g) (.node .red (.node .black ul ua ur) g (Frame.fill ⟨b, .black, p, s⟩ (.node .red l a r))) cs := W4.upR.setC .red
                    have hP : RBT (Frame.fill ⟨b, .black, p, s⟩ (.node .red l a r)) .black (n + 1) := by
                      cases b
                      · exact .blk hs hr
                      · exact .blk hr hs
                    obtain ⟨S', e', F⟩ := ih _ _ _ _ _ _ _ (fuel + 1) (by simp at hk; omega) (by simp at hf; omega) W5 (.red (.blk h1 h2) hP) hk3
                    refine ⟨S', e', ?_⟩
                    have : (plug (.node .red (.node .black ul ua ur) g (Frame.fill ⟨b, .black, p, s⟩ (.node .red l a r))) cs).toList =
                        (plug (.node .red l a r) (⟨b, .red, p, s⟩ :: ⟨false, .black, g, .node .red ul ua ur⟩ :: cs)).toList := by
                      refine plug_toList cs ?_
                      cases b <;> simp [Frame.fill, Tree.toList]
                    rw [← this]; exact F
                · obtain rfl : uc = .black := by cases uc <;> simp_all
                  simp only [decide_false, Bool.false_eq_true, if_false, reduceCtorEq]
                  cases hr with
                  | red hl0 hr0 =>
                  cases b
                  · -- outer child
                    have hne2 : S.left p ≠ some a := left_ne W.upR rfl
                    simp only [if_neg hne2, Outcome.pure_eq, Outcome.ok_bind]
                    have W3 : Whole (setBlackRed S p g) (.node .red u g (.node .black s p (.node .red l a r))) cs := ((W2.downR.setC .black).upR).setC .red
                    obtain ⟨S4, e4, W4⟩ := rotateLeft_whole W3
                    simp only [e4, Outcome.ok_bind]
                    refine ⟨S4, loop_black fuel W4.downR.tree.1 W4.tree.2.1, insert_done W4 (.red hu hs) (.red hl0 hr0) hk3 ?_⟩
                    exact plug_toList cs (by simp [Frame.fill, Tree.toList])
                  · -- inner child
                    have he : S.left p = some a := W.ctx.1.1
                    simp only [if_pos he]
                    obtain ⟨S3, e3, W3⟩ := rotateRight_whole W.upL
                    simp only [e3, Outcome.pure_eq, Outcome.ok_bind]
                    have W4 : Whole (setBlackRed S3 a g) (.node .red u g (.node .black l a (.node .red r p s))) cs := ((W3.setC .black).upR).setC .red
                    obtain ⟨S4, e4, W5⟩ := rotateLeft_whole W4
                    simp only [e4, Outcome.ok_bind]
                    refine ⟨S4, loop_black fuel W5.downR.tree.1 W5.tree.2.1, insert_done W5 (.red hu hl0) (.red hr0 hs) hk3 ?_⟩
                    exact plug_toList cs (by simp [Frame.fill, Tree.toList])
              · -- the parent is the left child of the grandparent
                have W2 := W1.upL
                have hne : S.left g = some p := by rw [W2.tree.2.2.1]; cases b <;> rfl
                have hU : S.right g = u.root := W2.tree.2.2.2.1
                have hur : isRed S u.root = decide (uc = .red) := isRed_rep W2.tree.2.2.2.2.2 hu
                rw [insertColourLoop]
                simp only [hpar, hcol, if_true, hgp, deref, Outcome.ok_bind, if_pos hne]
                simp only [hU, hur]
                by_cases huc : uc = .red
                · subst huc
                  cases hu with
                  | red h1 h2 =>
                    rename_i ul ur ua
                    simp only [decide_true, if_true, Tree.root, Outcome.ok_bind]
                    have W3 := ((W2.downR.setC .black).upR.downL)
                    obtain ⟨S3, hS3, W3⟩ : ∃ S3, S3 = (S.setC ua .black) ∧ Whole S3 (Frame.fill ⟨b, .red, p, s⟩ (.node .red l a r)) (⟨true, .black, g, .node .black ul ua ur⟩ :: cs) := ⟨_, rfl, W3⟩
                    rw [← hS3]
                    have W4 : Whole (S3.setC p .black) (Frame.fill ⟨b, .black, p, s⟩ (.node .red l a r)) (⟨true, .black, g, .node .black ul ua ur⟩ :: cs) := by
                      cases b <;> exact W3.setC .black
                    have W5 : Whole (setBlackRed S3 p g) (.node .red (Frame.fill ⟨b, .black, p, s⟩ (.node .red l a r)) g (.node .black ul ua ur)) cs := W4.upL.setC .red
                    have hP : RBT (Frame.fill ⟨b, .black, p, s⟩ (.node .red l a r)) .black (n + 1) := by
                      cases b
                      · exact .blk hs hr
                      · exact .blk hr hs
                    obtain ⟨S', e', F⟩ := ih _ _ _ _ _ _ _ (fuel + 1) (by simp at hk; omega) (by simp at hf; omega) W5 (.red hP (.blk h1 h2)) hk3
                    refine ⟨S', e', ?_⟩
                    have : (plug (.node .red (Frame.fill ⟨b, .black, p, s⟩ (.node .red l a r)) g (.node .black ul ua ur)) cs).toList =
                        (plug (.node .red l a r) (⟨b, .red, p, s⟩ :: ⟨true, .black, g, .node .red ul ua ur⟩ :: cs)).toList := by
                      refine plug_toList cs ?_
                      cases b <;> simp [Frame.fill, Tree.toList]
                    rw [← this]; exact F
                · obtain rfl : uc = .black := by cases uc <;> simp_all
                  simp only [decide_false, Bool.false_eq_true, if_false, reduceCtorEq]
                  cases hr with
                  | red hl0 hr0 =>
                  cases b
                  · -- inner child
                    have he : S.right p = some a := W.ctx.1.1
                    simp only [if_pos he]
                    obtain ⟨S3, e3, W3⟩ := rotateLeft_whole W.upR
                    simp only [e3, Outcome.pure_eq, Outcome.ok_bind]
                    have W4 : Whole (setBlackRed S3 a g) (.node .red (.node .black (.node .red s p l) a r) g u) cs := ((W3.setC .black).upL).setC .red
                    obtain ⟨S4, e4, W5⟩ := rotateRight_whole W4
                    simp only [e4, Outcome.ok_bind]
                    refine ⟨S4, loop_black fuel W5.downL.tree.1 W5.tree.2.1, insert_done W5 (.red hs hl0) (.red hr0 hu) hk3 ?_⟩
                    exact plug_toList cs (by simp [Frame.fill, Tree.toList])
                  · -- outer child
                    have hne2 : S.right p ≠ some a := right_ne W.upL rfl
                    simp only [if_neg hne2, Outcome.pure_eq, Outcome.ok_bind]
                    have W3 : Whole (setBlackRed S p g) (.node .red (.node .black (.node .red l a r) p s) g u) cs := ((W2.downL.setC .black).upL).setC .red
                    obtain ⟨S4, e4, W4⟩ := rotateRight_whole W3
                    simp only [e4, Outcome.ok_bind]
                    refine ⟨S4, loop_black fuel W4.downL.tree.1 W4.tree.2.1, insert_done W4 (.red hl0 hr0) (.red hs hu) hk3 ?_⟩
                    exact plug_toList cs (by simp [Frame.fill, Tree.toList])

/-- `zt_rbt_insert_colour` repairs a tree in which one red node may have a red parent. -/
theorem insert_colour {S : St} {l r : Tree} {a : Nat} {cs : Ctx} {n : Nat} {pc : Colour} {fuel : Nat} (hf : cs.length < fuel)
    (W : Whole S (.node .red l a r) cs) (hr : RBT (.node .red l a r) .red n) (hc : CtxRB cs pc n) :
    ∃ S' t' m, insertColour fuel S a = .ok S' ∧ Whole S' t' [] ∧ t'.toList = (plug (.node .red l a r) cs).toList ∧ RBT t' .black m := by
  obtain ⟨S1, e1, t1, c, m, W1, h1, h2⟩ := insert_loop _ S l r a cs n pc fuel (Nat.le_refl _) hf W hr hc
  have hne : t1 ≠ .nil := by
    intro e; subst e
    have : a ∈ (plug (.node .red l a r) cs).toList := by
      have key : ∀ (t : Tree) (cs : Ctx), a ∈ t.toList → a ∈ (plug t cs).toList := by
        intro t cs; induction cs generalizing t with
        | nil => exact id
        | cons f cs ih => intro h; apply ih; simp only [Frame.fill]; split <;> simp [Tree.toList, h]
      exact key _ cs (by simp [Tree.toList])
    rw [← h1] at this; simp [Tree.toList] at this
  cases t1 with
  | nil => exact absurd rfl hne
  | node c' l' x r' =>
      have hh : S1.head = some x := W1.ctx
      refine ⟨S1.setC x .black, .node .black l' x r', ?_⟩
      have : insertColour fuel S a = .ok (S1.setC x .black) := by simp only [insertColour, e1, Outcome.ok_bind, hh, deref, Outcome.pure_eq]
      cases h2 with
      | red q1 q2 => exact ⟨m + 1, this, W1.setC .black, h1, .blk q1 q2⟩
      | blk q1 q2 => exact ⟨_, this, W1.setC .black, h1, .blk q1 q2⟩

end ZT.RbTree
