import Verif.RbTree.Insert

namespace ZT.RbTree

theorem ctx_head {S : St} {h : Ptr} {f : Frame} {cs : Ctx} (r : RepCtx S h (f :: cs)) : ∃ x ∈ Ctx.adr (f :: cs), S.head = some x := by
  induction cs generalizing h f with
  | nil => exact ⟨f.a, by simp [Ctx.adr], r.2.2.2.2⟩
  | cons g cs ih =>
      obtain ⟨x, hx, e⟩ := ih r.2.2.2.2
      exact ⟨x, by simp only [Ctx.adr, List.mem_cons, List.mem_append] at hx ⊢; grind, e⟩

theorem root_ne_head {S : St} {t : Tree} {f : Frame} {cs : Ctx} (W : Whole S t (f :: cs)) : t.root ≠ S.head := by
  obtain ⟨x, hx, e⟩ := ctx_head W.ctx
  intro h
  rw [e] at h
  have := root_mem h
  have nd := W.nodup
  rw [List.nodup_append] at nd
  exact nd.2.2 x this x hx rfl

/-- The result of repairing after a removal: the loop ends, and blackening its final node gives a red-black tree. -/
def Repaired (o : Outcome (St × Ptr)) (L : List Nat) : Prop :=
  ∃ S1 e1 t' m, o = .ok (S1, e1) ∧ Whole (setCIf S1 e1 .black) t' [] ∧ t'.toList = L ∧ RBT t' .black m

theorem repaired_head {S : St} {t : Tree} {cs : Ctx} {c pc : Colour} {n : Nat} (W : Whole S t cs) (h : RBT t c n) (k : CtxRB cs pc n) (hc : pc = .red → c = .black)
    {L : List Nat} (e : (plug t cs).toList = L) : Repaired (.ok (S, S.head)) L := by
  obtain ⟨m, hm⟩ := plug_rbt h k hc
  have W1 := W.close
  refine ⟨S, S.head, plug t cs, m, rfl, ?_, e, hm⟩
  have hh : S.head = (plug t cs).root := W1.ctx
  generalize plug t cs = u at *
  cases hm with
  | nil => rw [hh]; exact W1
  | blk => rw [hh]; exact W1.setC .black

theorem repaired_focus {S : St} {c : Colour} {l r : Tree} {a : Nat} {cs : Ctx} {pc : Colour} {n : Nat} (W : Whole S (.node c l a r) cs) (h : RBT (.node .black l a r) .black n)
    (k : CtxRB cs pc n) {L : List Nat} (e : (plug (.node c l a r) cs).toList = L) : Repaired (.ok (S, some a)) L := by
  obtain ⟨m, hm⟩ := plug_rbt h k (fun _ => rfl)
  refine ⟨S, some a, _, m, rfl, (W.setC .black).close, ?_, hm⟩
  rw [← e]; exact plug_toList cs rfl

theorem loop_red {S : St} {p : Ptr} {a : Nat} (fuel : Nat) (h : S.colour a = .red) : removeColourLoop (fuel + 1) S p (some a) = .ok (S, some a) := by
  rw [removeColourLoop]; simp [isRed, h]

/-- The last rotation: the far child of the sibling is red. -/
theorem rcLeft_last {S : St} {c ct cx cy cz : Colour} {t x y z : Tree} {p w v n : Nat} {cs : Ctx} {pc : Colour}
    (W : Whole S (.node c t p (.node .black x w (.node .red y v z))) cs)
    (ht : RBT t ct n) (hx : RBT x cx n) (hy : RBT y cy n) (hz : RBT z cz n) (hc : CtxRB ({isL := true, c := c, a := p, s := .node .black x w (.node .red y v z)} :: cs) pc (n + 1))
    {L : List Nat} (e : (plug (.node c t p (.node .black x w (.node .red y v z))) cs).toList = L) :
    Repaired (do
      let S := S.setC w (S.colour p)
      let S := S.setC p .black
      let S := setCIf S (S.right w) .black
      let (S, _) ← rotateLeft S p
      pure (S, S.head)) L := by
  have hcp : S.colour p = c := W.tree.2.1
  have W1 : Whole ((S.setC w c).setC p .black) (.node .black t p (.node c x w (.node .red y v z))) cs := ((W.downR.setC c).upR).setC .black
  rw [← hcp] at W1
  simp only
  obtain ⟨S1, hS1⟩ : ∃ S1, S1 = (S.setC w (S.colour p)).setC p .black := ⟨_, rfl⟩
  rw [← hS1] at W1
  rw [← hS1]
  have hr : S1.right w = some v := W1.downR.tree.2.2.2.1
  have W2 : Whole (S1.setC v .black) (.node .black t p (.node c x w (.node .black y v z))) cs := by
    rw [← hcp]; exact (((W1.downR.downR).setC .black).upR).upR
  obtain ⟨S3, e3, W3⟩ := rotateLeft_whole W2
  simp only [hr, setCIf, e3, Outcome.ok_bind, Outcome.pure_eq]
  cases hc with
  | blk k _ => exact repaired_head W3 (.blk (.blk (a := p) ht hx) (.blk (a := v) hy hz)) k (fun _ => rfl) (by rw [← e]; exact plug_toList cs (by simp [Tree.toList]))
  | red k _ => exact repaired_head W3 (.red (.blk (a := p) ht hx) (.blk (a := v) hy hz)) k (fun h => by cases h) (by rw [← e]; exact plug_toList cs (by simp [Tree.toList]))

theorem rcLeft_spec {S : St} {c : Colour} {t x y : Tree} {p w n : Nat} {cs : Ctx} {pc cx cy : Colour} (k : St → Ptr → Ptr → Outcome (St × Ptr))
    (W : Whole S t ({isL := true, c := c, a := p, s := .node .black x w y} :: cs)) (ht : RBT t .black n) (hx : RBT x cx n) (hy : RBT y cy n)
    (hc : CtxRB ({isL := true, c := c, a := p, s := .node .black x w y} :: cs) pc (n + 1))
    (hred : ∀ (S : St) (q : Ptr) (a : Nat), S.colour a = .red → k S q (some a) = .ok (S, some a))
    (hk : c = .black → ∀ (S' : St) (u : Tree) (pc' : Colour), Whole S' u cs → RBT u .black (n + 1) → CtxRB cs pc' (n + 2) → Repaired (k S' (top cs) u.root) (plug u cs).toList) :
    Repaired (rcLeft k S p w) (plug t ({isL := true, c := c, a := p, s := .node .black x w y} :: cs)).toList := by
  have W1 := W.upL
  have W1s := W1.downR
  have iL : isRed S (S.left w) = decide (cx = .red) := by rw [W1s.tree.2.2.1]; exact isRed_rep W1s.tree.2.2.2.2.1 hx
  have iR : isRed S (S.right w) = decide (cy = .red) := by rw [W1s.tree.2.2.2.1]; exact isRed_rep W1s.tree.2.2.2.2.2 hy
  by_cases b : cy = .red
  · -- the far child is red
    subst b
    cases hy with
    | red hy1 hy2 =>
    rename_i yl yr v
    have := rcLeft_last W1 ht hx hy1 hy2 hc (L := (plug t ({isL := true, c := c, a := p, s := .node .black x w (.node .red yl v yr)} :: cs)).toList) rfl
    simpa only [rcLeft, iL, iR, decide_true, Bool.not_true, Bool.and_false, Bool.false_and, Bool.false_eq_true, if_false, Outcome.pure_eq, Outcome.ok_bind] using this
  · obtain rfl : cy = .black := by cases cy <;> simp_all
    by_cases b2 : cx = .red
    · -- the near child is red
      subst b2
      cases hx with
      | red hx1 hx2 =>
      rename_i xl xr v
      have hl : S.left w = some v := W1s.tree.2.2.1
      rw [hl] at iL
      have W2 : Whole (S.setC v .black) (.node c t p (.node .black (.node .black xl v xr) w y)) cs := (((W1s.downL).setC .black).upL).upR
      have W3 : Whole ((S.setC v .black).setC w .red) (.node .red (.node .black xl v xr) w y) (⟨false, c, p, t⟩ :: cs) := W2.downR.setC .red
      obtain ⟨S4, e4, W4⟩ := rotateRight_whole W3
      have hr4 : S4.right p = some v := W4.ctx.1.1
      have hc' : CtxRB ({isL := true, c := c, a := p, s := .node .black xl v (.node .red xr w y)} :: cs) pc (n + 1) := by
        cases hc with
        | blk k1 _ => exact .blk k1 (.blk hx1 (.red hx2 hy))
        | red k1 _ => exact .red k1 (.blk hx1 (.red hx2 hy))
      have := rcLeft_last W4.upR ht hx1 hx2 hy hc' (L := (plug t ({isL := true, c := c, a := p, s := .node .black (.node .red xl v xr) w y} :: cs)).toList)
        (plug_toList cs (by simp [Frame.fill, Tree.toList]))
      simpa only [rcLeft, iL, iR, hl, setCIf, e4, hr4, deref, decide_true, decide_false, Bool.not_true, Bool.not_false, Bool.true_and, Bool.and_true, Bool.and_false, Bool.false_and, Bool.false_eq_true, if_false, if_true,
        reduceCtorEq, Outcome.pure_eq, Outcome.ok_bind] using this
    · obtain rfl : cx = .black := by cases cx <;> simp_all
      have W2 : Whole (S.setC w .red) (.node c t p (.node .red x w y)) cs := (W1s.setC .red).upR
      have hp : (S.setC w .red).parent p = top cs := W2.tree.1
      simp only [rcLeft, iL, iR, decide_false, Bool.not_false, Bool.and_self, if_true, reduceCtorEq, hp]
      have hs : RBT (.node .red x w y) .red n := .red hx hy
      cases hc with
      | blk k1 _ =>
          have := hk rfl _ _ _ W2 (.blk ht hs) k1
          rw [show (plug t ({isL := true, c := .black, a := p, s := .node .black x w y} :: cs)).toList = (plug (.node .black t p (.node .red x w y)) cs).toList from
            plug_toList cs (by simp [Frame.fill, Tree.toList])]
          exact this
      | red k1 _ =>
          rw [hred _ _ _ W2.tree.2.1]
          exact repaired_focus W2 (.blk ht hs) k1 (plug_toList cs (by simp [Frame.fill, Tree.toList]))

/-- The last rotation: the far child of the sibling is red. -/
theorem rcRight_last {S : St} {c ct cx cy cz : Colour} {t x y z : Tree} {p w v n : Nat} {cs : Ctx} {pc : Colour}
    (W : Whole S (.node c (.node .black (.node .red z v y) w x) p t) cs)
    (ht : RBT t ct n) (hx : RBT x cx n) (hy : RBT y cy n) (hz : RBT z cz n) (hc : CtxRB ({isL := false, c := c, a := p, s := .node .black (.node .red z v y) w x} :: cs) pc (n + 1))
    {L : List Nat} (e : (plug (.node c (.node .black (.node .red z v y) w x) p t) cs).toList = L) :
    Repaired (do
      let S := S.setC w (S.colour p)
      let S := S.setC p .black
      let S := setCIf S (S.left w) .black
      let (S, _) ← rotateRight S p
      pure (S, S.head)) L := by
  have hcp : S.colour p = c := W.tree.2.1
  have W1 : Whole ((S.setC w c).setC p .black) (.node .black (.node c (.node .red z v y) w x) p t) cs := ((W.downL.setC c).upL).setC .black
  rw [← hcp] at W1
  simp only
  obtain ⟨S1, hS1⟩ : ∃ S1, S1 = (S.setC w (S.colour p)).setC p .black := ⟨_, rfl⟩
  rw [← hS1] at W1
  rw [← hS1]
  have hr : S1.left w = some v := W1.downL.tree.2.2.1
  have W2 : Whole (S1.setC v .black) (.node .black (.node c (.node .black z v y) w x) p t) cs := by
    rw [← hcp]; exact (((W1.downL.downL).setC .black).upL).upL
  obtain ⟨S3, e3, W3⟩ := rotateRight_whole W2
  simp only [hr, setCIf, e3, Outcome.ok_bind, Outcome.pure_eq]
  cases hc with
  | blk k _ => exact repaired_head W3 (.blk (.blk (a := v) hz hy) (.blk (a := p) hx ht)) k (fun _ => rfl) (by rw [← e]; exact plug_toList cs (by simp [Tree.toList]))
  | red k _ => exact repaired_head W3 (.red (.blk (a := v) hz hy) (.blk (a := p) hx ht)) k (fun h => by cases h) (by rw [← e]; exact plug_toList cs (by simp [Tree.toList]))

theorem rcRight_spec {S : St} {c : Colour} {t x y : Tree} {p w n : Nat} {cs : Ctx} {pc cx cy : Colour} (k : St → Ptr → Ptr → Outcome (St × Ptr))
    (W : Whole S t ({isL := false, c := c, a := p, s := .node .black y w x} :: cs)) (ht : RBT t .black n) (hx : RBT x cx n) (hy : RBT y cy n)
    (hc : CtxRB ({isL := false, c := c, a := p, s := .node .black y w x} :: cs) pc (n + 1))
    (hred : ∀ (S : St) (q : Ptr) (a : Nat), S.colour a = .red → k S q (some a) = .ok (S, some a))
    (hk : c = .black → ∀ (S' : St) (u : Tree) (pc' : Colour), Whole S' u cs → RBT u .black (n + 1) → CtxRB cs pc' (n + 2) → Repaired (k S' (top cs) u.root) (plug u cs).toList) :
    Repaired (rcRight k S p w) (plug t ({isL := false, c := c, a := p, s := .node .black y w x} :: cs)).toList := by
  have W1 := W.upR
  have W1s := W1.downL
  have iL : isRed S (S.right w) = decide (cx = .red) := by rw [W1s.tree.2.2.2.1]; exact isRed_rep W1s.tree.2.2.2.2.2 hx
  have iR : isRed S (S.left w) = decide (cy = .red) := by rw [W1s.tree.2.2.1]; exact isRed_rep W1s.tree.2.2.2.2.1 hy
  by_cases b : cy = .red
  · -- the far child is red
    subst b
    cases hy with
    | red hy1 hy2 =>
    rename_i yl yr v
    have := rcRight_last W1 ht hx hy2 hy1 hc (L := (plug t ({isL := false, c := c, a := p, s := .node .black (.node .red yl v yr) w x} :: cs)).toList) rfl
    simpa only [rcRight, iL, iR, decide_true, Bool.not_true, Bool.and_false, Bool.false_and, Bool.false_eq_true, if_false, Outcome.pure_eq, Outcome.ok_bind] using this
  · obtain rfl : cy = .black := by cases cy <;> simp_all
    by_cases b2 : cx = .red
    · -- the near child is red
      subst b2
      cases hx with
      | red hx1 hx2 =>
      rename_i xl xr v
      have hl : S.right w = some v := W1s.tree.2.2.2.1
      rw [hl] at iL
      have W2 : Whole (S.setC v .black) (.node c (.node .black y w (.node .black xl v xr)) p t) cs := (((W1s.downR).setC .black).upR).upL
      have W3 : Whole ((S.setC v .black).setC w .red) (.node .red y w (.node .black xl v xr)) (⟨true, c, p, t⟩ :: cs) := W2.downL.setC .red
      obtain ⟨S4, e4, W4⟩ := rotateLeft_whole W3
      have hr4 : S4.left p = some v := W4.ctx.1.1
      have hc' : CtxRB ({isL := false, c := c, a := p, s := .node .black (.node .red y w xl) v xr} :: cs) pc (n + 1) := by
        cases hc with
        | blk k1 _ => exact .blk k1 (.blk (.red hy hx1) hx2)
        | red k1 _ => exact .red k1 (.blk (.red hy hx1) hx2)
      have := rcRight_last W4.upL ht hx2 hx1 hy hc' (L := (plug t ({isL := false, c := c, a := p, s := .node .black y w (.node .red xl v xr)} :: cs)).toList)
        (plug_toList cs (by simp [Frame.fill, Tree.toList]))
      simpa only [rcRight, iL, iR, hl, setCIf, e4, hr4, deref, decide_true, decide_false, Bool.not_true, Bool.not_false, Bool.true_and, Bool.and_true, Bool.and_false, Bool.false_and, Bool.false_eq_true, if_false, if_true,
        reduceCtorEq, Outcome.pure_eq, Outcome.ok_bind] using this
    · obtain rfl : cx = .black := by cases cx <;> simp_all
      have W2 : Whole (S.setC w .red) (.node c (.node .red y w x) p t) cs := (W1s.setC .red).upL
      have hp : (S.setC w .red).parent p = top cs := W2.tree.1
      simp only [rcRight, iL, iR, decide_false, Bool.not_false, Bool.and_self, if_true, reduceCtorEq, hp]
      have hs : RBT (.node .red y w x) .red n := .red hy hx
      cases hc with
      | blk k1 _ =>
          have := hk rfl _ _ _ W2 (.blk hs ht) k1
          rw [show (plug t ({isL := false, c := .black, a := p, s := .node .black y w x} :: cs)).toList = (plug (.node .black (.node .red y w x) p t) cs).toList from
            plug_toList cs (by simp [Frame.fill, Tree.toList])]
          exact this
      | red k1 _ =>
          rw [hred _ _ _ W2.tree.2.1]
          exact repaired_focus W2 (.blk hs ht) k1 (plug_toList cs (by simp [Frame.fill, Tree.toList]))

theorem remove_loop (k : Nat) : ∀ (S : St) (t : Tree) (cs : Ctx) (n : Nat) (c pc : Colour) (fuel : Nat), cs.length ≤ k → cs.length + 1 < fuel →
    Whole S t cs → RBT t c n → CtxRB cs pc (n + 1) → Repaired (removeColourLoop fuel S (top cs) t.root) (plug t cs).toList := by
  induction k with
  | zero =>
      intro S t cs n c pc fuel hk hf W ht hc
      have : cs = [] := List.length_eq_zero_iff.1 (by omega)
      subst this
      obtain ⟨fuel, rfl⟩ : ∃ m, fuel = m + 1 := ⟨fuel - 1, by simp at hf; omega⟩
      have hh : t.root = S.head := W.ctx.symm
      rw [removeColourLoop]
      simp only [hh, beq_self_eq_true, Bool.or_true, if_true]
      cases ht with
      | nil => rw [← hh]; exact ⟨S, none, .nil, 0, rfl, W, rfl, .nil⟩
      | red h1 h2 => rw [← hh]; exact repaired_focus W (.blk h1 h2) .nil rfl
      | blk h1 h2 => rw [← hh]; exact repaired_focus W (.blk h1 h2) .nil rfl
  | succ k ih =>
      intro S t cs n c pc fuel hk hf W ht hc
      obtain ⟨fuel, rfl⟩ : ∃ m, fuel = m + 1 := ⟨fuel - 1, by omega⟩
      cases c with
      | red =>
          cases ht with
          | red h1 h2 =>
            simp only [Tree.root]
            rw [loop_red fuel W.tree.2.1]
            exact repaired_focus W (.blk h1 h2) hc rfl
      | black =>
      cases cs with
      | nil =>
          have hh : t.root = S.head := W.ctx.symm
          rw [removeColourLoop]
          simp only [hh, beq_self_eq_true, Bool.or_true, if_true]
          cases ht with
          | nil => rw [← hh]; exact ⟨S, none, .nil, 0, rfl, W, rfl, .nil⟩
          | blk h1 h2 => rw [← hh]; exact repaired_focus W (.blk h1 h2) .nil rfl
      | cons f cs =>
          obtain ⟨b, fc, p, s⟩ := f
          obtain ⟨fuel, rfl⟩ : ∃ m, fuel = m + 1 := ⟨fuel - 1, by simp at hf; omega⟩
          have hne := root_ne_head W
          have hir : isRed S t.root = false := by rw [isRed_rep W.tree ht]; rfl
          have hred : ∀ (S : St) (q : Ptr) (a : Nat), S.colour a = .red → removeColourLoop (fuel + 1) S q (some a) = .ok (S, some a) := fun S q a h => loop_red fuel h
          rw [removeColourLoop]
          simp only [hir, Bool.false_or, beq_iff_eq, if_neg hne, top, deref, Outcome.ok_bind]
          have hs : ∃ sc, RBT s sc (n + 1) := by
            cases hc with
            | blk _ h => exact ⟨_, h⟩
            | red _ h => exact ⟨_, h⟩
          cases b
          · -- a right child
            have W1 := W.upR
            have hne2 : S.left p ≠ t.root := by
              obtain ⟨sc, hs⟩ := hs
              have key : ∀ v, s.root = some v → S.left p ≠ t.root := fun v hv e => left_ne W1 (e.symm.trans (by rw [W1.tree.2.2.1, hv])) (by rw [W1.tree.2.2.1, hv])
              cases hs with
              | red _ _ => exact key _ rfl
              | blk _ _ => exact key _ rfl
            simp only [if_neg hne2]
            obtain ⟨sc, hs⟩ := hs
            have hSr : S.left p = s.root := W1.tree.2.2.1
            cases hs with
            | @blk x y w _ cx cy hx hy =>
                have hw : S.colour w = .black := W1.downL.tree.2.1
                simp only [hSr, Tree.root, Outcome.ok_bind, hw, reduceCtorEq, if_false]
                exact rcRight_spec _ W ht hy hx hc hred (fun _ S' u pc' W' h' k' => ih S' u cs _ _ pc' _ (by simp at hk; omega) (by simp at hf; omega) W' h' k')
            | @red x y w _ hx hy =>
                have hw : S.colour w = .red := W1.downL.tree.2.1
                simp only [hSr, Tree.root, Outcome.ok_bind, hw, if_true]
                cases hc with
                | red _ h => cases h
                | blk k1 _ =>
                have W2 : Whole (setBlackRed S w p) (.node .red (.node .black x w y) p t) cs := ((W1.downL.setC .black).upL).setC .red
                obtain ⟨S3, e3, W3⟩ := rotateRight_whole W2
                have hl3 : S3.left p = y.root := W3.downR.tree.2.2.1
                simp only [e3, Outcome.ok_bind, hl3]
                cases hy with
                | @blk y1 y2 v _ c1 c2 h1 h2 =>
                have := rcRight_spec _ W3.downR.downR ht h2 h1 (.red (.blk k1 hx) (.blk h1 h2)) hred (fun h => by cases h)
                simp only [Tree.root]
                rw [show (plug t (⟨false, .black, p, .node .red x w (.node .black y1 v y2)⟩ :: cs)).toList =
                  (plug t (⟨false, .red, p, .node .black y1 v y2⟩ :: ⟨false, .black, w, x⟩ :: cs)).toList from plug_toList cs (by simp [Frame.fill, Tree.toList])]
                exact this
          · -- a left child
            have W1 := W.upL
            have hne2 : S.left p = t.root := W1.tree.2.2.1
            simp only [if_pos hne2]
            obtain ⟨sc, hs⟩ := hs
            have hSr : S.right p = s.root := W1.tree.2.2.2.1
            cases hs with
            | @blk x y w _ cx cy hx hy =>
                have hw : S.colour w = .black := W1.downR.tree.2.1
                simp only [hSr, Tree.root, Outcome.ok_bind, hw, reduceCtorEq, if_false]
                exact rcLeft_spec _ W ht hx hy hc hred (fun _ S' u pc' W' h' k' => ih S' u cs _ _ pc' _ (by simp at hk; omega) (by simp at hf; omega) W' h' k')
            | @red x y w _ hx hy =>
                have hw : S.colour w = .red := W1.downR.tree.2.1
                simp only [hSr, Tree.root, Outcome.ok_bind, hw, if_true]
                cases hc with
                | red _ h => cases h
                | blk k1 _ =>
                have W2 : Whole (setBlackRed S w p) (.node .red t p (.node .black x w y)) cs := ((W1.downR.setC .black).upR).setC .red
                obtain ⟨S3, e3, W3⟩ := rotateLeft_whole W2
                have hl3 : S3.right p = x.root := W3.downL.tree.2.2.2.1
                simp only [e3, Outcome.ok_bind, hl3]
                cases hx with
                | @blk y1 y2 v _ c1 c2 h1 h2 =>
                have := rcLeft_spec _ W3.downL.downL ht h1 h2 (.red (.blk k1 hy) (.blk h1 h2)) hred (fun h => by cases h)
                simp only [Tree.root]
                rw [show (plug t (⟨true, .black, p, .node .red (.node .black y1 v y2) w y⟩ :: cs)).toList =
                  (plug t (⟨true, .red, p, .node .black y1 v y2⟩ :: ⟨true, .black, w, y⟩ :: cs)).toList from plug_toList cs (by simp [Frame.fill, Tree.toList])]
                exact this

theorem remove_colour {S : St} {t : Tree} {cs : Ctx} {n : Nat} {c pc : Colour} {fuel : Nat} (hf : cs.length + 1 < fuel) (W : Whole S t cs) (ht : RBT t c n)
    (hc : CtxRB cs pc (n + 1)) :
    ∃ S' t' m, removeColour fuel S (top cs) t.root = .ok S' ∧ Whole S' t' [] ∧ t'.toList = (plug t cs).toList ∧ RBT t' .black m := by
  obtain ⟨S1, e1, t', m, h1, h2, h3, h4⟩ := remove_loop _ S t cs n c pc fuel (Nat.le_refl _) hf W ht hc
  exact ⟨_, t', m, by simp only [removeColour, h1, Outcome.ok_bind, Outcome.pure_eq], h2, h3, h4⟩

end ZT.RbTree
