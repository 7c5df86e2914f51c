import Verif.RbTree.Remove

namespace ZT.RbTree

/-- Splicing out a node with at most one child. -/
theorem splice_whole {S : St} {c : Colour} {l r t : Tree} {a : Nat} {cs : Ctx} (W : Whole S (.node c l a r) cs) (ht : (l = .nil ∧ t = r) ∨ (r = .nil ∧ t = l)) :
    Whole (splice S a t.root) t cs ∧ ∀ x, x ∉ t.toList → x ∉ Ctx.adr cs → Agree S (splice S a t.root) x := by
  obtain ⟨⟨p1, c1, l1, r1, hl, hr⟩, hctx, nd⟩ := W
  have nd' := nd
  simp only [Tree.toList, List.nodup_append, List.nodup_cons, List.mem_cons, List.mem_append, not_or] at nd'
  simp only [Tree.root] at hctx
  have hrep : Rep S (some a) t := by rcases ht with ⟨_, rfl⟩ | ⟨_, rfl⟩ <;> assumption
  have hmem : ∀ x ∈ t.toList, x ≠ a ∧ x ∉ Ctx.adr cs := by rcases ht with ⟨_, rfl⟩ | ⟨_, rfl⟩ <;> grind
  have htnd : t.toList.Nodup := by rcases ht with ⟨_, rfl⟩ | ⟨_, rfl⟩ <;> grind
  have e := setPIf_eq S t.root (top cs)
  have hctx1 : RepCtx (setPIf S t.root (top cs)) (some a) cs := by
    refine ctx_frame cs _ (fun x hx => ?_) e.2.2.2.1 hctx
    refine ⟨by rw [e.1], by rw [e.2.1], ?_, by rw [e.2.2.1]⟩
    rw [e.2.2.2.2, if_neg]
    intro h; exact (hmem x (root_mem h)).2 hx
  obtain ⟨k1, k2, k3, k4⟩ := relink_ctx (S := setPIf S t.root (top cs)) cs a t.root (by simp only [List.nodup_cons]; grind) hctx1
  have hsp : splice S a t.root = relink (setPIf S t.root (top cs)) (top cs) a t.root := by simp only [splice, p1]
  rw [hsp]
  refine ⟨⟨?_, k1, ?_⟩, ?_⟩
  · refine rep_reparent t (some a) (top cs) (fun x hx => ?_) (fun x hx hxr => ?_) htnd hrep
    · have := k2 x (hmem x (root_mem hx)).2
      exact ⟨by rw [this.1, e.1], by rw [this.2.1, e.2.1], by rw [this.2.2.2, e.2.2.1], by rw [this.2.2.1, e.2.2.2.2, if_pos hx]⟩
    · have := k2 x (hmem x hx).2
      exact ⟨by rw [this.1, e.1], by rw [this.2.1, e.2.1], by rw [this.2.2.1, e.2.2.2.2, if_neg hxr], by rw [this.2.2.2, e.2.2.1]⟩
  · rw [List.nodup_append]
    refine ⟨htnd, nd'.2.1, ?_⟩
    intro x hx y hy e; subst e; exact (hmem x hx).2 hy
  · intro x h1 h2
    have := k2 x h2
    exact ⟨by rw [this.1, e.1], by rw [this.2.1, e.2.1], by rw [this.2.2.1, e.2.2.2.2, if_neg (fun h => h1 (root_mem h))], by rw [this.2.2.2, e.2.2.1]⟩

theorem replace_whole {S : St} {c : Colour} {l r : Tree} {a y lb : Nat} {cs : Ctx} (W : Whole S (.node c l a r) cs) (hl : l.root = some lb)
    (hy : y ≠ a ∧ y ∉ l.toList ∧ y ∉ r.toList ∧ y ∉ Ctx.adr cs) :
    ∃ S', replaceNode S a y = .ok S' ∧ Whole S' (.node c l y r) cs := by
  obtain ⟨⟨p1, c1, l1, r1, hlr, hrr⟩, hctx, nd⟩ := W
  have nd' := nd
  simp only [Tree.toList, List.nodup_append, List.nodup_cons, List.mem_cons, List.mem_append, not_or] at nd'
  simp only [Tree.root] at hctx
  obtain ⟨y1, y2, y3, y4⟩ := hy
  have ea : ∀ {α : Type} (u v : α), (if a = y then u else v) = v := fun u v => if_neg (Ne.symm y1)
  obtain ⟨S1, hS1⟩ : ∃ S1, S1 = (((S.setL y (S.left a)).setR y ((S.setL y (S.left a)).right a)).setP y (((S.setL y (S.left a)).setR y ((S.setL y (S.left a)).right a)).parent a)) := ⟨_, rfl⟩
  obtain ⟨S2, hS2⟩ : ∃ S2, S2 = S1.setC y (S1.colour a) := ⟨_, rfl⟩
  have g1 : ∀ x, x ≠ y → Agree S S2 x := by
    intro x hx; subst hS2; subst hS1
    simp [Agree, St.setL, St.setR, St.setP, St.setC, hx]
  have g2 : S2.left y = S.left a ∧ S2.right y = S.right a ∧ S2.parent y = S.parent a ∧ S2.colour y = S.colour a := by
    subst hS2; subst hS1
    simp [St.setL, St.setR, St.setP, St.setC]
  have hh : S2.head = S.head := by subst hS2; subst hS1; rfl
  have hctx2 : RepCtx S2 (some a) cs := ctx_frame cs _ (fun x hx => g1 x (fun e => y4 (e ▸ hx))) hh hctx
  obtain ⟨k1, k2, k3, k4⟩ := relink_ctx (S := S2) cs a (some y) (by simp only [List.nodup_cons]; grind) hctx2
  obtain ⟨S3, hS3⟩ : ∃ S3, S3 = relink S2 (top cs) a (some y) := ⟨_, rfl⟩
  rw [← hS3] at k1 k2 k3 k4
  have ga := g1 a (Ne.symm y1)
  have hacs : a ∉ Ctx.adr cs := by grind
  have ka := k2 a hacs
  have hla : S3.left a = some lb := by rw [ka.1, ga.1, l1, hl]
  have hra : S3.right a = r.root := by rw [ka.2.1, ga.2.1, r1]
  have e := setPIf_eq (S3.setP lb (some y)) r.root (some y)
  refine ⟨setPIf (S3.setP lb (some y)) r.root (some y), ?_, ?_⟩
  · simp only [replaceNode, Outcome.pure_eq]
    rw [← hS1, ← hS2, ga.2.2.1, p1, ← hS3]
    simp only [hla, deref, Outcome.ok_bind]
    have : (S3.setP lb (some y)).right a = r.root := hra
    rw [this]
  · generalize hS4 : setPIf (S3.setP lb (some y)) r.root (some y) = S4 at e
    have hlb := root_mem hl
    have f4 : ∀ x, S4.left x = S3.left x ∧ S4.right x = S3.right x ∧ S4.colour x = S3.colour x ∧
        S4.parent x = if r.root = some x then some y else if x = lb then some y else S3.parent x := fun x =>
      ⟨by rw [e.1]; rfl, by rw [e.2.1]; rfl, by rw [e.2.2.1]; rfl, by rw [e.2.2.2.2]; rfl⟩
    have hrm : ∀ x, r.root = some x → x ∈ r.toList := fun x h => root_mem h
    have k2y := k2 y y4
    have f4y := f4 y
    have ny : ¬ r.root = some y := fun h => y3 (hrm y h)
    have nyl : y ≠ lb := fun h => y2 (h ▸ hlb)
    refine ⟨⟨?_, ?_, ?_, ?_, ?_, ?_⟩, ?_, ?_⟩
    · rw [f4y.2.2.2, if_neg ny, if_neg nyl, k2y.2.2.1, g2.2.2.1, p1]
    · rw [f4y.2.2.1, k2y.2.2.2, g2.2.2.2, c1]
    · rw [f4y.1, k2y.1, g2.1, l1]
    · rw [f4y.2.1, k2y.2.1, g2.2.1, r1]
    · refine rep_reparent l (some a) (some y) (fun x hx => ?_) (fun x hx hxr => ?_) (by grind) hlr
      · have hxl := root_mem hx
        have a1 := k2 x (by grind)
        have a2 := g1 x (by grind)
        have a3 := f4 x
        have : x = lb := by rw [hl] at hx; cases hx; rfl
        refine ⟨by rw [a3.1, a1.1, a2.1], by rw [a3.2.1, a1.2.1, a2.2.1], by rw [a3.2.2.1, a1.2.2.2, a2.2.2.2], ?_⟩
        rw [a3.2.2.2, if_pos this]; split <;> rfl
      · have a1 := k2 x (by grind)
        have a2 := g1 x (by grind)
        have a3 := f4 x
        have n1 : x ≠ lb := fun h => hxr (h ▸ hl)
        have n2 : ¬ r.root = some x := fun h => by have := hrm x h; grind
        exact ⟨by rw [a3.1, a1.1, a2.1], by rw [a3.2.1, a1.2.1, a2.2.1], by rw [a3.2.2.2, if_neg n2, if_neg n1, a1.2.2.1, a2.2.2.1], by rw [a3.2.2.1, a1.2.2.2, a2.2.2.2]⟩
    · refine rep_reparent r (some a) (some y) (fun x hx => ?_) (fun x hx hxr => ?_) (by grind) hrr
      · have hxl := root_mem hx
        have a1 := k2 x (by grind)
        have a2 := g1 x (by grind)
        have a3 := f4 x
        exact ⟨by rw [a3.1, a1.1, a2.1], by rw [a3.2.1, a1.2.1, a2.2.1], by rw [a3.2.2.1, a1.2.2.2, a2.2.2.2], by rw [a3.2.2.2, if_pos hx]⟩
      · have a1 := k2 x (by grind)
        have a2 := g1 x (by grind)
        have a3 := f4 x
        have n1 : x ≠ lb := by grind
        exact ⟨by rw [a3.1, a1.1, a2.1], by rw [a3.2.1, a1.2.1, a2.2.1], by rw [a3.2.2.2, if_neg hxr, if_neg n1, a1.2.2.1, a2.2.2.1], by rw [a3.2.2.1, a1.2.2.2, a2.2.2.2]⟩
    · show RepCtx S4 (some y) cs
      refine ctx_frame (S := S3) cs _ (fun x hx => ?_) (by rw [e.2.2.2.1]; rfl) k1
      have a3 := f4 x
      have n1 : x ≠ lb := by grind
      have n2 : ¬ r.root = some x := fun h => by have := hrm x h; grind
      exact ⟨a3.1, a3.2.1, by rw [a3.2.2.2, if_neg n2, if_neg n1], a3.2.2.1⟩
    · simp only [Tree.toList, List.nodup_append, List.nodup_cons, List.mem_cons, List.mem_append, not_or]
      grind

theorem Whole.down {S : St} {f : Frame} {t : Tree} {cs : Ctx} (W : Whole S (f.fill t) cs) : Whole S t (f :: cs) := by
  obtain ⟨b, c, a, s⟩ := f
  cases b
  · exact Whole.downR W
  · exact Whole.downL W

theorem Whole.into {S : St} {t : Tree} (fs : Ctx) {cs : Ctx} (W : Whole S (plug t fs) cs) : Whole S t (fs ++ cs) := by
  induction fs generalizing t with
  | nil => exact W
  | cons f fs ih => exact (ih W).down

theorem Whole.closeTo {S : St} {t : Tree} (fs : Ctx) {cs : Ctx} (W : Whole S t (fs ++ cs)) : Whole S (plug t fs) cs := by
  induction fs generalizing t with
  | nil => exact W
  | cons f fs ih => exact ih W.up

theorem plug_append (t : Tree) (fs cs : Ctx) : plug t (fs ++ cs) = plug (plug t fs) cs := by
  induction fs generalizing t with
  | nil => rfl
  | cons f fs ih => exact ih _

/-- A member of a tree is the root of a subtree. -/
theorem focus_mem {T : Tree} {a : Nat} (h : a ∈ T.toList) : ∃ c l r cs, T = plug (.node c l a r) cs := by
  induction T with
  | nil => simp [Tree.toList] at h
  | node c l b r ihl ihr =>
      simp only [Tree.toList, List.mem_append, List.mem_cons] at h
      rcases h with h | rfl | h
      · obtain ⟨c', l', r', cs, e⟩ := ihl h
        exact ⟨c', l', r', cs ++ [⟨true, c, b, r⟩], by rw [plug_append, ← e]; rfl⟩
      · exact ⟨c, l, r, [], rfl⟩
      · obtain ⟨c', l', r', cs, e⟩ := ihr h
        exact ⟨c', l', r', cs ++ [⟨false, c, b, l⟩], by rw [plug_append, ← e]; rfl⟩

/-- The leftmost node of a non-empty tree. -/
theorem leftmost_split {S : St} (r : Tree) : ∀ (a : Nat) (par : Ptr), r.root = some a → Rep S par r →
    ∃ yc y yr fs, r = plug (.node yc .nil y yr) fs ∧ r.toList = y :: (plug yr fs).toList ∧ (∀ fuel, fs.length < fuel → leftmost S fuel a = .ok y) ∧
      fs.length ≤ r.toList.length := by
  induction r with
  | nil => intro a par h; cases h
  | node c l b r ihl ihr =>
      intro a par h rep
      cases h
      obtain ⟨_, _, hl, _, repl, _⟩ := rep
      cases l with
      | nil =>
          refine ⟨c, b, r, [], rfl, by simp [Tree.toList, plug], ?_, by simp⟩
          intro fuel hf
          obtain ⟨k, rfl⟩ : ∃ k, fuel = k + 1 := ⟨fuel - 1, by omega⟩
          rw [leftmost]; simp [hl, Tree.root]
      | node lc ll la lr =>
          obtain ⟨yc, y, yr, fs, e1, e2, e3, e4⟩ := ihl la _ rfl repl
          refine ⟨yc, y, yr, fs ++ [⟨true, c, b, r⟩], by rw [plug_append, ← e1]; rfl, ?_, ?_, ?_⟩
          · rw [plug_append]; simp only [plug, Frame.fill, if_true]; rw [Tree.toList, e2]; simp [Tree.toList]
          · intro fuel hf
            obtain ⟨k, rfl⟩ : ∃ k, fuel = k + 1 := ⟨fuel - 1, by omega⟩
            rw [leftmost, hl]; simp only [Tree.root]
            exact e3 k (by simp at hf; omega)
          · simp only [List.length_append, List.length_cons, List.length_nil, Tree.toList] at e4 ⊢; omega

/-- Opening a red-black tree at a position. -/
theorem down_rbt {t : Tree} {fs cs : Ctx} {c pc : Colour} {n : Nat} (h : RBT (plug t fs) c n) (k : CtxRB cs pc n) (hc : pc = .red → c = .black) :
    ∃ c2 pc2 m, RBT t c2 m ∧ CtxRB (fs ++ cs) pc2 m ∧ (pc2 = .red → c2 = .black) := by
  induction fs generalizing t with
  | nil => exact ⟨c, pc, n, h, k, hc⟩
  | cons f fs ih =>
      obtain ⟨c2, pc2, m, h1, h2, h3⟩ := ih h
      obtain ⟨b, fc, a, s⟩ := f
      cases b
      · simp only [Frame.fill, Bool.false_eq_true, if_false] at h1
        cases h1 with
        | red q1 q2 =>
            have : pc2 = .black := by cases pc2 with
              | black => rfl
              | red => cases h3 rfl
            subst this
            exact ⟨_, .red, _, q2, .red h2 q1, fun _ => rfl⟩
        | blk q1 q2 => exact ⟨_, .black, _, q2, .blk h2 q1, fun h => by cases h⟩
      · simp only [Frame.fill, if_true] at h1
        cases h1 with
        | red q1 q2 =>
            have : pc2 = .black := by cases pc2 with
              | black => rfl
              | red => cases h3 rfl
            subst this
            exact ⟨_, .red, _, q1, .red h2 q2, fun _ => rfl⟩
        | blk q1 q2 => exact ⟨_, .black, _, q1, .blk h2 q2, fun h => by cases h⟩

theorem ctx_rename {fs cs : Ctx} {b : Bool} {c pc : Colour} {a y n : Nat} {s : Tree} (h : CtxRB (fs ++ ⟨b, c, a, s⟩ :: cs) pc n) : CtxRB (fs ++ ⟨b, c, y, s⟩ :: cs) pc n := by
  induction fs generalizing pc n with
  | nil => cases h with
    | blk h1 h2 => exact .blk h1 h2
    | red h1 h2 => exact .red h1 h2
  | cons f fs ih => cases h with
    | blk h1 h2 => exact .blk (ih h1) h2
    | red h1 h2 => exact .red (ih h1) h2

theorem plug_list (cs : Ctx) : ∃ pre post, ∀ t, (plug t cs).toList = pre ++ t.toList ++ post := by
  induction cs with
  | nil => exact ⟨[], [], fun t => by simp [plug]⟩
  | cons f cs ih =>
      obtain ⟨pre, post, h⟩ := ih
      obtain ⟨b, c, a, s⟩ := f
      cases b
      · exact ⟨pre ++ s.toList ++ [a], post, fun t => by simp [plug, h, Frame.fill, Tree.toList]⟩
      · exact ⟨pre, a :: s.toList ++ post, fun t => by simp [plug, h, Frame.fill, Tree.toList]⟩

theorem ctx_length (t : Tree) (cs : Ctx) : t.toList.length + cs.length ≤ (plug t cs).toList.length := by
  induction cs generalizing t with
  | nil => simp [plug]
  | cons f cs ih =>
      have := ih (f.fill t)
      have h2 : t.toList.length + 1 ≤ (f.fill t).toList.length := by simp only [Frame.fill]; split <;> simp [Tree.toList] <;> omega
      simp only [plug, List.length_cons]; omega

/-- `zt_rbt_remove` on a red-black tree. -/
theorem ctx_height (t : Tree) (cs : Ctx) : t.height + cs.length ≤ (plug t cs).height := by
  induction cs generalizing t with
  | nil => simp [plug]
  | cons f cs ih =>
      have := ih (f.fill t)
      have h2 : t.height + 1 ≤ (f.fill t).height := by simp only [Frame.fill]; split <;> simp only [Tree.height] <;> omega
      simp only [plug, List.length_cons]; omega

theorem remove_ok {S : St} {T : Tree} {a m fuel : Nat} (W : Whole S T []) (hT : RBT T .black m) (ha : a ∈ T.toList) (hf : T.height + 2 ≤ fuel) :
    ∃ S' T' m', remove fuel S a = .ok S' ∧ Whole S' T' [] ∧ RBT T' .black m' ∧ T'.toList = T.toList.erase a := by
  obtain ⟨c, l, r, cs, rfl⟩ := focus_mem ha
  have W1 : Whole S (.node c l a r) cs := by have := W.into cs; rwa [List.append_nil] at this
  obtain ⟨c2, pc, n, hN, hC, hcomp⟩ := down_rbt hT (CtxRB.nil (n := m)) (fun _ => rfl)
  rw [List.append_nil] at hC
  have hlen := ctx_height (.node c l a r) cs
  obtain ⟨pre, post, hplug⟩ := plug_list cs
  have herase : ∀ t : Tree, t.toList = l.toList ++ r.toList → (plug t cs).toList = (plug (.node c l a r) cs).toList.erase a := by
    intro t ht
    have nd := W.nodup
    simp only [Ctx.adr, List.append_nil] at nd
    rw [hplug] at nd
    rw [hplug, hplug, ht]
    simp only [Tree.toList, List.append_assoc] at nd ⊢
    have h1 : a ∉ pre := by simp only [List.nodup_append, List.mem_append, List.mem_cons] at nd; grind
    have h2 : a ∉ l.toList := by simp only [List.nodup_append, List.mem_append, List.mem_cons] at nd; grind
    rw [List.erase_append_right _ h1, List.erase_append_right _ h2]
    simp
  have hL : S.left a = l.root := W1.tree.2.2.1
  have hR : S.right a = r.root := W1.tree.2.2.2.1
  -- the case of at most one child
  have one : ∀ t : Tree, ((l = .nil ∧ t = r) ∨ (r = .nil ∧ t = l)) →
      ∃ S' T' m', (if S.colour a = .black then removeColour fuel (splice S a t.root) (S.parent a) t.root else .ok (splice S a t.root)) = .ok S' ∧ Whole S' T' [] ∧
        RBT T' .black m' ∧ T'.toList = (plug (.node c l a r) cs).toList.erase a := by
    intro t ht
    obtain ⟨W2, _⟩ := splice_whole W1 ht
    have htl : t.toList = l.toList ++ r.toList := by rcases ht with ⟨rfl, rfl⟩ | ⟨rfl, rfl⟩ <;> simp [Tree.toList]
    have hpar : S.parent a = top cs := W1.tree.1
    have hcol : S.colour a = c := W1.tree.2.1
    cases hN with
    | @blk _ _ _ n cl cr h1 h2 =>
        have : ∃ ct, RBT t ct n := by rcases ht with ⟨_, rfl⟩ | ⟨_, rfl⟩; exact ⟨_, h2⟩; exact ⟨_, h1⟩
        obtain ⟨ct, ht'⟩ := this
        obtain ⟨S', t', m', e1, e2, e3, e4⟩ := remove_colour (fuel := fuel) (by simp only [Tree.height] at hlen; omega) W2 ht' hC
        refine ⟨S', t', m', ?_, e2, e4, by rw [e3, herase t htl]⟩
        rw [if_pos hcol, hpar]; exact e1
    | red h1 h2 =>
        have ht' : RBT t .black n := by rcases ht with ⟨_, rfl⟩ | ⟨_, rfl⟩ <;> assumption
        obtain ⟨m', hm'⟩ := plug_rbt ht' hC (fun _ => rfl)
        refine ⟨_, plug t cs, m', ?_, W2.close, hm', herase t htl⟩
        rw [if_neg (by rw [hcol]; simp)]
  cases l with
  | nil =>
      obtain ⟨S', T', m', e1, e2, e3, e4⟩ := one r (.inl ⟨rfl, rfl⟩)
      refine ⟨S', T', m', ?_, e2, e3, e4⟩
      rw [← e1]
      simp only [remove, hL, hR, Tree.root, if_true, Outcome.pure_eq]
  | node lc ll lb lr =>
  cases r with
  | nil =>
      obtain ⟨S', T', m', e1, e2, e3, e4⟩ := one (.node lc ll lb lr) (.inr ⟨rfl, rfl⟩)
      refine ⟨S', T', m', ?_, e2, e3, e4⟩
      rw [← e1]
      simp only [remove, hL, hR, Tree.root, if_false, Outcome.pure_eq, reduceCtorEq]
  | node rc rl rb rr =>
      obtain ⟨yc, y, yr, fs, q1, q2, q3, q4⟩ := leftmost_split (.node rc rl rb rr) rb _ rfl W1.tree.2.2.2.2.2
      have q5 := ctx_height (.node yc .nil y yr) fs
      rw [← q1] at q5
      have hlm := q3 fuel (by simp only [Tree.height] at q5 hlen; omega)
      have Wr : Whole S (.node yc .nil y yr) (fs ++ ⟨false, c, a, .node lc ll lb lr⟩ :: cs) := by
        have := W1.downR; rw [q1] at this; exact this.into fs
      obtain ⟨W2, hag⟩ := splice_whole Wr (.inl ⟨rfl, rfl⟩)
      have W3 := W2.closeTo fs
      have hy : y ≠ a ∧ y ∉ (Tree.node lc ll lb lr).toList ∧ y ∉ (plug yr fs).toList ∧ y ∉ Ctx.adr cs := by
        have nd := W1.nodup
        rw [show (Tree.node c (.node lc ll lb lr) a (.node rc rl rb rr)).toList = (Tree.node lc ll lb lr).toList ++ a :: (Tree.node rc rl rb rr).toList from rfl, q2] at nd
        simp only [List.nodup_append, List.mem_append, List.nodup_cons, List.mem_cons] at nd
        grind
      obtain ⟨S3, e3, W4⟩ := replace_whole W3.upR rfl hy
      have W5 := (W4.downR).into fs
      have hyr : y ∉ yr.toList ∧ y ∉ Ctx.adr (fs ++ ⟨false, c, a, .node lc ll lb lr⟩ :: cs) := by
        have := Wr.nodup
        simp only [Tree.toList, List.nil_append, List.cons_append, List.nodup_cons, List.mem_append, not_or] at this
        exact ⟨this.1.1, this.1.2⟩
      have hpy := hag y hyr.1 hyr.2
      have hpar : S.parent y = top (fs ++ ⟨false, c, a, .node lc ll lb lr⟩ :: cs) := Wr.tree.1
      have hcy : S.colour y = yc := Wr.tree.2.1
      have hry : S.right y = yr.root := Wr.tree.2.2.2.1
      have htop : (if S.parent y = some a then some y else S.parent y) = top (fs ++ ⟨false, c, y, .node lc ll lb lr⟩ :: cs) := by
        rw [hpar]
        cases fs with
        | nil => simp [top]
        | cons f fs =>
            have : f.a ≠ a := by
              have := Wr.nodup
              simp only [List.cons_append, Ctx.adr, List.nodup_append, List.nodup_cons] at this
              intro e
              apply this.2.1.1
              rw [e, List.mem_append]; right
              have key : ∀ (fs : Ctx) (g : Frame) cs, g.a ∈ Ctx.adr (fs ++ g :: cs) := by
                intro fs; induction fs with
                | nil => intro g cs; simp [Ctx.adr]
                | cons f fs ih => intro g cs; simp only [List.cons_append, Ctx.adr, List.mem_cons, List.mem_append]; exact .inr (.inr (ih g cs))
              exact key fs ⟨false, c, a, .node lc ll lb lr⟩ cs
            simp [top, this]
      have hexec : ∀ S', (if yc = .black then removeColour fuel S3 (top (fs ++ ⟨false, c, y, .node lc ll lb lr⟩ :: cs)) yr.root else .ok S3) = .ok S' → remove fuel S a = .ok S' := by
        intro S' h
        rw [← h]
        have hL' : S.left a = some lb := hL
        have hR' : S.right a = some rb := hR
        simp only [remove, hL', hR', hlm, Outcome.ok_bind, hry, hcy, hpy.2.2.1, htop, e3]; rfl
      obtain ⟨c3, pc3, n3, h3, k3, hc3⟩ : ∃ c3 pc3 n3, RBT (.node yc .nil y yr) c3 n3 ∧ CtxRB (fs ++ ⟨false, c, a, .node lc ll lb lr⟩ :: cs) pc3 n3 ∧ (pc3 = .red → c3 = .black) := by
        have := down_rbt (t := .node yc .nil y yr) (fs := fs ++ [⟨false, c, a, .node lc ll lb lr⟩]) (cs := cs) (c := c2) (pc := pc) (n := n)
          (by rw [plug_append, ← q1]; exact hN) hC hcomp
        simpa using this
      have hlist : (plug yr (fs ++ ⟨false, c, y, .node lc ll lb lr⟩ :: cs)).toList = (plug (.node c (.node lc ll lb lr) a (.node rc rl rb rr)) cs).toList.erase a := by
        rw [plug_append]
        show (plug (.node c (.node lc ll lb lr) y (plug yr fs)) cs).toList = _
        refine herase _ ?_
        rw [q2]; rfl
      cases h3 with
      | blk h4 h5 =>
          obtain ⟨S', t', m', e1, e2, e3, e4⟩ := remove_colour (fuel := fuel) (cs := fs ++ ⟨false, c, y, .node lc ll lb lr⟩ :: cs) (by
            have hx := ctx_height (.node .black .nil y yr) (fs ++ ⟨false, c, a, .node lc ll lb lr⟩ :: cs)
            rw [plug_append, ← q1] at hx
            have : (plug (Tree.node rc rl rb rr) (⟨false, c, a, .node lc ll lb lr⟩ :: cs)) = plug (.node c (.node lc ll lb lr) a (.node rc rl rb rr)) cs := rfl
            rw [this] at hx
            simp only [List.length_append, List.length_cons, Tree.height] at hx hf ⊢; omega) W5 h5 (ctx_rename k3)
          exact ⟨S', t', m', hexec S' (by rw [if_pos rfl]; exact e1), e2, e4, by rw [e3, hlist]⟩
      | red h4 h5 =>
          obtain ⟨m', hm'⟩ := plug_rbt h5 (ctx_rename (y := y) k3) (fun _ => rfl)
          exact ⟨S3, _, m', hexec S3 (by rw [if_neg (by simp)]), W5.close, hm', hlist⟩

end ZT.RbTree
