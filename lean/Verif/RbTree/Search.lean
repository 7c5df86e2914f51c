import Verif.RbTree.Unlink

namespace ZT.RbTree

/-- The comparison callback is a three-way comparison by some total preorder of the nodes' keys. -/
structure Order (cmp : Nat → Nat → Int) : Prop where
  flip : ∀ x y, cmp x y < 0 ↔ 0 < cmp y x
  trans : ∀ x y z, cmp x y ≤ 0 → cmp y z ≤ 0 → cmp x z ≤ 0

/-- Strictly increasing. -/
def Sorted (cmp : Nat → Nat → Int) (L : List Nat) : Prop := L.Pairwise (fun x y => cmp x y < 0)

theorem Order.refl {cmp} (o : Order cmp) (x : Nat) : cmp x x = 0 := by have := o.flip x x; omega

theorem Order.le_lt {cmp} (o : Order cmp) {x y z : Nat} (h : cmp x y ≤ 0) (k : cmp y z < 0) : cmp x z < 0 := by
  have h1 := o.flip y z
  have h2 := o.flip x z
  have h3 := o.flip z x
  have h4 := o.trans z x y
  omega

theorem Order.lt_le {cmp} (o : Order cmp) {x y z : Nat} (h : cmp x y < 0) (k : cmp y z ≤ 0) : cmp x z < 0 := by
  have h1 := o.flip x y
  have h2 := o.flip x z
  have h3 := o.flip z x
  have h4 := o.trans y z x
  omega

theorem Order.ge_of {cmp} (o : Order cmp) {x y : Nat} (h : 0 ≤ cmp x y) : cmp y x ≤ 0 := by have := o.flip x y; have := o.flip y x; omega

theorem rbt_height {t : Tree} {c : Colour} {n : Nat} (h : RBT t c n) : t.height ≤ 2 * n + (if c = .red then 1 else 0) ∧ 2 ^ n ≤ t.toList.length + 1 := by
  induction h with
  | nil => simp [Tree.height]
  | red h1 h2 ih1 ih2 =>
      simp only [Tree.height, Tree.toList, List.length_append, List.length_cons, if_true, reduceCtorEq, if_false] at *; omega
  | @blk l r a n c d h1 h2 ih1 ih2 =>
      simp only [Tree.height, Tree.toList, List.length_append, List.length_cons, if_true, reduceCtorEq, if_false, Nat.pow_succ] at *
      have : (if c = .red then 1 else 0) ≤ 1 := by split <;> omega
      have : (if d = .red then 1 else 0) ≤ 1 := by split <;> omega
      omega

theorem height_log {t : Tree} {n : Nat} (h : RBT t .black n) : t.height ≤ 2 * Nat.log2 (t.toList.length + 1) := by
  obtain ⟨h1, h2⟩ := rbt_height h
  have : n ≤ Nat.log2 (t.toList.length + 1) := (Nat.le_log2 (by omega)).2 h2
  simp only [reduceCtorEq, if_false] at h1; omega

theorem sorted_node {cmp : Nat → Nat → Int} {c : Colour} {l r : Tree} {a : Nat} (h : Sorted cmp (Tree.node c l a r).toList) :
    Sorted cmp l.toList ∧ Sorted cmp r.toList ∧ (∀ x ∈ l.toList, cmp x a < 0) ∧ ∀ x ∈ r.toList, cmp a x < 0 := by
  simp only [Sorted, Tree.toList, List.pairwise_append, List.pairwise_cons, List.mem_cons] at h
  exact ⟨h.1, h.2.1.2, fun x hx => h.2.2 x hx a (.inl rfl), h.2.1.1⟩

theorem find_spec {cmp : Nat → Nat → Int} (o : Order cmp) {S : St} (e : Nat) (t : Tree) : ∀ (par : Ptr) (fuel : Nat), Rep S par t → Sorted cmp t.toList → t.height < fuel →
    find cmp S e fuel t.root = .ok (t.toList.find? (fun x => cmp e x == 0)) := by
  induction t with
  | nil =>
      intro par fuel _ _ hf
      obtain ⟨k, rfl⟩ : ∃ k, fuel = k + 1 := ⟨fuel - 1, by omega⟩
      rfl
  | node c l a r ihl ihr =>
      intro par fuel rep hs hf
      obtain ⟨k, rfl⟩ : ∃ k, fuel = k + 1 := ⟨fuel - 1, by omega⟩
      obtain ⟨s1, s2, s3, s4⟩ := sorted_node hs
      obtain ⟨_, _, hl, hr, repl, repr⟩ := rep
      simp only [Tree.height] at hf
      simp only [Tree.root, find]
      by_cases c1 : cmp e a < 0
      · rw [if_pos c1, hl, ihl _ k repl s1 (by omega), Tree.toList, List.find?_append]
        have : (a :: r.toList).find? (fun x => cmp e x == 0) = none := by
          rw [List.find?_eq_none]; intro x hx
          rcases List.mem_cons.1 hx with rfl | hx
          · simp; omega
          · have := o.lt_le c1 (Int.le_of_lt (s4 x hx)); simp; omega
        rw [this, Option.or_none]
      · rw [if_neg c1]
        have hln : l.toList.find? (fun x => cmp e x == 0) = none := by
          rw [List.find?_eq_none]; intro x hx
          have h1 := o.lt_le (s3 x hx) (o.ge_of (by omega : 0 ≤ cmp e a))
          have := (o.flip x e).1 h1
          simp; omega
        rw [Tree.toList, List.find?_append, hln, Option.none_or]
        by_cases c2 : cmp e a > 0
        · rw [if_pos c2, hr, ihr _ k repr s2 (by omega), List.find?_cons_of_neg (by simp; omega)]
        · rw [if_neg c2, List.find?_cons_of_pos (by simp; omega)]

theorem nfind_spec {cmp : Nat → Nat → Int} (o : Order cmp) {S : St} (e : Nat) (t : Tree) : ∀ (par : Ptr) (fuel : Nat) (res : Ptr), Rep S par t → Sorted cmp t.toList → t.height < fuel →
    nfind cmp S e fuel t.root res = .ok ((t.toList.find? (fun x => decide (cmp e x ≤ 0))).or res) := by
  induction t with
  | nil =>
      intro par fuel res _ _ hf
      obtain ⟨k, rfl⟩ : ∃ k, fuel = k + 1 := ⟨fuel - 1, by omega⟩
      rfl
  | node c l a r ihl ihr =>
      intro par fuel res rep hs hf
      obtain ⟨k, rfl⟩ : ∃ k, fuel = k + 1 := ⟨fuel - 1, by omega⟩
      obtain ⟨s1, s2, s3, s4⟩ := sorted_node hs
      obtain ⟨_, _, hl, hr, repl, repr⟩ := rep
      simp only [Tree.height] at hf
      simp only [Tree.root, nfind]
      by_cases c1 : cmp e a < 0
      · rw [if_pos c1, hl, ihl _ k _ repl s1 (by omega), Tree.toList, List.find?_append, List.find?_cons_of_pos (by simp; omega)]
        cases List.find? (fun x => decide (cmp e x ≤ 0)) l.toList <;> rfl
      · rw [if_neg c1]
        have hln : l.toList.find? (fun x => decide (cmp e x ≤ 0)) = none := by
          rw [List.find?_eq_none]; intro x hx
          have h1 := o.lt_le (s3 x hx) (o.ge_of (by omega : 0 ≤ cmp e a))
          have := (o.flip x e).1 h1
          simp; omega
        rw [Tree.toList, List.find?_append, hln, Option.none_or]
        by_cases c2 : cmp e a > 0
        · rw [if_pos c2, hr, ihr _ k _ repr s2 (by omega), List.find?_cons_of_neg (by simp; omega)]
        · rw [if_neg c2, List.find?_cons_of_pos (by simp; omega)]; rfl

theorem search_equal {cmp : Nat → Nat → Int} (o : Order cmp) {S : St} (e : Nat) (t : Tree) : ∀ (par q : Ptr) (fuel : Nat) (comp : Int) (x : Nat), Rep S par t → Sorted cmp t.toList → t.height < fuel →
    x ∈ t.toList → cmp e x = 0 → insertSearch cmp S e fuel t.root q comp = .ok (.inl x) := by
  induction t with
  | nil => intro par q fuel comp x _ _ _ hx; simp [Tree.toList] at hx
  | node c l a r ihl ihr =>
      intro par q fuel comp x rep hs hf hx he
      obtain ⟨k, rfl⟩ : ∃ k, fuel = k + 1 := ⟨fuel - 1, by omega⟩
      obtain ⟨s1, s2, s3, s4⟩ := sorted_node hs
      obtain ⟨_, _, hl, hr, repl, repr⟩ := rep
      simp only [Tree.height] at hf
      simp only [Tree.root, insertSearch]
      simp only [Tree.toList, List.mem_append, List.mem_cons] at hx
      rcases hx with hx | rfl | hx
      · have : cmp e a < 0 := o.le_lt (by omega) (s3 x hx)
        rw [if_pos this, hl]; exact ihl _ _ k _ x repl s1 (by omega) hx he
      · rw [if_neg (by omega), if_neg (by omega)]
      · have : cmp a e < 0 := o.lt_le (s4 x hx) (o.ge_of (by omega))
        have := (o.flip a e).1 this
        rw [if_neg (by omega), if_pos (by omega), hr]; exact ihr _ _ k _ x repr s2 (by omega) hx he

/-- The list with `e` added in order. -/
def insSorted (cmp : Nat → Nat → Int) (e : Nat) (L : List Nat) : List Nat := L.filter (fun x => decide (cmp x e < 0)) ++ e :: L.filter (fun x => decide (0 ≤ cmp x e))

theorem search_fresh {cmp : Nat → Nat → Int} (o : Order cmp) {S : St} (e : Nat) (t : Tree) : ∀ (par q : Ptr) (fuel : Nat) (comp : Int), Rep S par t → Sorted cmp t.toList → t.height < fuel →
    (∀ x ∈ t.toList, cmp e x ≠ 0) →
    ∃ fs comp', insertSearch cmp S e fuel t.root q comp = .ok (.inr ((top fs).or q, comp')) ∧ t = plug .nil fs ∧ (∀ f fs', fs = f :: fs' → (comp' < 0 ↔ f.isL = true)) ∧
      (plug (.node .red .nil e .nil) fs).toList = insSorted cmp e t.toList := by
  induction t with
  | nil =>
      intro par q fuel comp _ _ hf _
      obtain ⟨k, rfl⟩ : ∃ k, fuel = k + 1 := ⟨fuel - 1, by omega⟩
      exact ⟨[], comp, by cases q <;> rfl, rfl, fun f fs' h => (by cases h), by simp [insSorted, plug, Tree.toList]⟩
  | node c l a r ihl ihr =>
      intro par q fuel comp rep hs hf hne
      obtain ⟨k, rfl⟩ : ∃ k, fuel = k + 1 := ⟨fuel - 1, by omega⟩
      obtain ⟨s1, s2, s3, s4⟩ := sorted_node hs
      obtain ⟨_, _, hl, hr, repl, repr⟩ := rep
      simp only [Tree.height] at hf
      simp only [Tree.root, insertSearch]
      have topor : ∀ (fs : Ctx) (g : Frame), g.a = a → (top fs).or (some a) = (top (fs ++ [g])).or q := by
        intro fs g hg; cases fs <;> simp [top, hg]
      by_cases c1 : cmp e a < 0
      · obtain ⟨fs, comp', e1, e2, e3, e4⟩ := ihl _ (some a) k (cmp e a) repl s1 (by omega) (fun x hx => hne x (by simp [Tree.toList, hx]))
        refine ⟨fs ++ [⟨true, c, a, r⟩], if fs = [] then cmp e a else comp', ?_, by rw [plug_append, ← e2]; rfl, ?_, ?_⟩
        · rw [if_pos c1, hl]
          by_cases hfs : fs = []
          · subst hfs
            cases l with
            | nil => obtain ⟨k, rfl⟩ : ∃ k', k = k' + 1 := ⟨k - 1, by omega⟩
                     rfl
            | node => cases e2
          · rw [if_neg hfs, e1, topor fs ⟨true, c, a, r⟩ rfl]
        · intro f fs' h
          cases fs with
          | nil => simp at h; rw [← h.1]; simpa using c1
          | cons g gs => simp only [List.cons_append, List.cons.injEq] at h; rw [if_neg (by simp), ← h.1]; exact e3 g gs rfl
        · rw [plug_append]
          simp only [plug, Frame.fill, if_true, Tree.toList]
          have f1 : (a :: r.toList).filter (fun x => decide (cmp x e < 0)) = [] := by
            rw [List.filter_eq_nil_iff]; intro x hx
            have : cmp e x < 0 := by
              rcases List.mem_cons.1 hx with rfl | hx
              · exact c1
              · exact o.lt_le c1 (Int.le_of_lt (s4 x hx))
            have := (o.flip e x).1 this; simp; omega
          have f2 : (a :: r.toList).filter (fun x => decide (0 ≤ cmp x e)) = a :: r.toList := by
            rw [List.filter_eq_self]; intro x hx
            have : cmp e x < 0 := by
              rcases List.mem_cons.1 hx with rfl | hx
              · exact c1
              · exact o.lt_le c1 (Int.le_of_lt (s4 x hx))
            have := (o.flip e x).1 this; simp; omega
          rw [e4]
          simp only [insSorted, List.filter_append, f1, f2]; simp
      · have c2 : cmp e a > 0 := by have := hne a (by simp [Tree.toList]); omega
        obtain ⟨fs, comp', e1, e2, e3, e4⟩ := ihr _ (some a) k (cmp e a) repr s2 (by omega) (fun x hx => hne x (by simp [Tree.toList, hx]))
        refine ⟨fs ++ [⟨false, c, a, l⟩], if fs = [] then cmp e a else comp', ?_, by rw [plug_append, ← e2]; rfl, ?_, ?_⟩
        · rw [if_neg c1, if_pos c2, hr]
          by_cases hfs : fs = []
          · subst hfs
            cases r with
            | nil => obtain ⟨k, rfl⟩ : ∃ k', k = k' + 1 := ⟨k - 1, by omega⟩
                     rfl
            | node => cases e2
          · rw [if_neg hfs, e1, topor fs ⟨false, c, a, l⟩ rfl]
        · intro f fs' h
          cases fs with
          | nil => simp at h; rw [← h.1]; simpa using Int.le_of_lt c2
          | cons g gs => simp only [List.cons_append, List.cons.injEq] at h; rw [if_neg (by simp), ← h.1]; exact e3 g gs rfl
        · rw [plug_append]
          simp only [plug, Frame.fill, Bool.false_eq_true, if_false, Tree.toList]
          have hla : ∀ x ∈ l.toList ++ [a], cmp x e < 0 := by
            intro x hx
            have hae : cmp a e < 0 := (o.flip a e).2 c2
            rcases List.mem_append.1 hx with hx | hx
            · exact o.lt_le (s3 x hx) (Int.le_of_lt hae)
            · simp at hx; subst hx; exact hae
          have f1 : (l.toList ++ [a]).filter (fun x => decide (cmp x e < 0)) = l.toList ++ [a] := by
            rw [List.filter_eq_self]; intro x hx; simpa using hla x hx
          have f2 : (l.toList ++ [a]).filter (fun x => decide (0 ≤ cmp x e)) = [] := by
            rw [List.filter_eq_nil_iff]; intro x hx; have := hla x hx; simp; omega
          rw [e4]
          have : l.toList ++ a :: r.toList = (l.toList ++ [a]) ++ r.toList := by simp
          rw [this]
          simp only [insSorted, List.filter_append (l₁ := l.toList ++ [a]), f1, f2]; simp

/-- Hanging a fresh red node into an empty place. -/
theorem attach_whole {S : St} {cs : Ctx} {e : Nat} (comp : Int) (W : Whole S .nil cs) (he : e ∉ Ctx.adr cs) (hc : ∀ f fs', cs = f :: fs' → (comp < 0 ↔ f.isL = true)) :
    Whole (hang (setNode S e (top cs)) (top cs) comp e) (.node .red .nil e .nil) cs := by
  have ag : ∀ x, x ≠ e → Agree S (setNode S e (top cs)) x := fun x hx => by simp [Agree, setNode, St.setP, St.setR, St.setL, St.setC, hx]
  obtain ⟨_, hctx, nd⟩ := W
  have nd2 : ((Tree.node .red .nil e .nil).toList ++ Ctx.adr cs).Nodup := by simpa [Tree.toList, he] using nd
  cases cs with
  | nil =>
      refine ⟨⟨?_, ?_, ?_, ?_, trivial, trivial⟩, rfl, nd2⟩ <;> simp [top, hang, setNode, St.setP, St.setR, St.setL, St.setC, St.setH, Tree.root]
  | cons f cs =>
      obtain ⟨h1, h2, h3, h4, h5⟩ := hctx
      have hfe : f.a ≠ e := fun h => he (by simp [Ctx.adr, h])
      simp only [Tree.toList, List.nil_append, Ctx.adr, List.nodup_cons, List.nodup_append, List.mem_append, not_or] at nd
      have hiff := hc f cs rfl
      simp only [top, hang]
      obtain ⟨b, fc, p, s⟩ := f
      simp only at h1 h2 h3 h4 h5 hfe nd hiff
      cases b
      · have : ¬ comp < 0 := by simpa using hiff
        simp only [if_neg this]
        have ag2 : ∀ x, x ≠ e → x ≠ p → Agree S ((setNode S e (some p)).setR p (some e)) x := fun x hx hp => by
          have := ag x hx; simp only [Agree, St.setR, top] at this ⊢; simpa [hp] using this
        have agf := ag p hfe
        simp only [top] at agf
        refine ⟨⟨?_, ?_, ?_, ?_, trivial, trivial⟩, ⟨?_, ?_, ?_, ?_, ?_⟩, nd2⟩
        · simp [top, setNode, St.setP, St.setR, St.setL, St.setC]
        · simp [setNode, St.setP, St.setR, St.setL, St.setC]
        · simp [setNode, St.setP, St.setR, St.setL, St.setC, Tree.root]
        · simp [setNode, St.setP, St.setR, St.setL, St.setC, Tree.root, Ne.symm hfe]
        · simp only [Bool.false_eq_true, if_false] at h1 ⊢
          refine ⟨by simp [St.setR, Tree.root], ?_⟩
          show (setNode S e (some p)).left p = _
          rw [agf.1]; exact h1.2
        · show (setNode S e (some p)).colour p = _
          rw [agf.2.2.2]; exact h2
        · show (setNode S e (some p)).parent p = _
          rw [agf.2.2.1]; exact h3
        · refine rep_frame s _ (fun x hx => ag2 x ?_ ?_) h4
          · intro h; subst h; exact he (by simp [Ctx.adr, hx])
          · intro h; subst h; exact nd.1.1 hx
        · refine ctx_frame cs _ (fun x hx => ag2 x ?_ ?_) rfl h5
          · intro h; subst h; exact he (by simp [Ctx.adr, hx])
          · intro h; subst h; exact nd.1.2 hx
      · have : comp < 0 := by simpa using hiff
        simp only [if_pos this]
        have ag2 : ∀ x, x ≠ e → x ≠ p → Agree S ((setNode S e (some p)).setL p (some e)) x := fun x hx hp => by
          have := ag x hx; simp only [Agree, St.setL, top] at this ⊢; simpa [hp] using this
        have agf := ag p hfe
        simp only [top] at agf
        refine ⟨⟨?_, ?_, ?_, ?_, trivial, trivial⟩, ⟨?_, ?_, ?_, ?_, ?_⟩, nd2⟩
        · simp [top, setNode, St.setP, St.setR, St.setL, St.setC]
        · simp [setNode, St.setP, St.setR, St.setL, St.setC]
        · simp [setNode, St.setP, St.setR, St.setL, St.setC, Tree.root, Ne.symm hfe]
        · simp [setNode, St.setP, St.setR, St.setL, St.setC, Tree.root]
        · simp only [if_true] at h1 ⊢
          refine ⟨by simp [St.setL, Tree.root], ?_⟩
          show (setNode S e (some p)).right p = _
          rw [agf.2.1]; exact h1.2
        · show (setNode S e (some p)).colour p = _
          rw [agf.2.2.2]; exact h2
        · show (setNode S e (some p)).parent p = _
          rw [agf.2.2.1]; exact h3
        · refine rep_frame s _ (fun x hx => ag2 x ?_ ?_) h4
          · intro h; subst h; exact he (by simp [Ctx.adr, hx])
          · intro h; subst h; exact nd.1.1 hx
        · refine ctx_frame cs _ (fun x hx => ag2 x ?_ ?_) rfl h5
          · intro h; subst h; exact he (by simp [Ctx.adr, hx])
          · intro h; subst h; exact nd.1.2 hx

theorem insert_present {cmp : Nat → Nat → Int} (o : Order cmp) {S : St} {T : Tree} {e x fuel : Nat} (W : Whole S T []) (hs : Sorted cmp T.toList) (hf : T.height < fuel)
    (hx : x ∈ T.toList) (he : cmp e x = 0) : insert cmp fuel S e = .ok (some x, S) := by
  have hh : S.head = T.root := W.ctx
  rw [insert, hh, search_equal o e T none none fuel 0 x W.tree hs hf hx he]; rfl

theorem insert_fresh {cmp : Nat → Nat → Int} (o : Order cmp) {S : St} {T : Tree} {e m fuel : Nat} (W : Whole S T []) (hT : RBT T .black m) (hs : Sorted cmp T.toList)
    (hf : T.height < fuel) (hne : ∀ x ∈ T.toList, cmp e x ≠ 0) :
    ∃ S' T' m', insert cmp fuel S e = .ok (none, S') ∧ Whole S' T' [] ∧ RBT T' .black m' ∧ T'.toList = insSorted cmp e T.toList := by
  have hh : S.head = T.root := W.ctx
  have heT : e ∉ T.toList := fun h => hne e h (o.refl e)
  obtain ⟨fs, comp, e1, rfl, e3, e4⟩ := search_fresh o e T none none fuel 0 W.tree hs hf hne
  have W1 : Whole S .nil fs := by have := W.into fs; rwa [List.append_nil] at this
  obtain ⟨c2, pc, n, hN, hC, hcomp⟩ := down_rbt hT (CtxRB.nil (n := m)) (fun _ => rfl)
  rw [List.append_nil] at hC
  cases hN
  have hadr : e ∉ Ctx.adr fs := by
    intro h; apply heT
    have key : ∀ (cs : Ctx) (t : Tree) (x : Nat), x ∈ Ctx.adr cs → x ∈ (plug t cs).toList := by
      intro cs; induction cs with
      | nil => intro t x hx; simp [Ctx.adr] at hx
      | cons f cs ih =>
          intro t x hx
          obtain ⟨pre, post, hp⟩ := plug_list cs
          simp only [Ctx.adr, List.mem_cons, List.mem_append] at hx
          rcases hx with rfl | hx | hx
          · simp only [plug, hp, Frame.fill]; split <;> simp [Tree.toList]
          · simp only [plug, hp, Frame.fill]; split <;> simp [Tree.toList, hx]
          · exact ih _ x hx
    exact key fs .nil e h
  have W2 := attach_whole (e := e) comp W1 hadr e3
  have hlen := ctx_height .nil fs
  obtain ⟨S', t', m', r1, r2, r3, r4⟩ := insert_colour (fuel := fuel) (by simp [Tree.height] at hlen; omega) W2 (.red .nil .nil) hC
  refine ⟨S', t', m', ?_, r2, r4, by rw [r3, e4]⟩
  rw [insert, hh, e1]
  simp only [Outcome.ok_bind, Option.or_none]
  rw [r1]; rfl

theorem insSorted_sorted {cmp : Nat → Nat → Int} (o : Order cmp) {L : List Nat} {e : Nat} (hs : Sorted cmp L) (hne : ∀ x ∈ L, cmp e x ≠ 0) : Sorted cmp (insSorted cmp e L) := by
  have key : ∀ x ∈ L, 0 ≤ cmp x e → cmp e x < 0 := by
    intro x hx h
    have h1 := hne x hx
    have h2 := o.flip x e
    have h3 := o.flip e x
    omega
  simp only [insSorted, Sorted, List.pairwise_append, List.pairwise_cons, List.mem_cons, List.mem_filter, decide_eq_true_eq]
  refine ⟨hs.filter _, ⟨fun x hx => key x hx.1 hx.2, hs.filter _⟩, ?_⟩
  intro x hx y hy
  rcases hy with rfl | hy
  · exact hx.2
  · exact o.lt_le hx.2 (Int.le_of_lt (key y hy.1 hy.2))

theorem insSorted_perm (cmp : Nat → Nat → Int) (e : Nat) (L : List Nat) : (insSorted cmp e L).Perm (e :: L) := by
  have h : (L.filter (fun x => decide (0 ≤ cmp x e))) = L.filter (fun x => !decide (cmp x e < 0)) := by
    congr 1; funext x; by_cases h : cmp x e < 0 <;> simp [h] <;> omega
  rw [insSorted, h]
  exact (List.perm_middle).trans ((List.filter_append_perm _ L).cons e)

/-! ## Iteration -/

/-- The address that follows a hole. -/
def succCtx : Ctx → Ptr
  | [] => none
  | f :: cs => if f.isL then some f.a else succCtx cs

theorem plug_succ (cs : Ctx) : ∃ pre post, (∀ t, (plug t cs).toList = pre ++ t.toList ++ post) ∧ post.head? = succCtx cs := by
  induction cs with
  | nil => exact ⟨[], [], fun t => by simp [plug], rfl⟩
  | cons f cs ih =>
      obtain ⟨pre, post, h, h2⟩ := ih
      obtain ⟨b, c, a, s⟩ := f
      cases b
      · exact ⟨pre ++ s.toList ++ [a], post, fun t => by simp [plug, h, Frame.fill, Tree.toList], h2⟩
      · exact ⟨pre, a :: s.toList ++ post, fun t => by simp [plug, h, Frame.fill, Tree.toList], rfl⟩

theorem climb_spec {S : St} (cs : Ctx) : ∀ (t : Tree) (a fuel : Nat), t.root = some a → Whole S t cs → cs.length < fuel →
    ∃ x, climb S fuel a = .ok x ∧ S.parent x = succCtx cs := by
  induction cs with
  | nil =>
      intro t a fuel ht W hf
      obtain ⟨k, rfl⟩ : ∃ k, fuel = k + 1 := ⟨fuel - 1, by omega⟩
      have hp : S.parent a = none := by cases t with
        | nil => cases ht
        | node => cases ht; exact W.tree.1
      exact ⟨a, by rw [climb, hp], hp⟩
  | cons f cs ih =>
      intro t a fuel ht W hf
      obtain ⟨k, rfl⟩ : ∃ k, fuel = k + 1 := ⟨fuel - 1, by omega⟩
      obtain ⟨b, c, p, s⟩ := f
      have hp : S.parent a = some p := by cases t with
        | nil => cases ht
        | node => cases ht; exact W.tree.1
      cases b
      · have hr : S.right p = some a := by have := W.ctx.1.1; rwa [ht] at this
        obtain ⟨x, e1, e2⟩ := ih _ p k rfl W.upR (by simp at hf; omega)
        refine ⟨x, ?_, by rw [e2]; rfl⟩
        rw [climb, hp]; simp only [hr, if_true]; exact e1
      · have hr : S.right p ≠ some a := right_ne W.upL ht
        refine ⟨a, ?_, by rw [hp]; rfl⟩
        rw [climb, hp]; simp only [if_neg hr]

/-- `zt_rbt_next` is the next element of the inorder sequence. -/
theorem next_spec {S : St} {T : Tree} {a fuel : Nat} {xs ys : List Nat} (W : Whole S T []) (hT : T.toList = xs ++ a :: ys) (hf : T.height < fuel) :
    next fuel S (some a) = .ok ys.head? := by
  obtain ⟨c, l, r, cs, rfl⟩ := focus_mem (T := T) (a := a) (by rw [hT]; simp)
  have W1 : Whole S (.node c l a r) cs := by have := W.into cs; rwa [List.append_nil] at this
  obtain ⟨pre, post, hp, hs⟩ := plug_succ cs
  have hlen := ctx_height (.node c l a r) cs
  have hys : ys = r.toList ++ post := by
    have nd := W.nodup
    simp only [Ctx.adr, List.append_nil] at nd
    have h1 := hp (.node c l a r)
    rw [hT] at h1 nd
    simp only [Tree.toList, List.append_assoc, List.cons_append] at h1
    rw [← List.append_assoc] at h1
    have nd2 := nd; rw [h1] at nd2
    have hxa : a ∉ xs := by simp only [List.nodup_append, List.nodup_cons, List.mem_cons] at nd; grind
    have hpa : a ∉ pre ++ l.toList := by simp only [List.nodup_append, List.nodup_cons, List.mem_cons, List.mem_append] at nd2 ⊢; grind
    have key : ∀ (u v : List Nat) (p q : List Nat), u ++ a :: p = v ++ a :: q → a ∉ u → a ∉ v → p = q := by
      intro u; induction u with
      | nil => intro v p q h _ hv
               cases v with
               | nil => simpa using h
               | cons b v => simp only [List.nil_append, List.cons_append, List.cons.injEq] at h; exact absurd (h.1 ▸ List.mem_cons_self) hv
      | cons b u ih =>
               intro v p q h hu hv
               cases v with
               | nil => simp only [List.nil_append, List.cons_append, List.cons.injEq] at h; exact absurd (h.1 ▸ List.mem_cons_self) hu
               | cons b' v => simp only [List.cons_append, List.cons.injEq] at h
                              exact ih v p q h.2 (fun m => hu (List.mem_cons_of_mem _ m)) (fun m => hv (List.mem_cons_of_mem _ m))
    exact key _ _ _ _ h1 hxa hpa
  subst hys
  have hr : S.right a = r.root := W1.tree.2.2.2.1
  simp only [Tree.height] at hlen
  simp only [next, hr]
  cases r with
  | node rc rl rb rr =>
      obtain ⟨yc, y, yr, fs, q1, q2, q3, q4⟩ := leftmost_split (.node rc rl rb rr) rb _ rfl W1.tree.2.2.2.2.2
      simp only [Tree.root]
      have q5 := ctx_height (.node yc .nil y yr) fs
      rw [← q1] at q5
      rw [q3 fuel (by omega), q2]; rfl
  | nil =>
      simp only [Tree.root, Tree.toList, List.nil_append, hs]
      cases cs with
      | nil =>
          have hpn : S.parent a = none := W1.tree.1
          simp only [hpn]
          obtain ⟨x, e1, e2⟩ := climb_spec [] _ a fuel rfl W1 (by simp; omega)
          rw [e1]; simp only [Outcome.ok_bind, Outcome.pure_eq, e2]
      | cons f cs =>
          obtain ⟨b, fc, p, s⟩ := f
          have hpp : S.parent a = some p := W1.tree.1
          simp only [hpp]
          cases b
          · rw [if_neg (left_ne W1.upR rfl)]
            obtain ⟨x, e1, e2⟩ := climb_spec _ _ a fuel rfl W1 (by simp at hlen ⊢; omega)
            rw [e1]; simp only [Outcome.ok_bind, Outcome.pure_eq, e2]
          · have hlp : S.left p = some a := W1.ctx.1.1
            rw [if_pos hlp]; rfl

theorem min_spec {S : St} (t : Tree) : ∀ (par q : Ptr) (fuel : Nat), Rep S par t → t.height < fuel → minmaxLoop S (-1) fuel t.root q = .ok (t.toList.head?.or q) := by
  induction t with
  | nil => intro par q fuel _ hf
           obtain ⟨k, rfl⟩ : ∃ k, fuel = k + 1 := ⟨fuel - 1, by omega⟩
           rfl
  | node c l a r ihl ihr =>
      intro par q fuel rep hf
      obtain ⟨k, rfl⟩ : ∃ k, fuel = k + 1 := ⟨fuel - 1, by omega⟩
      simp only [Tree.height] at hf
      simp only [Tree.root, minmaxLoop]
      rw [if_pos (by decide), rep.2.2.1, ihl _ _ k rep.2.2.2.2.1 (by omega), Tree.toList]
      cases l.toList <;> rfl

theorem max_spec {S : St} (t : Tree) : ∀ (par q : Ptr) (fuel : Nat), Rep S par t → t.height < fuel → minmaxLoop S 1 fuel t.root q = .ok (t.toList.getLast?.or q) := by
  induction t with
  | nil => intro par q fuel _ hf
           obtain ⟨k, rfl⟩ : ∃ k, fuel = k + 1 := ⟨fuel - 1, by omega⟩
           rfl
  | node c l a r ihl ihr =>
      intro par q fuel rep hf
      obtain ⟨k, rfl⟩ : ∃ k, fuel = k + 1 := ⟨fuel - 1, by omega⟩
      simp only [Tree.height] at hf
      simp only [Tree.root, minmaxLoop]
      rw [if_neg (by decide), rep.2.2.2.1, ihr _ _ k rep.2.2.2.2.2 (by omega), Tree.toList]
      rw [List.getLast?_append, List.getLast?_cons]
      cases h : r.toList.getLast? <;> simp

end ZT.RbTree
