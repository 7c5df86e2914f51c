import Verif.RbTree.Props

/-!
# C131: trees with any comparison callback, and what the calls cost

zt_tree.c with comparison callbacks that may answer anything: inconsistent, not transitive, changing from call to call (a callback has a state `σ` of its own). The order of the
members is then whatever it is, but the tree must stay a tree with the members it should have, and balanced.
-/

namespace ZT.RbTree

variable {σ : Type}

/-! ## Model -/

/-- A comparison callback with a state: zt_tree.c 318, 353, 374 `int (*cmp)(zt_rbt_node *, zt_rbt_node *)`. -/
abbrev Cmp (σ : Type) := Nat → Nat → σ → Int × σ

/-- The loop of zt_tree.c 324-335. -/
def insertSearchW (cmp : Cmp σ) (S : St) (elm : Nat) : (fuel : Nat) → (tmp parent : Ptr) → (comp : Int) → σ → Outcome ((Nat ⊕ (Ptr × Int)) × σ)
  | 0, _, _, _, _ => .ub
  | _ + 1, none, parent, comp, s => .ok (.inr (parent, comp), s)
  | fuel + 1, some t, _, _, s =>
      let (comp, s) := cmp elm t s
      if comp < 0 then insertSearchW cmp S elm fuel (S.left t) (some t) comp s
      else if comp > 0 then insertSearchW cmp S elm fuel (S.right t) (some t) comp s
      else .ok (.inl t, s)

/-- zt_tree.c 317-349 `zt_rbt_insert`. -/
def insertW (cmp : Cmp σ) (fuel : Nat) (S : St) (elm : Nat) (s : σ) : Outcome (Ptr × St × σ) := do
  let (r, s) ← insertSearchW cmp S elm fuel S.head none 0 s
  match r with
  | .inl t => pure (some t, S, s)
  | .inr (parent, comp) => do
      let S := setNode S elm parent
      let S := hang S parent comp elm
      let S ← insertColour fuel S elm
      pure (none, S, s)

/-- zt_tree.c 352-370 `zt_rbt_find` from `tmp`. -/
def findW (cmp : Cmp σ) (S : St) (elm : Nat) : (fuel : Nat) → (tmp : Ptr) → σ → Outcome (Ptr × σ)
  | 0, _, _ => .ub
  | _ + 1, none, s => .ok (none, s)
  | fuel + 1, some t, s =>
      let (comp, s) := cmp elm t s
      if comp < 0 then findW cmp S elm fuel (S.left t) s
      else if comp > 0 then findW cmp S elm fuel (S.right t) s
      else .ok (some t, s)

/-- zt_tree.c 373-393 `zt_rbt_nfind` from `tmp` with the current `res`. -/
def nfindW (cmp : Cmp σ) (S : St) (elm : Nat) : (fuel : Nat) → (tmp res : Ptr) → σ → Outcome (Ptr × σ)
  | 0, _, _, _ => .ub
  | _ + 1, none, res, s => .ok (res, s)
  | fuel + 1, some t, res, s =>
      let (comp, s) := cmp elm t s
      if comp < 0 then nfindW cmp S elm fuel (S.left t) (some t) s
      else if comp > 0 then nfindW cmp S elm fuel (S.right t) res s
      else .ok (some t, s)

/-! ## Specification -/

/-- The callback, noting the nodes it was called for and what it answered (the newest last). -/
def noted (cmp : Cmp σ) : Cmp (σ × List (Nat × Int)) := fun a b s => ((cmp a b s.1).1, ((cmp a b s.1).2, s.2 ++ [(b, (cmp a b s.1).1)]))

/-- What a user has done, with any callbacks: `L` are the nodes inserted and not removed. Only nodes that are not in the tree are inserted. Between the calls the fields of nodes
that are not in the tree may change in any way. -/
inductive AnyHistory : St → List Nat → Prop
  | empty {S : St} : S.head = none → AnyHistory S []
  | insert {S S' : St} {L : List Nat} {e : Nat} {σ : Type} {cmp : Cmp σ} {s s' : σ} : AnyHistory S L → e ∉ L → Runs (fun fuel => insertW cmp fuel S e s) (none, S', s') → AnyHistory S' (e :: L)
  | found {S S' : St} {L : List Nat} {e x : Nat} {σ : Type} {cmp : Cmp σ} {s s' : σ} : AnyHistory S L → Runs (fun fuel => insertW cmp fuel S e s) (some x, S', s') → AnyHistory S' L
  | remove {S S' : St} {L : List Nat} {e : Nat} : AnyHistory S L → e ∈ L → Runs (fun fuel => remove fuel S e) S' → AnyHistory S' (L.erase e)
  | other {S S' : St} {L : List Nat} : AnyHistory S L → S'.head = S.head → (∀ a ∈ L, Agree S S' a) → AnyHistory S' L

/-- The pointers form a red-black tree with exactly the members `L`. -/
def Shape (S : St) (L : List Nat) (T : Tree) : Prop := Whole S T [] ∧ T.toList.Perm L ∧ ∃ m, RBT T .black m

/-! ## Proof -/

theorem Shape.height {S : St} {L : List Nat} {T : Tree} (g : Shape S L T) : T.height ≤ 2 * Nat.log2 (L.length + 1) := by
  obtain ⟨W, hp, m, hm⟩ := g
  have := height_log hm
  rwa [hp.length_eq] at this

theorem insertSearchW_mono (cmp : Cmp σ) (S : St) (e n : Nat) : ∀ t p c s, Le (insertSearchW cmp S e n t p c s) (insertSearchW cmp S e (n + 1) t p c s) := by
  induction n with
  | zero => intro t p c s; exact Le.ub _
  | succ n ih =>
      intro t p c s
      cases t with
      | none => exact Le.refl _
      | some t =>
          simp only [insertSearchW]
          exact Le.ite (fun _ => ih _ _ _ _) (fun _ => Le.ite (fun _ => ih _ _ _ _) (fun _ => Le.refl _))

theorem insertW_mono (cmp : Cmp σ) (S : St) (e : Nat) (s : σ) (n : Nat) : Le (insertW cmp n S e s) (insertW cmp (n + 1) S e s) := by
  refine Le.bind (insertSearchW_mono _ _ _ _ _ _ _ _) (fun r => ?_)
  obtain ⟨r, s⟩ := r
  cases r with
  | inl t => exact Le.refl _
  | inr q =>
      refine Le.bind ?_ (fun _ => Le.refl _)
      exact Le.bind (insertColourLoop_mono _ _ _) (fun _ => Le.refl _)

/-- The search: it ends at an empty place of the tree, or at a node for which the callback said 0; it asks about the nodes of one path, each once. -/
theorem search_any (cmp : Cmp σ) {S : St} (e : Nat) (t : Tree) : ∀ (par q : Ptr) (fuel : Nat) (comp : Int) (s : σ) (w : List (Nat × Int)), Rep S par t → t.height < fuel →
    (∃ x s' v, insertSearchW (noted cmp) S e fuel t.root q comp (s, w) = .ok (.inl x, (s', w ++ v ++ [(x, 0)])) ∧ x ∈ t.toList ∧ v.length < t.height ∧ ∀ y ∈ v, y.1 ∈ t.toList ∧ y.2 ≠ 0) ∨
    ∃ fs comp' s' v, insertSearchW (noted cmp) S e fuel t.root q comp (s, w) = .ok (.inr ((top fs).or q, comp'), (s', w ++ v)) ∧ t = plug .nil fs ∧ (∀ f fs', fs = f :: fs' → (comp' < 0 ↔ f.isL = true)) ∧
      (plug (.node .red .nil e .nil) fs).toList.Perm (e :: t.toList) ∧ v.length ≤ t.height ∧ ∀ y ∈ v, y.1 ∈ t.toList ∧ y.2 ≠ 0 := by
  induction t with
  | nil =>
      intro par q fuel comp s w _ hf
      obtain ⟨k, rfl⟩ : ∃ k, fuel = k + 1 := ⟨fuel - 1, by omega⟩
      exact .inr ⟨[], comp, s, [], by cases q <;> simp [insertSearchW, Tree.root, top], rfl, fun f fs' h => (by cases h), by simp [plug, Tree.toList], by simp, by simp⟩
  | node c l a r ihl ihr =>
      intro par q fuel comp s w rep hf
      obtain ⟨k, rfl⟩ : ∃ k, fuel = k + 1 := ⟨fuel - 1, by omega⟩
      obtain ⟨_, _, hl, hr, repl, repr⟩ := rep
      simp only [Tree.height] at hf ⊢
      simp only [Tree.root, insertSearchW, noted]
      have topor : ∀ (fs : Ctx) (g : Frame), g.a = a → (top fs).or (some a) = (top (fs ++ [g])).or q := by
        intro fs g hg; cases fs <;> simp [top, hg]
      obtain ⟨cp, s1, hcs⟩ : ∃ cp s1, cmp e a s = (cp, s1) := ⟨_, _, rfl⟩
      simp only [hcs]
      by_cases c1 : cp < 0
      · rw [if_pos c1, hl]
        rcases ihl _ (some a) k cp s1 (w ++ [(a, cp)]) repl (by omega) with ⟨x, s', v, e1, h2, h3, h4⟩ | ⟨fs, comp', s', v, e1, e2, e3, e4, h3, h4⟩
        · refine .inl ⟨x, s', (a, cp) :: v, ?_, by simp [Tree.toList, h2], by simp; omega, ?_⟩
          · rw [e1]; simp
          · intro y hy
            rcases List.mem_cons.1 hy with rfl | hy
            · exact ⟨by simp [Tree.toList], by simp; omega⟩
            · exact ⟨by simp [Tree.toList, (h4 y hy).1], (h4 y hy).2⟩
        · refine .inr ⟨fs ++ [⟨true, c, a, r⟩], if fs = [] then cp else comp', s', (a, cp) :: v, ?_, by rw [plug_append, ← e2]; rfl, ?_, ?_, by simp; omega, ?_⟩
          · by_cases hfs : fs = []
            · subst hfs
              cases l with
              | nil =>
                  obtain ⟨k, rfl⟩ : ∃ k', k = k' + 1 := ⟨k - 1, by omega⟩
                  simp only [insertSearchW, Tree.root] at e1 ⊢
                  simp only [Outcome.ok.injEq, Prod.mk.injEq, Sum.inr.injEq] at e1
                  obtain ⟨⟨-, e6⟩, e7, e8⟩ := e1
                  have e8 : v = [] := by simpa using e8
                  subst e8 e7
                  simp [top]
              | node => cases e2
            · rw [if_neg hfs, e1, topor fs ⟨true, c, a, r⟩ rfl]; simp
          · intro f fs' h
            cases fs with
            | nil => simp at h; rw [← h.1]; simpa using c1
            | cons g gs => simp only [List.cons_append, List.cons.injEq] at h; rw [if_neg (by simp), ← h.1]; exact e3 g gs rfl
          · rw [plug_append]
            simp only [plug, Frame.fill, if_true, Tree.toList]
            exact (e4.append_right _).trans (by simp)
          · intro y hy
            rcases List.mem_cons.1 hy with rfl | hy
            · exact ⟨by simp [Tree.toList], by simp; omega⟩
            · exact ⟨by simp [Tree.toList, (h4 y hy).1], (h4 y hy).2⟩
      · rw [if_neg c1]
        by_cases c2 : cp > 0
        · rw [if_pos c2, hr]
          rcases ihr _ (some a) k cp s1 (w ++ [(a, cp)]) repr (by omega) with ⟨x, s', v, e1, h2, h3, h4⟩ | ⟨fs, comp', s', v, e1, e2, e3, e4, h3, h4⟩
          · refine .inl ⟨x, s', (a, cp) :: v, ?_, by simp [Tree.toList, h2], by simp; omega, ?_⟩
            · rw [e1]; simp
            · intro y hy
              rcases List.mem_cons.1 hy with rfl | hy
              · exact ⟨by simp [Tree.toList], by simp; omega⟩
              · exact ⟨by simp [Tree.toList, (h4 y hy).1], (h4 y hy).2⟩
          · refine .inr ⟨fs ++ [⟨false, c, a, l⟩], if fs = [] then cp else comp', s', (a, cp) :: v, ?_, by rw [plug_append, ← e2]; rfl, ?_, ?_, by simp; omega, ?_⟩
            · by_cases hfs : fs = []
              · subst hfs
                cases r with
                | nil =>
                    obtain ⟨k, rfl⟩ : ∃ k', k = k' + 1 := ⟨k - 1, by omega⟩
                    simp only [insertSearchW, Tree.root] at e1 ⊢
                    simp only [Outcome.ok.injEq, Prod.mk.injEq, Sum.inr.injEq] at e1
                    obtain ⟨⟨-, e6⟩, e7, e8⟩ := e1
                    have e8 : v = [] := by simpa using e8
                    subst e8 e7
                    simp [top]
                | node => cases e2
              · rw [if_neg hfs, e1, topor fs ⟨false, c, a, l⟩ rfl]; simp
            · intro f fs' h
              cases fs with
              | nil => simp at h; rw [← h.1]; simpa using Int.le_of_lt c2
              | cons g gs => simp only [List.cons_append, List.cons.injEq] at h; rw [if_neg (by simp), ← h.1]; exact e3 g gs rfl
            · rw [plug_append]
              simp only [plug, Frame.fill, Bool.false_eq_true, if_false, Tree.toList]
              have h1 : (l.toList ++ a :: (plug (Tree.node Colour.red Tree.nil e Tree.nil) fs).toList).Perm (l.toList ++ a :: e :: r.toList) := (e4.cons a).append_left _
              refine h1.trans ?_
              have h5 : l.toList ++ a :: e :: r.toList = (l.toList ++ [a]) ++ e :: r.toList := by simp
              have h6 : e :: (l.toList ++ a :: r.toList) = e :: ((l.toList ++ [a]) ++ r.toList) := by simp
              rw [h5, h6]
              exact List.perm_middle
            · intro y hy
              rcases List.mem_cons.1 hy with rfl | hy
              · exact ⟨by simp [Tree.toList], by simp; omega⟩
              · exact ⟨by simp [Tree.toList, (h4 y hy).1], (h4 y hy).2⟩
        · rw [if_neg c2]
          have : cp = 0 := by omega
          subst this
          exact .inl ⟨a, s1, [], by simp, by simp [Tree.toList], by simp, by simp⟩

/-- Forgetting the notes. -/
theorem search_noted (cmp : Cmp σ) (S : St) (e : Nat) : ∀ (fuel : Nat) (t q : Ptr) (comp : Int) (s : σ) (w : List (Nat × Int)) (r : (Nat ⊕ (Ptr × Int)) × (σ × List (Nat × Int))),
    insertSearchW (noted cmp) S e fuel t q comp (s, w) = .ok r → insertSearchW cmp S e fuel t q comp s = .ok (r.1, r.2.1) := by
  intro fuel
  induction fuel with
  | zero => intro t q comp s w r h; cases h
  | succ n ih =>
      intro t q comp s w r h
      cases t with
      | none => cases h; rfl
      | some t =>
          simp only [insertSearchW, noted] at h ⊢
          obtain ⟨cp, s1, hcs⟩ : ∃ cp s1, cmp e t s = (cp, s1) := ⟨_, _, rfl⟩
          simp only [hcs] at h ⊢
          by_cases c1 : cp < 0
          · rw [if_pos c1] at h ⊢; exact ih _ _ _ _ _ _ h
          · rw [if_neg c1] at h ⊢
            by_cases c2 : cp > 0
            · rw [if_pos c2] at h ⊢; exact ih _ _ _ _ _ _ h
            · rw [if_neg c2] at h ⊢; cases h; rfl

theorem insert_noted (cmp : Cmp σ) (S : St) (e fuel : Nat) (s : σ) (w : List (Nat × Int)) (r : Ptr × St × (σ × List (Nat × Int))) (h : insertW (noted cmp) fuel S e (s, w) = .ok r) :
    insertW cmp fuel S e s = .ok (r.1, r.2.1, r.2.2.1) := by
  rw [insertW, Outcome.bind_eq_ok] at h ⊢
  obtain ⟨⟨q, s'⟩, e1, e2⟩ := h
  refine ⟨_, search_noted _ _ _ _ _ _ _ _ _ _ e1, ?_⟩
  cases q with
  | inl t => cases e2; rfl
  | inr q =>
      dsimp only at e2 ⊢
      rw [Outcome.bind_eq_ok] at e2 ⊢
      obtain ⟨S2, e3, e4⟩ := e2
      cases e4
      exact ⟨S2, e3, rfl⟩

theorem insert_any (cmp : Cmp σ) {S : St} {L : List Nat} {T : Tree} {e fuel : Nat} (g : Shape S L T) (he : e ∉ L) (hf : T.height < fuel) (s : σ) :
    (∃ x s' v, insertW (noted cmp) fuel S e (s, []) = .ok (some x, S, (s', v ++ [(x, 0)])) ∧ x ∈ L ∧ v.length < T.height ∧ ∀ y ∈ v, y.1 ∈ L ∧ y.2 ≠ 0) ∨
    ∃ S' T' s' v, insertW (noted cmp) fuel S e (s, []) = .ok (none, S', (s', v)) ∧ Shape S' (e :: L) T' ∧ v.length ≤ T.height ∧ ∀ y ∈ v, y.1 ∈ L ∧ y.2 ≠ 0 := by
  obtain ⟨W, hp, m, hT⟩ := g
  have hh : S.head = T.root := W.ctx
  have heT : e ∉ T.toList := fun h => he (hp.mem_iff.1 h)
  rcases search_any cmp e T none none fuel 0 s [] W.tree hf with ⟨x, s', v, e1, h2, h3, h4⟩ | ⟨fs, comp, s', v, e1, rfl, e3, e4, h3, h4⟩
  · refine .inl ⟨x, s', v, ?_, hp.mem_iff.1 h2, h3, fun y hy => ⟨hp.mem_iff.1 (h4 y hy).1, (h4 y hy).2⟩⟩
    rw [insertW, hh, e1]; rfl
  · right
    have W1 : Whole S .nil fs := by have := W.into fs; rwa [List.append_nil] at this
    obtain ⟨c2, pc, n, hN, hC, hcomp⟩ := down_rbt hT (CtxRB.nil (n := m)) (fun _ => rfl)
    rw [List.append_nil] at hC
    cases hN
    have hadr : e ∉ Ctx.adr fs := by
      intro h; apply heT
      have key : ∀ (cs : Ctx) (t : Tree) (x : Nat), x ∈ Ctx.adr cs → x ∈ (plug t cs).toList := by
        intro cs; induction cs with
        | nil => intro t x hx; simp [Ctx.adr] at hx
        | cons f cs ih =>
            intro t x hx
            obtain ⟨pre, post, hp⟩ := plug_list cs
            simp only [Ctx.adr, List.mem_cons, List.mem_append] at hx
            rcases hx with rfl | hx | hx
            · simp only [plug, hp, Frame.fill]; split <;> simp [Tree.toList]
            · simp only [plug, hp, Frame.fill]; split <;> simp [Tree.toList, hx]
            · exact ih _ x hx
      exact key fs .nil e h
    have W2 := attach_whole (e := e) comp W1 hadr e3
    have hlen := ctx_height .nil fs
    obtain ⟨S', t', m', r1, r2, r3, r4⟩ := insert_colour (fuel := fuel) (by simp [Tree.height] at hlen; omega) W2 (.red .nil .nil) hC
    refine ⟨S', t', s', v, ?_, ⟨r2, ?_, m', r4⟩, h3, fun y hy => ⟨hp.mem_iff.1 (h4 y hy).1, (h4 y hy).2⟩⟩
    · rw [insertW, hh, e1]
      simp only [Outcome.ok_bind, Option.or_none]
      rw [r1]; rfl
    · rw [r3]; exact e4.trans (hp.cons e)

theorem search_found (cmp : Cmp σ) (S : St) (e : Nat) {n : Nat} {s : σ} {x : Nat} {S' : St} {s' : σ} (h : insertW cmp n S e s = .ok (some x, S', s')) : S' = S := by
  rw [insertW, Outcome.bind_eq_ok] at h
  obtain ⟨⟨q, s1⟩, e1, e2⟩ := h
  cases q with
  | inl t => cases e2; rfl
  | inr q =>
      dsimp only at e2
      rw [Outcome.bind_eq_ok] at e2
      obtain ⟨S2, e3, e4⟩ := e2
      cases e4

theorem any_shape {S : St} {L : List Nat} (h : AnyHistory S L) : ∃ T, Shape S L T := by
  induction h with
  | empty h => exact ⟨.nil, ⟨trivial, h, by simp [Tree.toList, Ctx.adr]⟩, by simp [Tree.toList], 0, .nil⟩
  | @insert S S' L e σ cmp s s' h he hr ih =>
      obtain ⟨T, g⟩ := ih
      obtain ⟨n, hr⟩ := hr
      have e3 : insertW cmp (max n (T.height + 1)) S e s = _ := hr _ (by omega)
      rcases insert_any cmp g he (fuel := max n (T.height + 1)) (by omega) s with ⟨x, s', v, e1, -⟩ | ⟨S2, T2, s2, v, e1, g2, -⟩
      · rw [insert_noted _ _ _ _ _ _ _ e1] at e3; cases e3
      · rw [insert_noted _ _ _ _ _ _ _ e1] at e3; cases e3; exact ⟨T2, g2⟩
  | @found S S' L e x σ cmp s s' h hr ih =>
      obtain ⟨n, hr⟩ := hr
      rw [search_found cmp S e (hr n (Nat.le_refl _))]; exact ih
  | @remove S S' L e h he hr ih =>
      obtain ⟨T, W, hp, m, hm⟩ := ih
      obtain ⟨n, hr⟩ := hr
      obtain ⟨S2, T2, m2, e1, e2, e3, e4⟩ := remove_ok (fuel := max n (T.height + 2)) W hm (hp.mem_iff.2 he) (by omega)
      have e5 : remove (max n (T.height + 2)) S e = _ := hr _ (by omega)
      rw [e5] at e1
      cases e1
      exact ⟨T2, e2, by rw [e4]; exact hp.erase e, m2, e3⟩
  | @other S S' L h hh ha ih =>
      obtain ⟨T, W, hp, hm⟩ := ih
      refine ⟨T, ⟨rep_frame T _ (fun a h => ha a (hp.mem_iff.1 h)) W.tree, ?_, W.nodup⟩, hp, hm⟩
      have := W.ctx
      simp only [RepCtx] at this ⊢
      rw [hh, this]

/-! ## The theorems -/

/-- **C131 (shape).** Whatever the callbacks answered, the tree holds exactly the nodes inserted and not removed, each once, its parent pointers are right, the red-black rules hold and
its height is at most `2 * log2 (n + 1)`. -/
theorem c131_shape {S : St} {L : List Nat} (h : AnyHistory S L) : ∃ T m, Whole S T [] ∧ T.toList.Perm L ∧ RBT T .black m ∧ T.height ≤ 2 * Nat.log2 (L.length + 1) := by
  obtain ⟨T, g⟩ := any_shape h
  exact ⟨T, _, g.1, g.2.1, g.2.2.choose_spec, g.height⟩

/-- **C131 (insert).** Inserting a node that is not in the tree ends whatever the callback answers, after at most `2 * log2 (n + 1)` calls of it, and each loop of the function makes at most one
iteration more; it returns a member for which the callback answered 0 and changes nothing, or it returns NULL, the callback never answered 0, and the node is a member. -/
theorem c131_insert {S : St} {L : List Nat} (h : AnyHistory S L) {e : Nat} (he : e ∉ L) (cmp : Cmp σ) (s : σ) :
    ∃ r S' s' v, (∀ fuel, 2 * Nat.log2 (L.length + 1) < fuel → insertW (noted cmp) fuel S e (s, []) = .ok (r, S', (s', v)) ∧ insertW cmp fuel S e s = .ok (r, S', s')) ∧
      v.length ≤ 2 * Nat.log2 (L.length + 1) ∧ (∀ y ∈ v, y.1 ∈ L) ∧
      (match r with
       | some x => x ∈ L ∧ (x, 0) ∈ v ∧ S' = S
       | none => (∀ y ∈ v, y.2 ≠ 0) ∧ AnyHistory S' (e :: L)) := by
  obtain ⟨T, g⟩ := any_shape h
  have hh := g.height
  have up : ∀ r, insertW (noted cmp) (T.height + 1) S e (s, []) = .ok r → ∀ fuel, 2 * Nat.log2 (L.length + 1) < fuel → insertW (noted cmp) fuel S e (s, []) = .ok r := by
    intro r hr fuel hf
    obtain ⟨k, rfl⟩ : ∃ k, fuel = T.height + 1 + k := ⟨fuel - (T.height + 1), by omega⟩
    clear hf
    induction k with
    | zero => exact hr
    | succ k ih => exact insertW_mono _ _ _ _ _ _ ih
  rcases insert_any cmp g he (fuel := T.height + 1) (by omega) s with ⟨x, s', v, e1, h2, h3, h4⟩ | ⟨S2, T2, s2, v, e1, g2, h3, h4⟩
  · refine ⟨some x, S, s', v ++ [(x, 0)], fun fuel hf => ⟨up _ e1 fuel hf, insert_noted _ _ _ _ _ _ _ (up _ e1 fuel hf)⟩, by simp; omega, ?_, h2, by simp, rfl⟩
    intro y hy
    rcases List.mem_append.1 hy with hy | hy
    · exact (h4 y hy).1
    · simp at hy; rw [hy]; exact h2
  · refine ⟨none, S2, s2, v, fun fuel hf => ⟨up _ e1 fuel hf, insert_noted _ _ _ _ _ _ _ (up _ e1 fuel hf)⟩, by omega, fun y hy => (h4 y hy).1, fun y hy => (h4 y hy).2, ?_⟩
    exact .insert h he ⟨2 * Nat.log2 (L.length + 1) + 1, fun fuel hf => insert_noted _ _ _ _ _ _ _ (up _ e1 fuel hf)⟩

/-- **C131 (remove).** Removing a member ends, each of its loops within `2 * log2 (n + 1) + 2` iterations, and exactly this node leaves. -/
theorem c131_remove {S : St} {L : List Nat} (h : AnyHistory S L) {e : Nat} (he : e ∈ L) :
    ∃ S', (∀ fuel, 2 * Nat.log2 (L.length + 1) + 2 ≤ fuel → remove fuel S e = .ok S') ∧ AnyHistory S' (L.erase e) := by
  obtain ⟨T, g⟩ := any_shape h
  have hh := g.height
  obtain ⟨W, hp, m, hm⟩ := g
  obtain ⟨S', T', m', e1, e2, e3, e4⟩ := remove_ok (fuel := T.height + 2) W hm (hp.mem_iff.2 he) (by omega)
  have hr := Runs.of (remove_mono S e) e1
  have up : ∀ fuel, 2 * Nat.log2 (L.length + 1) + 2 ≤ fuel → remove fuel S e = .ok S' := by
    intro fuel hf
    obtain ⟨k, rfl⟩ : ∃ k, fuel = T.height + 2 + k := ⟨fuel - (T.height + 2), by omega⟩
    clear hf
    induction k with
    | zero => exact e1
    | succ k ih => exact remove_mono _ _ _ _ ih
  exact ⟨S', up, .remove h he hr⟩

theorem find_any (cmp : Cmp σ) {S : St} (e : Nat) (t : Tree) : ∀ (par : Ptr) (fuel : Nat) (s : σ) (w : List (Nat × Int)), Rep S par t → t.height < fuel →
    ∃ r s' v, findW (noted cmp) S e fuel t.root (s, w) = .ok (r, (s', w ++ v)) ∧ v.length ≤ t.height ∧ (∀ y ∈ v, y.1 ∈ t.toList) ∧ (∀ x, r = some x ↔ (x, 0) ∈ v) := by
  induction t with
  | nil =>
      intro par fuel s w _ hf
      obtain ⟨k, rfl⟩ : ∃ k, fuel = k + 1 := ⟨fuel - 1, by omega⟩
      exact ⟨none, s, [], by simp [findW, Tree.root], by simp, by simp, by simp⟩
  | node c l a r ihl ihr =>
      intro par fuel s w rep hf
      obtain ⟨k, rfl⟩ : ∃ k, fuel = k + 1 := ⟨fuel - 1, by omega⟩
      obtain ⟨_, _, hl, hr, repl, repr⟩ := rep
      simp only [Tree.height] at hf ⊢
      simp only [Tree.root, findW, noted]
      obtain ⟨cp, s1, hcs⟩ : ∃ cp s1, cmp e a s = (cp, s1) := ⟨_, _, rfl⟩
      simp only [hcs]
      by_cases c1 : cp < 0
      · rw [if_pos c1, hl]
        obtain ⟨x, s', v, e1, h2, h3, h4⟩ := ihl _ k s1 (w ++ [(a, cp)]) repl (by omega)
        refine ⟨x, s', (a, cp) :: v, by rw [e1]; simp, by simp; omega, ?_, ?_⟩
        · intro y hy
          rcases List.mem_cons.1 hy with rfl | hy
          · simp [Tree.toList]
          · simp [Tree.toList, h3 y hy]
        · intro x; rw [h4 x]; simp; omega
      · rw [if_neg c1]
        by_cases c2 : cp > 0
        · rw [if_pos c2, hr]
          obtain ⟨x, s', v, e1, h2, h3, h4⟩ := ihr _ k s1 (w ++ [(a, cp)]) repr (by omega)
          refine ⟨x, s', (a, cp) :: v, by rw [e1]; simp, by simp; omega, ?_, ?_⟩
          · intro y hy
            rcases List.mem_cons.1 hy with rfl | hy
            · simp [Tree.toList]
            · simp [Tree.toList, h3 y hy]
          · intro x; rw [h4 x]; simp; omega
        · rw [if_neg c2]
          have : cp = 0 := by omega
          subst this
          exact ⟨some a, s1, [(a, 0)], rfl, by simp, by simp [Tree.toList], by simp [eq_comm]⟩

theorem nfind_any (cmp : Cmp σ) {S : St} (e : Nat) (t : Tree) : ∀ (par : Ptr) (fuel : Nat) (s : σ) (w : List (Nat × Int)) (q : Ptr), Rep S par t → t.height < fuel →
    ∃ r s' v, nfindW (noted cmp) S e fuel t.root q (s, w) = .ok (r, (s', w ++ v)) ∧ v.length ≤ t.height ∧ (∀ y ∈ v, y.1 ∈ t.toList) ∧
      r = ((v.filter (fun y => decide (y.2 ≤ 0))).getLast?.map (·.1)).or q := by
  induction t with
  | nil =>
      intro par fuel s w q _ hf
      obtain ⟨k, rfl⟩ : ∃ k, fuel = k + 1 := ⟨fuel - 1, by omega⟩
      exact ⟨q, s, [], by simp [nfindW, Tree.root], by simp, by simp, by simp⟩
  | node c l a r ihl ihr =>
      intro par fuel s w q rep hf
      obtain ⟨k, rfl⟩ : ∃ k, fuel = k + 1 := ⟨fuel - 1, by omega⟩
      obtain ⟨_, _, hl, hr, repl, repr⟩ := rep
      simp only [Tree.height] at hf ⊢
      simp only [Tree.root, nfindW, noted]
      obtain ⟨cp, s1, hcs⟩ : ∃ cp s1, cmp e a s = (cp, s1) := ⟨_, _, rfl⟩
      simp only [hcs]
      by_cases c1 : cp < 0
      · rw [if_pos c1, hl]
        obtain ⟨x, s', v, e1, h2, h3, h4⟩ := ihl _ k s1 (w ++ [(a, cp)]) (some a) repl (by omega)
        refine ⟨x, s', (a, cp) :: v, by rw [e1]; simp, by simp; omega, ?_, ?_⟩
        · intro y hy
          rcases List.mem_cons.1 hy with rfl | hy
          · simp [Tree.toList]
          · simp [Tree.toList, h3 y hy]
        · rw [h4, List.filter_cons_of_pos (by simp; omega), List.getLast?_cons]
          cases (v.filter (fun y => decide (y.2 ≤ 0))).getLast? <;> rfl
      · rw [if_neg c1]
        by_cases c2 : cp > 0
        · rw [if_pos c2, hr]
          obtain ⟨x, s', v, e1, h2, h3, h4⟩ := ihr _ k s1 (w ++ [(a, cp)]) q repr (by omega)
          refine ⟨x, s', (a, cp) :: v, by rw [e1]; simp, by simp; omega, ?_, ?_⟩
          · intro y hy
            rcases List.mem_cons.1 hy with rfl | hy
            · simp [Tree.toList]
            · simp [Tree.toList, h3 y hy]
          · rw [h4, List.filter_cons_of_neg (by simp; omega)]
        · rw [if_neg c2]
          have : cp = 0 := by omega
          subst this
          exact ⟨some a, s1, [(a, 0)], rfl, by simp, by simp [Tree.toList], by simp⟩

/-- **C131 (searches).** Searches end whatever the callback answers, after at most `2 * log2 (n + 1)` calls, all about members; zt_rbt_find returns the node for which it answered 0, NULL if there was
none; zt_rbt_nfind the last one for which it answered 0 or less. -/
theorem c131_search {S : St} {L : List Nat} (h : AnyHistory S L) (e : Nat) (cmp : Cmp σ) (s : σ) :
    (∃ r s' v, (∀ fuel, 2 * Nat.log2 (L.length + 1) < fuel → findW (noted cmp) S e fuel S.head (s, []) = .ok (r, (s', v))) ∧
      v.length ≤ 2 * Nat.log2 (L.length + 1) ∧ (∀ y ∈ v, y.1 ∈ L) ∧ ∀ x, r = some x ↔ (x, 0) ∈ v) ∧
    ∃ r s' v, (∀ fuel, 2 * Nat.log2 (L.length + 1) < fuel → nfindW (noted cmp) S e fuel S.head none (s, []) = .ok (r, (s', v))) ∧
      v.length ≤ 2 * Nat.log2 (L.length + 1) ∧ (∀ y ∈ v, y.1 ∈ L) ∧ r = (v.filter (fun y => decide (y.2 ≤ 0))).getLast?.map (·.1) := by
  obtain ⟨T, g⟩ := any_shape h
  have hh := g.height
  obtain ⟨W, hp, m, hm⟩ := g
  have hhd : S.head = T.root := W.ctx
  have fmono : ∀ n t s, Le (findW (noted cmp) S e n t s) (findW (noted cmp) S e (n + 1) t s) := by
    intro n
    induction n with
    | zero => intro t s; exact Le.ub _
    | succ n ih =>
        intro t s
        cases t with
        | none => exact Le.refl _
        | some t => simp only [findW]; exact Le.ite (fun _ => ih _ _) (fun _ => Le.ite (fun _ => ih _ _) (fun _ => Le.refl _))
  have nmono : ∀ n t q s, Le (nfindW (noted cmp) S e n t q s) (nfindW (noted cmp) S e (n + 1) t q s) := by
    intro n
    induction n with
    | zero => intro t q s; exact Le.ub _
    | succ n ih =>
        intro t q s
        cases t with
        | none => exact Le.refl _
        | some t => simp only [nfindW]; exact Le.ite (fun _ => ih _ _ _) (fun _ => Le.ite (fun _ => ih _ _ _) (fun _ => Le.refl _))
  have up : ∀ {α} (f : Nat → Outcome α), (∀ n, Le (f n) (f (n + 1))) → ∀ {r}, f (T.height + 1) = .ok r → ∀ fuel, 2 * Nat.log2 (L.length + 1) < fuel → f fuel = .ok r := by
    intro α f hm r hr fuel hf
    obtain ⟨k, rfl⟩ : ∃ k, fuel = T.height + 1 + k := ⟨fuel - (T.height + 1), by omega⟩
    clear hf
    induction k with
    | zero => exact hr
    | succ k ih => exact hm _ _ ih
  obtain ⟨r, s', v, e1, h2, h3, h4⟩ := find_any cmp e T none (T.height + 1) s [] W.tree (by omega)
  obtain ⟨r2, s2, v2, e5, h6, h7, h8⟩ := nfind_any cmp e T none (T.height + 1) s [] none W.tree (by omega)
  rw [← hhd] at e1 e5
  refine ⟨⟨r, s', v, up (fun n => findW (noted cmp) S e n S.head (s, [])) (fun n => fmono n _ _) e1, by omega, fun y hy => hp.mem_iff.1 (h3 y hy), h4⟩,
    ⟨r2, s2, v2, up (fun n => nfindW (noted cmp) S e n S.head none (s, [])) (fun n => nmono n _ _ _) e5, by omega, fun y hy => hp.mem_iff.1 (h7 y hy), by rw [h8, Option.or_none]⟩⟩

/-- **C131 (iteration).** zt_rbt_for_each runs once on every member and ends, each zt_rbt_next and zt_rbt_minmax within `2 * log2 (n + 1) + 1` iterations. -/
theorem c131_for_each {S : St} {L : List Nat} (h : AnyHistory S L) :
    ∃ seq, seq.Perm L ∧ ∀ fuel n, 2 * Nat.log2 (L.length + 1) < fuel → L.length < n → forEach fuel n S = .ok seq := by
  obtain ⟨T, g⟩ := any_shape h
  have hh := g.height
  obtain ⟨W, hp, m, hm⟩ := g
  refine ⟨T.toList, hp, fun fuel n hf hn => ?_⟩
  have hhd : S.head = T.root := W.ctx
  have hl := hp.length_eq
  have loop : ∀ (ys xs : List Nat) (n : Nat), T.toList = xs ++ ys → ys.length < n → forEachLoop fuel S n ys.head? = .ok ys := by
    intro ys
    induction ys with
    | nil => intro xs n _ hn
             obtain ⟨k, rfl⟩ : ∃ k, n = k + 1 := ⟨n - 1, by omega⟩
             rfl
    | cons y ys ih =>
        intro xs n hT hn
        obtain ⟨k, rfl⟩ : ∃ k, n = k + 1 := ⟨n - 1, by omega⟩
        simp only [List.head?_cons, forEachLoop]
        rw [next_spec W hT (by omega)]
        simp only [Outcome.ok_bind]
        rw [ih (xs ++ [y]) k (by rw [hT]; simp) (by simp at hn; omega)]; rfl
  rw [forEach, minmax, hhd, min_spec T none none fuel W.tree (by omega), Option.or_none]
  exact loop T.toList [] n rfl (by omega)

/-- Every history with one honest comparison is one of these. -/
theorem any_of_history {cmp : Nat → Nat → Int} (o : Order cmp) {S : St} {L : List Nat} (h : History cmp S L) : AnyHistory S L := by
  have hs : ∀ S e fuel t q c, insertSearchW (fun a b (s : Unit) => (cmp a b, s)) S e fuel t q c () = (insertSearch cmp S e fuel t q c >>= fun r => pure (r, ())) := by
    intro S e fuel
    induction fuel with
    | zero => intro t q c; rfl
    | succ n ih =>
        intro t q c
        cases t with
        | none => rfl
        | some t =>
            simp only [insertSearchW, insertSearch]
            split
            · exact ih _ _ _
            · split
              · exact ih _ _ _
              · rfl
  have hi : ∀ S e fuel, insertW (fun a b (s : Unit) => (cmp a b, s)) fuel S e () = (insert cmp fuel S e >>= fun r => pure (r.1, r.2, ())) := by
    intro S e fuel
    rw [insertW, hs, insert, Outcome.bind_assoc, Outcome.bind_assoc]
    congr 1
    funext r
    cases r with
    | inl t => rfl
    | inr q => simp only [Outcome.pure_eq, Outcome.ok_bind, Outcome.bind_assoc]
  induction h with
  | empty h => exact .empty h
  | @insert S S' L e h hr ih =>
      have he : e ∉ L := by
        intro he
        have := ((c21_insert o h e).1 e he (o.refl e)).unique hr
        cases this
      obtain ⟨n, hr⟩ := hr
      refine .insert (cmp := fun a b (s : Unit) => (cmp a b, s)) (s := ()) (s' := ()) ih he ⟨n, fun fuel hf => ?_⟩
      have hk := hr fuel hf
      dsimp only at hk ⊢
      rw [hi, hk]; rfl
  | @duplicate S S' L e x h hr ih =>
      obtain ⟨n, hr⟩ := hr
      refine .found (e := e) (x := x) (cmp := fun a b (s : Unit) => (cmp a b, s)) (s := ()) (s' := ()) ih ⟨n, fun fuel hf => ?_⟩
      have hk := hr fuel hf
      dsimp only at hk ⊢
      rw [hi, hk]; rfl
  | remove h he hr ih => exact .remove ih he hr
  | other h hh ha ih => exact .other ih hh ha

/-! ### Violation -/

/-- A comparison that is never 0, not even for a node and itself (as with keys that are NaN). -/
def never0 : Cmp Unit := fun _ _ s => (-1, s)

/-- The node 5, red, is its own parent and both of its own children: the loop of zt_tree.c 99-135 does not end. -/
theorem spin : ∀ (fuel : Nat) (S : St), S.parent 5 = some 5 → S.left 5 = some 5 → S.right 5 = some 5 → S.colour 5 = .red → insertColourLoop fuel S 5 = .ub := by
  intro fuel
  induction fuel with
  | zero => intros; rfl
  | succ n ih =>
      intro S h1 h2 h3 h4
      rw [insertColourLoop]
      simp only [h1, h4, if_true, deref, Outcome.ok_bind, h2, h3, isRed, beq_self_eq_true]
      exact ih _ (by simpa [setBlackRed, St.setC] using h1) (by simpa [setBlackRed, St.setC] using h2) (by simpa [setBlackRed, St.setC] using h3) (by simp [setBlackRed, St.setC])

theorem spinB (fuel : Nat) (S : St) (h1 : S.parent 5 = some 5) (h2 : S.left 5 = none) (h3 : S.right 5 = some 5) (h4 : S.colour 5 = .red) : insertColourLoop fuel S 5 = .ub := by
  cases fuel with
  | zero => rfl
  | succ n =>
      rw [insertColourLoop]
      simp only [h1, h4, if_true, deref, Outcome.ok_bind, h2, reduceCtorEq, if_false, isRed, Bool.false_eq_true, Outcome.pure_eq]
      simp [rotateLeft, setBlackRed, St.setC, St.setR, St.setL, St.setP, h1, h2, h3, deref, setPIf, relink]
      exact spin _ _ (by simp) (by simp) (by simp) (by simp)

theorem spinA (fuel : Nat) (S : St) (h1 : S.parent 5 = some 5) (h2 : S.left 5 = some 5) (h3 : S.right 5 = none) (h4 : S.colour 5 = .red) : insertColourLoop fuel S 5 = .ub := by
  cases fuel with
  | zero => rfl
  | succ n =>
      rw [insertColourLoop]
      simp only [h1, h4, if_true, deref, Outcome.ok_bind, h2, h3, reduceCtorEq, if_false, isRed, Bool.false_eq_true, Outcome.pure_eq]
      simp [rotateRight, setBlackRed, St.setC, St.setR, St.setL, St.setP, h1, h2, h3, deref, setPIf, relink]
      exact spinB _ _ (by simp) (by simp) (by simp) (by simp)

/-- The tree with the one node 5. -/
def one5 : St := (hang (setNode blank 5 none) none 0 5).setC 5 .black

theorem one5_history : AnyHistory one5 [5] :=
  .insert (cmp := never0) (s := ()) (s' := ()) (.empty (S := blank) rfl) (by simp) ⟨1, fun fuel hf => by
    obtain ⟨k, rfl⟩ : ∃ k, fuel = k + 1 := ⟨fuel - 1, by omega⟩
    rfl⟩

/-- The restriction to nodes that are not in the tree is needed: inserting a member again, with a callback that does not answer 0 for it, does not end. -/
theorem c131_again_violation : AnyHistory one5 [5] ∧ ∀ fuel, insertW never0 fuel one5 5 () = .ub := by
  refine ⟨one5_history, fun fuel => ?_⟩
  match fuel with
  | 0 => rfl
  | 1 => rfl
  | n + 2 =>
      have hs : insertSearchW never0 one5 5 (n + 2) one5.head none 0 () = .ok (.inr (some 5, -1), ()) := rfl
      rw [insertW, hs]
      simp only [Outcome.ok_bind]
      rw [insertColour, spinA _ _ (by simp [one5, hang, setNode, St.setC, St.setP, St.setL, St.setR, St.setH]) (by simp [one5, hang, setNode, St.setC, St.setP, St.setL, St.setR, St.setH])
        (by simp [one5, hang, setNode, St.setC, St.setP, St.setL, St.setR, St.setH]) (by simp [one5, hang, setNode, St.setC, St.setP, St.setL, St.setR, St.setH])]
      rfl

/-- Histories with a callback that always says "less" exist, of any length: the members 0, ..., n - 1. -/
theorem any_exists (n : Nat) : ∃ S, AnyHistory S (List.range n).reverse := by
  induction n with
  | zero => exact ⟨blank, .empty rfl⟩
  | succ n ih =>
      obtain ⟨S, h⟩ := ih
      obtain ⟨r, S', s', v, e1, h2, h3, h4⟩ := c131_insert h (e := n) (by simp) never0 ()
      have : r = none := by
        cases r with
        | none => rfl
        | some x =>
            obtain ⟨-, h5, -⟩ := h4
            exfalso
            have key : ∀ (fuel : Nat) t q c w s' v, insertSearchW (noted never0) S n fuel t q c ((), w) = .ok (.inl x, (s', v)) → False := by
              intro fuel
              induction fuel with
              | zero => intro t q c w s' v h; cases h
              | succ k ih =>
                  intro t q c w s' v h
                  cases t with
                  | none => cases h
                  | some t =>
                      exact ih (S.left t) (some t) (-1) (w ++ [(t, -1)]) s' v h
            have e2 := (e1 (2 * Nat.log2 ((List.range n).reverse.length + 1) + 1) (by omega)).1
            rw [insertW, Outcome.bind_eq_ok] at e2
            obtain ⟨⟨q, s1⟩, e3, e4⟩ := e2
            cases q with
            | inl t => cases e4; exact key _ _ _ _ _ _ _ e3
            | inr q =>
                dsimp only at e4
                rw [Outcome.bind_eq_ok] at e4
                obtain ⟨S2, e5, e6⟩ := e4
                cases e6
      subst this
      exact ⟨S', by rw [List.range_succ, List.reverse_append]; exact h4.2⟩

end ZT.RbTree
