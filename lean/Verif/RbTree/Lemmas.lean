import Verif.RbTree.Model

namespace ZT.RbTree

inductive Tree where
  | nil
  | node (c : Colour) (l : Tree) (a : Nat) (r : Tree)
  deriving Repr, DecidableEq

def Tree.root : Tree → Ptr
  | .nil => none
  | .node _ _ a _ => some a

def Tree.toList : Tree → List Nat
  | .nil => []
  | .node _ l a r => l.toList ++ a :: r.toList

def Tree.height : Tree → Nat
  | .nil => 0
  | .node _ l _ r => max l.height r.height + 1

theorem height_le (t : Tree) : t.height ≤ t.toList.length := by
  induction t with
  | nil => simp [Tree.height]
  | node c l a r ihl ihr => simp only [Tree.height, Tree.toList, List.length_append, List.length_cons]; omega

/-- The fields of the nodes below a pointer with parent `par` form the tree `t`. -/
def Rep (S : St) : Ptr → Tree → Prop
  | _, .nil => True
  | par, .node c l a r => S.parent a = par ∧ S.colour a = c ∧ S.left a = l.root ∧ S.right a = r.root ∧ Rep S (some a) l ∧ Rep S (some a) r

/-- A step of the path from the root to a hole: the hole is the left (`isL`) or right child of `a`; `s` is the other subtree. -/
structure Frame where
  isL : Bool
  c : Colour
  a : Nat
  s : Tree

/-- The path from the hole (first) up to the root (last). -/
abbrev Ctx := List Frame

def top : Ctx → Ptr
  | [] => none
  | f :: _ => some f.a

def Frame.fill (f : Frame) (t : Tree) : Tree := if f.isL then .node f.c t f.a f.s else .node f.c f.s f.a t

def plug (t : Tree) : Ctx → Tree
  | [] => t
  | f :: cs => plug (f.fill t) cs

/-- The nodes of the path and the root variable form the context, with `h` in the hole. -/
def RepCtx (S : St) : Ptr → Ctx → Prop
  | h, [] => S.head = h
  | h, f :: cs => (if f.isL then S.left f.a = h ∧ S.right f.a = f.s.root else S.right f.a = h ∧ S.left f.a = f.s.root) ∧ S.colour f.a = f.c ∧
      S.parent f.a = top cs ∧ Rep S (some f.a) f.s ∧ RepCtx S (some f.a) cs

def Ctx.adr : Ctx → List Nat
  | [] => []
  | f :: cs => f.a :: (f.s.toList ++ Ctx.adr cs)

/-- `S` holds the tree `t` in the context `cs`, without sharing. -/
structure Whole (S : St) (t : Tree) (cs : Ctx) : Prop where
  tree : Rep S (top cs) t
  ctx : RepCtx S t.root cs
  nodup : (t.toList ++ Ctx.adr cs).Nodup

/-- All fields of `a` are the same. -/
def Agree (S S' : St) (a : Nat) : Prop := S'.left a = S.left a ∧ S'.right a = S.right a ∧ S'.parent a = S.parent a ∧ S'.colour a = S.colour a

theorem rep_frame {S S' : St} (t : Tree) (par : Ptr) (h : ∀ a ∈ t.toList, Agree S S' a) (r : Rep S par t) : Rep S' par t := by
  induction t generalizing par with
  | nil => trivial
  | node c l a rr ihl ihr =>
      obtain ⟨h1, h2, h3, h4, h5, h6⟩ := r
      have ha := h a (by simp [Tree.toList])
      exact ⟨by rw [ha.2.2.1, h1], by rw [ha.2.2.2, h2], by rw [ha.1, h3], by rw [ha.2.1, h4],
        ihl _ (fun b hb => h b (by simp [Tree.toList, hb])) h5, ihr _ (fun b hb => h b (by simp [Tree.toList, hb])) h6⟩

/-- Only the root's parent changes. -/
theorem rep_reparent {S S' : St} (t : Tree) (par par' : Ptr) (hroot : ∀ a, t.root = some a → S'.left a = S.left a ∧ S'.right a = S.right a ∧
    S'.colour a = S.colour a ∧ S'.parent a = par') (h : ∀ a ∈ t.toList, t.root ≠ some a → Agree S S' a) (nd : t.toList.Nodup) (r : Rep S par t) : Rep S' par' t := by
  cases t with
  | nil => trivial
  | node c l a rr =>
      obtain ⟨h1, h2, h3, h4, h5, h6⟩ := r
      obtain ⟨e1, e2, e3, e4⟩ := hroot a rfl
      simp only [Tree.toList, List.nodup_append, List.nodup_cons, List.mem_cons] at nd
      refine ⟨e4, by rw [e3, h2], by rw [e1, h3], by rw [e2, h4], rep_frame l _ (fun b hb => h b (by simp [Tree.toList, hb]) ?_) h5,
        rep_frame rr _ (fun b hb => h b (by simp [Tree.toList, hb]) ?_) h6⟩
      · simp only [Tree.root, ne_eq, Option.some.injEq]; exact fun e => nd.2.2 b hb a (.inl rfl) e.symm
      · simp only [Tree.root, ne_eq, Option.some.injEq]; exact fun e => nd.2.1.1 (e ▸ hb)

theorem ctx_frame {S S' : St} (cs : Ctx) (h : Ptr) (ha : ∀ a ∈ Ctx.adr cs, Agree S S' a) (hh : S'.head = S.head) (r : RepCtx S h cs) : RepCtx S' h cs := by
  induction cs generalizing h with
  | nil => simp only [RepCtx] at r ⊢; rw [hh, r]
  | cons f cs ih =>
      obtain ⟨h1, h2, h3, h4, h5⟩ := r
      obtain ⟨a1, a2, a3, a4⟩ := ha f.a (by simp [Ctx.adr])
      refine ⟨by rw [a1, a2]; exact h1, by rw [a4, h2], by rw [a3, h3], rep_frame _ _ (fun b hb => ha b (by simp [Ctx.adr, hb])) h4,
        ih _ (fun b hb => ha b (by simp [Ctx.adr, hb])) h5⟩

theorem root_mem {t : Tree} {a : Nat} (h : t.root = some a) : a ∈ t.toList := by
  cases t with
  | nil => cases h
  | node c l b r => cases h; simp [Tree.toList]

/-- Replacing what hangs in the hole: only the link from above changes. -/
theorem relink_ctx {S : St} (cs : Ctx) (elm : Nat) (q : Ptr) (nd : (elm :: Ctx.adr cs).Nodup) (r : RepCtx S (some elm) cs) :
    RepCtx (relink S (top cs) elm q) q cs ∧ (∀ a, a ∉ Ctx.adr cs → Agree S (relink S (top cs) elm q) a) ∧
      (relink S (top cs) elm q).parent = S.parent ∧ (relink S (top cs) elm q).colour = S.colour := by
  cases cs with
  | nil => exact ⟨rfl, fun a _ => ⟨rfl, rfl, rfl, rfl⟩, rfl, rfl⟩
  | cons f cs =>
      obtain ⟨h1, h2, h3, h4, h5⟩ := r
      simp only [Ctx.adr, List.nodup_cons, List.nodup_append, List.mem_cons, List.mem_append, not_or] at nd
      have hs : f.s.root ≠ some elm := fun e => nd.1.2.1 (root_mem e)
      have fr : ∀ (S' : St), S'.parent = S.parent → S'.colour = S.colour → (∀ x, x ≠ f.a → S'.left x = S.left x ∧ S'.right x = S.right x) → S'.head = S.head →
          Rep S' (some f.a) f.s ∧ RepCtx S' (some f.a) cs := by
        intro S' e1 e2 e3 e4
        refine ⟨rep_frame _ _ (fun b hb => ?_) h4, ctx_frame _ _ (fun b hb => ?_) e4 h5⟩
        · have : b ≠ f.a := fun e => nd.2.1.1 (e ▸ hb)
          exact ⟨(e3 b this).1, (e3 b this).2, by rw [e1], by rw [e2]⟩
        · have : b ≠ f.a := fun e => nd.2.1.2 (e ▸ hb)
          exact ⟨(e3 b this).1, (e3 b this).2, by rw [e1], by rw [e2]⟩
      simp only [top, relink]
      by_cases c : f.isL = true
      · simp only [c, if_true] at h1
        rw [if_pos h1.1]
        have ff := fr (S.setL f.a q) rfl rfl (fun x hx => by simp [St.setL, hx]) rfl
        refine ⟨⟨?_, h2, h3, ff.1, ff.2⟩, ?_, rfl, rfl⟩
        · simp only [c, if_true]; exact ⟨by simp [St.setL], h1.2⟩
        · intro a ha
          have : a ≠ f.a := fun e => ha (by simp [Ctx.adr, e])
          exact ⟨by simp [St.setL, this], rfl, rfl, rfl⟩
      · simp only [c, Bool.false_eq_true, if_false] at h1
        rw [if_neg (by rw [h1.2]; exact hs)]
        have ff := fr (S.setR f.a q) rfl rfl (fun x hx => by simp [St.setR, hx]) rfl
        refine ⟨⟨?_, h2, h3, ff.1, ff.2⟩, ?_, rfl, rfl⟩
        · simp only [c, Bool.false_eq_true, if_false]; exact ⟨by simp [St.setR], h1.2⟩
        · intro a ha
          have : a ≠ f.a := fun e => ha (by simp [Ctx.adr, e])
          exact ⟨rfl, by simp [St.setR, this], rfl, rfl⟩

theorem setPIf_eq (S : St) (p q : Ptr) : (setPIf S p q).left = S.left ∧ (setPIf S p q).right = S.right ∧ (setPIf S p q).colour = S.colour ∧
    (setPIf S p q).head = S.head ∧ ∀ x, (setPIf S p q).parent x = if p = some x then q else S.parent x := by
  cases p with
  | none => simp [setPIf]
  | some b =>
      refine ⟨rfl, rfl, rfl, rfl, fun x => ?_⟩
      simp only [setPIf, St.setP, Option.some.injEq, eq_comm]

theorem rotateLeft_whole {S : St} {c d : Colour} {A B C : Tree} {a b : Nat} {cs : Ctx} (W : Whole S (.node c A a (.node d B b C)) cs) :
    ∃ S', rotateLeft S a = .ok (S', b) ∧ Whole S' (.node d (.node c A a B) b C) cs := by
  obtain ⟨⟨p1, c1, l1, r1, hA, p2, c2, l2, r2, hB, hC⟩, hctx, nd⟩ := W
  have nd' := nd
  simp only [Tree.toList, List.nodup_append, List.nodup_cons, List.mem_cons, List.mem_append, not_or] at nd'
  simp only [Tree.root] at hctx r1
  have hab : a ≠ b := by grind
  -- the state before relinking
  have e := setPIf_eq (S.setR a (S.left b)) (S.left b) (some a)
  generalize hS1 : setPIf (S.setR a (S.left b)) (S.left b) (some a) = S1 at e
  have hP : S1.parent a = S.parent a := by
    rw [e.2.2.2.2]; rw [if_neg]; · rfl
    · rw [l2]; intro h; have := root_mem h; grind
  have hctx2 : RepCtx (S1.setP b (top cs)) (some a) cs := by
    refine ctx_frame cs _ (fun x hx => ?_) (by show S1.head = _; rw [e.2.2.2.1]; rfl) hctx
    have hx1 : x ≠ a := by grind
    have hx2 : x ≠ b := by grind
    refine ⟨by show S1.left x = _; rw [e.1]; rfl, by show S1.right x = _; rw [e.2.1]; simp [St.setR, hx1], ?_, by show S1.colour x = _; rw [e.2.2.1]; rfl⟩
    simp only [St.setP, hx2, if_false]
    rw [e.2.2.2.2, if_neg]
    · rfl
    · rw [l2]; intro h; have := root_mem h; grind
  obtain ⟨k1, k2, k3, k4⟩ := relink_ctx (S := S1.setP b (top cs)) cs a (some b) (by simp only [List.nodup_cons]; grind) hctx2
  generalize hS2 : relink (S1.setP b (top cs)) (top cs) a (some b) = S2 at k1 k2 k3 k4
  refine ⟨(S2.setL b (some a)).setP a (some b), ?_, ?_⟩
  · simp only [rotateLeft, r1, deref, Outcome.ok_bind, Outcome.pure_eq]
    have : (S.setR a (S.left b)).left b = S.left b := rfl
    rw [this, hS1, hP, p1]
    have : (S1.setP b (top cs)).parent a = top cs := by simp [St.setP, hab, hP, p1]
    rw [this, hS2]
  · have out : ∀ x, x ∉ Ctx.adr cs → S2.left x = S.left x ∧ S2.right x = (if x = a then B.root else S.right x) ∧ S2.colour x = S.colour x ∧
        S2.parent x = if x = b then top cs else if B.root = some x then some a else S.parent x := by
      intro x hx
      obtain ⟨q1, q2, q3, q4⟩ := k2 x hx
      refine ⟨by rw [q1]; show S1.left x = _; rw [e.1]; rfl, by rw [q2]; show S1.right x = _; rw [e.2.1, ← l2]; rfl,
        by rw [q4]; show S1.colour x = _; rw [e.2.2.1]; rfl, ?_⟩
      rw [q3, ← l2]; simp only [St.setP]; split
      · rfl
      · rw [e.2.2.2.2]; rfl
    have hBr : ∀ x, B.root = some x → x ∈ B.toList := fun x h => root_mem h
    refine ⟨⟨?_, ?_, ?_, ?_, ⟨?_, ?_, ?_, ?_, ?_, ?_⟩, ?_⟩, ?_, ?_⟩
    · have := out b (by grind); simp [St.setP, St.setL, Ne.symm hab, this]
    · have := out b (by grind); simp [St.setP, St.setL, this, c2]
    · simp [St.setP, St.setL, Tree.root]
    · have := out b (by grind); simp [St.setP, St.setL, this, Ne.symm hab, r2]
    · simp [St.setP]
    · have := out a (by grind); simp [St.setP, St.setL, this, c1]
    · have := out a (by grind); simp [St.setP, St.setL, this, hab, l1]
    · have := out a (by grind); simp [St.setP, St.setL, this]
    · refine rep_frame A _ (fun x hx => ?_) hA
      have := out x (by grind)
      have h1 : x ≠ a := by grind
      have h2 : x ≠ b := by grind
      have h3 : B.root ≠ some x := fun h => by have := hBr x h; grind
      simp [Agree, St.setP, St.setL, this, h1, h2, h3]
    · refine rep_reparent B (some b) (some a) (fun x hx => ?_) (fun x hx hr => ?_) nd'.1.2.1.2.1 hB
      · have hx' := hBr x hx
        have := out x (by grind)
        have h1 : x ≠ a := by grind
        have h2 : x ≠ b := by grind
        simp [St.setP, St.setL, this, h1, h2, hx]
      · have := out x (by grind)
        have h1 : x ≠ a := by grind
        have h2 : x ≠ b := by grind
        simp [Agree, St.setP, St.setL, this, h1, h2, hr]
    · refine rep_frame C _ (fun x hx => ?_) hC
      have := out x (by grind)
      have h1 : x ≠ a := by grind
      have h2 : x ≠ b := by grind
      have h3 : B.root ≠ some x := fun h => by have := hBr x h; grind
      simp [Agree, St.setP, St.setL, this, h1, h2, h3]
    · show RepCtx _ (some b) cs
      refine ctx_frame (S := S2) cs _ (fun x hx => ?_) rfl k1
      have h1 : x ≠ a := by grind
      have h2 : x ≠ b := by grind
      simp [Agree, St.setP, St.setL, h1, h2]
    · have : (Tree.node c A a (.node d B b C)).toList = (Tree.node d (.node c A a B) b C).toList := by simp [Tree.toList]
      rw [← this]; exact nd

theorem rotateRight_whole {S : St} {c d : Colour} {A B C : Tree} {a b : Nat} {cs : Ctx} (W : Whole S (.node c (.node d A b B) a C) cs) :
    ∃ S', rotateRight S a = .ok (S', b) ∧ Whole S' (.node d A b (.node c B a C)) cs := by
  obtain ⟨⟨p1, c1, l1, r1, ⟨p2, c2, l2, r2, hA, hB⟩, hC⟩, hctx, nd⟩ := W
  have nd' := nd
  simp only [Tree.toList, List.nodup_append, List.nodup_cons, List.mem_cons, List.mem_append, not_or] at nd'
  simp only [Tree.root] at hctx l1
  have hab : a ≠ b := by grind
  have e := setPIf_eq (S.setL a (S.right b)) (S.right b) (some a)
  generalize hS1 : setPIf (S.setL a (S.right b)) (S.right b) (some a) = S1 at e
  have hP : S1.parent a = S.parent a := by
    rw [e.2.2.2.2]; rw [if_neg]; · rfl
    · rw [r2]; intro h; have := root_mem h; grind
  have hctx2 : RepCtx (S1.setP b (top cs)) (some a) cs := by
    refine ctx_frame cs _ (fun x hx => ?_) (by show S1.head = _; rw [e.2.2.2.1]; rfl) hctx
    have hx1 : x ≠ a := by grind
    have hx2 : x ≠ b := by grind
    refine ⟨by show S1.left x = _; rw [e.1]; simp [St.setL, hx1], by show S1.right x = _; rw [e.2.1]; rfl, ?_, by show S1.colour x = _; rw [e.2.2.1]; rfl⟩
    simp only [St.setP, hx2, if_false]
    rw [e.2.2.2.2, if_neg]
    · rfl
    · rw [r2]; intro h; have := root_mem h; grind
  obtain ⟨k1, k2, k3, k4⟩ := relink_ctx (S := S1.setP b (top cs)) cs a (some b) (by simp only [List.nodup_cons]; grind) hctx2
  generalize hS2 : relink (S1.setP b (top cs)) (top cs) a (some b) = S2 at k1 k2 k3 k4
  refine ⟨(S2.setR b (some a)).setP a (some b), ?_, ?_⟩
  · simp only [rotateRight, l1, deref, Outcome.ok_bind, Outcome.pure_eq]
    have : (S.setL a (S.right b)).right b = S.right b := rfl
    rw [this, hS1, hP, p1]
    have : (S1.setP b (top cs)).parent a = top cs := by simp [St.setP, hab, hP, p1]
    rw [this, hS2]
  · have out : ∀ x, x ∉ Ctx.adr cs → S2.right x = S.right x ∧ S2.left x = (if x = a then B.root else S.left x) ∧ S2.colour x = S.colour x ∧
        S2.parent x = if x = b then top cs else if B.root = some x then some a else S.parent x := by
      intro x hx
      obtain ⟨q1, q2, q3, q4⟩ := k2 x hx
      refine ⟨by rw [q2]; show S1.right x = _; rw [e.2.1]; rfl, by rw [q1]; show S1.left x = _; rw [e.1, ← r2]; rfl,
        by rw [q4]; show S1.colour x = _; rw [e.2.2.1]; rfl, ?_⟩
      rw [q3, ← r2]; simp only [St.setP]; split
      · rfl
      · rw [e.2.2.2.2]; rfl
    have hBr : ∀ x, B.root = some x → x ∈ B.toList := fun x h => root_mem h
    refine ⟨⟨?_, ?_, ?_, ?_, ?_, ⟨?_, ?_, ?_, ?_, ?_, ?_⟩⟩, ?_, ?_⟩
    · have := out b (by grind); simp [St.setP, St.setR, Ne.symm hab, this]
    · have := out b (by grind); simp [St.setP, St.setR, this, c2]
    · have := out b (by grind); simp [St.setP, St.setR, this, Ne.symm hab, l2]
    · simp [St.setP, St.setR, Tree.root]
    · refine rep_frame A _ (fun x hx => ?_) hA
      have := out x (by grind)
      have h1 : x ≠ a := by grind
      have h2 : x ≠ b := by grind
      have h3 : B.root ≠ some x := fun h => by have := hBr x h; grind
      simp [Agree, St.setP, St.setR, this, h1, h2, h3]
    · simp [St.setP]
    · have := out a (by grind); simp [St.setP, St.setR, this, c1]
    · have := out a (by grind); simp [St.setP, St.setR, this]
    · have := out a (by grind); simp [St.setP, St.setR, this, hab, r1]
    · refine rep_reparent B (some b) (some a) (fun x hx => ?_) (fun x hx hr => ?_) nd'.1.1.2.1.2 hB
      · have hx' := hBr x hx
        have := out x (by grind)
        have h1 : x ≠ a := by grind
        have h2 : x ≠ b := by grind
        simp [St.setP, St.setR, this, h1, h2, hx]
      · have := out x (by grind)
        have h1 : x ≠ a := by grind
        have h2 : x ≠ b := by grind
        simp [Agree, St.setP, St.setR, this, h1, h2, hr]
    · refine rep_frame C _ (fun x hx => ?_) hC
      have := out x (by grind)
      have h1 : x ≠ a := by grind
      have h2 : x ≠ b := by grind
      have h3 : B.root ≠ some x := fun h => by have := hBr x h; grind
      simp [Agree, St.setP, St.setR, this, h1, h2, h3]
    · show RepCtx _ (some b) cs
      refine ctx_frame (S := S2) cs _ (fun x hx => ?_) rfl k1
      have h1 : x ≠ a := by grind
      have h2 : x ≠ b := by grind
      simp [Agree, St.setP, St.setR, h1, h2]
    · have : (Tree.node c (.node d A b B) a C).toList = (Tree.node d A b (.node c B a C)).toList := by simp [Tree.toList]
      rw [← this]; exact nd

/-! ## Moving the focus -/

theorem nodup_move {t u : List Nat} {a : Nat} {r : List Nat} : (t ++ a :: (u ++ r)).Nodup ↔ ((t ++ a :: u) ++ r).Nodup := by simp

theorem nodup_swap {t u : List Nat} {a : Nat} {r : List Nat} : (t ++ a :: (u ++ r)).Nodup ↔ ((u ++ a :: t) ++ r).Nodup := by
  simp only [List.nodup_append, List.nodup_cons, List.mem_cons, List.mem_append]; grind

theorem Whole.downL {S : St} {c : Colour} {l r : Tree} {a : Nat} {cs : Ctx} (W : Whole S (.node c l a r) cs) : Whole S l (⟨true, c, a, r⟩ :: cs) := by
  obtain ⟨⟨p1, c1, l1, r1, hl, hr⟩, hctx, nd⟩ := W
  exact ⟨hl, ⟨by simp [l1, r1], c1, p1, hr, hctx⟩, nodup_move.2 nd⟩

theorem Whole.downR {S : St} {c : Colour} {l r : Tree} {a : Nat} {cs : Ctx} (W : Whole S (.node c l a r) cs) : Whole S r (⟨false, c, a, l⟩ :: cs) := by
  obtain ⟨⟨p1, c1, l1, r1, hl, hr⟩, hctx, nd⟩ := W
  exact ⟨hr, ⟨by simp [l1, r1], c1, p1, hl, hctx⟩, nodup_swap.2 nd⟩

theorem Whole.up {S : St} {f : Frame} {t : Tree} {cs : Ctx} (W : Whole S t (f :: cs)) : Whole S (f.fill t) cs := by
  obtain ⟨b, c, a, s⟩ := f
  obtain ⟨ht, ⟨h1, h2, h3, h4, h5⟩, nd⟩ := W
  cases b
  · exact ⟨⟨h3, h2, by simpa using h1.2, by simpa using h1.1, h4, ht⟩, h5, nodup_swap.1 nd⟩
  · exact ⟨⟨h3, h2, by simpa using h1.1, by simpa using h1.2, ht, h4⟩, h5, nodup_move.1 nd⟩

theorem Whole.upL {S : St} {c : Colour} {l r : Tree} {a : Nat} {cs : Ctx} (W : Whole S l (⟨true, c, a, r⟩ :: cs)) : Whole S (.node c l a r) cs := W.up
theorem Whole.upR {S : St} {c : Colour} {l r : Tree} {a : Nat} {cs : Ctx} (W : Whole S r (⟨false, c, a, l⟩ :: cs)) : Whole S (.node c l a r) cs := W.up

theorem Whole.setC {S : St} {c : Colour} {l r : Tree} {a : Nat} {cs : Ctx} (W : Whole S (.node c l a r) cs) (c' : Colour) : Whole (S.setC a c') (.node c' l a r) cs := by
  obtain ⟨⟨p1, c1, l1, r1, hl, hr⟩, hctx, nd⟩ := W
  have nd' := nd
  simp only [Tree.toList, List.nodup_append, List.nodup_cons, List.mem_cons, List.mem_append, not_or] at nd'
  have ag : ∀ x, x ≠ a → Agree S (S.setC a c') x := fun x hx => ⟨rfl, rfl, rfl, by simp [St.setC, hx]⟩
  exact ⟨⟨p1, by simp [St.setC], l1, r1, rep_frame l _ (fun x hx => ag x (by grind)) hl, rep_frame r _ (fun x hx => ag x (by grind)) hr⟩,
    ctx_frame cs _ (fun x hx => ag x (by grind)) rfl hctx, nd⟩

/-- The inorder sequence depends only on that of the focus. -/
theorem plug_toList {t t' : Tree} (cs : Ctx) (h : t.toList = t'.toList) : (plug t cs).toList = (plug t' cs).toList := by
  induction cs generalizing t t' with
  | nil => exact h
  | cons f cs ih =>
      apply ih
      simp only [Frame.fill]; split <;> simp [Tree.toList, h]

theorem Whole.close {S : St} {t : Tree} {cs : Ctx} (W : Whole S t cs) : Whole S (plug t cs) [] := by
  induction cs generalizing t with
  | nil => exact W
  | cons f cs ih => exact ih W.up

theorem Whole.head_none {S : St} {t : Tree} {cs : Ctx} (W : Whole S t cs) (h : S.head = none) : t = .nil ∧ cs = [] := by
  induction cs generalizing t with
  | nil => have := W.ctx; simp only [RepCtx] at this; cases t with
    | nil => exact ⟨rfl, rfl⟩
    | node => rw [h] at this; cases this
  | cons f cs ih => have := (ih W.up).1; simp only [Frame.fill] at this; split at this <;> cases this

/-! ## The red-black conditions -/

/-- `RBT t c n`: the root of `t` has colour `c` (an empty tree counts as black), no red node has a red child, and every path to an empty
subtree has `n` black nodes. -/
inductive RBT : Tree → Colour → Nat → Prop
  | nil : RBT .nil .black 0
  | red {l r : Tree} {a n : Nat} : RBT l .black n → RBT r .black n → RBT (.node .red l a r) .red n
  | blk {l r : Tree} {a n : Nat} {c d : Colour} : RBT l c n → RBT r d n → RBT (.node .black l a r) .black (n + 1)

/-- A context whose hole expects black height `n`; `pc` is the colour of the node above the hole, `red` at the root (which must be black). -/
inductive CtxRB : Ctx → Colour → Nat → Prop
  | nil {n : Nat} : CtxRB [] .red n
  | blk {b : Bool} {a n : Nat} {s : Tree} {c pc : Colour} {cs : Ctx} : CtxRB cs pc (n + 1) → RBT s c n → CtxRB (⟨b, .black, a, s⟩ :: cs) .black n
  | red {b : Bool} {a n : Nat} {s : Tree} {cs : Ctx} : CtxRB cs .black n → RBT s .black n → CtxRB (⟨b, .red, a, s⟩ :: cs) .red n

theorem plug_rbt {t : Tree} {cs : Ctx} {c pc : Colour} {n : Nat} (h : RBT t c n) (k : CtxRB cs pc n) (hc : pc = .red → c = .black) : ∃ m, RBT (plug t cs) .black m := by
  induction k generalizing t c with
  | nil => exact ⟨_, hc rfl ▸ h⟩
  | @blk b a n s c' pc cs k hs ih =>
      refine ih (t := Frame.fill ⟨b, .black, a, s⟩ t) (c := .black) ?_ (fun _ => rfl)
      cases b
      · exact .blk hs h
      · exact .blk h hs
  | @red b a n s cs k hs ih =>
      have := hc rfl; subst this
      refine ih (t := Frame.fill ⟨b, .red, a, s⟩ t) (c := .red) ?_ (fun h => by cases h)
      cases b
      · exact .red hs h
      · exact .red h hs

theorem isRed_rep {S : St} {par : Ptr} {t : Tree} {c : Colour} {n : Nat} (r : Rep S par t) (h : RBT t c n) : isRed S t.root = decide (c = .red) := by
  cases h with
  | nil => rfl
  | red => simp [Tree.root, isRed, r.2.1]
  | blk => simp [Tree.root, isRed, r.2.1]

end ZT.RbTree
