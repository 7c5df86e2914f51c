import Verif.RbTree.Props

/-!
# C136: red-black trees that change while they are iterated over

`zt_rbt_for_each` and `zt_rbt_for_each_safe` (zt_tree.h 70-78) with bodies that insert and remove nodes.
-/

namespace ZT.RbTree

/-! ## Model -/

/-- A call made by the body of a loop. -/
inductive Call where
  | insert (e : Nat)
  | remove (e : Nat)
  deriving Repr, DecidableEq

/-- zt_tree.c 317-349 `zt_rbt_insert` (its result is dropped), 228-314 `zt_rbt_remove`. -/
def call (cmp : Nat → Nat → Int) (fuel : Nat) (S : St) : Call → Outcome St
  | .insert e => do
      let r ← insert cmp fuel S e
      pure r.2
  | .remove e => remove fuel S e

/-- Several calls (zt_tree.c 228-349). -/
def calls (cmp : Nat → Nat → Int) (fuel : Nat) : St → List Call → Outcome St
  | S, [] => .ok S
  | S, c :: cs => do
      let S ← call cmp fuel S c
      calls cmp fuel S cs

/-- The statement after `zt_rbt_for_each(head, x)` (zt_tree.h 70-73): a program with a state of its own; which calls it makes may depend on this state, on the node and on
all pointers of the tree. (What it does after a call depends on the same things, for the calls are deterministic.) -/
abbrev Body (σ : Type) := σ → Nat → St → List Call × σ

/-- zt_tree.h 70-73 `zt_rbt_for_each`: at most `k` rounds from `x`. The result: for each round the node and the calls made; the states; and `x`, NULL if the loop has ended. -/
def rounds {σ : Type} (cmp : Nat → Nat → Int) (fuel : Nat) (body : Body σ) : (k : Nat) → σ → St → Ptr → Outcome (List (Nat × List Call) × σ × St × Ptr)
  | 0, s, S, x => .ok ([], s, S, x)
  | _ + 1, s, S, none => .ok ([], s, S, none)
  | k + 1, s, S, some x => do
      let S' ← calls cmp fuel S (body s x S).1
      let x' ← next fuel S' (some x)
      let r ← rounds cmp fuel body k (body s x S).2 S' x'
      pure ((x, (body s x S).1) :: r.1, r.2)

/-- zt_tree.h 70-73 from the beginning. -/
def forEachDo {σ : Type} (cmp : Nat → Nat → Int) (fuel : Nat) (body : Body σ) (k : Nat) (s : σ) (S : St) : Outcome (List (Nat × List Call) × σ × St × Ptr) := do
  let x ← minmax fuel S (-1)
  rounds cmp fuel body k s S x

/-- zt_tree.h 75-78 `zt_rbt_for_each_safe`: at most `k` rounds; the result as in `rounds`, and `n`. -/
def roundsSafe {σ : Type} (cmp : Nat → Nat → Int) (fuel : Nat) (body : Body σ) : (k : Nat) → σ → St → (x n : Ptr) → Outcome (List (Nat × List Call) × σ × St × Ptr × Ptr)
  | 0, s, S, x, n => .ok ([], s, S, x, n)
  | _ + 1, s, S, none, n => .ok ([], s, S, none, n)
  | k + 1, s, S, some x, n => do
      let S' ← calls cmp fuel S (body s x S).1
      let n' ← next fuel S' n
      let r ← roundsSafe cmp fuel body k (body s x S).2 S' n n'
      pure ((x, (body s x S).1) :: r.1, r.2)

/-- zt_tree.h 75-78 from the beginning. -/
def forEachSafeDo {σ : Type} (cmp : Nat → Nat → Int) (fuel : Nat) (body : Body σ) (k : Nat) (s : σ) (S : St) : Outcome (List (Nat × List Call) × σ × St × Ptr × Ptr) := do
  let x ← minmax fuel S (-1)
  let n ← next fuel S x
  roundsSafe cmp fuel body k s S x n

/-! ## Specification: a set of nodes in increasing order -/

/-- `S` is what some history has left, and the members are then, in increasing order, `M`. -/
def Holds (cmp : Nat → Nat → Int) (S : St) (M : List Nat) : Prop := Sorted cmp M ∧ ∃ L, History cmp S L ∧ M.Perm L

/-- The members after a call. -/
def put (cmp : Nat → Nat → Int) (M : List Nat) : Call → List Nat
  | .insert e => if M.any (fun x => decide (cmp e x = 0)) then M else insSorted cmp e M
  | .remove e => M.erase e

/-- The members after several calls. -/
def after (cmp : Nat → Nat → Int) : List Nat → List Call → List Nat
  | M, [] => M
  | M, c :: cs => after cmp (put cmp M c) cs

/-- Only members are removed, and `keep` is not. -/
def Legal (cmp : Nat → Nat → Int) (keep : Option Nat) : List Nat → List Call → Prop
  | _, [] => True
  | M, .insert e :: cs => Legal cmp keep (put cmp M (.insert e)) cs
  | M, .remove e :: cs => e ∈ M ∧ keep ≠ some e ∧ Legal cmp keep (put cmp M (.remove e)) cs

/-- The least member above `x`. -/
def above (cmp : Nat → Nat → Int) (M : List Nat) (x : Nat) : Option Nat := M.find? (fun y => decide (cmp x y < 0))

/-- What `zt_rbt_for_each` does to a set: it visits a member, and after the body goes on with the least member above it, in the set as it is then. `Replay cmp M x tr M' x'`:
from the members `M` and the node `x` the rounds `tr` lead to the members `M'` and the node `x'`. -/
inductive Replay (cmp : Nat → Nat → Int) : List Nat → Option Nat → List (Nat × List Call) → List Nat → Option Nat → Prop
  | stop {M x} : Replay cmp M x [] M x
  | round {M x cs tr M' x'} : x ∈ M → Replay cmp (after cmp M cs) (above cmp (after cmp M cs) x) tr M' x' → Replay cmp M (some x) ((x, cs) :: tr) M' x'

/-- `zt_rbt_for_each_safe`: it goes on with what was the least member above the visited one before the body. -/
inductive ReplaySafe (cmp : Nat → Nat → Int) : List Nat → Option Nat → List (Nat × List Call) → List Nat → Option Nat → Prop
  | stop {M x} : ReplaySafe cmp M x [] M x
  | round {M x cs tr M' x'} : x ∈ M → ReplaySafe cmp (after cmp M cs) (above cmp M x) tr M' x' → ReplaySafe cmp M (some x) ((x, cs) :: tr) M' x'

/-- The nodes visited. -/
def visited (tr : List (Nat × List Call)) : List Nat := tr.map (·.1)

/-- All calls made. -/
def made (tr : List (Nat × List Call)) : List Call := tr.flatMap (·.2)

/-- The nodes given to zt_rbt_insert. -/
def inserted (tr : List (Nat × List Call)) : List Nat := (made tr).filterMap fun c => match c with | .insert e => some e | .remove _ => none

/-! ## Proof -/

theorem lt_irrefl' {cmp : Nat → Nat → Int} (o : Order cmp) (x : Nat) : ¬ cmp x x < 0 := by rw [o.refl]; omega

theorem lt_trans' {cmp : Nat → Nat → Int} (o : Order cmp) {x y z : Nat} (h : cmp x y < 0) (k : cmp y z < 0) : cmp x z < 0 := o.le_lt (Int.le_of_lt h) k

theorem sorted_unique {cmp : Nat → Nat → Int} (o : Order cmp) : ∀ {M N : List Nat}, Sorted cmp M → Sorted cmp N → M.Perm N → M = N := by
  intro M
  induction M with
  | nil => intro N _ _ h; exact h.symm.eq_nil.symm
  | cons x M ih =>
      intro N hM hN h
      cases N with
      | nil => exact h.eq_nil
      | cons y N =>
          have hM' := hM; have hN' := hN
          simp only [Sorted, List.pairwise_cons] at hM' hN'
          have hxy : x = y := by
            have h1 : x ∈ y :: N := h.mem_iff.1 (by simp)
            have h2 : y ∈ x :: M := h.mem_iff.2 (by simp)
            rcases List.mem_cons.1 h1 with h1 | h1
            · exact h1
            · rcases List.mem_cons.1 h2 with h2 | h2
              · exact h2.symm
              · exact absurd (lt_trans' o (hN'.1 x h1) (hM'.1 y h2)) (lt_irrefl' o y)
          subst hxy
          rw [ih hM'.2 hN'.2 (List.perm_cons x |>.1 h)]

theorem holds_tree {cmp : Nat → Nat → Int} (o : Order cmp) {S : St} {M : List Nat} (h : Holds cmp S M) : ∃ T, Whole S T [] ∧ T.toList = M := by
  obtain ⟨hs, L, hL, hp⟩ := h
  obtain ⟨T, W, hT, hq⟩ := c21_sorted_members o hL
  exact ⟨T, W, sorted_unique o hT hs (hq.trans hp.symm)⟩

theorem put_sorted {cmp : Nat → Nat → Int} (o : Order cmp) {M : List Nat} (h : Sorted cmp M) (c : Call) : Sorted cmp (put cmp M c) := by
  cases c with
  | insert e =>
      simp only [put]
      split
      · exact h
      · rename_i hn
        exact insSorted_sorted o h (fun x hx hc => hn (List.any_eq_true.2 ⟨x, hx, by simpa using hc⟩))
  | remove e => exact h.sublist List.erase_sublist

theorem after_sorted {cmp : Nat → Nat → Int} (o : Order cmp) (cs : List Call) : ∀ {M : List Nat}, Sorted cmp M → Sorted cmp (after cmp M cs) := by
  induction cs with
  | nil => intro M h; exact h
  | cons c cs ih => intro M h; exact ih (put_sorted o h c)

theorem call_ok {cmp : Nat → Nat → Int} (o : Order cmp) {S : St} {M : List Nat} (h : Holds cmp S M) (c : Call) (hc : ∀ e, c = .remove e → e ∈ M) :
    ∃ S', Runs (fun fuel => call cmp fuel S c) S' ∧ Holds cmp S' (put cmp M c) := by
  have hs := put_sorted o h.1 c
  obtain ⟨hM, L, hL, hp⟩ := h
  cases c with
  | insert e =>
      simp only [put] at hs ⊢
      split
      · rename_i hx
        obtain ⟨x, hx, hc⟩ := List.any_eq_true.1 hx
        obtain ⟨n, hr⟩ := (c21_insert o hL e).1 x (hp.mem_iff.1 hx) (by simpa using hc)
        refine ⟨S, ⟨n, fun fuel hf => ?_⟩, hM, L, hL, hp⟩
        have e1 : insert cmp fuel S e = _ := hr _ hf
        simp only [call, e1, Outcome.ok_bind]; rfl
      · rename_i hn
        rw [if_neg hn] at hs
        obtain ⟨S', ⟨n, hr⟩, -⟩ := (c21_insert o hL e).2 (fun x hx hc => hn (List.any_eq_true.2 ⟨x, hp.mem_iff.2 hx, by simpa using hc⟩))
        refine ⟨S', ⟨n, fun fuel hf => ?_⟩, hs, e :: L, .insert hL ⟨n, hr⟩, (insSorted_perm cmp e M).trans (hp.cons e)⟩
        have e1 : insert cmp fuel S e = _ := hr _ hf
        simp only [call, e1, Outcome.ok_bind]; rfl
  | remove e =>
      have he := hp.mem_iff.1 (hc e rfl)
      obtain ⟨S', hr, -⟩ := c21_remove o hL he
      exact ⟨S', hr, hs, L.erase e, .remove hL he hr, hp.erase e⟩

theorem calls_ok {cmp : Nat → Nat → Int} (o : Order cmp) {keep : Option Nat} (cs : List Call) : ∀ {S : St} {M : List Nat}, Holds cmp S M → Legal cmp keep M cs →
    ∃ S', Runs (fun fuel => calls cmp fuel S cs) S' ∧ Holds cmp S' (after cmp M cs) := by
  induction cs with
  | nil => intro S M h _; exact ⟨S, ⟨0, fun _ _ => rfl⟩, h⟩
  | cons c cs ih =>
      intro S M h hl
      have hc : ∀ e, c = .remove e → e ∈ M := by rintro e rfl; exact hl.1
      obtain ⟨S1, ⟨n1, h1⟩, H1⟩ := call_ok o h c hc
      have hl' : Legal cmp keep (put cmp M c) cs := by cases c with | insert e => exact hl | remove e => exact hl.2.2
      obtain ⟨S2, ⟨n2, h2⟩, H2⟩ := ih H1 hl'
      refine ⟨S2, ⟨max n1 n2, fun fuel hf => ?_⟩, H2⟩
      have e1 : call cmp fuel S c = _ := h1 _ (by omega)
      have e2 : calls cmp fuel S1 cs = _ := h2 _ (by omega)
      simp only [calls, e1, e2, Outcome.ok_bind]

theorem mem_put {cmp : Nat → Nat → Int} {M : List Nat} {y : Nat} (h : y ∈ M) (c : Call) (hc : c ≠ .remove y) : y ∈ put cmp M c := by
  cases c with
  | insert e =>
      simp only [put]
      split
      · exact h
      · exact (insSorted_perm cmp e M).mem_iff.2 (by simp [h])
  | remove e =>
      have : y ≠ e := by rintro rfl; exact hc rfl
      exact (List.mem_erase_of_ne this).2 h

theorem mem_after {cmp : Nat → Nat → Int} {y : Nat} (cs : List Call) : ∀ {M : List Nat}, y ∈ M → .remove y ∉ cs → y ∈ after cmp M cs := by
  induction cs with
  | nil => intro M h _; exact h
  | cons c cs ih =>
      intro M h hc
      simp only [List.mem_cons, not_or] at hc
      exact ih (mem_put h c (fun e => hc.1 e.symm)) hc.2

theorem legal_keep {cmp : Nat → Nat → Int} {x : Nat} (cs : List Call) : ∀ {M : List Nat}, Legal cmp (some x) M cs → .remove x ∉ cs := by
  induction cs with
  | nil => intro M _; simp
  | cons c cs ih =>
      intro M h
      cases c with
      | insert e => simp only [List.mem_cons, not_or]; exact ⟨by simp, ih h⟩
      | remove e =>
          simp only [List.mem_cons, not_or]
          refine ⟨?_, ih h.2.2⟩
          intro he
          injection he with he
          exact h.2.1 (by rw [he])

theorem of_put {cmp : Nat → Nat → Int} {M : List Nat} {y : Nat} (c : Call) (h : y ∈ put cmp M c) : y ∈ M ∨ c = .insert y := by
  cases c with
  | insert e =>
      simp only [put] at h
      split at h
      · exact .inl h
      · rcases List.mem_cons.1 ((insSorted_perm cmp e M).mem_iff.1 h) with rfl | h
        · exact .inr rfl
        · exact .inl h
  | remove e => exact .inl (List.mem_of_mem_erase h)

theorem of_after {cmp : Nat → Nat → Int} {y : Nat} (cs : List Call) : ∀ {M : List Nat}, y ∈ after cmp M cs → y ∈ M ∨ .insert y ∈ cs := by
  induction cs with
  | nil => intro M h; exact .inl h
  | cons c cs ih =>
      intro M h
      rcases ih h with h | h
      · rcases of_put c h with h | h
        · exact .inl h
        · exact .inr (by simp [h])
      · exact .inr (by simp [h])

theorem above_some {cmp : Nat → Nat → Int} {M : List Nat} {x z : Nat} (h : above cmp M x = some z) : z ∈ M ∧ cmp x z < 0 :=
  ⟨List.mem_of_find?_eq_some h, by simpa using List.find?_some h⟩

/-- `above` is the least one. -/
theorem above_least {cmp : Nat → Nat → Int} {M : List Nat} (hs : Sorted cmp M) {x y : Nat} (hy : y ∈ M) (hxy : cmp x y < 0) : ∃ z, above cmp M x = some z ∧ (z = y ∨ cmp z y < 0) := by
  induction M with
  | nil => cases hy
  | cons a M ih =>
      simp only [Sorted, List.pairwise_cons] at hs
      by_cases ha : cmp x a < 0
      · refine ⟨a, by simp [above, ha], ?_⟩
        rcases List.mem_cons.1 hy with rfl | hy
        · exact .inl rfl
        · exact .inr (hs.1 y hy)
      · have hy' : y ∈ M := by
          rcases List.mem_cons.1 hy with rfl | hy
          · exact absurd hxy ha
          · exact hy
        obtain ⟨z, h1, h2⟩ := ih hs.2 hy'
        exact ⟨z, by simpa [above, ha] using h1, h2⟩

theorem next_above {cmp : Nat → Nat → Int} (o : Order cmp) {S : St} {M : List Nat} (h : Holds cmp S M) {x : Nat} (hx : x ∈ M) : Runs (fun fuel => next fuel S (some x)) (above cmp M x) := by
  obtain ⟨T, W, hT⟩ := holds_tree o h
  obtain ⟨xs, ys, he⟩ := List.append_of_mem hx
  refine ⟨T.height + 1, fun fuel hf => ?_⟩
  show next fuel S (some x) = _
  rw [next_spec W (hT.trans he) (by omega)]
  have hs := h.1
  rw [he] at hs ⊢
  simp only [Sorted, List.pairwise_append, List.pairwise_cons, List.mem_cons] at hs
  congr 1
  have h1 : xs.find? (fun y => decide (cmp x y < 0)) = none := by
    rw [List.find?_eq_none]
    intro y hy
    have a1 := hs.2.2 y hy x (.inl rfl)
    have a2 := o.flip y x
    simp; omega
  rw [above, List.find?_append, h1, Option.none_or, List.find?_cons_of_neg (by simp [o.refl])]
  cases ys with
  | nil => rfl
  | cons y ys => rw [List.find?_cons_of_pos (by simpa using hs.2.1.1 y (by simp))]; rfl

theorem min_head {cmp : Nat → Nat → Int} (o : Order cmp) {S : St} {M : List Nat} (h : Holds cmp S M) : Runs (fun fuel => minmax fuel S (-1)) M.head? := by
  obtain ⟨T, W, hT⟩ := holds_tree o h
  refine ⟨T.height + 1, fun fuel hf => ?_⟩
  show minmax fuel S (-1) = _
  have hh : S.head = T.root := W.ctx
  rw [minmax, hh, min_spec T none none fuel W.tree (by omega), Option.or_none, hT]

theorem head_least {cmp : Nat → Nat → Int} {M : List Nat} (hs : Sorted cmp M) {y : Nat} (hy : y ∈ M) : ∃ z, M.head? = some z ∧ (z = y ∨ cmp z y < 0) := by
  cases M with
  | nil => cases hy
  | cons a M =>
      simp only [Sorted, List.pairwise_cons] at hs
      refine ⟨a, rfl, ?_⟩
      rcases List.mem_cons.1 hy with rfl | hy
      · exact .inl rfl
      · exact .inr (hs.1 y hy)

theorem rounds_ok {σ : Type} {cmp : Nat → Nat → Int} (o : Order cmp) {body : Body σ} (hb : ∀ s x S M, Holds cmp S M → x ∈ M → Legal cmp (some x) M (body s x S).1) (k : Nat) :
    ∀ {S : St} {M : List Nat} {x : Option Nat} (s : σ), Holds cmp S M → (∀ y, x = some y → y ∈ M) →
    ∃ tr s' S' x' M', Runs (fun fuel => rounds cmp fuel body k s S x) (tr, s', S', x') ∧ Holds cmp S' M' ∧ Replay cmp M x tr M' x' ∧ (x' = none ∨ tr.length = k) := by
  induction k with
  | zero => intro S M x s h _; exact ⟨[], s, S, x, M, ⟨0, fun _ _ => rfl⟩, h, .stop, .inr rfl⟩
  | succ k ih =>
      intro S M x s h hx
      cases x with
      | none => exact ⟨[], s, S, none, M, ⟨0, fun _ _ => rfl⟩, h, .stop, .inl rfl⟩
      | some x =>
          have hl := hb s x S M h (hx x rfl)
          obtain ⟨S1, ⟨n1, h1⟩, H1⟩ := calls_ok o _ h hl
          have hx1 := mem_after (cmp := cmp) _ (hx x rfl) (legal_keep _ hl)
          obtain ⟨n2, h2⟩ := next_above o H1 hx1
          obtain ⟨tr, s', S', x', M', ⟨n3, h3⟩, H3, R, hk⟩ := ih (x := above cmp (after cmp M (body s x S).1) x) (body s x S).2 H1 (fun y hy => (above_some hy).1)
          refine ⟨(x, (body s x S).1) :: tr, s', S', x', M', ⟨max n1 (max n2 n3), fun fuel hf => ?_⟩, H3, .round (hx x rfl) R, ?_⟩
          · have e1 : calls cmp fuel S (body s x S).1 = _ := h1 _ (by omega)
            have e2 : next fuel S1 (some x) = _ := h2 _ (by omega)
            have e3 : rounds cmp fuel body k (body s x S).2 S1 _ = _ := h3 _ (by omega)
            simp only [rounds, e1, e2, e3, Outcome.ok_bind, Outcome.pure_eq]
          · rcases hk with hk | hk
            · exact .inl hk
            · exact .inr (by simp [hk])

theorem roundsSafe_ok {σ : Type} {cmp : Nat → Nat → Int} (o : Order cmp) {body : Body σ}
    (hb : ∀ s x S M, Holds cmp S M → x ∈ M → Legal cmp (above cmp M x) M (body s x S).1) (k : Nat) :
    ∀ {S : St} {M : List Nat} {x : Option Nat} (s : σ), Holds cmp S M → (∀ y, x = some y → y ∈ M) →
    ∃ tr s' S' x' M', Runs (fun fuel => roundsSafe cmp fuel body k s S x (x.bind (above cmp M))) (tr, s', S', x', x'.bind (above cmp M')) ∧ Holds cmp S' M' ∧
      ReplaySafe cmp M x tr M' x' ∧ (x' = none ∨ tr.length = k) := by
  induction k with
  | zero => intro S M x s h _; exact ⟨[], s, S, x, M, ⟨0, fun _ _ => rfl⟩, h, .stop, .inr rfl⟩
  | succ k ih =>
      intro S M x s h hx
      cases x with
      | none => exact ⟨[], s, S, none, M, ⟨0, fun _ _ => rfl⟩, h, .stop, .inl rfl⟩
      | some x =>
          have hl := hb s x S M h (hx x rfl)
          obtain ⟨S1, ⟨n1, h1⟩, H1⟩ := calls_ok o _ h hl
          have hx1 : ∀ y, above cmp M x = some y → y ∈ after cmp M (body s x S).1 := by
            intro y hy
            rw [hy] at hl
            exact mem_after _ (above_some hy).1 (legal_keep _ hl)
          have hnext : Runs (fun fuel => next fuel S1 (above cmp M x)) ((above cmp M x).bind (above cmp (after cmp M (body s x S).1))) := by
            cases hq : above cmp M x with
            | none => exact ⟨0, fun _ _ => rfl⟩
            | some z => exact next_above o H1 (hx1 z hq)
          obtain ⟨n2, h2⟩ := hnext
          obtain ⟨tr, s', S', x', M', ⟨n3, h3⟩, H3, R, hk⟩ := ih (x := above cmp M x) (body s x S).2 H1 hx1
          refine ⟨(x, (body s x S).1) :: tr, s', S', x', M', ⟨max n1 (max n2 n3), fun fuel hf => ?_⟩, H3, .round (hx x rfl) R, ?_⟩
          · have e1 : calls cmp fuel S (body s x S).1 = _ := h1 _ (by omega)
            have e2 : next fuel S1 (above cmp M x) = _ := h2 _ (by omega)
            have e3 : roundsSafe cmp fuel body k (body s x S).2 S1 _ _ = _ := h3 _ (by omega)
            simp only [roundsSafe, Option.bind_some, e1, e2, e3, Outcome.ok_bind, Outcome.pure_eq]
          · rcases hk with hk | hk
            · exact .inl hk
            · exact .inr (by simp [hk])

/-- Both kinds of loops: the node of the next round is a least member above, before or after the body. -/
inductive Either (cmp : Nat → Nat → Int) : List Nat → Option Nat → List (Nat × List Call) → List Nat → Option Nat → Prop
  | stop {M x} : Either cmp M x [] M x
  | round {M x z cs tr M' x'} : x ∈ M → (z = above cmp M x ∨ z = above cmp (after cmp M cs) x) → Either cmp (after cmp M cs) z tr M' x' → Either cmp M (some x) ((x, cs) :: tr) M' x'

theorem Replay.either {cmp : Nat → Nat → Int} {M x tr M' x'} (h : Replay cmp M x tr M' x') : Either cmp M x tr M' x' := by
  induction h with
  | stop => exact .stop
  | round hx _ ih => exact .round hx (.inr rfl) ih

theorem ReplaySafe.either {cmp : Nat → Nat → Int} {M x tr M' x'} (h : ReplaySafe cmp M x tr M' x') : Either cmp M x tr M' x' := by
  induction h with
  | stop => exact .stop
  | round hx _ ih => exact .round hx (.inl rfl) ih

theorem either_gt {cmp : Nat → Nat → Int} {M : List Nat} {x y : Nat} {z : Option Nat} {cs : List Call} (hz : z = above cmp M x ∨ z = above cmp (after cmp M cs) x) (h : z = some y) : cmp x y < 0 := by
  rcases hz with rfl | rfl <;> exact (above_some h).2

/-- The visited nodes are increasing, from the first one on, and below the next one. -/
theorem either_sorted {cmp : Nat → Nat → Int} (o : Order cmp) {M x tr M' x'} (h : Either cmp M x tr M' x') :
    Sorted cmp (visited tr) ∧ (∀ a, x = some a → ∀ v ∈ visited tr, v = a ∨ cmp a v < 0) ∧ (∀ q, x' = some q → ∀ v ∈ visited tr, cmp v q < 0) ∧
      (∀ a q, x = some a → x' = some q → a = q ∨ cmp a q < 0) := by
  induction h with
  | stop => exact ⟨.nil, fun _ _ _ h => (by cases h), fun _ _ _ h => (by cases h), fun a q h h' => .inl (by rw [h] at h'; injection h')⟩
  | @round M x z cs tr M' x' hx hz R ih =>
      obtain ⟨i1, i2, i3, i4⟩ := ih
      have gt : ∀ v ∈ visited tr, cmp x v < 0 := by
        intro v hv
        cases hzz : z with
        | none => subst hzz; cases R; cases hv
        | some y =>
            have h1 := either_gt hz hzz
            rcases i2 y hzz v hv with rfl | h2
            · exact h1
            · exact lt_trans' o h1 h2
      have gtq : ∀ q, x' = some q → cmp x q < 0 := by
        intro q hq
        cases hzz : z with
        | none => subst hzz; cases R; cases hq
        | some y =>
            have h1 := either_gt hz hzz
            rcases i4 y q hzz hq with rfl | h2
            · exact h1
            · exact lt_trans' o h1 h2
      refine ⟨List.pairwise_cons.2 ⟨gt, i1⟩, ?_, ?_, ?_⟩
      · intro a ha v hv
        cases ha
        rcases List.mem_cons.1 hv with rfl | hv
        · exact .inl rfl
        · exact .inr (gt v hv)
      · intro q hq v hv
        rcases List.mem_cons.1 hv with rfl | hv
        · exact gtq q hq
        · exact i3 q hq v hv
      · intro a q ha hq; cases ha; exact .inr (gtq q hq)

/-- A member from the cursor on that is not removed is visited, or still to come. -/
theorem either_stays {cmp : Nat → Nat → Int} (o : Order cmp) {M x tr M' x'} (h : Either cmp M x tr M' x') : ∀ {y : Nat}, Sorted cmp M → y ∈ M → .remove y ∉ made tr →
    (∃ a, x = some a ∧ (a = y ∨ cmp a y < 0)) → y ∈ visited tr ∨ ∃ q, x' = some q ∧ (q = y ∨ cmp q y < 0) := by
  induction h with
  | stop => intro y _ _ _ h; exact .inr h
  | @round M x z cs tr M' x' hx hz R ih =>
      intro y hs hy hr ⟨a, ha, hay⟩
      cases ha
      rcases hay with rfl | hay
      · exact .inl (by simp [visited])
      · simp only [made, List.flatMap_cons, List.mem_append, not_or] at hr
        have hy1 := mem_after (cmp := cmp) cs hy hr.1
        have hz' : ∃ b, z = some b ∧ (b = y ∨ cmp b y < 0) := by
          rcases hz with rfl | rfl
          · exact above_least hs hy hay
          · exact above_least (after_sorted o cs hs) hy1 hay
        rcases ih (after_sorted o cs hs) hy1 hr.2 hz' with h | h
        · exact .inl (List.mem_cons_of_mem _ h)
        · exact .inr h

theorem either_members {cmp : Nat → Nat → Int} {M x tr M' x'} (h : Either cmp M x tr M' x') : M' = after cmp M (made tr) ∧ ∀ v ∈ visited tr, v ∈ M ∨ v ∈ inserted tr := by
  induction h with
  | stop => exact ⟨rfl, fun _ h => by cases h⟩
  | @round M x z cs tr M' x' hx hz R ih =>
      obtain ⟨i1, i2⟩ := ih
      have app : ∀ (cs ds : List Call) (M : List Nat), after cmp M (cs ++ ds) = after cmp (after cmp M cs) ds := by
        intro cs
        induction cs with
        | nil => intro ds M; rfl
        | cons c cs ih => intro ds M; exact ih ds _
      refine ⟨by rw [i1]; simp only [made, List.flatMap_cons, app], ?_⟩
      intro v hv
      have key : ∀ v, v ∈ inserted ((x, cs) :: tr) ↔ .insert v ∈ cs ∨ v ∈ inserted tr := by
        intro v
        have k1 : ∀ l : List Call, (v ∈ l.filterMap fun c => match c with | .insert e => some e | .remove _ => none) ↔ .insert v ∈ l := by
          intro l
          rw [List.mem_filterMap]
          constructor
          · rintro ⟨c, hc, h⟩
            cases c with
            | insert e => simp at h; subst h; exact hc
            | remove e => simp at h
          · intro h; exact ⟨_, h, rfl⟩
        simp only [inserted, made, List.flatMap_cons]
        rw [k1, k1, List.mem_append]
      rw [key]
      rcases List.mem_cons.1 hv with rfl | hv
      · exact .inl hx
      · rcases i2 v hv with h | h
        · rcases of_after cs h with h | h
          · exact .inl h
          · exact .inr (.inl h)
        · exact .inr (.inr h)

theorem nodup_length : ∀ {l m : List Nat}, l.Nodup → (∀ x ∈ l, x ∈ m) → l.length ≤ m.length := by
  intro l
  induction l with
  | nil => intro m _ _; simp
  | cons a l ih =>
      intro m nd h
      rw [List.nodup_cons] at nd
      have ha := h a (by simp)
      have := ih (m := m.erase a) nd.2 (fun x hx => (List.mem_erase_of_ne (by rintro rfl; exact nd.1 hx)).2 (h x (by simp [hx])))
      rw [List.length_erase_of_mem ha] at this
      have := List.length_pos_of_mem ha
      simp only [List.length_cons]; omega

/-- What both loops guarantee about the rounds `tr` that start with the members `M` and end with the members `M'`, with `x'` as the node to go on with. -/
structure Visits (cmp : Nat → Nat → Int) (M : List Nat) (tr : List (Nat × List Call)) (M' : List Nat) (x' : Option Nat) : Prop where
  /-- The visited nodes are strictly increasing: none is visited twice. -/
  increasing : Sorted cmp (visited tr)
  /-- Every node that was a member at the beginning and is never removed is visited, unless the loop is still below it; in particular if the loop has ended. -/
  complete : ∀ y ∈ M, .remove y ∉ made tr → y ∈ visited tr ∨ ∃ q, x' = some q ∧ (q = y ∨ cmp q y < 0)
  /-- Only members are visited, which were there or have been inserted. -/
  sound : ∀ v ∈ visited tr, v ∈ M ∨ v ∈ inserted tr
  /-- The members are those that the calls leave, made one after the other. -/
  members : M' = after cmp M (made tr)
  /-- The loop ends if insertions end. -/
  ends : tr.length ≤ M.length + (inserted tr).length

theorem either_visits {cmp : Nat → Nat → Int} (o : Order cmp) {M tr M' x'} (hs : Sorted cmp M) (h : Either cmp M M.head? tr M' x') : Visits cmp M tr M' x' := by
  obtain ⟨h1, -, -, -⟩ := either_sorted o h
  obtain ⟨m1, m2⟩ := either_members h
  refine ⟨h1, fun y hy hr => either_stays o h hs hy hr (head_least hs hy), m2, m1, ?_⟩
  have nd : (visited tr).Nodup := h1.imp (fun {a b} hab => by rintro rfl; exact lt_irrefl' o a hab)
  have := nodup_length nd (m := M ++ inserted tr) (fun x hx => List.mem_append.2 (m2 x hx))
  simpa [visited] using this

/-! ## The theorems -/

/-- **C136 (zt_rbt_for_each).** After any history, with a body that does not remove the node it is called for: however many rounds, all calls are defined and end; the loop goes
on with the least member above the last one in the tree as the body has left it. -/
theorem c136_for_each {σ : Type} {cmp : Nat → Nat → Int} (o : Order cmp) {body : Body σ} (hb : ∀ s x S M, Holds cmp S M → x ∈ M → Legal cmp (some x) M (body s x S).1)
    {S : St} {M : List Nat} (h : Holds cmp S M) (s : σ) (k : Nat) :
    ∃ tr s' S' x' M', Runs (fun fuel => forEachDo cmp fuel body k s S) (tr, s', S', x') ∧ (x' = none ∨ tr.length = k) ∧ Holds cmp S' M' ∧
      Replay cmp M M.head? tr M' x' ∧ Visits cmp M tr M' x' := by
  obtain ⟨n1, h1⟩ := min_head o h
  obtain ⟨tr, s', S', x', M', ⟨n2, h2⟩, H, R, hk⟩ := rounds_ok o hb k (x := M.head?) s h (fun y hy => List.mem_of_mem_head? hy)
  refine ⟨tr, s', S', x', M', ⟨max n1 n2, fun fuel hf => ?_⟩, hk, H, R, either_visits o h.1 R.either⟩
  have e1 : minmax fuel S (-1) = _ := h1 _ (by omega)
  have e2 : rounds cmp fuel body k s S _ = _ := h2 _ (by omega)
  simp only [forEachDo, e1, e2, Outcome.ok_bind]

/-- **C136 (zt_rbt_for_each_safe).** With a body that does not remove the node that comes next (it may remove the one it is called for): the loop goes on with this next node,
whatever has been inserted before it. -/
theorem c136_for_each_safe {σ : Type} {cmp : Nat → Nat → Int} (o : Order cmp) {body : Body σ} (hb : ∀ s x S M, Holds cmp S M → x ∈ M → Legal cmp (above cmp M x) M (body s x S).1)
    {S : St} {M : List Nat} (h : Holds cmp S M) (s : σ) (k : Nat) :
    ∃ tr s' S' x' M', Runs (fun fuel => forEachSafeDo cmp fuel body k s S) (tr, s', S', x', x'.bind (above cmp M')) ∧ (x' = none ∨ tr.length = k) ∧ Holds cmp S' M' ∧
      ReplaySafe cmp M M.head? tr M' x' ∧ Visits cmp M tr M' x' := by
  obtain ⟨n1, h1⟩ := min_head o h
  obtain ⟨tr, s', S', x', M', ⟨n2, h2⟩, H, R, hk⟩ := roundsSafe_ok o hb k (x := M.head?) s h (fun y hy => List.mem_of_mem_head? hy)
  have hnext : Runs (fun fuel => next fuel S M.head?) (M.head?.bind (above cmp M)) := by
    cases hq : M.head? with
    | none => exact ⟨0, fun _ _ => rfl⟩
    | some z => exact next_above o h (List.mem_of_mem_head? hq)
  obtain ⟨n3, h3⟩ := hnext
  refine ⟨tr, s', S', x', M', ⟨max n1 (max n2 n3), fun fuel hf => ?_⟩, hk, H, R, either_visits o h.1 R.either⟩
  have e1 : minmax fuel S (-1) = _ := h1 _ (by omega)
  have e2 : roundsSafe cmp fuel body k s S _ _ = _ := h2 _ (by omega)
  have e3 : next fuel S M.head? = _ := h3 _ (by omega)
  simp only [forEachSafeDo, e1, e2, e3, Outcome.ok_bind]

/-- **C136 (inserted nodes).** A node inserted by zt_rbt_for_each's body above the visited node, and not removed later, is visited too (or still to come). -/
theorem c136_inserted {cmp : Nat → Nat → Int} (o : Order cmp) {M : List Nat} {x : Nat} {cs : List Call} {tr M' x'} (hs : Sorted cmp M) (h : Replay cmp M (some x) ((x, cs) :: tr) M' x') (y : Nat)
    (hy : y ∈ after cmp M cs) (hxy : cmp x y < 0) (hr : .remove y ∉ made tr) : y ∈ visited tr ∨ ∃ q, x' = some q ∧ (q = y ∨ cmp q y < 0) := by
  cases h with
  | round hx R => exact either_stays o R.either (after_sorted o cs hs) hy hr (above_least (after_sorted o cs hs) hy hxy)

/-- The members are the ones of the history, in order: every state that a history leaves `Holds`. -/
theorem c136_holds {cmp : Nat → Nat → Int} (o : Order cmp) {S : St} {L : List Nat} (h : History cmp S L) : ∃ M, Holds cmp S M ∧ M.Perm L := by
  obtain ⟨T, -, hs, hp⟩ := c21_sorted_members o h
  exact ⟨T.toList, ⟨hs, L, h, hp⟩, hp⟩

/-! ## What is excluded is wrong, and what is allowed exists -/

/-- A body that makes the call `c` when it is called for `a`, and nothing else. -/
def at' (a : Nat) (c : Call) : Body Unit := fun s x _ => (if x = a then [c] else [], s)

/-- zt_rbt_insert of some nodes into an empty tree, in this order, with comparison by address. -/
def built (l : List Nat) : Outcome St := calls byAddr 20 blank (l.map .insert)

def nodesOf {α : Type} : Outcome (List (Nat × List Call) × Unit × St × Ptr × α) → List Nat × Ptr
  | .ok r => (visited r.1, r.2.2.2.1)
  | _ => ([], some 0)

def nodesOf' : Outcome (List (Nat × List Call) × Unit × St × Ptr) → List Nat × Ptr
  | .ok r => (visited r.1, r.2.2.2)
  | _ => ([], some 0)

theorem insert_legal (cmp : Nat → Nat → Int) (keep : Option Nat) : ∀ (l M : List Nat), Legal cmp keep M (l.map .insert) := by
  intro l
  induction l with
  | nil => intro M; trivial
  | cons e l ih => intro M; exact ih _

theorem built_holds (l : List Nat) : ∃ S, Runs (fun fuel => calls byAddr fuel blank (l.map .insert)) S ∧ Holds byAddr S (after byAddr [] (l.map .insert)) :=
  calls_ok (keep := none) byAddr_order _ ⟨.nil, [], .empty rfl, .refl _⟩ (insert_legal _ _ _ _)

/-- **C136 (excluded: removing the visited node in zt_rbt_for_each).** Of the members 1, 2, 3 the body removes only 2, when it is called for it: the loop ends without visiting 3. -/
theorem c136_current_violation : nodesOf' (built [2, 1, 3] >>= forEachDo byAddr 20 (at' 2 (.remove 2)) 20 ()) = ([1, 2], none) := by decide +kernel

/-- **C136 (excluded: removing the next node in zt_rbt_for_each_safe).** The body removes 2 when it is called for 1: 2 is visited although it is no member any more, and then the
loop ends without visiting 3. -/
theorem c136_next_violation : nodesOf (built [1, 2, 3] >>= forEachSafeDo byAddr 20 (at' 1 (.remove 2)) 20 ()) = ([1, 2], none) := by decide +kernel

/-- The bodies of the two theorems do what the theorems say, and are allowed in the other kind of loop: there nothing goes wrong. -/
example : nodesOf (built [2, 1, 3] >>= forEachSafeDo byAddr 20 (at' 2 (.remove 2)) 20 ()) = ([1, 2, 3], none) ∧
    nodesOf' (built [1, 2, 3] >>= forEachDo byAddr 20 (at' 1 (.remove 2)) 20 ()) = ([1, 3], none) := by decide +kernel

/-- A body that inserts: called for 1 it inserts 4, which is visited; called for 3 it inserts 2, which is not. -/
def grow : Body Unit := fun s x _ => (if x = 1 then [.insert 4] else if x = 3 then [.insert 2, .remove 1] else [], s)

example : nodesOf' (built [3, 1, 5] >>= forEachDo byAddr 20 grow 20 ()) = ([1, 3, 4, 5], none) := by decide +kernel

/-- Bodies that meet the hypotheses of c136_for_each: all that only insert; -/
example {σ : Type} (f : σ → Nat → St → List Nat × σ) (cmp : Nat → Nat → Int) : ∀ s x S M, Holds cmp S M → x ∈ M →
    Legal cmp (some x) M ((fun s x S => ((f s x S).1.map .insert, (f s x S).2) : Body σ) s x S).1 :=
  fun _ _ _ _ _ _ => insert_legal _ _ _ _

/-- of c136_for_each_safe: removing the visited node if it has some property. -/
example {cmp : Nat → Nat → Int} (o : Order cmp) (f : Nat → Bool) : ∀ s x S M, Holds cmp S M → x ∈ M →
    Legal cmp (above cmp M x) M ((fun s x _ => (if f x then [.remove x] else [], s) : Body Unit) s x S).1 := by
  intro s x S M _ hx
  dsimp only
  split
  · exact ⟨hx, fun h => lt_irrefl' o x (above_some h).2, trivial⟩
  · trivial

/-- A tree with members exists for every list of nodes. -/
example : ∃ S, Holds byAddr S [1, 3, 5] := by
  obtain ⟨S, -, h⟩ := built_holds [3, 1, 5]
  exact ⟨S, h⟩

end ZT.RbTree
