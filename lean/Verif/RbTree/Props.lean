import Verif.RbTree.Mono

/-!
# C21, C22, C23: the red-black tree over all histories

`Runs f r` (Verif/Fuel.lean): "the C function returns `r`".

`History cmp S L`: the state `S` arises from an empty root variable by any sequence of completed `zt_rbt_insert` and `zt_rbt_remove` calls; `L` is
the multiset of nodes inserted and not removed, as a list in no particular order. Between calls the user may change the fields of nodes that are
not in the tree in any way. `cmp` is any three-way comparison by a total preorder (`Order`).
-/

namespace ZT.RbTree

/-- What a user has done so far. -/
inductive History (cmp : Nat → Nat → Int) : St → List Nat → Prop
  | empty {S : St} : S.head = none → History cmp S []
  | insert {S S' : St} {L : List Nat} {e : Nat} : History cmp S L → Runs (fun fuel => insert cmp fuel S e) (none, S') → History cmp S' (e :: L)
  | duplicate {S S' : St} {L : List Nat} {e x : Nat} : History cmp S L → Runs (fun fuel => RbTree.insert cmp fuel S e) (some x, S') → History cmp S' L
  | remove {S S' : St} {L : List Nat} {e : Nat} : History cmp S L → e ∈ L → Runs (fun fuel => remove fuel S e) S' → History cmp S' (L.erase e)
  | other {S S' : St} {L : List Nat} : History cmp S L → S'.head = S.head → (∀ a ∈ L, Agree S S' a) → History cmp S' L

/-- What the pointers of `S` look like when it holds the elements `L`: from the root variable one reaches, without sharing, exactly the nodes of
a tree `T` (`Whole S T []`: child and parent pointers and colours agree with `T`), whose inorder sequence is strictly sorted and is a
rearrangement of `L`, and which satisfies the red-black rules with a black root. -/
def Good (cmp : Nat → Nat → Int) (S : St) (L : List Nat) (T : Tree) : Prop :=
  Whole S T [] ∧ Sorted cmp T.toList ∧ T.toList.Perm L ∧ ∃ m, RBT T .black m

theorem good_insert_present {cmp : Nat → Nat → Int} (o : Order cmp) {S : St} {L : List Nat} {T : Tree} {e x : Nat} (g : Good cmp S L T) (hx : x ∈ L) (he : cmp e x = 0) :
    Runs (fun fuel => insert cmp fuel S e) (some x, S) := by
  obtain ⟨W, hs, hp, m, hm⟩ := g
  exact ⟨T.height + 1, fun fuel hf => insert_present o W hs (by omega) (hp.mem_iff.2 hx) he⟩

theorem good_insert_fresh {cmp : Nat → Nat → Int} (o : Order cmp) {S : St} {L : List Nat} {T : Tree} {e : Nat} (g : Good cmp S L T) (he : ∀ x ∈ L, cmp e x ≠ 0) :
    ∀ fuel, L.length < fuel → ∃ S' T', insert cmp fuel S e = .ok (none, S') ∧ Good cmp S' (e :: L) T' := by
  obtain ⟨W, hs, hp, m, hm⟩ := g
  have he' : ∀ x ∈ T.toList, cmp e x ≠ 0 := fun x hx => he x (hp.mem_iff.1 hx)
  intro fuel hf
  obtain ⟨S', T', m', e1, e2, e3, e4⟩ := insert_fresh o (fuel := fuel) W hm hs (by have := height_le T; rw [hp.length_eq] at this; omega) he'
  exact ⟨S', T', e1, e2, by rw [e4]; exact insSorted_sorted o hs he', by rw [e4]; exact (insSorted_perm cmp e T.toList).trans (hp.cons e), m', e3⟩

theorem good_remove {cmp : Nat → Nat → Int} {S : St} {L : List Nat} {T : Tree} {e : Nat} (g : Good cmp S L T) (he : e ∈ L) :
    ∀ fuel, L.length + 2 ≤ fuel → ∃ S' T', remove fuel S e = .ok S' ∧ Good cmp S' (L.erase e) T' ∧ T'.toList = T.toList.erase e := by
  obtain ⟨W, hs, hp, m, hm⟩ := g
  intro fuel hf
  obtain ⟨S', T', m', e1, e2, e3, e4⟩ := remove_ok (fuel := fuel) W hm (hp.mem_iff.2 he) (by have := height_le T; rw [hp.length_eq] at this; omega)
  exact ⟨S', T', e1, ⟨e2, by rw [e4]; exact hs.sublist List.erase_sublist, by rw [e4]; exact hp.erase e, m', e3⟩, e4⟩

theorem history_good {cmp : Nat → Nat → Int} (o : Order cmp) {S : St} {L : List Nat} (h : History cmp S L) : ∃ T, Good cmp S L T := by
  induction h with
  | empty h => exact ⟨.nil, ⟨trivial, h, by simp [Tree.toList, Ctx.adr]⟩, by simp [Sorted, Tree.toList], by simp [Tree.toList], 0, .nil⟩
  | @insert S S' L e h hr ih =>
      obtain ⟨T, g⟩ := ih
      obtain ⟨n, hr⟩ := hr
      by_cases he : ∃ x ∈ L, cmp e x = 0
      · obtain ⟨x, hx, he⟩ := he
        have := (good_insert_present o g hx he).unique ⟨n, hr⟩
        cases this
      · obtain ⟨S2, T2, e1, e2⟩ := good_insert_fresh o g (e := e) (fun x hx e => he ⟨x, hx, e⟩) (max n (L.length + 1)) (by omega)
        have e3 : insert cmp (max n (L.length + 1)) S e = _ := hr _ (by omega)
        rw [e3] at e1
        cases e1
        exact ⟨T2, e2⟩
  | @duplicate S S' L e x h hr ih =>
      obtain ⟨T, g⟩ := ih
      by_cases he : ∃ x ∈ L, cmp e x = 0
      · obtain ⟨y, hy, he⟩ := he
        have := (good_insert_present o g hy he).unique hr
        cases this
        exact ⟨T, g⟩
      · obtain ⟨n, hr⟩ := hr
        obtain ⟨S2, T2, e1, e2⟩ := good_insert_fresh o g (e := e) (fun x hx e => he ⟨x, hx, e⟩) (max n (L.length + 1)) (by omega)
        have e3 : insert cmp (max n (L.length + 1)) S e = _ := hr _ (by omega)
        rw [e3] at e1
        cases e1
  | @remove S S' L e h he hr ih =>
      obtain ⟨T, g⟩ := ih
      obtain ⟨n, hr⟩ := hr
      obtain ⟨S2, T2, e1, e2, _⟩ := good_remove g he (max n (L.length + 2)) (by omega)
      have e3 : remove (max n (L.length + 2)) S e = _ := hr _ (by omega)
      rw [e3] at e1
      cases e1
      exact ⟨T2, e2⟩
  | @other S S' L h hh ha ih =>
      obtain ⟨T, W, hs, hp, hm⟩ := ih
      refine ⟨T, ⟨rep_frame T _ (fun a h => ha a (hp.mem_iff.1 h)) W.tree, ?_, W.nodup⟩, hs, hp, hm⟩
      have := W.ctx
      simp only [RepCtx] at this ⊢
      rw [hh, this]

/-- **C21 (order and membership).** After any history the tree reached from the root variable holds, in strictly increasing inorder, exactly the
nodes inserted and not removed; parent pointers are consistent. -/
theorem c21_sorted_members {cmp : Nat → Nat → Int} (o : Order cmp) {S : St} {L : List Nat} (h : History cmp S L) :
    ∃ T, Whole S T [] ∧ Sorted cmp T.toList ∧ T.toList.Perm L := by
  obtain ⟨T, g⟩ := history_good o h
  exact ⟨T, g.1, g.2.1, g.2.2.1⟩

/-- **C21 (insert).** After any history, inserting a node whose key is present returns the node that has this key and changes nothing; inserting
any other node returns NULL and makes it a member. It always ends. -/
theorem c21_insert {cmp : Nat → Nat → Int} (o : Order cmp) {S : St} {L : List Nat} (h : History cmp S L) (e : Nat) :
    (∀ x ∈ L, cmp e x = 0 → Runs (fun fuel => insert cmp fuel S e) (some x, S)) ∧
    ((∀ x ∈ L, cmp e x ≠ 0) → ∃ S', Runs (fun fuel => insert cmp fuel S e) (none, S') ∧ ∃ T', Whole S' T' [] ∧ Sorted cmp T'.toList ∧ T'.toList.Perm (e :: L)) := by
  obtain ⟨T, g⟩ := history_good o h
  refine ⟨fun x hx he => good_insert_present o g hx he, fun he => ?_⟩
  obtain ⟨S', T', e1, e2⟩ := good_insert_fresh o g he (L.length + 1) (by omega)
  exact ⟨S', Runs.of (insert_mono cmp S e) e1, T', e2.1, e2.2.1, e2.2.2.1⟩

/-- **C21 (remove).** Removing a member always ends, and exactly this node leaves the tree. -/
theorem c21_remove {cmp : Nat → Nat → Int} (o : Order cmp) {S : St} {L : List Nat} (h : History cmp S L) {e : Nat} (he : e ∈ L) :
    ∃ S', Runs (fun fuel => remove fuel S e) S' ∧ ∃ T', Whole S' T' [] ∧ Sorted cmp T'.toList ∧ T'.toList.Perm (L.erase e) := by
  obtain ⟨T, g⟩ := history_good o h
  obtain ⟨S', T', e1, e2, _⟩ := good_remove g he (L.length + 2) (by omega)
  exact ⟨S', Runs.of (remove_mono S e) e1, T', e2.1, e2.2.1, e2.2.2.1⟩

/-- **C21 (find).** `zt_rbt_find` returns the member with an equal key, and NULL exactly when there is none. -/
theorem c21_find {cmp : Nat → Nat → Int} (o : Order cmp) {S : St} {L : List Nat} (h : History cmp S L) (e : Nat) :
    (∀ x ∈ L, cmp e x = 0 → Runs (fun fuel => find cmp S e fuel S.head) (some x)) ∧ ((∀ x ∈ L, cmp e x ≠ 0) → Runs (fun fuel => find cmp S e fuel S.head) none) := by
  obtain ⟨T, W, hs, hp, m, hm⟩ := history_good o h
  have hh : S.head = T.root := W.ctx
  have key : Runs (fun fuel => find cmp S e fuel S.head) (T.toList.find? (fun x => cmp e x == 0)) :=
    ⟨T.height + 1, fun fuel hf => by rw [hh]; exact find_spec o e T none fuel W.tree hs (by omega)⟩
  refine ⟨fun x hx he => ?_, fun he => ?_⟩
  · have : T.toList.find? (fun x => cmp e x == 0) = some x := by
      cases hq : T.toList.find? (fun x => cmp e x == 0) with
      | none => rw [List.find?_eq_none] at hq; exact absurd (by simpa using he) (hq x (hp.mem_iff.2 hx))
      | some y =>
          have h1 := List.find?_some hq
          have h2 := List.mem_of_find?_eq_some hq
          have h1 : cmp e y = 0 := by simpa using h1
          -- two members with the same key are the same node
          congr 1
          have hx' := hp.mem_iff.2 hx
          have : ∀ u ∈ T.toList, ∀ v ∈ T.toList, u ≠ v → cmp u v < 0 ∨ cmp v u < 0 := by
            have hs' := hs
            intro u hu v hv huv
            obtain ⟨i, hi, rfl⟩ := List.getElem_of_mem hu
            obtain ⟨j, hj, rfl⟩ := List.getElem_of_mem hv
            rcases Nat.lt_trichotomy i j with h | h | h
            · exact .inl (List.pairwise_iff_getElem.1 hs' i j hi hj h)
            · subst h; exact absurd rfl huv
            · exact .inr (List.pairwise_iff_getElem.1 hs' j i hj hi h)
          refine Classical.byContradiction fun hne => ?_
          have hye : cmp y e ≤ 0 := o.ge_of (by omega)
          have hxe : cmp x e ≤ 0 := o.ge_of (by omega)
          have a1 := o.trans y e x hye (by omega)
          have a2 := o.trans x e y hxe (by omega)
          have a3 := o.flip x y
          have a4 := o.flip y x
          rcases this y h2 x hx' hne with h | h <;> omega
    rw [this] at key; exact key
  · have : T.toList.find? (fun x => cmp e x == 0) = none := by
      rw [List.find?_eq_none]; intro x hx; simpa using he x (hp.mem_iff.1 hx)
    rw [this] at key; exact key

/-- **C22 (red-black rules).** After any history the tree has a black root (or is empty), no red node has a red child, every path from the root to
an empty place has the same number of black nodes, and the height is at most `2 * log2 (n + 1)`. -/
theorem c22_balanced {cmp : Nat → Nat → Int} (o : Order cmp) {S : St} {L : List Nat} (h : History cmp S L) :
    ∃ T m, Whole S T [] ∧ T.toList.Perm L ∧ RBT T .black m ∧ T.height ≤ 2 * Nat.log2 (L.length + 1) := by
  obtain ⟨T, W, hs, hp, m, hm⟩ := history_good o h
  exact ⟨T, m, W, hp, hm, by rw [← hp.length_eq]; exact height_log hm⟩

/-- **C22 (cost of a search).** With `n` elements `zt_rbt_find` and `zt_rbt_nfind` end within `2 * log2 (n + 1) + 1` iterations. -/
theorem c22_search_steps {cmp : Nat → Nat → Int} (o : Order cmp) {S : St} {L : List Nat} (h : History cmp S L) (e : Nat) :
    (∃ r, find cmp S e (2 * Nat.log2 (L.length + 1) + 1) S.head = .ok r) ∧ ∃ r, nfind cmp S e (2 * Nat.log2 (L.length + 1) + 1) S.head none = .ok r := by
  obtain ⟨T, W, hs, hp, m, hm⟩ := history_good o h
  have hh : S.head = T.root := W.ctx
  have hl := height_log hm
  rw [hp.length_eq] at hl
  rw [hh]
  exact ⟨⟨_, find_spec o e T none _ W.tree hs (by omega)⟩, ⟨_, nfind_spec o e T none _ none W.tree hs (by omega)⟩⟩

theorem sorted_min {cmp : Nat → Nat → Int} {l : List Nat} (hs : Sorted cmp l) {x : Nat} (h : l.head? = some x) : x ∈ l ∧ ∀ y ∈ l, y = x ∨ cmp x y < 0 := by
  cases l with
  | nil => cases h
  | cons a l =>
      cases h
      simp only [Sorted, List.pairwise_cons] at hs
      refine ⟨by simp, fun y hy => ?_⟩
      rcases List.mem_cons.1 hy with rfl | hy
      · exact .inl rfl
      · exact .inr (hs.1 y hy)

/-- **C23 (min and max).** -/
theorem c23_min {cmp : Nat → Nat → Int} (o : Order cmp) {S : St} {L : List Nat} (h : History cmp S L) :
    ∃ r, Runs (fun fuel => minmax fuel S (-1)) r ∧ (r = none ↔ L = []) ∧ ∀ x, r = some x → x ∈ L ∧ ∀ y ∈ L, y = x ∨ cmp x y < 0 := by
  obtain ⟨T, W, hs, hp, m, hm⟩ := history_good o h
  have hh : S.head = T.root := W.ctx
  refine ⟨T.toList.head?, ⟨T.height + 1, fun fuel hf => ?_⟩, ?_, ?_⟩
  · show minmax fuel S (-1) = _
    rw [minmax, hh, min_spec T none none fuel W.tree (by omega), Option.or_none]
  · rw [List.head?_eq_none_iff]
    constructor
    · intro h; rw [h] at hp; exact hp.symm.eq_nil
    · intro h; rw [h] at hp; exact hp.eq_nil
  · intro x hx
    obtain ⟨h1, h2⟩ := sorted_min hs hx
    exact ⟨hp.mem_iff.1 h1, fun y hy => h2 y (hp.mem_iff.2 hy)⟩

theorem c23_max {cmp : Nat → Nat → Int} (o : Order cmp) {S : St} {L : List Nat} (h : History cmp S L) :
    ∃ r, Runs (fun fuel => minmax fuel S 1) r ∧ (r = none ↔ L = []) ∧ ∀ x, r = some x → x ∈ L ∧ ∀ y ∈ L, y = x ∨ cmp y x < 0 := by
  obtain ⟨T, W, hs, hp, m, hm⟩ := history_good o h
  have hh : S.head = T.root := W.ctx
  refine ⟨T.toList.getLast?, ⟨T.height + 1, fun fuel hf => ?_⟩, ?_, ?_⟩
  · show minmax fuel S 1 = _
    rw [minmax, hh, max_spec T none none fuel W.tree (by omega), Option.or_none]
  · rw [List.getLast?_eq_none_iff]
    constructor
    · intro h; rw [h] at hp; exact hp.symm.eq_nil
    · intro h; rw [h] at hp; exact hp.eq_nil
  · intro x hx
    obtain ⟨l, hl⟩ := List.getLast?_eq_some_iff.1 hx
    refine ⟨hp.mem_iff.1 (by rw [hl]; simp), fun y hy => ?_⟩
    have hy' := hp.mem_iff.2 hy
    rw [hl] at hy' hs
    rcases List.mem_append.1 hy' with h | h
    · exact .inr ((List.pairwise_append.1 hs).2.2 y h x (by simp))
    · exact .inl (by simpa using h)

/-- **C23 (nearest search).** `zt_rbt_nfind` returns the least member that is not below the key, NULL exactly when there is none. -/
theorem c23_nfind {cmp : Nat → Nat → Int} (o : Order cmp) {S : St} {L : List Nat} (h : History cmp S L) (e : Nat) :
    ∃ r, Runs (fun fuel => nfind cmp S e fuel S.head none) r ∧ (r = none ↔ ∀ x ∈ L, cmp x e < 0) ∧
      ∀ x, r = some x → x ∈ L ∧ cmp e x ≤ 0 ∧ ∀ y ∈ L, cmp e y ≤ 0 → y = x ∨ cmp x y < 0 := by
  obtain ⟨T, W, hs, hp, m, hm⟩ := history_good o h
  have hh : S.head = T.root := W.ctx
  refine ⟨T.toList.find? (fun x => decide (cmp e x ≤ 0)), ⟨T.height + 1, fun fuel hf => ?_⟩, ?_, ?_⟩
  · show nfind cmp S e fuel S.head none = _
    rw [hh, nfind_spec o e T none fuel none W.tree hs (by omega), Option.or_none]
  · rw [List.find?_eq_none]
    constructor
    · intro h x hx
      have := h x (hp.mem_iff.2 hx)
      have h2 := o.flip x e
      simp at this; omega
    · intro h x hx
      have := h x (hp.mem_iff.1 hx)
      have h2 := o.flip x e
      simp; omega
  · intro x hx
    rw [← List.head?_filter] at hx
    obtain ⟨h1, h2⟩ := sorted_min (hs.filter _) hx
    rw [List.mem_filter] at h1
    exact ⟨hp.mem_iff.1 h1.1, by simpa using h1.2, fun y hy hye => h2 y (List.mem_filter.2 ⟨hp.mem_iff.2 hy, by simpa using hye⟩)⟩

theorem forEach_loop {S : St} {T : Tree} {fuel : Nat} (W : Whole S T []) (hf : T.toList.length < fuel) (ys : List Nat) :
    ∀ (xs : List Nat) (n : Nat), T.toList = xs ++ ys → ys.length < n → forEachLoop fuel S n ys.head? = .ok ys := by
  induction ys with
  | nil => intro xs n _ hn
           obtain ⟨k, rfl⟩ : ∃ k, n = k + 1 := ⟨n - 1, by omega⟩
           rfl
  | cons y ys ih =>
      intro xs n hT hn
      obtain ⟨k, rfl⟩ : ∃ k, n = k + 1 := ⟨n - 1, by omega⟩
      simp only [List.head?_cons, forEachLoop]
      rw [next_spec W hT (Nat.lt_of_le_of_lt (height_le T) hf)]
      simp only [Outcome.ok_bind]
      rw [ih (xs ++ [y]) k (by rw [hT]; simp) (by simp at hn; omega)]; rfl

/-- **C23 (iteration).** `zt_rbt_for_each` runs its body once on every member, in increasing order, and ends. -/
theorem c23_for_each {cmp : Nat → Nat → Int} (o : Order cmp) {S : St} {L : List Nat} (h : History cmp S L) :
    ∃ seq, Sorted cmp seq ∧ seq.Perm L ∧ ∀ fuel n, L.length < fuel → L.length < n → forEach fuel n S = .ok seq := by
  obtain ⟨T, W, hs, hp, m, hm⟩ := history_good o h
  refine ⟨T.toList, hs, hp, fun fuel n hf hn => ?_⟩
  have hh : S.head = T.root := W.ctx
  have hl := hp.length_eq
  have hht := height_le T
  rw [forEach, minmax, hh, min_spec T none none fuel W.tree (by omega), Option.or_none]
  exact forEach_loop W (by omega) T.toList [] n rfl (by omega)

/-- **C23 (next).** `zt_rbt_next` of a member is the least member above it, NULL exactly for the greatest; `zt_rbt_next(NULL)` is NULL. -/
theorem c23_next {cmp : Nat → Nat → Int} (o : Order cmp) {S : St} {L : List Nat} (h : History cmp S L) {e : Nat} (he : e ∈ L) :
    ∃ r, Runs (fun fuel => next fuel S (some e)) r ∧ (r = none ↔ ∀ y ∈ L, cmp y e ≤ 0) ∧
      ∀ x, r = some x → x ∈ L ∧ cmp e x < 0 ∧ ∀ y ∈ L, cmp e y < 0 → y = x ∨ cmp x y < 0 := by
  obtain ⟨T, W, hs, hp, m, hm⟩ := history_good o h
  obtain ⟨xs, ys, hT⟩ := List.append_of_mem (hp.mem_iff.2 he)
  refine ⟨ys.head?, ⟨T.toList.length + 1, fun fuel hf => next_spec W hT (by have := height_le T; omega)⟩, ?_, ?_⟩
  · rw [hT] at hs
    simp only [Sorted, List.pairwise_append, List.pairwise_cons, List.mem_cons] at hs
    rw [List.head?_eq_none_iff]
    constructor
    · rintro rfl y hy
      have := hp.mem_iff.2 hy
      rw [hT] at this
      simp only [List.mem_append, List.mem_cons, List.not_mem_nil, or_false] at this
      rcases this with h | h
      · exact Int.le_of_lt (hs.2.2 y h e (.inl rfl))
      · subst h; rw [o.refl]; omega
    · intro h
      cases ys with
      | nil => rfl
      | cons y ys =>
          have h1 := h y (hp.mem_iff.1 (by rw [hT]; simp))
          have h2 := hs.2.1.1 y (by simp)
          have := o.flip e y; omega
  · intro x hx
    cases ys with
    | nil => cases hx
    | cons y ys =>
        cases hx
        rw [hT] at hs
        simp only [Sorted, List.pairwise_append, List.pairwise_cons, List.mem_cons] at hs
        refine ⟨hp.mem_iff.1 (by rw [hT]; simp), hs.2.1.1 _ (.inl rfl), fun z hz hez => ?_⟩
        have hz' := hp.mem_iff.2 hz
        rw [hT] at hz'
        simp only [List.mem_append, List.mem_cons] at hz'
        rcases hz' with h | h | h | h
        · have := hs.2.2 z h e (.inl rfl); have := o.flip z e; have := o.flip e z; omega
        · subst h; rw [o.refl] at hez; omega
        · exact .inl h
        · exact .inr (hs.2.1.2.1 z h)

theorem drain_loop {cmp : Nat → Nat → Int} {fuel : Nat} (ys : List Nat) :
    ∀ (S : St) (T : Tree) (L : List Nat) (n : Nat), Good cmp S L T → T.toList = ys → ys.length + 2 ≤ fuel → ys.length < n →
      ∃ S', drainLoop fuel n S ys.head? ys.tail.head? = .ok (ys, S') ∧ S'.head = none := by
  induction ys with
  | nil => intro S T L n g hT hf hn
           obtain ⟨k, rfl⟩ : ∃ k, n = k + 1 := ⟨n - 1, by omega⟩
           refine ⟨S, rfl, ?_⟩
           have : S.head = T.root := g.1.ctx
           rw [this]
           cases T with
           | nil => rfl
           | node => simp [Tree.toList] at hT
  | cons y ys ih =>
      intro S T L n g hT hf hn
      obtain ⟨k, rfl⟩ : ∃ k, n = k + 1 := ⟨n - 1, by omega⟩
      have hy : y ∈ L := g.2.2.1.mem_iff.1 (by rw [hT]; simp)
      have hlen : L.length = ys.length + 1 := by rw [← g.2.2.1.length_eq, hT]; rfl
      obtain ⟨S1, T1, e1, g1, e2⟩ := good_remove g hy fuel (by simp at hf; omega)
      have hT1 : T1.toList = ys := by rw [e2, hT]; simp
      obtain ⟨S', q1, q2⟩ := ih S1 T1 _ k g1 hT1 (by simp at hf; omega) (by simp at hn; omega)
      refine ⟨S', ?_, q2⟩
      simp only [List.head?_cons, List.tail_cons, drainLoop, e1, Outcome.ok_bind]
      have hnext : next fuel S1 ys.head? = .ok ys.tail.head? := by
        cases ys with
        | nil => rfl
        | cons z zs =>
            simp only [List.head?_cons, List.tail_cons]
            exact next_spec (xs := []) g1.1 (by rw [hT1]; rfl) (by have := height_le T1; rw [hT1] at this; simp at hf this; omega)
      rw [hnext]; simp only [Outcome.ok_bind]
      rw [q1]; rfl

/-- **C23 (safe iteration).** `zt_rbt_for_each_safe` with a body that removes the current node runs once on every member, in increasing order, and
leaves an empty tree. -/
theorem c23_drain {cmp : Nat → Nat → Int} (o : Order cmp) {S : St} {L : List Nat} (h : History cmp S L) :
    ∃ seq, Sorted cmp seq ∧ seq.Perm L ∧ ∀ fuel n, L.length + 2 ≤ fuel → L.length < n → ∃ S', drain fuel n S = .ok (seq, S') ∧ S'.head = none := by
  obtain ⟨T, g⟩ := history_good o h
  obtain ⟨W, hs, hp, m, hm⟩ := g
  refine ⟨T.toList, hs, hp, fun fuel n hf hn => ?_⟩
  have hh : S.head = T.root := W.ctx
  have hl := hp.length_eq
  have hht := height_le T
  obtain ⟨S', e1, e2⟩ := drain_loop (fuel := fuel) T.toList S T L n ⟨W, hs, hp, m, hm⟩ rfl (by omega) (by omega)
  refine ⟨S', ?_, e2⟩
  rw [drain, minmax, hh, min_spec T none none fuel W.tree (by omega), Option.or_none]
  simp only [Outcome.ok_bind]
  have hnext : next fuel S T.toList.head? = .ok T.toList.tail.head? := by
    cases hT : T.toList with
    | nil => rfl
    | cons z zs => exact next_spec (xs := []) W (by rw [hT]; rfl) (by omega)
  rw [hnext]; exact e1

/-- Finding: `zt_rbt_empty` (zt_tree.h 56) applied to the root of any non-empty tree says "empty", because the root has no parent; on an empty
tree it dereferences NULL. -/
theorem empty_macro_wrong {cmp : Nat → Nat → Int} (o : Order cmp) {S : St} {L : List Nat} (h : History cmp S L) :
    (L ≠ [] → emptyMacro S = .ok true) ∧ (L = [] → emptyMacro S = .ub) := by
  obtain ⟨T, W, hs, hp, m, hm⟩ := history_good o h
  have hh : S.head = T.root := W.ctx
  cases T with
  | nil => refine ⟨fun hL => absurd hp.symm.eq_nil hL, fun _ => by rw [emptyMacro, hh]; rfl⟩
  | node c l a r =>
      refine ⟨fun _ => ?_, fun hL => ?_⟩
      · rw [emptyMacro, hh]
        have : S.parent a = none := W.tree.1
        simp [Tree.root, deref, this]
      · subst hL; have := hp.length_eq; simp [Tree.toList] at this

/-! ## The hypotheses are met -/

/-- Comparison by address. -/
def byAddr (x y : Nat) : Int := (x : Int) - (y : Int)

theorem byAddr_order : Order byAddr := ⟨fun x y => by simp only [byAddr]; omega, fun x y z => by simp only [byAddr]; omega⟩

/-- An empty root variable and unset nodes. -/
def blank : St := ⟨none, fun _ => none, fun _ => none, fun _ => none, fun _ => .red⟩

/-- Every finite set of distinct keys can be inserted: histories of any length exist. -/
theorem history_exists {cmp : Nat → Nat → Int} (o : Order cmp) (L : List Nat) (hL : ∀ x ∈ L, ∀ y ∈ L, x ≠ y → cmp x y ≠ 0) (nd : L.Nodup) : ∃ S, History cmp S L := by
  induction L with
  | nil => exact ⟨blank, .empty rfl⟩
  | cons e L ih =>
      rw [List.nodup_cons] at nd
      obtain ⟨S, h⟩ := ih (fun x hx y hy => hL x (by simp [hx]) y (by simp [hy])) nd.2
      obtain ⟨S', h', _⟩ := (c21_insert o h e).2 (fun x hx => hL e (by simp) x (by simp [hx]) (fun h => nd.1 (h ▸ hx)))
      exact ⟨S', .insert h h'⟩

/-- A concrete history: 5, 3, 8, 1, 4 are inserted by address, then 3 (which has two children) is removed. -/
example : ∃ S, History byAddr S [4, 1, 8, 5] := by
  obtain ⟨S, h⟩ := history_exists byAddr_order [4, 1, 8, 3, 5] (by decide) (by decide)
  obtain ⟨S', r, _⟩ := c21_remove byAddr_order h (e := 3) (by decide)
  exact ⟨S', .remove h (by decide) r⟩

end ZT.RbTree
