import Verif.Set.Props
import Verif.Table.Each

/-!
# C139: set operations whose result is one of their arguments

zt_set_union, zt_set_intersection and zt_set_difference with the destination equal to the first argument, to the second one, or to both. When the
destination is the set that is enumerated, zt_table_for_each runs over a table its callback inserts into (`forEachM`, Verif.Table.Each).
-/

namespace ZT.Set
open ZT.Table

/-! ## Model -/

/-- zt_table.c 281-300 `zt_table_for_each` over the table of the set the callback works on (`p->s2->tbl`, zt_set.c 87, 88, 112, 134). -/
def selfEach (cbk : Entry → ZSet → Outcome (Int × ZSet)) (fuel : Nat) (S : ZSet) : Outcome (Int × ZSet) := do
  let (r, s) ← forEachM (fun e s => do let (r, S) ← cbk e ⟨s.1, s.2⟩; pure (r, (S.tbl, S.length))) fuel (S.tbl, S.length)
  pure (r, ⟨s.1, s.2⟩)

/-- zt_set.c 81-91 `zt_set_union(s, s, t)`. -/
def unionFirst (m : Key → Key → Bool) (alloc : Tbl → Nat) (fuel : Nat) (S T : ZSet) : Outcome (Int × ZSet) := do
  let (_, S) ← selfEach (unionCb m alloc fuel) fuel S
  let (_, S) ← Table.forEach (unionCb m alloc fuel) fuel T.tbl S
  pure (0, S)

/-- zt_set.c 81-91 `zt_set_union(s, t, s)`. -/
def unionSecond (m : Key → Key → Bool) (alloc : Tbl → Nat) (fuel : Nat) (S T : ZSet) : Outcome (Int × ZSet) := do
  let (_, S) ← Table.forEach (unionCb m alloc fuel) fuel T.tbl S
  let (_, S) ← selfEach (unionCb m alloc fuel) fuel S
  pure (0, S)

/-- zt_set.c 81-91 `zt_set_union(s, s, s)`. -/
def unionBoth (m : Key → Key → Bool) (alloc : Tbl → Nat) (fuel : Nat) (S : ZSet) : Outcome (Int × ZSet) := do
  let (_, S) ← selfEach (unionCb m alloc fuel) fuel S
  let (_, S) ← selfEach (unionCb m alloc fuel) fuel S
  pure (0, S)

/-- zt_set.c 93-113 `zt_set_intersection(s, s, t)`. -/
def intersectionFirst (m : Key → Key → Bool) (alloc : Tbl → Nat) (fuel : Nat) (S T : ZSet) : Outcome (Int × ZSet) := selfEach (intersectCb m alloc fuel T) fuel S

/-- zt_set.c 93-113 `zt_set_intersection(s, t, s)`: `p.s1` and `p.s2` are the same set. -/
def intersectionSecond (m : Key → Key → Bool) (alloc : Tbl → Nat) (fuel : Nat) (S T : ZSet) : Outcome (Int × ZSet) :=
  Table.forEach (fun e D => intersectCb m alloc fuel D e D) fuel T.tbl S

/-- zt_set.c 93-113 `zt_set_intersection(s, s, s)`. -/
def intersectionBoth (m : Key → Key → Bool) (alloc : Tbl → Nat) (fuel : Nat) (S : ZSet) : Outcome (Int × ZSet) := selfEach (fun e D => intersectCb m alloc fuel D e D) fuel S

/-- zt_set.c 115-135 `zt_set_difference(s, s, t)`. -/
def differenceFirst (m : Key → Key → Bool) (alloc : Tbl → Nat) (fuel : Nat) (S T : ZSet) : Outcome (Int × ZSet) := selfEach (differenceCb m alloc fuel T) fuel S

/-- zt_set.c 115-135 `zt_set_difference(s, t, s)`: `p.s1` and `p.s2` are the same set. -/
def differenceSecond (m : Key → Key → Bool) (alloc : Tbl → Nat) (fuel : Nat) (S T : ZSet) : Outcome (Int × ZSet) :=
  Table.forEach (fun e D => differenceCb m alloc fuel D e D) fuel T.tbl S

/-- zt_set.c 115-135 `zt_set_difference(s, s, s)`. -/
def differenceBoth (m : Key → Key → Bool) (alloc : Tbl → Nat) (fuel : Nat) (S : ZSet) : Outcome (Int × ZSet) := selfEach (fun e D => differenceCb m alloc fuel D e D) fuel S

/-! ## Enumerations that change nothing -/

/-- An enumeration whose callback leaves the table alone wherever the read-only enumeration is defined. -/
theorem eachChainM_fixed {σ : Type} {it : Entry → Tbl × σ → Outcome (Int × (Tbl × σ))} {it2 : Entry → Unit → Outcome (Int × Unit)} {st : Tbl × σ}
    (h : ∀ e r, it2 e () = .ok (r, ()) → it e st = .ok (r, st)) : ∀ (fuel : Nat) (p : Ptr) (r : Int), eachChain it2 st.1 fuel p () = .ok (r, ()) → eachChainM it fuel p st = .ok (r, st) := by
  intro fuel
  induction fuel with
  | zero => intro p r e; simp [eachChain] at e
  | succ fuel ih =>
      intro p r e
      cases p with
      | none => simp [eachChain] at e; simp [eachChainM, e]
      | some a =>
          rw [eachChain, Outcome.bind_eq_ok] at e
          obtain ⟨nd, hn, e⟩ := e
          rw [Outcome.bind_eq_ok] at e
          obtain ⟨⟨r1, u⟩, h1, e⟩ := e
          have h2 := h _ _ h1
          rw [eachChainM, hn]
          simp only [Outcome.ok_bind, h2]
          simp only at e
          split
          · rename_i hr; rw [if_pos hr] at e; simp only [Outcome.pure_eq, Outcome.ok.injEq, Prod.mk.injEq] at e; rw [e.1]; rfl
          · rename_i hr; rw [if_neg hr] at e; exact ih _ _ e

theorem forEachM_fixed {σ : Type} {it : Entry → Tbl × σ → Outcome (Int × (Tbl × σ))} {it2 : Entry → Unit → Outcome (Int × Unit)} {st : Tbl × σ}
    (h : ∀ e r, it2 e () = .ok (r, ()) → it e st = .ok (r, st)) {fuel : Nat} {r : Int} (e : Table.forEach it2 fuel st.1 () = .ok (r, ())) : forEachM it fuel st = .ok (r, st) := by
  have key : ∀ (k i : Nat) (r : Int), eachLoop it2 st.1 fuel k i () = .ok (r, ()) → eachLoopM it fuel k i st = .ok (r, st) := by
    intro k
    induction k with
    | zero => intro i r e; simp [eachLoop] at e; simp [eachLoopM, e]
    | succ k ih =>
        intro i r e
        rw [eachLoop, Outcome.bind_eq_ok] at e
        obtain ⟨b, hb, e⟩ := e
        rw [Outcome.bind_eq_ok] at e
        obtain ⟨⟨r1, u⟩, h1, e⟩ := e
        rw [eachLoopM, hb]
        simp only [Outcome.ok_bind, eachChainM_fixed h fuel b r1 h1]
        simp only at e
        split
        · rename_i hr; rw [if_pos hr] at e; simp only [Outcome.pure_eq, Outcome.ok.injEq, Prod.mk.injEq] at e; rw [e.1]; rfl
        · rename_i hr; rw [if_neg hr] at e; exact ih _ _ e
  exact key _ _ _ e

/-- 1 if some listed element has the property, else 0. -/
def anyRes (p : Key → Prop) [DecidablePred p] (es : List Key) : Int := if ∃ e ∈ es, p e then 1 else 0

theorem anyRes_congr {p q : Key → Prop} [DecidablePred p] [DecidablePred q] {es es' : List Key} (h : (∃ e ∈ es, p e) ↔ ∃ e ∈ es', q e) : anyRes p es = anyRes q es' := by
  unfold anyRes
  by_cases c : ∃ e ∈ es, p e
  · rw [if_pos c, if_pos (h.mp c)]
  · rw [if_neg c, if_neg (fun h' => c (h.mpr h'))]

theorem visit_fixed {σ : Type} {it : Entry → σ → Outcome (Int × σ)} {x : σ} (p : Key → Prop) [DecidablePred p] (es : List Key)
    (h : ∀ k ∈ es, it ⟨k, k.1, k.2, 0⟩ x = .ok (if p k then 1 else 0, x)) : visit it (es.map fun k => ⟨k, k.1, k.2, 0⟩) x = .ok (anyRes p es, x) := by
  induction es with
  | nil => simp [visit, anyRes]
  | cons k es ih =>
      rw [List.map_cons, visit, h k (by simp)]
      simp only [Outcome.ok_bind]
      by_cases hp : p k
      · have hpos : (∃ e ∈ k :: es, p e) := ⟨k, by simp, hp⟩
        simp [hp, anyRes]
      · rw [if_neg hp, if_neg (by simp), ih (fun k hk => h k (by simp [hk]))]
        have : anyRes p (k :: es) = anyRes p es := anyRes_congr (by simp [hp])
        rw [this]

/-- Enumerating the destination itself with a callback that leaves it alone for its own members. -/
theorem selfEach_fixed {m} (g : GoodMatch m) {S s n} (H : Holds m S s n) {fuel : Nat} (hf : n < fuel) (cbk : Entry → ZSet → Outcome (Int × ZSet)) (p : Key → Prop) [DecidablePred p]
    (hc : ∀ e : Entry, s (keyOf e) → (keyOf e).2 ≤ 8 → cbk e S = .ok (if p (keyOf e) then 1 else 0, S)) :
    ∃ es, Members m es s ∧ selfEach cbk fuel S = .ok (anyRes p es, S) := by
  classical
  obtain ⟨es, hM, _, _, h8, hv⟩ := holds_spec g H
  refine ⟨es, hM, ?_⟩
  have hv := hv fuel hf Unit (fun e _ => if s (keyOf e) ∧ (keyOf e).2 ≤ 8 then .ok (if p (keyOf e) then 1 else 0, ()) else .ub) () (fun e e' u h => by simp only [h])
  rw [visit_fixed p es (fun k hk => by
    have hs : s k := (hM.mem k).mpr ⟨k, hk, g.refl k⟩
    exact if_pos (c := s (k.1, k.2) ∧ k.2 ≤ 8) ⟨hs, h8 k hk⟩)] at hv
  have hm := forEachM_fixed (it := fun e s => do let (r, S) ← cbk e ⟨s.1, s.2⟩; pure (r, (S.tbl, S.length))) (st := (S.tbl, S.length)) (fun e r h => by
    split at h
    · rename_i hh
      simp only [Outcome.ok.injEq, Prod.mk.injEq, and_true] at h
      have := hc e hh.1 hh.2
      rw [h] at this
      show (cbk e S >>= _) = _
      rw [this]; rfl
    · cases h) hv
  rw [selfEach, hm]; rfl

theorem insert_member {m} (g : GoodMatch m) {alloc} (al : Allocator alloc) {S s n} (H : Holds m S s n) {fuel : Nat} (hf : n < fuel) {k : Key} (hk : k.2 ≤ 8) (h : s k) :
    insert m alloc fuel S k = .ok (1, S) := by
  obtain ⟨r, S', e, _, h1, _⟩ := insert_holds g al H fuel hf k hk
  obtain ⟨rfl, rfl⟩ := h1 h
  exact e

/-- Enumerating the destination to add its elements to it changes nothing. -/
theorem selfUnion {m} (g : GoodMatch m) {alloc} (al : Allocator alloc) {S s n} (H : Holds m S s n) {fuel : Nat} (hf : n < fuel) :
    ∃ r, selfEach (unionCb m alloc fuel) fuel S = .ok (r, S) := by
  obtain ⟨es, _, e⟩ := selfEach_fixed g H hf (unionCb m alloc fuel) (fun _ => True) (fun e he h8 => by
    simp only [unionCb, if_true]; exact insert_member g al H hf h8 he)
  exact ⟨_, e⟩

/-! ## Specification -/

/-- The elements of a list in front of the first one in the set `s`. -/
def before (s : Key → Prop) : List Key → List Key → Prop := fun es pre => ∃ post, es = pre ++ post ∧ (∀ e ∈ pre, ¬ s e) ∧ (∀ e post', post = e :: post' → s e)

/-- zt_set_for_each visits the elements in this order. -/
def Order (m : Key → Key → Bool) (T : ZSet) (t : Key → Prop) (es : List Key) (fuel : Nat) : Prop :=
  Members m es t ∧ forEach (fun d (acc : List Nat) => .ok (0, acc ++ [d])) fuel T [] = .ok (0, es.map (·.1))

theorem split_before (s : Key → Prop) (es : List Key) : ∃ pre, before s es pre := by
  classical
  induction es with
  | nil => exact ⟨[], [], rfl, by simp, by simp⟩
  | cons e es ih =>
      by_cases h : s e
      · exact ⟨[], e :: es, rfl, by simp, fun e' p' h' => by cases h'; exact h⟩
      · obtain ⟨pre, post, h1, h2, h3⟩ := ih
        refine ⟨e :: pre, post, by simp [h1], ?_, h3⟩
        intro x hx
        rcases List.mem_cons.1 hx with rfl | hx
        · exact h
        · exact h2 x hx

/-- Adding the elements of another set to the destination, until one is already in it. -/
theorem union_pass {m} (g : GoodMatch m) {alloc} (al : Allocator alloc) {S s T t n} (H : Holds m S s n) (HT : Holds m T t n) {fuel : Nat} (hf : n + n < fuel) :
    ∃ es pre S' r, Order m T t es fuel ∧ before s es pre ∧ Table.forEach (unionCb m alloc fuel) fuel T.tbl S = .ok (r, S') ∧ Holds m S' (fun k => s k ∨ ∃ e ∈ pre, m e k = true) (n + n) := by
  obtain ⟨es, hM, _, hl, h8, hv⟩ := holds_spec g HT
  obtain ⟨pre, post, rfl, hp1, hp2⟩ := split_before s es
  have hv1 := hv fuel (by omega) ZSet (unionCb m alloc fuel) S (fun e e' u h => by simp only [keyOf, Prod.mk.injEq] at h; simp only [unionCb, h.1, h.2])
  have hord : Order m T t (pre ++ post) fuel := by
    refine ⟨hM, ?_⟩
    rw [forEach, hv fuel (by omega) _ _ _ (fun e e' s h => by simp only [keyOf, Prod.mk.injEq] at h; simp only [h.1])]
    have : ∀ (l : List Key) (acc : List Nat), visit (fun e (s : List Nat) => .ok (0, s ++ [e.datum])) (l.map fun k => ⟨k, k.1, k.2, 0⟩) acc = .ok (0, acc ++ l.map (·.1)) := by
      intro l
      induction l with
      | nil => intro acc; simp [visit]
      | cons x xs ih => intro acc; simp only [List.map_cons, visit, Outcome.ok_bind, ne_eq, not_true, if_false, ih]; simp
    simpa using this (pre ++ post) []
  have hd := hM.distinct
  rw [List.pairwise_append] at hd
  simp only [List.length_append] at hl
  obtain ⟨S1, e1, H1⟩ := visit_insert g al pre (fun e he => h8 e (by simp [he])) hd.1 H hp1 fuel (by omega)
  have hmono := holds_mono H1 (n' := n + n) (by omega)
  rw [List.map_append, visit_append, e1] at hv1
  simp only [Outcome.ok_bind, ne_eq, not_true, if_false] at hv1
  cases post with
  | nil =>
      exact ⟨_, pre, S1, 0, hord, ⟨[], rfl, hp1, hp2⟩, by rw [hv1]; rfl, hmono⟩
  | cons c post =>
      have hc := hp2 c post rfl
      have h2 := visit_union_stop g al c post (h8 c (by simp)) H1 (Or.inl hc) fuel (by omega)
      exact ⟨_, pre, S1, 1, hord, ⟨c :: post, rfl, hp1, hp2⟩, by rw [hv1]; exact h2, hmono⟩

/-! ## C139 -/

/-- **C139 (union).** zt_set_union(s, s, t) and zt_set_union(s, t, s) add to `s` the elements of `t` that zt_set_for_each visits before the first one that
is already in `s`; nothing else, and nothing is lost. -/
theorem c139_union (m : Key → Key → Bool) (g : GoodMatch m) (alloc : Tbl → Nat) (al : Allocator alloc) (S T : ZSet) (s t : Key → Prop) (n : Nat) (H : Holds m S s n) (HT : Holds m T t n)
    (fuel : Nat) (hf : n + n < fuel) :
    ∃ es pre S', Order m T t es fuel ∧ before s es pre ∧ unionFirst m alloc fuel S T = .ok (0, S') ∧ unionSecond m alloc fuel S T = .ok (0, S') ∧
      Holds m S' (fun k => s k ∨ ∃ e ∈ pre, m e k = true) (n + n) := by
  obtain ⟨es, pre, S', r, h1, h2, h3, h4⟩ := union_pass g al H HT hf
  obtain ⟨r1, e1⟩ := selfUnion g al H (fuel := fuel) (by omega)
  obtain ⟨r2, e2⟩ := selfUnion g al h4 (fuel := fuel) hf
  refine ⟨es, pre, S', h1, h2, ?_, ?_, h4⟩
  · rw [unionFirst, e1]; simp only [Outcome.ok_bind, h3]; rfl
  · rw [unionSecond, h3]; simp only [Outcome.ok_bind, e2]; rfl

/-- **C139 (union of sets with nothing in common).** Then the result is the union. -/
theorem c139_union_disjoint (m : Key → Key → Bool) (g : GoodMatch m) (alloc : Tbl → Nat) (al : Allocator alloc) (S T : ZSet) (s t : Key → Prop) (n : Nat) (H : Holds m S s n) (HT : Holds m T t n)
    (hd : ∀ k, ¬ (s k ∧ t k)) (fuel : Nat) (hf : n + n < fuel) :
    ∃ S', unionFirst m alloc fuel S T = .ok (0, S') ∧ unionSecond m alloc fuel S T = .ok (0, S') ∧ Holds m S' (fun k => s k ∨ t k) (n + n) := by
  obtain ⟨es, pre, S', ⟨hM, _⟩, ⟨post, rfl, _, hp⟩, e1, e2, H'⟩ := c139_union m g alloc al S T s t n H HT fuel hf
  have hpost : post = [] := by
    cases post with
    | nil => rfl
    | cons c post => exact absurd ⟨hp c post rfl, (hM.mem c).mpr ⟨c, by simp, g.refl c⟩⟩ (hd c)
  subst hpost
  refine ⟨S', e1, e2, holds_congr H' fun k => ?_⟩
  rw [hM.mem]; simp

/-- **C139 (no change).** In-place intersection never changes the set, whatever the other set is: the result is 1 if the two have a common element and 0
otherwise. In-place difference with the destination as first argument does not change it either (1 if some element is not in the other set). With three times
the same set nothing changes. -/
theorem c139_unchanged (m : Key → Key → Bool) (g : GoodMatch m) (alloc : Tbl → Nat) (al : Allocator alloc) (S T : ZSet) (s t : Key → Prop) (n : Nat) (H : Holds m S s n) (HT : Holds m T t n)
    (fuel : Nat) (hf : n < fuel) :
    (∃ r, intersectionFirst m alloc fuel S T = .ok (r, S) ∧ intersectionSecond m alloc fuel S T = .ok (r, S) ∧ (r = 1 ∨ r = 0) ∧ (r = 1 ↔ ∃ k, s k ∧ t k)) ∧
    (∃ r, differenceFirst m alloc fuel S T = .ok (r, S) ∧ (r = 1 ∨ r = 0) ∧ (r = 1 ↔ ∃ k, s k ∧ ¬ t k)) ∧
    unionBoth m alloc fuel S = .ok (0, S) ∧ (∃ r, intersectionBoth m alloc fuel S = .ok (r, S) ∧ (r = 1 ∨ r = 0) ∧ (r = 1 ↔ ∃ k, s k)) ∧ differenceBoth m alloc fuel S = .ok (0, S) := by
  classical
  have any01 : ∀ (p : Key → Prop) [DecidablePred p] (es : List Key), (anyRes p es = 1 ∨ anyRes p es = 0) ∧ (anyRes p es = 1 ↔ ∃ e ∈ es, p e) := by
    intro p _ es; unfold anyRes; split <;> simp [*]
  have memb : ∀ {S s} (_ : Holds m S s n) (k : Key), k.2 ≤ 8 → isMember m fuel S k = .ok (decide (s k)) := by
    intro S s H k hk
    obtain ⟨b, hb, hbs⟩ := isMember_holds g H fuel hf k hk
    rw [hb]
    by_cases c : s k
    · simp [c, hbs.mpr c]
    · have : b = false := by
        cases b with
        | false => rfl
        | true => exact absurd (hbs.mp rfl) c
      simp [c, this]
  obtain ⟨esT, hMT, _, _, h8T, hvT⟩ := holds_spec g HT
  obtain ⟨esS, hMS, _⟩ := holds_spec g H
  have congT := members_congr g hMT
  have congS := members_congr g hMS
  have own : ∀ {es : List Key}, Members m es s → ∀ (p : Key → Prop), (∀ k k', m k k' = true → (p k ↔ p k')) → ((∃ e ∈ es, p e) ↔ ∃ k, s k ∧ p k) := by
    intro es hM p hp
    constructor
    · rintro ⟨e, he, h⟩; exact ⟨e, (hM.mem e).mpr ⟨e, he, g.refl e⟩, h⟩
    · rintro ⟨k, hk, h⟩
      obtain ⟨e, he, hc⟩ := (hM.mem k).mp hk
      exact ⟨e, he, (hp _ _ hc).mpr h⟩
  refine ⟨?_, ?_, ?_, ?_, ?_⟩
  · obtain ⟨es, hM, e1⟩ := selfEach_fixed g H hf (intersectCb m alloc fuel T) t (fun e he h8 => by
      have hk := memb HT (keyOf e) h8
      have hi := insert_member g al H hf h8 he
      simp only [keyOf] at hk hi ⊢
      simp only [intersectCb, hk, Outcome.ok_bind]
      by_cases c : t (e.datum, e.datumLen) <;> simp [c, hi])
    have hv := hvT fuel hf ZSet (fun e D => intersectCb m alloc fuel D e D) S (fun e e' u h => by simp only [keyOf, Prod.mk.injEq] at h; simp only [intersectCb, h.1, h.2])
    rw [visit_fixed s esT (fun k hk => by
      have h1 := memb H k (h8T k hk)
      simp only [intersectCb, h1, Outcome.ok_bind]
      by_cases c : s k
      · simp [c, insert_member g al H hf (h8T k hk) c]
      · simp [c])] at hv
    have a1 := any01 t es
    have a2 := any01 s esT
    have b1 := own hM t congT
    have b2 : (∃ e ∈ esT, s e) ↔ ∃ k, s k ∧ t k := by
      constructor
      · rintro ⟨e, he, h⟩; exact ⟨e, h, (hMT.mem e).mpr ⟨e, he, g.refl e⟩⟩
      · rintro ⟨k, hk, h⟩
        obtain ⟨e, he, hc⟩ := (hMT.mem k).mp h
        exact ⟨e, he, (congS _ _ hc).mpr hk⟩
    have heq : anyRes s esT = anyRes t es := by
      exact anyRes_congr (b2.trans b1.symm)
    refine ⟨anyRes t es, e1, by rw [intersectionSecond, hv, heq], a1.1, by rw [a1.2, b1]⟩
  · obtain ⟨es, hM, e1⟩ := selfEach_fixed g H hf (differenceCb m alloc fuel T) (fun k => ¬ t k) (fun e he h8 => by
      have hk := memb HT (keyOf e) h8
      have hi := insert_member g al H hf h8 he
      simp only [keyOf] at hk hi ⊢
      simp only [differenceCb, hk, Outcome.ok_bind]
      by_cases c : t (e.datum, e.datumLen) <;> simp [c, hi])
    have a1 := any01 (fun k => ¬ t k) es
    exact ⟨_, e1, a1.1, by rw [a1.2, own hM (fun k => ¬ t k) (fun k k' h => not_congr (congT k k' h))]⟩
  · obtain ⟨r1, e1⟩ := selfUnion g al H hf
    rw [unionBoth, e1]; simp only [Outcome.ok_bind, e1]; rfl
  · obtain ⟨es, hM, e1⟩ := selfEach_fixed g H hf (fun e D => intersectCb m alloc fuel D e D) s (fun e he h8 => by
      have hk := memb H (keyOf e) h8
      have hi := insert_member g al H hf h8 he
      have he' := he
      simp only [keyOf] at hk hi he' ⊢
      simp [intersectCb, hk, he', hi])
    have a1 := any01 s es
    exact ⟨_, e1, a1.1, by rw [a1.2, own hM s congS]; simp⟩
  · obtain ⟨es, hM, e1⟩ := selfEach_fixed g H hf (fun e D => differenceCb m alloc fuel D e D) (fun _ => False) (fun e he h8 => by
      have hk := memb H (keyOf e) h8
      have he' := he
      simp only [keyOf] at hk he' ⊢
      simp [differenceCb, hk, he'])
    rw [differenceBoth, e1]; simp [anyRes]

/-- **C139 (difference with the destination as second argument).** zt_set_difference(s, t, s) turns `s` into the union of the two sets and returns 0. -/
theorem c139_difference_second (m : Key → Key → Bool) (g : GoodMatch m) (alloc : Tbl → Nat) (al : Allocator alloc) (S T : ZSet) (s t : Key → Prop) (n : Nat) (H : Holds m S s n) (HT : Holds m T t n)
    (fuel : Nat) (hf : n + n < fuel) : ∃ S', differenceSecond m alloc fuel S T = .ok (0, S') ∧ Holds m S' (fun k => s k ∨ t k) (n + n) := by
  obtain ⟨es, hM, _, hl, h8, hv⟩ := holds_spec g HT
  have key : ∀ (es : List Key) (S : ZSet) (s : Key → Prop) (n : Nat), Holds m S s n → (∀ e ∈ es, e.2 ≤ 8) → n + es.length < fuel →
      ∃ S', visit (fun e D => differenceCb m alloc fuel D e D) (es.map fun k => ⟨k, k.1, k.2, 0⟩) S = .ok (0, S') ∧ Holds m S' (fun k => s k ∨ ∃ e ∈ es, m e k = true) (n + es.length) := by
    intro es
    induction es with
    | nil => intro S s n H _ _; exact ⟨S, rfl, by simpa using H⟩
    | cons c es ih =>
        intro S s n H h8 hf
        simp only [List.length_cons] at hf
        have hc8 := h8 c (by simp)
        obtain ⟨b, hb, hbs⟩ := isMember_holds g H fuel (by omega) c hc8
        obtain ⟨r, S1, e1, H1, h1, h2⟩ := insert_holds g al H fuel (by omega) c hc8
        have hstep : ∃ S2, differenceCb m alloc fuel S ⟨c, c.1, c.2, 0⟩ S = .ok (0, S2) ∧ Holds m S2 (fun k => s k ∨ m c k = true) (n + 1) := by
          by_cases hs : s c
          · have : b = true := hbs.mpr hs
            obtain ⟨_, rfl⟩ := h1 hs
            exact ⟨S1, by simp [differenceCb, hb, this], H1⟩
          · have : b = false := by
              cases b with
              | false => rfl
              | true => exact absurd (hbs.mp rfl) hs
            obtain ⟨rfl, _⟩ := h2 hs
            exact ⟨S1, by simp [differenceCb, hb, this, e1], H1⟩
        obtain ⟨S2, e2, H2⟩ := hstep
        obtain ⟨S3, e3, H3⟩ := ih S2 _ _ H2 (fun e he => h8 e (by simp [he])) (by omega)
        refine ⟨S3, ?_, ?_⟩
        · rw [List.map_cons, visit, e2]; simp only [Outcome.ok_bind]; simpa using e3
        · refine holds_mono (holds_congr H3 fun k => ?_) (by simp; omega)
          simp [or_assoc]
  obtain ⟨S', e, H'⟩ := key es S s n H h8 (by omega)
  refine ⟨S', ?_, holds_mono (holds_congr H' fun k => by rw [hM.mem]) (by omega)⟩
  rw [differenceSecond, hv fuel (by omega) _ _ _ (fun e e' u h => by simp only [keyOf, Prod.mk.injEq] at h; simp only [differenceCb, h.1, h.2])]
  exact e

/-- **C139 (comparing a set with itself).** -/
theorem c139_compare_self (m : Key → Key → Bool) (g : GoodMatch m) (S : ZSet) (s : Key → Prop) (n : Nat) (H : Holds m S s n) (fuel : Nat) (hf : n < fuel) :
    isSubset m fuel S S = .ok true ∧ isEqual m fuel S S = .ok true := by
  obtain ⟨b, e, h⟩ := isSubset_iff m g S S s s n H H fuel hf
  obtain ⟨b', e', h'⟩ := isEqual_iff m g S S s s n H H fuel hf
  exact ⟨by rw [e, h.mpr fun _ => id], by rw [e', h'.mpr fun _ => Iff.rfl]⟩

/-- The hypotheses are met, by the sets {1, 2} and {2, 3}: their intersection in place leaves {1, 2}. -/
example (alloc : Tbl → Nat) (al : Allocator alloc) : ∃ n S T, Holds matchInt S (fun k => matchInt (1, 8) k = true ∨ matchInt (2, 8) k = true) n ∧
    Holds matchInt T (fun k => matchInt (2, 8) k = true ∨ matchInt (3, 8) k = true) n ∧ ∀ fuel > n, intersectionFirst matchInt alloc fuel S T = .ok (1, S) := by
  obtain ⟨_, A1, _, a1, _, _⟩ := insert_holds matchInt_good al (init_holds matchInt) 9 (by omega) (1, 8) (by simp)
  obtain ⟨_, A2, _, a2, _, _⟩ := insert_holds matchInt_good al a1 9 (by omega) (2, 8) (by simp)
  obtain ⟨_, B1, _, b1, _, _⟩ := insert_holds matchInt_good al (init_holds matchInt) 9 (by omega) (2, 8) (by simp)
  obtain ⟨_, B2, _, b2, _, _⟩ := insert_holds matchInt_good al b1 9 (by omega) (3, 8) (by simp)
  have hA := holds_congr a2 (s' := fun k => matchInt (1, 8) k = true ∨ matchInt (2, 8) k = true) (fun k => by simp)
  have hB := holds_congr b2 (s' := fun k => matchInt (2, 8) k = true ∨ matchInt (3, 8) k = true) (fun k => by simp)
  refine ⟨_, A2, B2, hA, hB, fun fuel hf => ?_⟩
  obtain ⟨⟨r, e, _, _, h⟩, _⟩ := c139_unchanged matchInt matchInt_good alloc al A2 B2 _ _ _ hA hB fuel hf
  rw [e, h.mpr ⟨(2, 8), by decide, by decide⟩]

end ZT.Set
