import Verif.Set.Props

/-!
# zt_set_destroy (C91) and what zt_set_union does exactly (C20)
-/

namespace ZT.Set
open ZT.Table

/-- zt_set.c 25-35 `_destroy`; `d` says whether the set has a destroy callback, the state lists the data it was called with. -/
def destroyCb (d : Bool) (e : Entry) (calls : List Nat) : Outcome (Int × List Nat) := .ok (0, if d then calls ++ [e.datum] else calls)

/-- zt_set.c 37-46 `zt_set_destroy`: the callback for every element, then zt_table_destroy (the set itself is freed by its last line). The result: the calls and the nodes left. -/
def destroy (d : Bool) (fuel : Nat) (S : ZSet) : Outcome (List Nat × Tbl) := do
  let (_, calls) ← Table.forEach (destroyCb d) fuel S.tbl []
  let t ← Table.destroy fuel S.tbl
  pure (calls, t)

/-- **C91** zt_set_destroy calls the destroy callback (if there is one) exactly once for each member of the set, and leaves no node allocated. -/
theorem destroy_all (m : Key → Key → Bool) (g : GoodMatch m) (S : ZSet) (s : Key → Prop) (n : Nat) (H : Holds m S s n) (d : Bool) (fuel : Nat) (hf : n < fuel) :
    ∃ es t, Members m es s ∧ destroy d fuel S = .ok (if d then es.map (·.1) else [], t) ∧ ∀ a, t.heap a = none := by
  obtain ⟨es, hM, _, _, _, hv⟩ := holds_spec g H
  obtain ⟨C, M, L, A, hL, _⟩ := H
  obtain ⟨t, ht, hall⟩ := destroy_releases_all (cbOf m) S.tbl M fuel ⟨C, L, A, by omega⟩
  refine ⟨es, t, hM, ?_, hall⟩
  rw [destroy, hv fuel hf _ _ _ (fun e e' s h => by simp only [keyOf, Prod.mk.injEq] at h; simp only [destroyCb, h.1])]
  have : ∀ (l : List Key) (acc : List Nat), visit (destroyCb d) (l.map fun k => ⟨k, k.1, k.2, 0⟩) acc = .ok (0, if d then acc ++ l.map (·.1) else acc) := by
    intro l
    induction l with
    | nil => intro acc; simp [visit]
    | cons x xs ih =>
        intro acc
        simp only [List.map_cons, visit, destroyCb, Outcome.ok_bind, ne_eq, not_true, if_false, ih]
        cases d <;> simp
  rw [this, Outcome.ok_bind, ht]
  simp

theorem take_drop_while {α : Type} (p : α → Bool) (l : List α) : l.takeWhile p = l ∨ ∃ c post, l = l.takeWhile p ++ c :: post ∧ p c = false := by
  induction l with
  | nil => exact .inl rfl
  | cons x xs ih =>
      by_cases h : p x
      · rcases ih with h1 | ⟨c, post, h1, h2⟩
        · left; rw [List.takeWhile_cons, if_pos h, h1]
        · right; exact ⟨c, post, by rw [List.takeWhile_cons, if_pos h, List.cons_append, ← h1], h2⟩
      · right
        exact ⟨x, xs, by rw [List.takeWhile_cons, if_neg h, List.nil_append], by simpa using h⟩

/-- **C20 (union, exactly).** The union of two sets, computed into an empty set, has the members of the first and those members of the second that come, in the order in which
zt_set_for_each visits them, before the first one that is in both. -/
theorem union_exact (m : Key → Key → Bool) (g : GoodMatch m) (alloc : Tbl → Nat) (al : Allocator alloc) (U S1 S2 : ZSet) (s1 s2 : Key → Prop) [DecidablePred s1] (n : Nat)
    (H1 : Holds m S1 s1 n) (H2 : Holds m S2 s2 n) (HU : Holds m U (fun _ => False) n) :
    ∃ n' es, Members m es s2 ∧ ∀ fuel > n', forEach (fun d (acc : List Nat) => .ok (0, acc ++ [d])) fuel S2 [] = .ok (0, es.map (·.1)) ∧
      ∃ U', union m alloc fuel U S1 S2 = .ok (0, U') ∧ Holds m U' (fun k => s1 k ∨ ∃ e ∈ es.takeWhile (fun e => decide (¬ s1 e)), m e k = true) n' := by
  obtain ⟨es1, hM1, _, hl1, h81, hv1⟩ := holds_spec g H1
  obtain ⟨es2, hM2, _, hl2, h82, hv2⟩ := holds_spec g H2
  refine ⟨n + n + n, es2, hM2, fun fuel hf => ⟨?_, ?_⟩⟩
  · rw [forEach, hv2 fuel (by omega) _ _ _ (fun e e' s h => by simp only [keyOf, Prod.mk.injEq] at h; simp only [h.1])]
    have : ∀ (l : List Key) (acc : List Nat), visit (fun e (s : List Nat) => .ok (0, s ++ [e.datum])) (l.map fun k => ⟨k, k.1, k.2, 0⟩) acc = .ok (0, acc ++ l.map (·.1)) := by
      intro l
      induction l with
      | nil => intro acc; simp [visit]
      | cons x xs ih => intro acc; simp only [List.map_cons, visit, Outcome.ok_bind, ne_eq, not_true, if_false, ih]; simp
    simpa using this es2 []
  · have hcongr : ∀ (e e' : Entry) (s : ZSet), keyOf e = keyOf e' → unionCb m alloc fuel e s = unionCb m alloc fuel e' s := fun e e' s h => by
      simp only [keyOf, Prod.mk.injEq] at h; simp only [unionCb, h.1, h.2]
    obtain ⟨U1, e1, HU1⟩ := visit_insert g al es1 h81 hM1.distinct HU (fun _ _ h => h) fuel (by omega)
    have HU1' : Holds m U1 s1 (n + es1.length) := holds_congr HU1 fun k => by rw [hM1.mem]; simp
    have hpre := List.takeWhile_sublist (l := es2) (fun e => decide (¬ s1 e))
    have hlen := hpre.length_le
    have hnew : ∀ e ∈ es2.takeWhile (fun e => decide (¬ s1 e)), ¬ s1 e := by
      intro e he
      have := List.all_takeWhile (p := fun e => decide (¬ s1 e)) (l := es2)
      rw [List.all_eq_true] at this
      simpa using this e he
    obtain ⟨U2, e2, HU2⟩ := visit_insert g al (es2.takeWhile fun e => decide (¬ s1 e)) (fun e he => h82 e (hpre.subset he)) (hM2.distinct.sublist hpre) HU1' hnew fuel (by omega)
    refine ⟨U2, ?_, holds_mono HU2 (by omega)⟩
    rw [union, hv1 fuel (by omega) _ _ _ hcongr, e1]
    simp only [Outcome.ok_bind]
    rw [hv2 fuel (by omega) _ _ _ hcongr]
    rcases take_drop_while (fun e => decide (¬ s1 e)) es2 with h | ⟨c, post, h, hc⟩
    · rw [h] at e2
      rw [e2]; rfl
    · have hc1 : s1 c := by simpa using hc
      rw [h, List.map_append, visit_append, e2]
      simp only [Outcome.ok_bind, ne_eq, not_true, if_false]
      rw [visit_union_stop g al c post (h82 c (by rw [h]; simp)) HU2 (.inl hc1) fuel (by omega)]
      rfl

/-- The hypotheses hold for sets made by insertions (`set_history_partial`), here with elements 1, 2 and destroyed with a callback. -/
example (alloc : Tbl → Nat) (al : Allocator alloc) : ∃ n, ∀ fuel > n, ∃ S es t, destroy true fuel S = .ok (es, t) ∧ es.length = 2 := by
  obtain ⟨n, hn⟩ := set_history_partial matchInt matchInt_good alloc al [.insert (1, 8), .insert (2, 8), .insert (1, 8)] (by simp [opKey])
  refine ⟨n, fun fuel hf => ?_⟩
  obtain ⟨S, _, H, hl⟩ := hn fuel hf
  obtain ⟨es, t, hM, e, _⟩ := destroy_all matchInt matchInt_good S _ n H true fuel hf
  obtain ⟨es', hM', hl', _⟩ := holds_spec matchInt_good H
  refine ⟨S, es.map (fun x : Key => x.1), t, by simpa using e, ?_⟩
  have h1 := pigeon matchInt_good es es' hM.distinct (fun e he => (hM'.mem e).1 ((hM.mem e).2 ⟨e, he, matchInt_good.refl e⟩))
  have h2 := pigeon matchInt_good es' es hM'.distinct (fun e he => (hM.mem e).1 ((hM'.mem e).2 ⟨e, he, matchInt_good.refl e⟩))
  have h3 : (specS matchInt [] [.insert (1, 8), .insert (2, 8), .insert (1, 8)]).2.length = 2 := by decide
  rw [h3] at hl
  simp only [List.length_map]
  omega

end ZT.Set
