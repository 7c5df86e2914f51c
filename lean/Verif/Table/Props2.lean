import Verif.Table.Props

/-!
# Enumeration, copying and destruction of tables (C19, C58)
-/

namespace ZT.Table

/-- The table `T` holds exactly the map `m` (and `fuel` suffices for loops over its chains). -/
def Stands (cb : Callbacks) (T : Tbl) (m : Map) (fuel : Nat) : Prop := ∃ C L, Abs cb T C m L ∧ L < fuel

/-- Such tables are what histories produce: after any history as in `history_partial` the table holds the map of the specification. -/
theorem history_stands (cb : Callbacks) (g : Good cb) (alloc : Tbl → Nat) (al : Allocator alloc) (hint : Nat) (useHint : Bool)
    (hr : InRange cb (init hint useHint false)) (ops : List Op) (h2 : Shallow cb (init hint useHint false).nbits (fun _ => none) ops) :
    ∃ n, ∀ fuel ≥ n, ∃ T, run cb alloc fuel (init hint useHint false) ops = .ok ((specRun cb.cmp (fun _ => none) ops).1, T) ∧
      Stands cb T (specRun cb.cmp (fun _ => none) ops).2 fuel := by
  refine ⟨ops.length + 1, fun fuel hf => ?_⟩
  obtain ⟨T, C, e, _, A⟩ := run_abs g al ops (init_abs cb hint useHint hr) fuel (by omega) h2
  exact ⟨T, e, C, _, A, by omega⟩

/-- The entries `es` are those of the map `m`: one entry per stored key, with the stored datum. -/
def Lists (cmp : Key → Key → Bool) (es : List Entry) (m : Map) : Prop :=
  (es.Pairwise fun x y => cmp x.key y.key = false) ∧ ∀ k d, m k = some d ↔ ∃ e ∈ es, cmp e.key k = true ∧ e.datum = d

theorem find_datum {cmp : Key → Key → Bool} (hs : ∀ k k', cmp k k' = true → cmp k' k = true)
    (ht : ∀ k k' k'', cmp k k' = true → cmp k' k'' = true → cmp k k'' = true) (l : List (Nat × Entry))
    (hd : l.Pairwise fun x y => cmp x.2.key y.2.key = false) (k : Key) (d : Nat) :
    (l.find? fun x => cmp x.2.key k).map (·.2.datum) = some d ↔ ∃ x ∈ l, cmp x.2.key k = true ∧ x.2.datum = d := by
  constructor
  · intro h
    obtain ⟨x, hx, e⟩ := Option.map_eq_some_iff.mp h
    exact ⟨x, List.mem_of_find?_eq_some hx, by simpa using List.find?_some hx, e⟩
  · rintro ⟨x, hx, hc, rfl⟩
    cases hf : l.find? fun x => cmp x.2.key k with
    | none => exact absurd hc (by simpa using List.find?_eq_none.mp hf x hx)
    | some y =>
        have hy := List.mem_of_find?_eq_some hf
        have hyc : cmp y.2.key k = true := by simpa using List.find?_some hf
        have hxy := ht _ _ _ hc (hs _ _ hyc)
        have : x = y := by
          refine Decidable.byContradiction fun hne => ?_
          rw [List.pairwise_iff_forall_sublist] at hd
          have hmem : [x, y].Sublist l ∨ [y, x].Sublist l := by
            obtain ⟨l1, l2, rfl⟩ := List.append_of_mem hx
            rcases List.mem_append.mp hy with h | h
            · right
              obtain ⟨l3, l4, rfl⟩ := List.append_of_mem h
              simp only [List.append_assoc, List.cons_append]
              refine List.Sublist.trans ?_ (List.sublist_append_right l3 _)
              refine List.Sublist.cons_cons y ?_
              refine List.Sublist.trans ?_ (List.sublist_append_right l4 _)
              exact List.Sublist.cons_cons x (List.nil_sublist _)
            · left
              rcases List.mem_cons.mp h with h | h
              · exact absurd h.symm hne
              · refine List.Sublist.trans ?_ (List.sublist_append_right l1 _)
                exact List.Sublist.cons_cons x (List.singleton_sublist.mpr h)
          rcases hmem with h | h
          · have := hd h; rw [hxy] at this; cases this
          · have := hd h; rw [hs _ _ hxy] at this; cases this
        rw [this]; rfl

theorem stands_slice {cb : Callbacks} (g : Good cb) {T : Tbl} {C m L} (A : Abs cb T C m L) : Lists cb.cmp (slice C T.num 0) m := by
  constructor
  · refine pairwise_slice C T.num 0 (fun j => ?_) ?_
    · rw [List.pairwise_map]; exact A.dist j
    · intro j j' x y hlt hx hy
      cases hc : cb.cmp x.2.key y.2.key with
      | false => rfl
      | true =>
          have h1 := (A.rep.hash j x hx).2.1
          have h2 := (A.rep.hash j' y hy).2.1
          have := index_congr g T hc
          omega
  · intro k d
    rw [A.look k, find_datum g.symm g.trans _ (A.dist _)]
    constructor
    · rintro ⟨⟨a, e⟩, hx, hc, hd⟩
      exact ⟨e, (mem_slice _ _ _ _).mpr ⟨index cb T k, by omega, by simpa using A.range k, a, hx⟩, hc, hd⟩
    · rintro ⟨e, he, hc, hd⟩
      obtain ⟨j, _, _, a, ha⟩ := (mem_slice _ _ _ _).mp he
      have h1 := (A.rep.hash j _ ha).2.1
      have : j = index cb T k := by rw [← h1]; exact index_congr g T hc
      subst this
      exact ⟨(a, e), ha, hc, hd⟩

/-- **C19** There is one order of the stored entries, each stored key exactly once with its datum, such that `zt_table_for_each`
with any iterator calls it on these entries in this order, until the iterator returns nonzero, and returns that value (else 0). -/
theorem for_each_visits (cb : Callbacks) (g : Good cb) (T : Tbl) (m : Map) (fuel : Nat) (S : Stands cb T m fuel) :
    ∃ es, Lists cb.cmp es m ∧ ∀ (σ : Type) (it : Entry → σ → Outcome (Int × σ)) (s : σ), forEach it fuel T s = visit it es s := by
  obtain ⟨C, L, A, hL⟩ := S
  refine ⟨slice C T.num 0, stands_slice g A, fun σ it s => ?_⟩
  exact eachLoop_spec it T C fuel T.num 0 s A.rep.chain (fun j => by have := A.len j; omega) (by omega)

/-- **C19** An iterator that never stops sees every entry, in particular collecting them yields the whole list. -/
theorem for_each_collects (cb : Callbacks) (g : Good cb) (T : Tbl) (m : Map) (fuel : Nat) (S : Stands cb T m fuel) :
    ∃ es, Lists cb.cmp es m ∧ forEach (fun e (s : List Entry) => .ok (0, s ++ [e])) fuel T [] = .ok (0, es) := by
  obtain ⟨es, h1, h2⟩ := for_each_visits cb g T m fuel S
  refine ⟨es, h1, ?_⟩
  rw [h2]
  have : ∀ l acc : List Entry, visit (fun e (s : List Entry) => .ok (0, s ++ [e])) l acc = .ok (0, acc ++ l) := by
    intro l
    induction l with
    | nil => intro acc; simp [visit]
    | cons x xs ih => intro acc; simp [visit, ih]
  simpa using this es []

theorem visit_copy {cb2 : Callbacks} (g2 : Good cb2) {alloc} (al : Allocator alloc) (es : List Entry) (fuel : Nat) (any : Bool) {T2 : Tbl} {C m L}
    (A : Abs cb2 T2 C m L) (hf : L + es.length < fuel) :
    ∃ T2' C', visit (copyStep cb2 alloc fuel) es (any, T2) = .ok (0, (any || !es.isEmpty, T2')) ∧
      Abs cb2 T2' C' (es.foldl (fun m e => if (m e.key).isSome then m else m.put cb2.cmp e.key (some e.datum)) m) (L + es.length) := by
  induction es generalizing any T2 C m L with
  | nil => exact ⟨T2, C, by simp [visit], by simpa using A⟩
  | cons e es ih =>
      obtain ⟨T', C', h1, _, A'⟩ := set_abs g2 A fuel (by omega) e.key e.datum e.datumLen (alloc T2) (al T2 (exists_free A))
      obtain ⟨T'', C'', h2, A''⟩ := ih true A' (by simp at hf; omega)
      refine ⟨T'', C'', ?_, ?_⟩
      · rw [visit, copyStep]
        simp only [h1, Outcome.ok_bind, Outcome.pure_eq]
        simpa using h2
      · simp only [List.foldl_cons, List.length_cons]
        rw [show L + (es.length + 1) = L + 1 + es.length by omega]
        exact A''

theorem fold_map {cmp : Key → Key → Bool} (hr : ∀ k, cmp k k = true) (hs : ∀ k k', cmp k k' = true → cmp k' k = true)
    (ht : ∀ k k' k'', cmp k k' = true → cmp k' k'' = true → cmp k k'' = true) (es : List Entry) (m : Map)
    (hm : ∀ k k', cmp k k' = true → m k = m k') (k : Key) :
    es.foldl (fun (m : Map) e => if (m e.key).isSome then m else m.put cmp e.key (some e.datum)) m k =
      (m k).or ((es.find? fun e => cmp e.key k).map (·.datum)) := by
  induction es generalizing m with
  | nil => simp
  | cons e es ih =>
      rw [List.foldl_cons, ih]
      · by_cases c : (m e.key).isSome
        · simp only [c, if_true]
          rw [List.find?_cons]
          cases hc : cmp e.key k with
          | true =>
              have := hm _ _ hc
              rw [this] at c
              obtain ⟨d, hd⟩ := Option.isSome_iff_exists.mp c
              rw [hd]; rfl
          | false => rfl
        · rw [if_neg c, put_eq, List.find?_cons]
          cases hc : cmp e.key k with
          | true =>
              have := hm _ _ hc
              rw [← this]
              simp at c
              rw [c]; simp
          | false => simp
      · intro k1 k2 h12
        split
        · exact hm _ _ h12
        · rw [put_eq, put_eq]
          have : cmp e.key k1 = cmp e.key k2 := by
            cases h1 : cmp e.key k1 with
            | true => exact (ht _ _ _ h1 h12).symm
            | false =>
                cases h2 : cmp e.key k2 with
                | false => rfl
                | true => rw [ht _ _ _ h2 (hs _ _ h12)] at h1; cases h1
          rw [this, hm _ _ h12]

theorem abs_congr {cb : Callbacks} (g : Good cb) {T : Tbl} {C m L} (A : Abs cb T C m L) (k k' : Key) (h : cb.cmp k k' = true) : m k = m k' := by
  have : ∀ d, m k = some d ↔ m k' = some d := by
    have hL := stands_slice g A
    intro d
    rw [hL.2, hL.2]
    constructor
    · rintro ⟨e, h1, h2, h3⟩; exact ⟨e, h1, g.trans _ _ _ h2 h, h3⟩
    · rintro ⟨e, h1, h2, h3⟩; exact ⟨e, h1, g.trans _ _ _ h2 (g.symm _ _ h), h3⟩
  exact Option.ext this

/-- **C19** `zt_table_copy(t1, t2)` adds every entry of t1 to t2 whose key is not already there, keeps t2's own entries, and returns
nonzero exactly when t1 has an entry. The tables may have different sizes and hash functions. -/
theorem copy_adds (cb1 cb2 : Callbacks) (g1 : Good cb1) (g2 : Good cb2) (hcmp : cb1.cmp = cb2.cmp) (alloc : Tbl → Nat) (al : Allocator alloc)
    (T1 T2 : Tbl) (m1 m2 : Map) (n : Nat) (S1 : Stands cb1 T1 m1 n) (S2 : Stands cb2 T2 m2 n) :
    ∃ n', ∀ fuel ≥ n', ∃ any T2', copy cb2 alloc fuel T1 T2 = .ok (any, T2') ∧ Stands cb2 T2' (fun k => (m2 k).or (m1 k)) fuel ∧
      (any = true ↔ ∃ k, m1 k ≠ none) := by
  obtain ⟨C1, L1, A1, hL1⟩ := S1
  obtain ⟨C2, L2, A2, hL2⟩ := S2
  refine ⟨L1 + L2 + (slice C1 T1.num 0).length + 1, fun fuel hf => ?_⟩
  have hE := eachLoop_spec (copyStep cb2 alloc fuel) T1 C1 fuel T1.num 0 (false, T2) A1.rep.chain (fun j => by have := A1.len j; omega) (by omega)
  obtain ⟨T2', C', h1, A'⟩ := visit_copy g2 al (slice C1 T1.num 0) fuel false A2 (by omega)
  have hls := stands_slice g1 A1
  refine ⟨false || !(slice C1 T1.num 0).isEmpty, T2', ?_, ⟨C', L2 + (slice C1 T1.num 0).length, ?_, by omega⟩, ?_⟩
  · rw [copy, forEach, hE, h1]; rfl
  · have : (fun k => (m2 k).or (m1 k)) = (slice C1 T1.num 0).foldl (fun m e => if (m e.key).isSome then m else m.put cb2.cmp e.key (some e.datum)) m2 := by
      funext k
      rw [fold_map g2.refl g2.symm g2.trans _ _ (fun k k' h => abs_congr g2 A2 k k' h)]
      congr 1
      apply Option.ext
      intro d
      rw [hls.2 k d, hcmp]
      constructor
      · rintro ⟨e, he, hc, rfl⟩
        cases hf : (slice C1 T1.num 0).find? fun e => cb2.cmp e.key k with
        | none => exact absurd hc (by simpa using List.find?_eq_none.mp hf e he)
        | some y =>
            have hy := List.mem_of_find?_eq_some hf
            have hyc : cb2.cmp y.key k = true := by simpa using List.find?_some hf
            rw [← hcmp] at hc hyc
            have e1 := (hls.2 k e.datum).mpr ⟨e, he, hc, rfl⟩
            have e2 := (hls.2 k y.datum).mpr ⟨y, hy, hyc, rfl⟩
            rw [e1] at e2
            simpa using e2.symm
      · intro h
        obtain ⟨y, hy, e⟩ := Option.map_eq_some_iff.mp h
        exact ⟨y, List.mem_of_find?_eq_some hy, by simpa using List.find?_some hy, e⟩
    rw [this]; exact A'
  · simp only [Bool.false_or, Bool.not_eq_true', List.isEmpty_eq_false_iff]
    constructor
    · intro hne
      obtain ⟨e, he⟩ := List.exists_mem_of_ne_nil _ hne
      exact ⟨e.key, by rw [(hls.2 e.key e.datum).mpr ⟨e, he, g1.refl _, rfl⟩]; simp⟩
    · rintro ⟨k, hk⟩
      obtain ⟨d, hd⟩ := Option.ne_none_iff_exists'.mp hk
      obtain ⟨e, he, _⟩ := (hls.2 k d).mp hd
      exact List.ne_nil_of_mem he

/-! ## Destruction -/

theorem destroyChain_spec (l : List (Nat × Entry)) (T : Tbl) (p : Ptr) (fuel : Nat) (h : Chain T.heap p l) (hn : (adr l).Nodup) (hf : l.length < fuel) :
    ∃ T', destroyChain fuel T p = .ok T' ∧ T'.num = T.num ∧ T'.buckets = T.buckets ∧
      ∀ a, T'.heap a = if a ∈ adr l then none else T.heap a := by
  induction l generalizing T p fuel with
  | nil =>
      simp only [Chain] at h; subst h
      match fuel, hf with
      | f + 1, _ => exact ⟨T, rfl, rfl, rfl, by simp⟩
  | cons x xs ih =>
      obtain ⟨a, e⟩ := x
      obtain ⟨rfl, nx, hna, h⟩ := h
      simp only [adr_cons, List.nodup_cons] at hn
      match fuel, hf with
      | f + 1, hf =>
        obtain ⟨T', h1, h2, h3, h4⟩ := ih (updHeap T a none) nx f (chain_frame xs nx (fun b hb => by
          have : b ≠ a := fun h => hn.1 (h ▸ hb)
          simp [updHeap, this]) h) hn.2 (by simp at hf; omega)
        refine ⟨T', ?_, h2, h3, ?_⟩
        · rw [destroyChain, release]
          simp only [load, hna, Outcome.ok_bind, Outcome.pure_eq]
          exact h1
        · intro b
          rw [h4]
          simp only [updHeap, adr_cons, List.mem_cons]
          grind

theorem destroyLoop_spec (C : Nat → List (Nat × Entry)) (fuel : Nat) (hf : ∀ i, (C i).length < fuel) (k i : Nat) (T : Tbl) (hk : i + k ≤ T.num)
    (hch : ∀ j, i ≤ j → Chain T.heap (T.buckets j) (C j)) (hn : ∀ j, (adr (C j)).Nodup) (hd : ∀ j j' a, a ∈ adr (C j) → a ∈ adr (C j') → j = j') :
    ∃ T', destroyLoop fuel k i T = .ok T' ∧ T'.num = T.num ∧ ∀ a, T'.heap a ≠ none ↔ T.heap a ≠ none ∧ ∀ j, i ≤ j → j < i + k → a ∉ adr (C j) := by
  induction k generalizing i T with
  | zero => exact ⟨T, rfl, rfl, fun a => ⟨fun h => ⟨h, fun j h1 h2 => by omega⟩, fun h => h.1⟩⟩
  | succ k ih =>
      obtain ⟨T1, h1, h2, h3, h4⟩ := destroyChain_spec (C i) T _ fuel (hch i (by omega)) (hn i) (hf i)
      obtain ⟨T2, e1, e2, e3⟩ := ih (i + 1) T1 (by omega) (fun j hj => by
        rw [h3]
        refine chain_frame _ _ (fun a ha => ?_) (hch j (by omega))
        rw [h4, if_neg]
        intro hm
        have := hd j i a ha hm
        omega)
      refine ⟨T2, ?_, by rw [e2, h2], ?_⟩
      · rw [destroyLoop, bucket, if_pos (by omega)]
        simp only [Outcome.ok_bind, h1]
        exact e1
      · intro a
        rw [e3 a, h4]
        constructor
        · rintro ⟨h5, h6⟩
          by_cases c : a ∈ adr (C i)
          · simp [c] at h5
          · simp only [c, if_false] at h5
            refine ⟨h5, fun j hj1 hj2 => ?_⟩
            by_cases cj : j = i
            · subst cj; exact c
            · exact h6 j (by omega) (by omega)
        · rintro ⟨h5, h6⟩
          rw [if_neg (h6 i (by omega) (by omega))]
          exact ⟨h5, fun j hj1 hj2 => h6 j (by omega) (by omega)⟩

/-- **C58** `zt_table_destroy` releases every node exactly once (no node is released twice, none stays allocated). -/
theorem destroy_releases_all (cb : Callbacks) (T : Tbl) (m : Map) (fuel : Nat) (S : Stands cb T m fuel) :
    ∃ T', destroy fuel T = .ok T' ∧ ∀ a, T'.heap a = none := by
  obtain ⟨C, L, A, hL⟩ := S
  obtain ⟨T', h1, _, h3⟩ := destroyLoop_spec C fuel (fun j => by have := A.len j; omega) T.num 0 T (by omega) (fun j _ => A.rep.chain j)
    A.rep.nodup A.rep.disj
  refine ⟨T', h1, fun a => Decidable.byContradiction fun h => ?_⟩
  obtain ⟨h4, h5⟩ := (h3 a).1 h
  obtain ⟨i, hi⟩ := A.live a h4
  obtain ⟨x, hx, rfl⟩ := List.mem_map.mp hi
  exact h5 i (by omega) (by have := (A.rep.hash i x hx).2.2; omega) hi

/-- A table with colliding keys to which the theorems above apply. -/
example (alloc : Tbl → Nat) (al : Allocator alloc) : ∃ n, ∀ fuel ≥ n, ∃ T, Stands constCb T
    (specRun constCb.cmp (fun _ => none) [.set (1, 1) 10 0, .set (2, 1) 20 0, .set (3, 1) 30 0]).2 fuel := by
  obtain ⟨n, hn⟩ := history_stands constCb constCb_good alloc al 0 false (in_range_small_partial _ 0 false (by decide))
    [.set (1, 1) 10 0, .set (2, 1) 20 0, .set (3, 1) 30 0] (shallow_of_no_del _ _ _ _ (by simp))
  exact ⟨n, fun fuel hf => (hn fuel hf).imp fun T h => h.2⟩

/-- Allocators exist. -/
noncomputable example : { alloc : Tbl → Nat // Allocator alloc } :=
  ⟨fun T => by classical exact if h : ∃ a, T.heap a = none then h.choose else 0, fun T h => by
    classical
    simp only [h, dite_true]; exact h.choose_spec⟩

end ZT.Table
