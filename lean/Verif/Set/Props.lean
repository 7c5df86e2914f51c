import Verif.Set.Model

/-!
# Property theorems for zt_set (C20)
-/

namespace ZT.Set
open ZT.Table

/-! ## Specification -/

/-- A finite set of elements up to the user's equality `m`: `es` lists one representative of each member. -/
structure Members (m : Key → Key → Bool) (es : List Key) (s : Key → Prop) : Prop where
  distinct : es.Pairwise fun x y => m x y = false
  mem : ∀ k, s k ↔ ∃ e ∈ es, m e k = true

/-- `match` is an equivalence, and equal elements have the same address bytes and length (the table hashes those; true for
`zt_table_compare_int`). -/
structure GoodMatch (m : Key → Key → Bool) : Prop where
  refl : ∀ k, m k k = true
  symm : ∀ k k', m k k' = true → m k' k = true
  trans : ∀ k k' k'', m k k' = true → m k' k'' = true → m k k'' = true
  addr : ∀ k k', m k k' = true → (ptrBytes k.1).take k.2 = (ptrBytes k'.1).take k'.2

theorem GoodMatch.good {m} (g : GoodMatch m) : Good (cbOf m) :=
  ⟨g.refl, g.symm, g.trans, fun k k' h => by simp only [cbOf, g.addr k k' h]⟩

/-- `zt_table_compare_int` as a match function. -/
def matchInt (k k' : Key) : Bool := decide (k.2 = k'.2 ∧ (ptrBytes k.1).take k.2 = (ptrBytes k'.1).take k'.2)
theorem matchInt_good : GoodMatch matchInt := by
  refine ⟨by simp [matchInt], ?_, ?_, ?_⟩ <;> simp only [matchInt, decide_eq_true_eq]
  · rintro k k' ⟨h1, h2⟩; exact ⟨h1.symm, h2.symm⟩
  · rintro k k' k'' ⟨h1, h2⟩ ⟨h3, h4⟩; exact ⟨h1.trans h3, h2.trans h4⟩
  · rintro k k' ⟨_, h⟩; exact h
theorem matchInt_code (k k' : Key) (h : k.2 ≤ 8) : compareInt k k' = .ok (matchInt k k') := compareInt_eq k k' h

def keyOf (e : Entry) : Key := (e.datum, e.datumLen)

/-- The set object `S` holds exactly the members `s`; its `length` is their number. -/
def Holds (m : Key → Key → Bool) (S : ZSet) (s : Key → Prop) (n : Nat) : Prop :=
  ∃ C M L, Abs (cbOf m) S.tbl C M L ∧ L ≤ n ∧ (slice C S.tbl.num 0).length ≤ n ∧ (∀ k, s k ↔ (M k).isSome) ∧
    S.length = (slice C S.tbl.num 0).length ∧ ∀ e ∈ slice C S.tbl.num 0, e.key = keyOf e ∧ e.key.2 ≤ 8

theorem holds_members {m} (g : GoodMatch m) {S s} {C : Nat → List (Nat × Entry)} {M L} (A : Abs (cbOf m) S C M L) (hs : ∀ k, s k ↔ (M k).isSome)
    (hk : ∀ e ∈ slice C S.num 0, e.key = keyOf e ∧ e.key.2 ≤ 8) : Members m ((slice C S.num 0).map keyOf) s := by
  have hl := stands_slice g.good A
  constructor
  · rw [List.pairwise_map]
    have := hl.1
    rw [List.pairwise_iff_forall_sublist] at this ⊢
    intro x y h
    have hx := hk x (h.subset (by simp))
    have hy := hk y (h.subset (by simp))
    rw [← hx.1, ← hy.1]; exact this h
  · intro k
    rw [hs, Option.isSome_iff_exists]
    simp only [hl.2]
    constructor
    · rintro ⟨d, e, he, hc, _⟩
      exact ⟨keyOf e, List.mem_map.mpr ⟨e, he, rfl⟩, by rw [← (hk e he).1]; exact hc⟩
    · rintro ⟨q, hq, hc⟩
      obtain ⟨e, he, rfl⟩ := List.mem_map.mp hq
      exact ⟨e.datum, e, he, by rw [(hk e he).1]; exact hc, rfl⟩

/-- A fresh set is empty. -/
theorem init_holds (m : Key → Key → Bool) : Holds m init (fun _ => False) 0 := by
  refine ⟨fun _ => [], fun _ => none, 0, init_abs (cbOf m) 128 false (in_range_small_partial _ 128 false (by decide)), by omega, ?_, by simp, ?_, ?_⟩
  all_goals
    have : ∀ k i, slice (fun _ => []) k i = [] := by
      intro k; induction k with
      | zero => intro i; rfl
      | succ k ih => intro i; simp [slice, ih]
    simp [this, init]

theorem isMember_holds {m} (g : GoodMatch m) {S s n} (H : Holds m S s n) (fuel : Nat) (hf : n < fuel) (k : Key) (hk : k.2 ≤ 8) :
    ∃ b, isMember m fuel S k = .ok b ∧ (b = true ↔ s k) := by
  obtain ⟨C, M, L, A, hL, _, hs, _, _⟩ := H
  have hg := get_spec A.rep fuel k (A.range k) (by have := A.len (index (cbOf m) S.tbl k); omega)
  rw [find_hit g.good A.rep] at hg
  have hl := A.look k
  rw [hs k]
  refine ⟨(M k).isSome, ?_, Iff.rfl⟩
  simp only [isMember, guard, hk, if_true, Outcome.ok_bind, hg]
  rw [hl]
  cases (C (index (cbOf m) S.tbl k)).find? fun x => (cbOf m).cmp x.2.key k <;> simp

theorem slice_upd_lt (C : Nat → List (Nat × Entry)) (i : Nat) (l) (k j : Nat) (h : i < j ∨ j + k ≤ i) : slice (upd C i l) k j = slice C k j := by
  induction k generalizing j with
  | zero => rfl
  | succ k ih =>
      rw [slice, slice, ih (j + 1) (by omega), upd_eq, if_neg (by omega)]

theorem slice_upd_perm (C : Nat → List (Nat × Entry)) (i : Nat) (x : Nat × Entry) (k j : Nat) (h1 : j ≤ i) (h2 : i < j + k) :
    (slice (upd C i (x :: C i)) k j).Perm (x.2 :: slice C k j) := by
  induction k generalizing j with
  | zero => omega
  | succ k ih =>
      rw [slice, slice]
      by_cases c : j = i
      · subst c
        rw [slice_upd_lt _ _ _ _ _ (by omega), upd_eq]
        simp
      · rw [upd_eq, if_neg c]
        refine ((ih (j + 1) (by omega) (by omega)).append_left _).trans ?_
        exact List.perm_middle

theorem insert_holds {m} (g : GoodMatch m) {alloc} (al : Allocator alloc) {S s n} (H : Holds m S s n) (fuel : Nat) (hf : n < fuel) (k : Key)
    (hk : k.2 ≤ 8) : ∃ r S', insert m alloc fuel S k = .ok (r, S') ∧ Holds m S' (fun k' => s k' ∨ m k k' = true) (n + 1) ∧
      (s k → r = 1 ∧ S' = S) ∧ (¬ s k → r = 0 ∧ S'.length = S.length + 1) := by
  obtain ⟨b, hb, hbs⟩ := isMember_holds g H fuel hf k hk
  obtain ⟨C, M, L, A, hL, hLn, hs, hlen, hkey⟩ := H
  rw [insert, hb]
  simp only [Outcome.ok_bind]
  by_cases c : s k
  · have : b = true := hbs.mpr c
    subst this
    refine ⟨1, S, by simp, ?_, fun _ => ⟨rfl, rfl⟩, fun h => absurd c h⟩
    refine ⟨C, M, L, A, by omega, by omega, ?_, hlen, hkey⟩
    intro k'
    rw [← hs]
    constructor
    · rintro (h | h)
      · exact h
      · have hm := holds_members g A hs hkey
        rw [hm.mem] at c ⊢
        obtain ⟨e, he, h1⟩ := c
        exact ⟨e, he, g.trans _ _ _ h1 h⟩
    · exact .inl
  · have : b = false := by cases b with
      | false => rfl
      | true => exact absurd (hbs.mp rfl) c
    subst this
    have hnone : M k = none := by
      rw [hs k] at c; simpa using c
    have hss := set_spec A.rep fuel k k.1 k.2 (alloc S.tbl) (A.range k) (by have := A.len (index (cbOf m) S.tbl k); omega)
    rw [find_hit g.good A.rep, A.nodup] at hss
    have hsome : ((C (index (cbOf m) S.tbl k)).find? fun x => (cbOf m).cmp x.2.key k).isSome = false := by
      have := A.look k
      rw [hnone] at this
      rw [Option.map_eq_none_iff.mp this.symm]; rfl
    rw [hsome] at hss
    obtain ⟨T', C', e1, _, A'⟩ := set_abs g.good A fuel (by omega) k k.1 k.2 (alloc S.tbl) (al S.tbl (exists_free A))
    rw [hss, hnone] at e1
    simp only [Bool.and_false, Bool.false_eq_true, if_false] at e1
    clear A' C'
    simp only [hss, Bool.and_false, Bool.false_eq_true, if_false, Outcome.ok_bind]
    refine ⟨0, _, rfl, ?_, fun h => absurd h c, fun _ => ⟨rfl, rfl⟩⟩
    have hperm := slice_upd_perm C (index (cbOf m) S.tbl k) (alloc S.tbl, ⟨k, k.1, k.2, (cbOf m).hash k⟩) S.tbl.num 0 (by omega) (by have := A.range k; omega)
    -- the abstract view of the pushed table
    have hnew := fun i => look_none g.good A k hnone (i := i)
    have A2 : Abs (cbOf m) (pushed S.tbl (index (cbOf m) S.tbl k) (alloc S.tbl) ⟨k, k.1, k.2, (cbOf m).hash k⟩)
        (upd C (index (cbOf m) S.tbl k) ((alloc S.tbl, ⟨k, k.1, k.2, (cbOf m).hash k⟩) :: C (index (cbOf m) S.tbl k))) (M.put m k (some k.1)) (L + 1) := by
      refine ⟨pushed_rep A.rep (index (cbOf m) S.tbl k) (alloc S.tbl) ⟨k, k.1, k.2, (cbOf m).hash k⟩ (al S.tbl (exists_free A)) rfl rfl (A.range k),
        pushed_live A.live _ _ _, ?_, ?_, ?_, A.range, A.nodup⟩
      · intro i
        rw [upd_eq]
        split
        · rw [List.pairwise_cons]
          refine ⟨fun y hy => ?_, A.dist _⟩
          have := hnew _ y hy
          cases hc : (cbOf m).cmp k y.2.key with
          | false => rfl
          | true => rw [g.good.symm _ _ hc] at this; cases this
        · exact A.dist i
      · intro k'
        have hidx : index (cbOf m) (pushed S.tbl (index (cbOf m) S.tbl k) (alloc S.tbl) ⟨k, k.1, k.2, (cbOf m).hash k⟩) k' = index (cbOf m) S.tbl k' := rfl
        rw [hidx, upd_eq, put_eq]
        by_cases hc : m k k'
        · rw [if_pos hc, if_pos (index_congr g.good S.tbl (g.good.symm _ _ hc))]
          have : (cbOf m).cmp k k' = true := hc
          simp [this]
        · rw [if_neg hc]
          split
          · rename_i he
            rw [List.find?_cons]
            have : (cbOf m).cmp k k' = false := by simpa [cbOf] using hc
            simp only [this]
            rw [A.look k', he]
          · exact A.look k'
      · intro i
        rw [upd_eq]
        have := A.len i
        split
        · subst_vars; simp; omega
        · omega
    refine ⟨_, _, _, A2, by omega, ?_, ?_, ?_, ?_⟩
    · have := hperm.length_eq
      show (slice _ S.tbl.num 0).length ≤ n + 1
      simp at this; omega
    · intro k'
      rw [put_eq]
      show (s k' ∨ m k k' = true) ↔ _
      rw [hs k']
      by_cases hc : m k k'
      · simp [hc]
      · simp [hc]
    · have := hperm.length_eq
      show S.length + 1 = ((slice _ S.tbl.num 0).length : Int)
      rw [this, hlen]; simp
    · intro e he
      have := hperm.mem_iff.mp he
      rcases List.mem_cons.mp this with rfl | h
      · exact ⟨rfl, hk⟩
      · exact hkey e h

theorem holds_mono {m S s n n'} (H : Holds m S s n) (h : n ≤ n') : Holds m S s n' := by
  obtain ⟨C, M, L, A, hL, hLn, r⟩ := H
  exact ⟨C, M, L, A, by omega, by omega, r⟩

theorem holds_congr {m S s s' n} (H : Holds m S s n) (h : ∀ k, s k ↔ s' k) : Holds m S s' n := by
  obtain ⟨C, M, L, A, hL, hLn, hs, r⟩ := H
  exact ⟨C, M, L, A, hL, hLn, fun k => by rw [← h, hs], r⟩

/-- What `Holds` says in set terms: some list of representatives enumerates the members, its length is `length`, and traversal
visits exactly these. -/
theorem holds_spec {m} (g : GoodMatch m) {S s n} (H : Holds m S s n) : ∃ es, Members m es s ∧ S.length = es.length ∧ es.length ≤ n ∧ (∀ e ∈ es, e.2 ≤ 8) ∧
    ∀ fuel > n, ∀ (σ : Type) (it : Entry → σ → Outcome (Int × σ)) (x : σ), (∀ e e' s, keyOf e = keyOf e' → it e s = it e' s) →
      Table.forEach it fuel S.tbl x = visit it (es.map fun k => ⟨k, k.1, k.2, 0⟩) x := by
  obtain ⟨C, M, L, A, hL, hLn, hs, hlen, hkey⟩ := H
  refine ⟨_, holds_members g A hs hkey, by simpa using hlen, by simpa using hLn, ?_, ?_⟩
  · intro e he
    obtain ⟨e', he', rfl⟩ := List.mem_map.mp he
    have := hkey e' he'
    rw [← this.1]; exact this.2
  · intro fuel hf σ it x hit
    rw [Table.forEach, eachLoop_spec it S.tbl C fuel S.tbl.num 0 x A.rep.chain (fun j => by have := A.len j; omega) (by omega)]
    have : ∀ (l : List Entry) (x : σ), visit it l x = visit it ((l.map keyOf).map fun k => ⟨k, k.1, k.2, 0⟩) x := by
      intro l
      induction l with
      | nil => intro x; rfl
      | cons e es ih =>
          intro x
          simp only [List.map_cons, visit]
          rw [hit e ⟨keyOf e, (keyOf e).1, (keyOf e).2, 0⟩ x rfl]
          simp only [ih]
    exact this _ x

/-! ## C20 -/

/-- Insertions and queries. -/
inductive SOp where
  | insert (k : Key)
  | member (k : Key)

/-- The code; results as numbers. -/
def execS (m : Key → Key → Bool) (alloc : Tbl → Nat) (fuel : Nat) (S : ZSet) : SOp → Outcome (Int × ZSet)
  | .insert k => insert m alloc fuel S k
  | .member k => do
      let b ← isMember m fuel S k
      pure (if b then 1 else 0, S)

def runS (m : Key → Key → Bool) (alloc : Tbl → Nat) (fuel : Nat) : ZSet → List SOp → Outcome (List Int × ZSet)
  | S, [] => .ok ([], S)
  | S, op :: ops => do
      let (r, S) ← execS m alloc fuel S op
      let (rs, S) ← runS m alloc fuel S ops
      pure (r :: rs, S)

/-- Reference: a list of distinct members. Insert reports 1 if the element was present. -/
def specS (m : Key → Key → Bool) : List Key → List SOp → List Int × List Key
  | es, [] => ([], es)
  | es, .insert k :: ops =>
      if es.any (m · k) then (1 :: (specS m es ops).1, (specS m es ops).2) else (0 :: (specS m (k :: es) ops).1, (specS m (k :: es) ops).2)
  | es, .member k :: ops => ((if es.any (m · k) then 1 else 0) :: (specS m es ops).1, (specS m es ops).2)

def opKey : SOp → Key
  | .insert k => k
  | .member k => k

theorem runS_spec {m} (g : GoodMatch m) {alloc} (al : Allocator alloc) (ops : List SOp) (ho : ∀ op ∈ ops, (opKey op).2 ≤ 8) {S n} (es : List Key)
    (H : Holds m S (fun k => ∃ e ∈ es, m e k = true) n) (hl : S.length = es.length) (fuel : Nat) (hf : n + ops.length < fuel) :
    ∃ S', runS m alloc fuel S ops = .ok ((specS m es ops).1, S') ∧ Holds m S' (fun k => ∃ e ∈ (specS m es ops).2, m e k = true) (n + ops.length) ∧
      S'.length = (specS m es ops).2.length := by
  induction ops generalizing S n es with
  | nil => exact ⟨S, rfl, H, hl⟩
  | cons op ops ih =>
      have hop := ho op (by simp)
      have ho' : ∀ op ∈ ops, (opKey op).2 ≤ 8 := fun o h => ho o (by simp [h])
      have hany : ∀ k, es.any (m · k) = true ↔ ∃ e ∈ es, m e k = true := fun k => by simp
      cases op with
      | insert k =>
          obtain ⟨r, S1, e1, H1, h1, h2⟩ := insert_holds g al H fuel (by omega) k hop
          by_cases c : es.any (m · k) = true
          · obtain ⟨rfl, rfl⟩ := h1 ((hany k).mp c)
            obtain ⟨S', e2, H2, hl2⟩ := ih ho' es (holds_mono H (Nat.le_succ n)) hl (by simp at hf; omega)
            refine ⟨S', ?_, ?_, ?_⟩
            · simp only [runS, execS, e1, Outcome.ok_bind, e2, Outcome.pure_eq, specS, if_pos c]
            · simp only [specS, if_pos c]
              exact holds_mono H2 (by simp; omega)
            · simp only [specS, if_pos c]; exact hl2
          · obtain ⟨rfl, hl1⟩ := h2 fun h => c ((hany k).mpr h)
            obtain ⟨S', e2, H2, hl2⟩ := ih ho' (k :: es) (holds_congr H1 fun k' => by simp; exact Or.comm) (by rw [hl1, hl]; simp) (by simp at hf; omega)
            refine ⟨S', ?_, ?_, ?_⟩
            · simp only [runS, execS, e1, Outcome.ok_bind, e2, Outcome.pure_eq, specS, if_neg c]
            · simp only [specS, if_neg c]
              exact holds_mono H2 (by simp; omega)
            · simp only [specS, if_neg c]; exact hl2
      | member k =>
          obtain ⟨b, e1, hb⟩ := isMember_holds g H fuel (by omega) k hop
          obtain ⟨S', e2, H2, hl2⟩ := ih ho' es H hl (by simp at hf; omega)
          refine ⟨S', ?_, ?_, ?_⟩
          · simp only [runS, execS, e1, Outcome.ok_bind, e2, Outcome.pure_eq, specS]
            by_cases c : es.any (m · k) = true
            · have : b = true := hb.mpr ((hany k).mp c)
              simp [this, c]
            · have : b = false := by
                cases b with
                | false => rfl
                | true => exact absurd ((hany k).mpr (hb.mp rfl)) c
              simp [this, c]
          · exact holds_mono H2 (by simp)
          · exact hl2

/-- **C20** Every history of insertions and membership tests on a fresh set answers as a finite set does, and afterwards the set
holds exactly the inserted elements and `length` is their number. -/
theorem set_history_partial (m : Key → Key → Bool) (g : GoodMatch m) (alloc : Tbl → Nat) (al : Allocator alloc) (ops : List SOp)
    (ho : ∀ op ∈ ops, (opKey op).2 ≤ 8) :
    ∃ n, ∀ fuel > n, ∃ S, runS m alloc fuel init ops = .ok ((specS m [] ops).1, S) ∧ Holds m S (fun k => ∃ e ∈ (specS m [] ops).2, m e k = true) n ∧
      S.length = (specS m [] ops).2.length := by
  refine ⟨0 + ops.length, fun fuel hf => ?_⟩
  exact runS_spec g al ops ho [] (holds_congr (init_holds m) fun k => by simp) rfl fuel hf

/-- Inserting distinct new elements one after the other succeeds for all of them. -/
theorem visit_insert {m} (g : GoodMatch m) {alloc} (al : Allocator alloc) (es : List Key) (h8 : ∀ e ∈ es, e.2 ≤ 8)
    (hd : es.Pairwise fun x y => m x y = false) {D d n} (H : Holds m D d n) (hnew : ∀ e ∈ es, ¬ d e) (fuel : Nat) (hf : n + es.length < fuel) :
    ∃ D', visit (unionCb m alloc fuel) (es.map fun k => ⟨k, k.1, k.2, 0⟩) D = .ok (0, D') ∧
      Holds m D' (fun k => d k ∨ ∃ e ∈ es, m e k = true) (n + es.length) := by
  induction es generalizing D d n with
  | nil => exact ⟨D, rfl, by simpa using H⟩
  | cons e es ih =>
      rw [List.pairwise_cons] at hd
      obtain ⟨r, D1, e1, H1, _, h2⟩ := insert_holds g al H fuel (by omega) e (h8 e (by simp))
      obtain ⟨rfl, _⟩ := h2 (hnew e (by simp))
      obtain ⟨D2, e2, H2⟩ := ih (fun x hx => h8 x (by simp [hx])) hd.2 H1 (fun x hx hc => by
        rcases hc with hc | hc
        · exact hnew x (by simp [hx]) hc
        · have := hd.1 x hx; rw [hc] at this; cases this) (by simp at hf; omega)
      refine ⟨D2, ?_, ?_⟩
      · have e1' : unionCb m alloc fuel ⟨e, e.1, e.2, 0⟩ D = .ok (0, D1) := e1
        simp only [List.map_cons, visit, e1', Outcome.ok_bind]
        simpa using e2
      · have := holds_congr H2 (s' := fun k => d k ∨ ∃ x ∈ e :: es, m x k = true) fun k => by simp [or_assoc]
        exact holds_mono this (by simp; omega)

/-- A filtered traversal inserts the elements that pass the filter. -/
theorem visit_filter {m} (g : GoodMatch m) {alloc} (al : Allocator alloc) (fuel : Nat) (it : Entry → ZSet → Outcome (Int × ZSet)) (p : Key → Prop) [DecidablePred p]
    (es : List Key) (hit : ∀ e ∈ es, ∀ D, it ⟨e, e.1, e.2, 0⟩ D = if p e then unionCb m alloc fuel ⟨e, e.1, e.2, 0⟩ D else .ok (0, D)) (D : ZSet) :
    visit it (es.map fun k => ⟨k, k.1, k.2, 0⟩) D = visit (unionCb m alloc fuel) ((es.filter fun k => decide (p k)).map fun k => ⟨k, k.1, k.2, 0⟩) D := by
  induction es generalizing D with
  | nil => rfl
  | cons e es ih =>
      have ih' := fun D => ih (fun e he => hit e (by simp [he])) D
      rw [List.map_cons, visit, hit e (by simp), List.filter_cons]
      by_cases c : p e
      · simp only [c, if_true, decide_true, List.map_cons, visit]
        simp only [ih']
      · simp only [c, if_false, decide_false, Bool.false_eq_true, Outcome.ok_bind]
        simpa using ih' D

theorem members_congr {m es s} (g : GoodMatch m) (M : Members m es s) (k k' : Key) (h : m k k' = true) : s k ↔ s k' := by
  rw [M.mem, M.mem]
  constructor
  · rintro ⟨e, he, h1⟩; exact ⟨e, he, g.trans _ _ _ h1 h⟩
  · rintro ⟨e, he, h1⟩; exact ⟨e, he, g.trans _ _ _ h1 (g.symm _ _ h)⟩

/-- **C20** `zt_set_intersection` into an empty set yields exactly the common elements (and returns 0). -/
theorem intersection_exact (m : Key → Key → Bool) (g : GoodMatch m) (alloc : Tbl → Nat) (al : Allocator alloc) (I S1 S2 : ZSet) (s1 s2 : Key → Prop) (n : Nat)
    (H1 : Holds m S1 s1 n) (H2 : Holds m S2 s2 n) (HI : Holds m I (fun _ => False) n) :
    ∃ n', ∀ fuel > n', ∃ I', intersection m alloc fuel I S1 S2 = .ok (0, I') ∧ Holds m I' (fun k => s1 k ∧ s2 k) n' := by
  classical
  obtain ⟨es, hM, hlen, hln, h8, hv⟩ := holds_spec g H1
  refine ⟨n + n, fun fuel hf => ?_⟩
  have hcb : ∀ e ∈ es, ∀ D, intersectCb m alloc fuel S2 ⟨e, e.1, e.2, 0⟩ D = if s2 e then unionCb m alloc fuel ⟨e, e.1, e.2, 0⟩ D else .ok (0, D) := by
    intro e he D
    obtain ⟨b, hb, hbs⟩ := isMember_holds g H2 fuel (by omega) e (h8 e he)
    simp only [intersectCb, unionCb, hb, Outcome.ok_bind]
    by_cases c : s2 e
    · simp [c, hbs.mpr c]
    · have : b = false := by
        cases b with
        | false => rfl
        | true => exact absurd (hbs.mp rfl) c
      simp [c, this]
  rw [intersection, hv fuel (by omega) _ _ _ (fun e e' s h => by
    simp only [keyOf, Prod.mk.injEq] at h; simp only [intersectCb, h.1, h.2]), visit_filter g al fuel _ s2 es hcb]
  obtain ⟨I', e, HI'⟩ := visit_insert g al (es.filter fun k => decide (s2 k)) (fun e he => h8 e (List.mem_filter.mp he).1) (hM.distinct.filter _) HI
    (fun _ _ h => h) fuel (by have := List.length_filter_le (fun k => decide (s2 k)) es; omega)
  refine ⟨I', e, holds_mono (holds_congr HI' fun k => ?_) (by have := List.length_filter_le (fun k => decide (s2 k)) es; omega)⟩
  obtain ⟨es2, hM2, _⟩ := holds_spec g H2
  simp only [false_or, List.mem_filter, decide_eq_true_eq]
  rw [hM.mem]
  constructor
  · rintro ⟨e, ⟨he, h2⟩, hc⟩
    exact ⟨⟨e, he, hc⟩, (members_congr g hM2 _ _ hc).mp h2⟩
  · rintro ⟨⟨e, he, hc⟩, h2⟩
    exact ⟨e, ⟨he, (members_congr g hM2 _ _ hc).mpr h2⟩, hc⟩

/-- **C20** `zt_set_difference` into an empty set yields exactly the elements of the first set that are not in the second. -/
theorem difference_exact (m : Key → Key → Bool) (g : GoodMatch m) (alloc : Tbl → Nat) (al : Allocator alloc) (D S1 S2 : ZSet) (s1 s2 : Key → Prop) (n : Nat)
    (H1 : Holds m S1 s1 n) (H2 : Holds m S2 s2 n) (HD : Holds m D (fun _ => False) n) :
    ∃ n', ∀ fuel > n', ∃ D', difference m alloc fuel D S1 S2 = .ok (0, D') ∧ Holds m D' (fun k => s1 k ∧ ¬ s2 k) n' := by
  classical
  obtain ⟨es, hM, hlen, hln, h8, hv⟩ := holds_spec g H1
  refine ⟨n + n, fun fuel hf => ?_⟩
  have hcb : ∀ e ∈ es, ∀ D, differenceCb m alloc fuel S2 ⟨e, e.1, e.2, 0⟩ D = if ¬ s2 e then unionCb m alloc fuel ⟨e, e.1, e.2, 0⟩ D else .ok (0, D) := by
    intro e he D
    obtain ⟨b, hb, hbs⟩ := isMember_holds g H2 fuel (by omega) e (h8 e he)
    simp only [differenceCb, unionCb, hb, Outcome.ok_bind]
    by_cases c : s2 e
    · simp [c, hbs.mpr c]
    · have : b = false := by
        cases b with
        | false => rfl
        | true => exact absurd (hbs.mp rfl) c
      simp [c, this]
  rw [difference, hv fuel (by omega) _ _ _ (fun e e' s h => by
    simp only [keyOf, Prod.mk.injEq] at h; simp only [differenceCb, h.1, h.2]), visit_filter g al fuel _ (fun k => ¬ s2 k) es hcb]
  obtain ⟨D', e, HD'⟩ := visit_insert g al (es.filter fun k => decide (¬ s2 k)) (fun e he => h8 e (List.mem_filter.mp he).1) (hM.distinct.filter _) HD
    (fun _ _ h => h) fuel (by have := List.length_filter_le (fun k => decide (¬ s2 k)) es; omega)
  refine ⟨D', e, holds_mono (holds_congr HD' fun k => ?_) (by have := List.length_filter_le (fun k => decide (¬ s2 k)) es; omega)⟩
  obtain ⟨es2, hM2, _⟩ := holds_spec g H2
  simp only [false_or, List.mem_filter, decide_eq_true_eq]
  rw [hM.mem]
  constructor
  · rintro ⟨e, ⟨he, h2⟩, hc⟩
    exact ⟨⟨e, he, hc⟩, fun h => h2 ((members_congr g hM2 _ _ hc).mpr h)⟩
  · rintro ⟨⟨e, he, hc⟩, h2⟩
    exact ⟨e, ⟨he, fun h => h2 ((members_congr g hM2 _ _ hc).mp h)⟩, hc⟩

/-- **C20** `zt_set_union` into an empty set yields the union when the two sets have no common element. Missing: sets with a common
element, where the code stops early (`union_stops_early`). -/
theorem union_disjoint_partial (m : Key → Key → Bool) (g : GoodMatch m) (alloc : Tbl → Nat) (al : Allocator alloc) (U S1 S2 : ZSet) (s1 s2 : Key → Prop) (n : Nat)
    (H1 : Holds m S1 s1 n) (H2 : Holds m S2 s2 n) (HU : Holds m U (fun _ => False) n) (hdis : ∀ k, ¬ (s1 k ∧ s2 k)) :
    ∃ n', ∀ fuel > n', ∃ U', union m alloc fuel U S1 S2 = .ok (0, U') ∧ Holds m U' (fun k => s1 k ∨ s2 k) n' := by
  obtain ⟨es1, hM1, _, hl1, h81, hv1⟩ := holds_spec g H1
  obtain ⟨es2, hM2, _, hl2, h82, hv2⟩ := holds_spec g H2
  refine ⟨n + n + n, fun fuel hf => ?_⟩
  have hcongr : ∀ (e e' : Entry) (s : ZSet), keyOf e = keyOf e' → unionCb m alloc fuel e s = unionCb m alloc fuel e' s := fun e e' s h => by
    simp only [keyOf, Prod.mk.injEq] at h; simp only [unionCb, h.1, h.2]
  obtain ⟨U1, e1, HU1⟩ := visit_insert g al es1 h81 hM1.distinct HU (fun _ _ h => h) fuel (by omega)
  have HU1' : Holds m U1 s1 (n + es1.length) := holds_congr HU1 fun k => by rw [hM1.mem]; simp
  obtain ⟨U2, e2, HU2⟩ := visit_insert g al es2 h82 hM2.distinct HU1' (fun e he h => hdis e ⟨h, (hM2.mem e).mpr ⟨e, he, g.refl e⟩⟩) fuel (by omega)
  refine ⟨U2, ?_, holds_mono (holds_congr HU2 fun k => by rw [hM2.mem]) (by omega)⟩
  rw [union, hv1 fuel (by omega) _ _ _ hcongr, e1]
  simp only [Outcome.ok_bind]
  rw [hv2 fuel (by omega) _ _ _ hcongr, e2]
  rfl

theorem visit_union_stop {m} (g : GoodMatch m) {alloc} (al : Allocator alloc) (c : Key) (post : List Key) (hc8 : c.2 ≤ 8) {D d n} (H : Holds m D d n) (hc : d c)
    (fuel : Nat) (hf : n < fuel) : visit (unionCb m alloc fuel) ((c :: post).map fun k => ⟨k, k.1, k.2, 0⟩) D = .ok (1, D) := by
  obtain ⟨r, D1, e1, _, h1, _⟩ := insert_holds g al H fuel hf c hc8
  obtain ⟨rfl, rfl⟩ := h1 hc
  have e1' : unionCb m alloc fuel ⟨c, c.1, c.2, 0⟩ D1 = .ok (1, D1) := e1
  simp only [List.map_cons, visit, e1', Outcome.ok_bind]
  rfl

/-- Violation of C20: for every set with two different elements there is a one-element subset of it such that the union of the two,
computed into an empty set, is **not** their union: one of the elements is missing. (The element first visited is already present; its
insertion returns 1, which stops the traversal.) -/
theorem union_stops_early (m : Key → Key → Bool) (g : GoodMatch m) (alloc : Tbl → Nat) (al : Allocator alloc) (S2 : ZSet) (s2 : Key → Prop) (n : Nat)
    (H2 : Holds m S2 s2 n) (x y : Key) (hx : s2 x) (hy : s2 y) (hxy : m x y = false) :
    ∃ c, s2 c ∧ ∀ (U S1 : ZSet) (n1 : Nat), Holds m S1 (fun k => m c k = true) n1 → Holds m U (fun _ => False) n1 →
      ∃ n', ∀ fuel > n', ∃ U', union m alloc fuel U S1 S2 = .ok (0, U') ∧ Holds m U' (fun k => m c k = true) n' ∧ ∃ k, s2 k ∧ ¬ m c k = true := by
  obtain ⟨es2, hM2, _, hl2, h82, hv2⟩ := holds_spec g H2
  match es2, hM2, h82, hl2, hv2 with
  | [], hM2, _, _, _ => exact absurd ((hM2.mem x).mp hx) (by simp)
  | c :: post, hM2, h82, hl2, hv2 =>
    have hc : s2 c := (hM2.mem c).mpr ⟨c, by simp, g.refl c⟩
    refine ⟨c, hc, fun U S1 n1 H1 HU => ?_⟩
    obtain ⟨es1, hM1, _, hl1, h81, hv1⟩ := holds_spec g H1
    refine ⟨n + n1 + n1, fun fuel hf => ?_⟩
    have hcongr : ∀ (e e' : Entry) (s : ZSet), keyOf e = keyOf e' → unionCb m alloc fuel e s = unionCb m alloc fuel e' s := fun e e' s h => by
      simp only [keyOf, Prod.mk.injEq] at h; simp only [unionCb, h.1, h.2]
    obtain ⟨U1, e1, HU1⟩ := visit_insert g al es1 h81 hM1.distinct HU (fun _ _ h => h) fuel (by omega)
    have HU1' : Holds m U1 (fun k => m c k = true) (n1 + es1.length) := holds_congr HU1 fun k => by
      have := hM1.mem k
      simpa using this.symm
    refine ⟨U1, ?_, holds_mono HU1' (by omega), ?_⟩
    · rw [union, hv1 fuel (by omega) _ _ _ hcongr, e1]
      simp only [Outcome.ok_bind]
      rw [hv2 fuel (by omega) _ _ _ hcongr, visit_union_stop g al c post (h82 c (by simp)) HU1' (g.refl c) fuel (by omega)]
      rfl
    · by_cases hcx : m c x = true
      · refine ⟨y, hy, fun hcy => ?_⟩
        rw [g.trans _ _ _ (g.symm _ _ hcx) hcy] at hxy; cases hxy
      · exact ⟨x, hx, hcx⟩

theorem visit_subset {m} (g : GoodMatch m) {S2 s2 n} (H2 : Holds m S2 s2 n) (fuel : Nat) (hf : n < fuel) (es : List Key) (h8 : ∀ e ∈ es, e.2 ≤ 8) :
    ∃ r, visit (isSubsetCb m fuel S2) (es.map fun k => ⟨k, k.1, k.2, 0⟩) () = .ok (r, ()) ∧ (r = 0 ↔ ∀ e ∈ es, s2 e) := by
  induction es with
  | nil => exact ⟨0, rfl, by simp⟩
  | cons e es ih =>
      obtain ⟨b, hb, hbs⟩ := isMember_holds g H2 fuel hf e (h8 e (by simp))
      obtain ⟨r, hr, hr'⟩ := ih fun x hx => h8 x (by simp [hx])
      by_cases c : s2 e
      · have : b = true := hbs.mpr c
        subst this
        refine ⟨r, ?_, by simp [hr', c]⟩
        simp only [List.map_cons, visit, isSubsetCb, hb, Outcome.ok_bind, if_true, Outcome.pure_eq]
        simpa using hr
      · have : b = false := by
          cases b with
          | false => rfl
          | true => exact absurd (hbs.mp rfl) c
        subst this
        refine ⟨1, ?_, by simp [c]⟩
        simp only [List.map_cons, visit, isSubsetCb, hb, Outcome.ok_bind, Outcome.pure_eq]
        rfl

/-- Distinct elements that all have an equal partner in `l2` are at most as many. -/
theorem pigeon {m} (g : GoodMatch m) (l1 l2 : List Key) (hd : l1.Pairwise fun x y => m x y = false) (h : ∀ e ∈ l1, ∃ f ∈ l2, m f e = true) :
    l1.length ≤ l2.length := by
  induction l1 generalizing l2 with
  | nil => simp
  | cons e l1 ih =>
      rw [List.pairwise_cons] at hd
      obtain ⟨f, hf, hfe⟩ := h e (by simp)
      obtain ⟨a, b, rfl⟩ := List.append_of_mem hf
      have := ih (a ++ b) hd.2 fun e' he' => by
        obtain ⟨f', hf', hfe'⟩ := h e' (by simp [he'])
        refine ⟨f', ?_, hfe'⟩
        simp only [List.mem_append, List.mem_cons] at hf' ⊢
        rcases hf' with h | rfl | h
        · exact .inl h
        · have := hd.1 e' he'
          rw [g.trans _ _ _ (g.symm _ _ hfe) hfe'] at this; cases this
        · exact .inr h
      simp at this ⊢; omega

/-- **C20** `zt_set_is_subset` decides inclusion. -/
theorem isSubset_iff (m : Key → Key → Bool) (g : GoodMatch m) (S1 S2 : ZSet) (s1 s2 : Key → Prop) (n : Nat) (H1 : Holds m S1 s1 n) (H2 : Holds m S2 s2 n)
    (fuel : Nat) (hf : n < fuel) : ∃ b, isSubset m fuel S1 S2 = .ok b ∧ (b = true ↔ ∀ k, s1 k → s2 k) := by
  obtain ⟨es1, hM1, hlen1, _, h81, hv1⟩ := holds_spec g H1
  obtain ⟨es2, hM2, hlen2, _, h82, hv2⟩ := holds_spec g H2
  have hsub : (∀ e ∈ es1, s2 e) ↔ ∀ k, s1 k → s2 k := by
    constructor
    · intro h k hk
      obtain ⟨e, he, hc⟩ := (hM1.mem k).mp hk
      exact (members_congr g hM2 _ _ hc).mp (h e he)
    · intro h e he; exact h e ((hM1.mem e).mpr ⟨e, he, g.refl e⟩)
  rw [isSubset]
  by_cases c : S1.length > S2.length
  · refine ⟨false, by rw [if_pos c], ?_⟩
    simp only [Bool.false_eq_true, false_iff]
    intro h
    have := pigeon g es1 es2 hM1.distinct fun e he => (hM2.mem e).mp (hsub.mpr h e he)
    omega
  · obtain ⟨r, hr, hr'⟩ := visit_subset g H2 fuel hf es1 h81
    refine ⟨decide (r = 0), ?_, by rw [← hsub, ← hr']; simp⟩
    rw [if_neg c, hv1 fuel hf _ _ _ (fun e e' s h => by simp only [keyOf, Prod.mk.injEq] at h; simp only [isSubsetCb, h.1, h.2]), hr]
    rfl

/-- **C20** `zt_set_is_equal` decides equality. -/
theorem isEqual_iff (m : Key → Key → Bool) (g : GoodMatch m) (S1 S2 : ZSet) (s1 s2 : Key → Prop) (n : Nat) (H1 : Holds m S1 s1 n) (H2 : Holds m S2 s2 n)
    (fuel : Nat) (hf : n < fuel) : ∃ b, isEqual m fuel S1 S2 = .ok b ∧ (b = true ↔ ∀ k, s1 k ↔ s2 k) := by
  obtain ⟨es1, hM1, hlen1, _, h81, hv1⟩ := holds_spec g H1
  obtain ⟨es2, hM2, hlen2, _, h82, hv2⟩ := holds_spec g H2
  have hsub : (∀ e ∈ es1, s2 e) ↔ ∀ k, s1 k → s2 k := by
    constructor
    · intro h k hk
      obtain ⟨e, he, hc⟩ := (hM1.mem k).mp hk
      exact (members_congr g hM2 _ _ hc).mp (h e he)
    · intro h e he; exact h e ((hM1.mem e).mpr ⟨e, he, g.refl e⟩)
  rw [isEqual]
  by_cases c : S1.length ≠ S2.length
  · refine ⟨false, by rw [if_pos c], ?_⟩
    simp only [Bool.false_eq_true, false_iff]
    intro h
    have h1 := pigeon g es1 es2 hM1.distinct fun e he => (hM2.mem e).mp ((h e).mp ((hM1.mem e).mpr ⟨e, he, g.refl e⟩))
    have h2 := pigeon g es2 es1 hM2.distinct fun e he => (hM1.mem e).mp ((h e).mpr ((hM2.mem e).mpr ⟨e, he, g.refl e⟩))
    omega
  · obtain ⟨r, hr, hr'⟩ := visit_subset g H2 fuel hf es1 h81
    refine ⟨decide (r = 0), ?_, ?_⟩
    · rw [if_neg c, hv1 fuel hf _ _ _ (fun e e' s h => by simp only [keyOf, Prod.mk.injEq] at h; simp only [isSubsetCb, h.1, h.2]), hr]
      rfl
    · rw [decide_eq_true_eq, hr', hsub]
      constructor
      · intro h k
        refine ⟨h k, fun hk => Classical.byContradiction fun hn => ?_⟩
        have := pigeon g (k :: es1) es2 (List.pairwise_cons.mpr ⟨fun e he => by
            cases hc : m k e with
            | false => rfl
            | true => exact absurd ((hM1.mem k).mpr ⟨e, he, g.symm _ _ hc⟩) hn, hM1.distinct⟩) fun e he => by
          rcases List.mem_cons.mp he with rfl | he
          · exact (hM2.mem _).mp hk
          · exact (hM2.mem e).mp (hsub.mpr h e he)
        simp at this
        omega
      · intro h k; exact (h k).mp

/-- Violation of C20: with `zt_table_compare_int`, removing an element removes nothing (the code looks it up with length 0), sets
the caller's pointer to NULL and still decrements `length`; holds for every set of elements of nonzero length. -/
theorem remove_removes_nothing (S : ZSet) (s : Key → Prop) (n : Nat) (H : Holds matchInt S s n) (hl : ∀ k, s k → k.2 ≠ 0) (data : Nat)
    (fuel : Nat) (hf : n < fuel) : remove matchInt fuel S data = .ok (0, { S with length := S.length - 1 }) := by
  obtain ⟨C, M, L, A, hL, hLn, hs, hlen, hkey⟩ := H
  have g := matchInt_good
  have hmiss : ∀ x ∈ C (index (cbOf matchInt) S.tbl (data, 0)), hit (cbOf matchInt) x.2 (data, 0) = false := by
    intro x hx
    rw [hit_eq A.rep g.good.hash hx]
    cases hc : (cbOf matchInt).cmp x.2.key (data, 0) with
    | false => rfl
    | true =>
        have hi := (A.rep.hash _ x hx).2
        have hmem : x.2 ∈ slice C S.tbl.num 0 := (mem_slice _ _ _ _).mpr ⟨_, by omega, by omega, x.1, hx⟩
        have hsx : s x.2.key := by
          rw [(holds_members g A hs hkey).mem]
          exact ⟨keyOf x.2, List.mem_map.mpr ⟨_, hmem, rfl⟩, by rw [← (hkey _ hmem).1]; exact g.refl _⟩
        have h0 := hl _ hsx
        have hc' : matchInt x.2.key (data, 0) = true := hc
        simp only [matchInt, decide_eq_true_eq] at hc'
        exact absurd hc'.1 h0
  rw [remove, del_miss A.rep fuel (data, 0) (A.range _) hmiss (by have := A.len (index (cbOf matchInt) S.tbl (data, 0)); omega)]
  rfl

/-- **C20** `zt_set_for_each` visits the data pointer of every member exactly once. -/
theorem for_each_members (m : Key → Key → Bool) (g : GoodMatch m) (S : ZSet) (s : Key → Prop) (n : Nat) (H : Holds m S s n) (fuel : Nat) (hf : n < fuel) :
    ∃ es, Members m es s ∧ forEach (fun d (acc : List Nat) => .ok (0, acc ++ [d])) fuel S [] = .ok (0, es.map (·.1)) := by
  obtain ⟨es, hM, _, _, _, hv⟩ := holds_spec g H
  refine ⟨es, hM, ?_⟩
  rw [forEach, hv fuel hf _ _ _ (fun e e' s h => by simp only [keyOf, Prod.mk.injEq] at h; simp only [h.1])]
  have : ∀ (l : List Key) (acc : List Nat), visit (fun e (s : List Nat) => .ok (0, s ++ [e.datum])) (l.map fun k => ⟨k, k.1, k.2, 0⟩) acc = .ok (0, acc ++ l.map (·.1)) := by
    intro l
    induction l with
    | nil => intro acc; simp [visit]
    | cons x xs ih => intro acc; simp only [List.map_cons, visit, Outcome.ok_bind, ne_eq, not_true, if_false, ih]; simp
  simpa using this es []

/-- Sets built from elements at addresses 1, 2 and 2, 3: the theorems above apply to them (here: the sets exist). -/
example (alloc : Tbl → Nat) (al : Allocator alloc) : ∃ n, ∀ fuel > n, ∃ S, runS matchInt alloc fuel init [.insert (1, 8), .insert (2, 8), .insert (1, 8), .member (2, 8)] =
    .ok ([0, 0, 1, 1], S) := by
  obtain ⟨n, hn⟩ := set_history_partial matchInt matchInt_good alloc al [.insert (1, 8), .insert (2, 8), .insert (1, 8), .member (2, 8)] (by simp [opKey])
  refine ⟨n, fun fuel hf => ?_⟩
  obtain ⟨S, h, _⟩ := hn fuel hf
  have : (specS matchInt [] [.insert (1, 8), .insert (2, 8), .insert (1, 8), .member (2, 8)]).1 = [0, 0, 1, 1] := by decide
  exact ⟨S, by rw [h, this]⟩

end ZT.Set
