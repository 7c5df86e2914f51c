import Verif.Table.ProcInv

namespace ZT.Table.Proc

open MemPool (Mem Alloc Hist Client)

theorem countP_erase {p : Nat × Nat → Bool} {l : List (Nat × Nat)} {a : Nat × Nat} (h : a ∈ l) : (l.erase a).countP p + (if p a then 1 else 0) = l.countP p := by
  have := (List.perm_cons_erase h).countP_eq p
  rw [List.countP_cons] at this
  exact this.symm

/-- zt_table_del -/
theorem del_inv {al : Alloc} (G : MemPool.Good al) {w : World} {c : Client} (I : Inv al w c) {pre post : List Rec} {x : Rec} (hw : w.tabs = pre ++ x :: post) (k : Key) :
    ∃ (r : Ret) (t' : Tab) (H' : Nat → Option Node) (M' : Mem) (c' : Client), Runs (delT x.t k w.H w.M) (r, t', H', M') ∧
      (x.s.step x.t.cb x.t.dup x.t.ix (.del k)).1 = .ret r ∧
      Inv al { w with tabs := pre ++ ⟨t', (x.s.step x.t.cb x.t.dup x.t.ix (.del k)).2, if r.enoent then x.n else x.n - 1⟩ :: post, H := H', M := M' } c' := by
  have Lx := I.mem hw
  obtain ⟨C, Z, L, A⟩ := Lx.abs
  have hi : x.t.ix k < x.t.num := A.range k
  obtain ⟨T', C', Z', e1, e2, e3, e4, A'⟩ := del_x A (L + 1) (by omega) k (fun _ => 0)
  have hdup : (view x.t (own c x.t.pool w.H)).dup = x.t.dup := rfl
  have hix : index x.t.cb (view x.t (own c x.t.pool w.H)) = x.t.ix := rfl
  rw [hdup, hix] at e1 A'
  rw [exec] at e1
  obtain ⟨⟨r, T1⟩, e5, h⟩ := Outcome.bind_eq_ok.1 e1
  simp only [Outcome.pure_eq, Outcome.ok.injEq, Prod.mk.injEq] at h
  obtain ⟨hr, rfl⟩ := h
  clear e1
  rw [del] at e5
  obtain ⟨nn, en, e1⟩ := Outcome.bind_eq_ok.1 e5
  have hnn : nn = x.t.buckets (x.t.ix k) := by
    have : bucket (view x.t (own c x.t.pool w.H)) (x.t.ix k) = .ok (x.t.buckets (x.t.ix k)) := if_pos hi
    rw [hix, this] at en; cases en; rfl
  rw [hix] at e1
  subst hnn
  have hfind : ∀ fuel, L < fuel → find x.t.cb (view x.t (own c x.t.pool w.H)) k fuel (x.t.buckets (x.t.ix k)) = .ok ((C (x.t.ix k)).find? fun y => hit x.t.cb y.2 k) := fun fuel hf =>
    find_spec x.t.cb (view x.t (own c x.t.pool w.H)) k (C (x.t.ix k)) _ fuel (A.rep.chain (x.t.ix k)) (by have := A.len (x.t.ix k); omega)
  have hfin : ∀ {M' : Mem} {T2 : Tbl}, (∀ fuel, L + 1 ≤ fuel → delLoopM x.t.cb (view x.t w.H) w.M k (x.t.ix k) (x.t.buckets (x.t.ix k)) fuel (x.t.buckets (x.t.ix k)) = .ok (r, T2, M')) →
      Runs (delT x.t k w.H w.M) (r, put x.t T2, T2.heap, M') := by
    intro M' T2 hl
    refine ⟨L + 1, fun fuel hf => ?_⟩
    rw [delT]
    refine Outcome.bind_eq_ok.2 ⟨x.t.buckets (x.t.ix k), if_pos hi, ?_⟩
    exact Outcome.bind_eq_ok.2 ⟨_, hl fuel hf, rfl⟩
  have hap := apart_own c x.t x.t.pool w.H
  cases hf : (C (x.t.ix k)).find? fun y => hit x.t.cb y.2 k with
  | none =>
      obtain ⟨_, g2, g3, _⟩ := delLoopM_join hap (M := w.M) e1 (hfind (L + 1) (by omega))
      have hT := g3 hf
      subst hT
      refine ⟨r, put x.t (view x.t w.H), w.H, w.M, c, hfin (T2 := view x.t w.H) (fun fuel hl => ?_), hr.symm, ?_⟩
      · have := (delLoopM_join hap (M := w.M) (delLoop_mono e1 fuel hl) (hfind fuel (by omega))).2.2.2.1 hf
        rw [join_own] at this; exact this
      · rw [g2, hf]
        refine I.step hw I.hist rfl ⟨rfl, rfl, rfl⟩ (by simp) ⟨⟨C', Z', L, A'⟩, Lx.full, Lx.pool, Lx.addr, ?_⟩ (fun y hy => I.loc y (by rw [hw]; simp at hy ⊢; grind))
        exact Lx.count
  | some z =>
      obtain ⟨a, e⟩ := z
      obtain ⟨g1, g2, _, _, g3⟩ := delLoopM_join hap (M := w.M) e1 (hfind (L + 1) (by omega))
      obtain ⟨_, g4⟩ := g3 a e hf
      have hin : (a, x.t.pool) ∈ c.live := by
        have hm := List.mem_of_find?_eq_some hf
        have hl := chain_live _ _ (A.rep.chain (x.t.ix k)) a (List.mem_map.2 ⟨_, hm, rfl⟩)
        simp only [view, own] at hl
        split at hl
        · assumption
        · exact absurd rfl hl
      obtain ⟨M', eM⟩ := (MemPool.c30_total G I.hist).2.2 _ hin
      have hh := Hist.release I.hist hin eM
      have hnd := (MemPool.c30_disjoint G I.hist).1
      have hmem : ∀ y, y ∈ c.live.erase (a, x.t.pool) ↔ y ≠ (a, x.t.pool) ∧ y ∈ c.live := fun y => hnd.mem_erase_iff
      have hown : ∀ b, own c x.t.pool w.H b ≠ none ↔ (b, x.t.pool) ∈ c.live := by
        intro b
        simp only [own]
        split
        · simp [*, Lx.full b (by assumption)]
        · simp [*]
      have hjn : ∀ b p, p ≠ x.t.pool → (b, p) ∈ c.live → (T1.heap b).or (rest c x.t.pool w.H b) = w.H b := by
        intro b p hp hb
        have h1 : (b, x.t.pool) ∉ c.live := fun h => hp (one_pool G I.hist I.pos hb h)
        have h2 : T1.heap b = none := Decidable.byContradiction fun h => h1 ((hown b).1 ((g4 b).1 h).2)
        rw [h2, rest, if_neg h1]; simp
      refine ⟨r, put x.t (join T1 (rest c x.t.pool w.H)), _, M', { c with live := c.live.erase (a, x.t.pool) }, hfin (T2 := join T1 (rest c x.t.pool w.H)) (fun fuel hl => ?_), hr.symm, ?_⟩
      · have := ((delLoopM_join hap (M := w.M) (delLoop_mono e1 fuel hl) (hfind fuel (by omega))).2.2.2.2 a e hf).1 M' eM
        rw [join_own] at this; exact this
      · rw [g2, hf]
        simp only [Option.isNone_some, Bool.false_eq_true, if_false]
        have hpos : 0 < x.n := by
          rw [← Lx.count, List.countP_pos_iff]
          exact ⟨_, hin, by simp⟩
        refine I.step hw hh rfl ⟨rfl, rfl, rfl⟩ ?_ ⟨⟨C', Z', L, ?_⟩, ?_, Lx.pool, ?_, ?_⟩ ?_
        · have := List.length_erase_of_mem hin
          have := List.length_pos_of_mem hin
          simp only
          omega
        · have he : view (put x.t (join T1 (rest c x.t.pool w.H))) (own { c with live := c.live.erase (a, x.t.pool) } x.t.pool (join T1 (rest c x.t.pool w.H)).heap) = T1 := by
            simp only [view, put, join]
            have : (own { c with live := c.live.erase (a, x.t.pool) } x.t.pool fun y => (T1.heap y).or (rest c x.t.pool w.H y)) = T1.heap := by
              funext b
              simp only [own, hmem]
              have hb := g4 b
              have hb2 := hown b
              by_cases cb' : T1.heap b = none
              · have : ¬ (b ≠ a ∧ (b, x.t.pool) ∈ c.live) := fun ⟨h1, h2⟩ => (hb.2 ⟨h1, hb2.2 h2⟩) cb'
                rw [if_neg (fun ⟨h1, h2⟩ => this ⟨fun h => h1 (by rw [h]), h2⟩), cb']
              · obtain ⟨h1, h2⟩ := hb.1 cb'
                rw [if_pos ⟨fun h => h1 (congrArg Prod.fst h), hb2.1 h2⟩]
                cases hv : T1.heap b with
                | none => exact absurd hv cb'
                | some v => simp
            rw [this]
          rw [← he] at A'
          exact A'
        · intro b hb
          obtain ⟨h1, h2⟩ := (hmem _).1 hb
          have : T1.heap b ≠ none := (g4 b).2 ⟨fun h => h1 (by rw [h]; rfl), (hown b).2 h2⟩
          simp only [join]
          cases hv : T1.heap b with
          | none => exact absurd hv this
          | some v => simp
        · obtain ⟨sp, h1, h2⟩ := Lx.addr
          refine ⟨sp, h1, (hmem _).2 ⟨fun h => ?_, h2⟩⟩
          have : sp = x.t.pool := congrArg Prod.snd h
          exact poolName_ne x.t.name (one_name G I.hist Lx.pool (this ▸ h1)).2
        · have h1 : c.live.countP (fun y => decide (y.2 = x.t.pool)) = x.n := Lx.count
          have := countP_erase (p := fun y : Nat × Nat => decide (y.2 = x.t.pool)) hin
          simp only [if_true, decide_true] at this
          show (c.live.erase (a, x.t.pool)).countP (fun y => decide (y.2 = x.t.pool)) = x.n - 1
          omega
        · intro y hy
          have hne := I.other hw y hy
          have Ly := I.loc y (by rw [hw]; simp at hy ⊢; grind)
          refine (Ly.frame (c' := { c with live := c.live.erase (a, x.t.pool) }) ?_ ?_ ?_ (fun _ _ h => h) (fun sp h1 h2 => ⟨h1, ?_⟩)).1
          · intro b
            rw [hmem]
            exact ⟨fun h => h.2, fun h => ⟨fun h' => hne (congrArg Prod.snd h'), h⟩⟩
          · have := countP_erase (p := fun z : Nat × Nat => decide (z.2 = y.t.pool)) hin
            have h' : ¬ x.t.pool = y.t.pool := Ne.symm hne
            simpa [h'] using this
          · exact fun b hb => hjn b _ hne hb
          · refine (hmem _).2 ⟨fun h => ?_, h2⟩
            have : sp = x.t.pool := congrArg Prod.snd h
            exact poolName_ne x.t.name (one_name G I.hist Lx.pool (this ▸ h1)).2

/-- The chains of a table in the memory of all tables. -/
theorem Loc.chains {c : Client} {H : Nat → Option Node} {x : Rec} {C : Nat → List (Nat × Entry)} (h : ∀ i, Chain (own c x.t.pool H) (x.t.buckets i) (C i)) :
    ∀ i, Chain H (x.t.buckets i) (C i) := by
  intro i
  refine chain_frame _ _ (fun a ha => ?_) (h i)
  have := chain_live _ _ (h i) a ha
  simp only [own] at this ⊢
  split at this
  · rw [if_pos (by assumption)]
  · exact absurd rfl this

/-- zt_table_get -/
theorem get_inv {c : Client} {H : Nat → Option Node} {x : Rec} (Lx : Loc c H x) (k : Key) :
    Runs (fun fuel => get x.t.cb fuel (view x.t H) k) (report (((x.s.bucket (x.t.ix k)).find? (Meets x.t.cb k)).map (·.datum))) := by
  obtain ⟨C, Z, L, A⟩ := Lx.abs
  refine ⟨L + 1, fun fuel hf => ?_⟩
  have h := get_x A fuel (by omega) k
  show get x.t.cb fuel (view x.t H) k = _
  rw [get] at h ⊢
  obtain ⟨nn, e1, h⟩ := Outcome.bind_eq_ok.1 h
  obtain ⟨f, e2, h⟩ := Outcome.bind_eq_ok.1 h
  have := find_join (R := rest c x.t.pool H) e2
  rw [join_own] at this
  exact Outcome.bind_eq_ok.2 ⟨nn, e1, Outcome.bind_eq_ok.2 ⟨f, this, h⟩⟩

/-- The entries of a table, in the order of its buckets. -/
def entries (x : Rec) : List Entry := (List.range x.t.num).flatMap x.s.bucket

/-- zt_table_for_each -/
theorem each_inv {c : Client} {H : Nat → Option Node} {x : Rec} (Lx : Loc c H x) :
    ∃ n, ∀ fuel ≥ n, ∀ (σ : Type) (it : Entry → σ → Outcome (Int × σ)) (v : σ), forEach it fuel (view x.t H) v = visit it (entries x) v := by
  obtain ⟨C, Z, L, A⟩ := Lx.abs
  refine ⟨L + 1, fun fuel hf σ it v => ?_⟩
  have : entries x = slice C x.t.num 0 := by
    rw [entries, slice_flat, List.range_eq_range']
    congr 1
    funext j
    exact A.buckets j
  rw [this]
  exact eachLoop_spec it (view x.t H) C fuel x.t.num 0 v (Loc.chains A.rep.chain) (fun j => by have := A.len j; omega) (by simp [view])

/-- The result of adding an entry that was new. -/
def isNew (r : Res) : Bool := r = .int 0

/-- A table after the entries have been added to it. -/
def Rec.adds (x : Rec) (es : List Entry) : Bag × Nat :=
  ((x.s.run x.t.cb x.t.dup x.t.ix (es.map setOp)).2, x.n + (x.s.run x.t.cb x.t.dup x.t.ix (es.map setOp)).1.countP isNew)

theorem adds_cons (x : Rec) (e : Entry) (es : List Entry) (t' : Tab) (r : Int) (h : t'.cb = x.t.cb ∧ t'.nbits = x.t.nbits ∧ t'.dup = x.t.dup)
    (hr : (x.s.step x.t.cb x.t.dup x.t.ix (setOp e)).1 = .int r) :
    x.adds (e :: es) = Rec.adds ⟨t', (x.s.step x.t.cb x.t.dup x.t.ix (setOp e)).2, if r = 0 then x.n + 1 else x.n⟩ es := by
  have hix : t'.ix = x.t.ix := by funext k; simp [Tab.ix, h]
  simp only [Rec.adds, List.map_cons, Bag.run, hr, h.1, h.2.2, hix, List.countP_cons, isNew, Res.int.injEq, decide_eq_true_eq, Prod.mk.injEq, true_and]
  split <;> simp_all <;> omega

/-- The inner loop of zt_table_copy. -/
theorem copyChain_inv {al : Alloc} (G : MemPool.Good al) {pre post : List Rec} {y : Rec} (hy : y ∈ pre ++ post) : ∀ (l : List (Nat × Entry)) {w : World} {c : Client} (_ : Inv al w c) {x : Rec}
    (_ : w.tabs = pre ++ x :: post) (p : Ptr) (_ : Chain (own c y.t.pool w.H) p l) (any : Bool),
    ∃ (k : Nat) (t' : Tab) (H' : Nat → Option Node) (M' : Mem) (c' : Client),
      (∀ fuel2 fuel, k ≤ fuel2 → l.length < fuel → copyChain al y.t fuel2 fuel p any x.t w.H w.M = .ok (any || !l.isEmpty, t', H', M')) ∧
      Inv al { w with tabs := pre ++ ⟨t', (x.adds (l.map (·.2))).1, (x.adds (l.map (·.2))).2⟩ :: post, H := H', M := M' } c' ∧
      (t'.cb = x.t.cb ∧ t'.nbits = x.t.nbits ∧ t'.dup = x.t.dup) ∧ own c' y.t.pool H' = own c y.t.pool w.H := by
  intro l
  induction l with
  | nil =>
      intro w c I x hw p hc any
      simp only [Chain] at hc
      subst hc
      refine ⟨0, x.t, w.H, w.M, c, fun fuel2 fuel _ hf => ?_, ?_, ⟨rfl, rfl, rfl⟩, rfl⟩
      · match fuel, hf with
        | f + 1, _ => simp [copyChain]
      · have := I.step hw (x' := x) I.hist rfl ⟨rfl, rfl, rfl⟩ rfl (I.mem hw) (fun y hy => I.loc y (by rw [hw]; simp at hy ⊢; grind))
        simpa [Rec.adds, Bag.run] using this
  | cons z zs ih =>
      intro w c I x hw p hc any
      obtain ⟨a, e⟩ := z
      obtain ⟨rfl, nx, hn, hc⟩ := hc
      have hglob : ∀ {c : Client} {H : Nat → Option Node} {n : Node}, own c y.t.pool H a = some n → load (view y.t H) a = .ok n := by
        intro c H n h
        simp only [own] at h
        split at h
        · simp [load, view, h]
        · cases h
      obtain ⟨r, t1, H1, M1, c1, ⟨k1, e1⟩, hr, I1, ht, ho⟩ := set_inv G I hw e.key e.datum e.datumLen
      have ho := ho y hy
      obtain ⟨k2, t2, H2, M2, c2, e2, I2, ht2, ho2⟩ := ih I1 rfl nx (by rw [ho]; exact hc) true
      refine ⟨max k1 k2, t2, H2, M2, c2, fun fuel2 fuel hf2 hf => ?_, ?_, ?_, ho2.trans ho⟩
      · match fuel, hf with
        | f + 1, hf =>
          rw [copyChain]
          refine Outcome.bind_eq_ok.2 ⟨_, hglob hn, ?_⟩
          refine Outcome.bind_eq_ok.2 ⟨_, e1 fuel2 (by omega), ?_⟩
          refine Outcome.bind_eq_ok.2 ⟨_, hglob (c := c1) (by rw [ho]; exact hn), ?_⟩
          simpa using e2 fuel2 f (by omega) (by simp at hf; omega)
      · rw [List.map_cons, adds_cons x e _ t1 r ht hr]
        exact I2
      · exact ⟨ht2.1.trans ht.1, ht2.2.1.trans ht.2.1, ht2.2.2.trans ht.2.2⟩

theorem adds_append (x : Rec) (es fs : List Entry) (t' : Tab) (h : t'.cb = x.t.cb ∧ t'.nbits = x.t.nbits ∧ t'.dup = x.t.dup) :
    x.adds (es ++ fs) = Rec.adds ⟨t', (x.adds es).1, (x.adds es).2⟩ fs := by
  have hix : t'.ix = x.t.ix := by funext k; simp [Tab.ix, h]
  have run_append : ∀ (s : Bag) (a b : List Op), Bag.run x.t.cb x.t.dup x.t.ix s (a ++ b) =
      ((s.run x.t.cb x.t.dup x.t.ix a).1 ++ ((s.run x.t.cb x.t.dup x.t.ix a).2.run x.t.cb x.t.dup x.t.ix b).1, ((s.run x.t.cb x.t.dup x.t.ix a).2.run x.t.cb x.t.dup x.t.ix b).2) := by
    intro s a b
    induction a generalizing s with
    | nil => simp [Bag.run]
    | cons o a ih => simp [Bag.run, ih]
  simp only [Rec.adds, List.map_append, run_append, h.1, h.2.2, hix, List.countP_append, Nat.add_assoc]

/-- The outer loop of zt_table_copy. -/
theorem copyLoop_inv {al : Alloc} (G : MemPool.Good al) {pre post : List Rec} {y : Rec} (hy : y ∈ pre ++ post) (C : Nat → List (Nat × Entry)) (L : Nat) (hL : ∀ i, (C i).length ≤ L) :
    ∀ (m i : Nat) {w : World} {c : Client} (_ : Inv al w c) {x : Rec} (_ : w.tabs = pre ++ x :: post) (_ : ∀ i, Chain (own c y.t.pool w.H) (y.t.buckets i) (C i)) (any : Bool) (_ : i + m ≤ y.t.num),
    ∃ (k : Nat) (t' : Tab) (H' : Nat → Option Node) (M' : Mem) (c' : Client),
      (∀ fuel, k ≤ fuel → copyLoop al y.t fuel m i any x.t w.H w.M = .ok (any || !(slice C m i).isEmpty, t', H', M')) ∧
      Inv al { w with tabs := pre ++ ⟨t', (x.adds (slice C m i)).1, (x.adds (slice C m i)).2⟩ :: post, H := H', M := M' } c' ∧
      (t'.cb = x.t.cb ∧ t'.nbits = x.t.nbits ∧ t'.dup = x.t.dup) := by
  intro m
  induction m with
  | zero =>
      intro i w c I x hw hc any hi
      refine ⟨0, x.t, w.H, w.M, c, fun fuel _ => by simp [copyLoop, slice], ?_, ⟨rfl, rfl, rfl⟩⟩
      have := I.step hw (x' := x) I.hist rfl ⟨rfl, rfl, rfl⟩ rfl (I.mem hw) (fun y hy => I.loc y (by rw [hw]; simp at hy ⊢; grind))
      simpa [Rec.adds, Bag.run, slice] using this
  | succ m ih =>
      intro i w c I x hw hc any hi
      obtain ⟨k1, t1, H1, M1, c1, e1, I1, ht1, ho1⟩ := copyChain_inv G hy (C i) I hw _ (hc i) any
      obtain ⟨k2, t2, H2, M2, c2, e2, I2, ht2⟩ := ih (i + 1) I1 rfl (fun j => by rw [ho1]; exact hc j) (any || !(C i).isEmpty) (by omega)
      refine ⟨max (max k1 (L + 1)) k2, t2, H2, M2, c2, fun fuel hf => ?_, ?_, ⟨ht2.1.trans ht1.1, ht2.2.1.trans ht1.2.1, ht2.2.2.trans ht1.2.2⟩⟩
      · rw [copyLoop]
        refine Outcome.bind_eq_ok.2 ⟨y.t.buckets i, if_pos (show i < y.t.num by omega), ?_⟩
        refine Outcome.bind_eq_ok.2 ⟨_, e1 fuel fuel (by omega) (by have := hL i; omega), ?_⟩
        refine (e2 fuel (by omega)).trans ?_
        cases hci : C i <;> simp [slice, hci]
      · rw [slice, adds_append x _ _ t1 ht1]
        exact I2

/-- zt_table_copy -/
theorem copy_inv {al : Alloc} (G : MemPool.Good al) {w : World} {c : Client} (I : Inv al w c) {pre post : List Rec} {x y : Rec} (hw : w.tabs = pre ++ x :: post) (hy : y ∈ pre ++ post) :
    ∃ (t' : Tab) (H' : Nat → Option Node) (M' : Mem) (c' : Client), Runs (copyT al y.t x.t w.H w.M) (!(entries y).isEmpty, t', H', M') ∧
      Inv al { w with tabs := pre ++ ⟨t', (x.adds (entries y)).1, (x.adds (entries y)).2⟩ :: post, H := H', M := M' } c' := by
  obtain ⟨C, Z, L, A⟩ := (I.loc y (by rw [hw]; simp at hy ⊢; grind)).abs
  obtain ⟨k, t', H', M', c', e, I', _⟩ := copyLoop_inv G hy C L A.len y.t.num 0 I hw A.rep.chain false (by omega)
  have : slice C y.t.num 0 = entries y := by
    rw [entries, slice_flat, List.range_eq_range']
    congr 1
    funext j
    exact (A.buckets j).symm
  rw [this] at e I'
  exact ⟨t', H', M', c', ⟨k, fun fuel hf => by rw [copyT]; simpa using e fuel hf⟩, I'⟩

end ZT.Table.Proc
