import Verif.Table.Exact

/-!
# C130: changing a hash table while it is enumerated (zt_table.c 281-300)

zt_table_for_each with callbacks that call zt_table_set, zt_table_get and zt_table_del on the table being enumerated. `Table/Model.lean` has the loop for callbacks that leave the
table alone; here the table is part of what the callback changes, and the loop reads it again after each call.
-/

namespace ZT.Table

variable {σ : Type}

/-! ## Model -/

/-- The inner loop of zt_table.c 289-296: `next` is read before the callback is called. -/
def eachChainM (it : Entry → Tbl × σ → Outcome (Int × (Tbl × σ))) : (fuel : Nat) → Ptr → Tbl × σ → Outcome (Int × (Tbl × σ))
  | 0, _, _ => .ub
  | _ + 1, none, s => .ok (0, s)
  | fuel + 1, some a, s => do
      let n ← load s.1 a
      let (r, s) ← it n.e s
      if r ≠ 0 then pure (r, s) else eachChainM it fuel n.next s

/-- The outer loop of zt_table.c 286-297; `k` buckets are left (zt_table_set and zt_table_del do not change `num_buckets`). -/
def eachLoopM (it : Entry → Tbl × σ → Outcome (Int × (Tbl × σ))) (fuel : Nat) : (k i : Nat) → Tbl × σ → Outcome (Int × (Tbl × σ))
  | 0, _, s => .ok (0, s)
  | k + 1, i, s => do
      let b ← bucket s.1 i
      let (r, s) ← eachChainM it fuel b s
      if r ≠ 0 then pure (r, s) else eachLoopM it fuel k (i + 1) s

/-- zt_table.c 281-300 `zt_table_for_each`. -/
def forEachM (it : Entry → Tbl × σ → Outcome (Int × (Tbl × σ))) (fuel : Nat) (s : Tbl × σ) : Outcome (Int × (Tbl × σ)) :=
  eachLoopM it fuel s.1.num 0 s

/-- A callback: which calls it makes for an entry, in its state, and what it makes of their results: its own result and its next state. -/
structure Prog (σ : Type) where
  plan : Entry → σ → List Op
  fin : Entry → List Res → σ → Int × σ

/-- A call of the callback. -/
def Prog.call (p : Prog σ) (cb : Callbacks) (alloc : Tbl → Nat) (fuel : Nat) (e : Entry) (s : Tbl × σ) : Outcome (Int × (Tbl × σ)) := do
  let (rs, T) ← run cb alloc fuel s.1 (p.plan e s.2)
  pure ((p.fin e rs s.2).1, (T, (p.fin e rs s.2).2))

/-! ## Specification: each bucket is visited as it is when its turn comes -/

/-- The callback for the entries of a list, one after the other, until it returns nonzero. -/
def Bag.visit (p : Prog σ) (cb : Callbacks) (dup : Bool) (ix : Key → Nat) : List Entry → Bag × σ → Int × (Bag × σ)
  | [], x => (0, x)
  | e :: es, (b, s) =>
      let o := b.run cb dup ix (p.plan e s)
      let f := p.fin e o.1 s
      if f.1 ≠ 0 then (f.1, (o.2, f.2)) else Bag.visit p cb dup ix es (o.2, f.2)

/-- `k` buckets from bucket `i` on. -/
def Bag.each (p : Prog σ) (cb : Callbacks) (dup : Bool) (ix : Key → Nat) : (k i : Nat) → Bag × σ → Int × (Bag × σ)
  | 0, _, x => (0, x)
  | k + 1, i, x =>
      let o := Bag.visit p cb dup ix (x.1.bucket i) x
      if o.1 ≠ 0 then o else Bag.each p cb dup ix k (i + 1) o.2

/-- No call of the callback deletes a key that an entry still to be visited in the same bucket meets. -/
def Bag.VisitSafe (p : Prog σ) (cb : Callbacks) (dup : Bool) (ix : Key → Nat) (i : Nat) : List Entry → Bag × σ → Prop
  | [], _ => True
  | e :: es, (b, s) => (∀ k, Op.del k ∈ p.plan e s → ix k = i → ∀ x ∈ es, Meets cb k x = false) ∧
      Bag.VisitSafe p cb dup ix i es ((b.run cb dup ix (p.plan e s)).2, (p.fin e (b.run cb dup ix (p.plan e s)).1 s).2)

/-- The same for `k` buckets from bucket `i` on. -/
def Bag.EachSafe (p : Prog σ) (cb : Callbacks) (dup : Bool) (ix : Key → Nat) : (k i : Nat) → Bag × σ → Prop
  | 0, _, _ => True
  | k + 1, i, x => Bag.VisitSafe p cb dup ix i (x.1.bucket i) x ∧ Bag.EachSafe p cb dup ix k (i + 1) (Bag.visit p cb dup ix (x.1.bucket i) x).2

/-! ## Proof -/

/-- The number of calls the callback makes. -/
def Bag.visitOps (p : Prog σ) (cb : Callbacks) (dup : Bool) (ix : Key → Nat) : List Entry → Bag × σ → Nat
  | [], _ => 0
  | e :: es, (b, s) => (p.plan e s).length + Bag.visitOps p cb dup ix es ((b.run cb dup ix (p.plan e s)).2, (p.fin e (b.run cb dup ix (p.plan e s)).1 s).2)

def Bag.eachOps (p : Prog σ) (cb : Callbacks) (dup : Bool) (ix : Key → Nat) : (k i : Nat) → Bag × σ → Nat
  | 0, _, _ => 0
  | k + 1, i, x => Bag.visitOps p cb dup ix (x.1.bucket i) x + Bag.eachOps p cb dup ix k (i + 1) (Bag.visit p cb dup ix (x.1.bucket i) x).2

theorem step_xk {cb : Callbacks} {alloc} (al : Allocator alloc) {T : Tbl} {C Z s L} (A : AbsX cb T C Z s L) (fuel : Nat) (hf : L < fuel) (op : Op) :
    ∃ T' C' Z', exec cb alloc fuel T op = .ok ((s.step cb T.dup (index cb T) op).1, T') ∧ T'.nbits = T.nbits ∧ T'.num = T.num ∧ T'.dup = T.dup ∧
      AbsX cb T' C' Z' (s.step cb T.dup (index cb T) op).2 (L + 1) ∧ Keeps cb T op C C' := by
  cases op with
  | set k d dl =>
      obtain ⟨T', C', h⟩ := set_xk A fuel hf k d dl (alloc T) (al T (exists_freeX A))
      exact ⟨T', C', Z, h⟩
  | get k =>
      refine ⟨T, C, Z, ?_, rfl, rfl, rfl, { A with len := fun i => by have := A.len i; omega }, Keeps.refl _ _ _ _⟩
      simp only [exec, get_x A fuel hf k, Outcome.ok_bind, Bag.step, Outcome.pure_eq]
  | del k =>
      obtain ⟨T', C', Z', e, h1, h2, h3, A', h4⟩ := del_xk A fuel hf k alloc
      exact ⟨T', C', Z', e, h1, h2, h3, { A' with len := fun i => by have := A'.len i; omega }, h4⟩

theorem run_xk {cb : Callbacks} {alloc} (al : Allocator alloc) (i : Nat) (rest : List (Nat × Entry)) (ops : List Op) : ∀ {T : Tbl} {C Z s L pre}, AbsX cb T C Z s L → ∀ fuel, L + ops.length < fuel →
    C i = pre ++ rest → (∀ k, Op.del k ∈ ops → index cb T k = i → ∀ x ∈ rest, Meets cb k x.2 = false) →
    ∃ T' C' Z' pre', run cb alloc fuel T ops = .ok ((s.run cb T.dup (index cb T) ops).1, T') ∧ T'.nbits = T.nbits ∧ T'.num = T.num ∧ T'.dup = T.dup ∧
      AbsX cb T' C' Z' (s.run cb T.dup (index cb T) ops).2 (L + ops.length) ∧ C' i = pre' ++ rest := by
  induction ops with
  | nil => intro T C Z s L pre A fuel _ h _; exact ⟨T, C, Z, pre, rfl, rfl, rfl, rfl, A, h⟩
  | cons op ops ih =>
      intro T C Z s L pre A fuel hf h hs
      simp only [List.length_cons] at hf
      obtain ⟨T1, C1, Z1, e1, h1, h2, h3, A1, K1⟩ := step_xk al A fuel (by omega) op
      obtain ⟨pre1, k1⟩ := K1 i pre rest h fun k ho => hs k (by simp [ho])
      have hix : index cb T1 = index cb T := by funext k; rw [index, index, h1]
      obtain ⟨T2, C2, Z2, pre2, e2, g1, g2, g3, A2, k2⟩ := ih A1 fuel (by omega) k1 (fun k hk hi => hs k (by simp [hk]) (by rw [← hix]; exact hi))
      rw [hix, h3] at e2 A2
      refine ⟨T2, C2, Z2, pre2, ?_, g1.trans h1, g2.trans h2, g3.trans h3, ?_, k2⟩
      · simp only [run, e1, Outcome.ok_bind, e2, Outcome.pure_eq, Bag.run]
      · simp only [Bag.run, List.length_cons]
        rw [show L + (ops.length + 1) = L + 1 + ops.length by omega]
        exact A2

theorem chain_suffix {H : Nat → Option Node} : ∀ (pre rest : List (Nat × Entry)) {p : Ptr}, Chain H p (pre ++ rest) → ∃ q, Chain H q rest ∧ (pre = [] → q = p)
  | [], _, p, h => ⟨p, h, fun _ => rfl⟩
  | (a, e) :: pre, rest, p, h => by
    obtain ⟨-, nx, -, h⟩ := h
    obtain ⟨q, hq, -⟩ := chain_suffix pre rest h
    exact ⟨q, hq, fun c => by cases c⟩

theorem chain_head {H H' : Nat → Option Node} {l : List (Nat × Entry)} {p q : Ptr} (h : Chain H p l) (h' : Chain H' q l) : p = q := by
  cases l with
  | nil => exact Eq.trans (show p = none from h) (show q = none from h').symm
  | cons x l => obtain ⟨a, e⟩ := x; rw [h.1, h'.1]

theorem visit_x {cb : Callbacks} {alloc} (al : Allocator alloc) (p : Prog σ) (big : Nat) (i : Nat) : ∀ (rest : List (Nat × Entry)) {T : Tbl} {C Z s L pre} (x : σ) {q : Ptr} {fuel : Nat}, AbsX cb T C Z s L →
    C i = pre ++ rest → Chain T.heap q rest → L + Bag.visitOps p cb T.dup (index cb T) (rest.map (·.2)) (s, x) < big → rest.length < fuel →
    Bag.VisitSafe p cb T.dup (index cb T) i (rest.map (·.2)) (s, x) →
    ∃ T' C' Z' L', eachChainM (p.call cb alloc big) fuel q (T, x) = .ok ((Bag.visit p cb T.dup (index cb T) (rest.map (·.2)) (s, x)).1, (T', (Bag.visit p cb T.dup (index cb T) (rest.map (·.2)) (s, x)).2.2)) ∧
      T'.nbits = T.nbits ∧ T'.num = T.num ∧ T'.dup = T.dup ∧ AbsX cb T' C' Z' (Bag.visit p cb T.dup (index cb T) (rest.map (·.2)) (s, x)).2.1 L' ∧
      L' ≤ L + Bag.visitOps p cb T.dup (index cb T) (rest.map (·.2)) (s, x) := by
  intro rest
  induction rest with
  | nil =>
      intro T C Z s L pre x q fuel A hC hq hb hf hs
      cases hq
      obtain ⟨f, rfl⟩ : ∃ f, fuel = f + 1 := ⟨fuel - 1, by simp at hf; omega⟩
      exact ⟨T, C, Z, L, rfl, rfl, rfl, rfl, A, Nat.le_add_right _ _⟩
  | cons y rest ih =>
      intro T C Z s L pre x q fuel A hC hq hb hf hs
      obtain ⟨a, e⟩ := y
      obtain ⟨rfl, nx, hn, hnx⟩ := hq
      obtain ⟨f, rfl⟩ : ∃ f, fuel = f + 1 := ⟨fuel - 1, by simp at hf; omega⟩
      simp only [List.map_cons, Bag.visitOps, Bag.VisitSafe, List.length_cons] at hb hs hf
      have hC' : C i = (pre ++ [(a, e)]) ++ rest := by rw [hC]; simp
      obtain ⟨T1, C1, Z1, pre1, e1, g1, g2, g3, A1, c1⟩ := run_xk al i rest (p.plan e x) A big (by omega) hC' (fun k hk hi z hz => hs.1 k hk hi z.2 (List.mem_map.2 ⟨z, hz, rfl⟩))
      have hix : index cb T1 = index cb T := by funext k; rw [index, index, g1]
      have hch : Chain T1.heap nx rest := by
        have := A1.rep.chain i
        rw [c1] at this
        obtain ⟨q', hq', -⟩ := chain_suffix pre1 rest this
        rw [chain_head hnx hq']; exact hq'
      simp only [eachChainM, load, hn, Outcome.ok_bind, Prog.call, e1, Outcome.pure_eq, List.map_cons, Bag.visit, Bag.visitOps]
      split
      · exact ⟨T1, C1, Z1, _, rfl, g1, g2, g3, A1, by omega⟩
      · rw [show index cb T = index cb T1 from hix.symm, ← g3] at hb hs
        have hb' := hb
        rw [hix, g3] at hb'
        obtain ⟨T2, C2, Z2, L2, e2, k1, k2, k3, A2, l2⟩ := ih (p.fin e (s.run cb T1.dup (index cb T1) (p.plan e x)).1 x).2 (fuel := f) (by rw [hix, g3]; exact A1) c1 hch (by rw [hix, g3] at *; omega) (by omega) hs.2
        rw [hix, g3] at e2 A2 l2
        exact ⟨T2, C2, Z2, L2, e2, k1.trans g1, k2.trans g2, k3.trans g3, A2, by omega⟩

theorem each_x {cb : Callbacks} {alloc} (al : Allocator alloc) (p : Prog σ) (big : Nat) : ∀ (k i : Nat) {T : Tbl} {C Z s L} (x : σ), AbsX cb T C Z s L →
    i + k ≤ T.num → L + Bag.eachOps p cb T.dup (index cb T) k i (s, x) < big → Bag.EachSafe p cb T.dup (index cb T) k i (s, x) →
    ∃ T' C' Z' L', eachLoopM (p.call cb alloc big) big k i (T, x) = .ok ((Bag.each p cb T.dup (index cb T) k i (s, x)).1, (T', (Bag.each p cb T.dup (index cb T) k i (s, x)).2.2)) ∧
      T'.nbits = T.nbits ∧ T'.num = T.num ∧ T'.dup = T.dup ∧ AbsX cb T' C' Z' (Bag.each p cb T.dup (index cb T) k i (s, x)).2.1 L' ∧
      L' ≤ L + Bag.eachOps p cb T.dup (index cb T) k i (s, x) := by
  intro k
  induction k with
  | zero => intro i T C Z s L x A _ _ _; exact ⟨T, C, Z, L, rfl, rfl, rfl, rfl, A, Nat.le_add_right _ _⟩
  | succ k ih =>
      intro i T C Z s L x A hk hb hs
      simp only [Bag.eachOps, Bag.EachSafe] at hb hs
      have hbk := A.buckets i
      have hl := A.len i
      obtain ⟨T1, C1, Z1, L1, e1, g1, g2, g3, A1, l1⟩ := visit_x al p big i (C i) (pre := []) x (fuel := big) A rfl (A.rep.chain i) (by rw [hbk] at hb; omega) (by omega) (by rw [← hbk]; exact hs.1)
      rw [← hbk] at e1 A1 l1
      have hix : index cb T1 = index cb T := by funext k; rw [index, index, g1]
      simp only [Bag.each, Bag.eachOps]
      generalize Bag.visit p cb T.dup (index cb T) (s.bucket i) (s, x) = v at *
      obtain ⟨r, b1, x1⟩ := v
      dsimp only at hb hs e1 A1 l1 ⊢
      simp only [eachLoopM, bucket, if_pos (show i < T.num by omega), Outcome.ok_bind, e1, Outcome.pure_eq]
      split
      · rename_i hr
        exact ⟨T1, C1, Z1, L1, rfl, g1, g2, g3, A1, by omega⟩
      · obtain ⟨T2, C2, Z2, L2, e2, k1, k2, k3, A2, l2⟩ := ih (i + 1) x1 A1 (by omega) (by rw [hix, g3]; omega) (by rw [hix, g3]; exact hs.2)
        rw [hix, g3] at e2 A2 l2
        exact ⟨T2, C2, Z2, L2, e2, k1.trans g1, k2.trans g2, k3.trans g3, A2, by omega⟩

/-! ## The theorems -/

/-- The bag of a table made by zt_table_init after the calls `ops`. -/
def bagOf (cb : Callbacks) (hint : Nat) (useHint dup : Bool) (ops : List Op) : Bag := (Bag.run cb dup (index cb (init hint useHint dup)) ⟨fun _ => [], []⟩ ops).2

/-- After every history, with every callback that deletes no key still to be visited in the bucket being visited: zt_table_for_each is defined and ends; it calls the callback for the
entries that each bucket has when its turn comes, in order; and afterwards the table is what the calls of the callback made of it. -/
theorem c130_exact (cb : Callbacks) (alloc : Tbl → Nat) (al : Allocator alloc) (hint : Nat) (useHint dup : Bool) (hr : InRange cb (init hint useHint dup)) (ops : List Op) (p : Prog σ) (x : σ)
    (hs : Bag.EachSafe p cb dup (index cb (init hint useHint dup)) (init hint useHint dup).num 0 (bagOf cb hint useHint dup ops, x)) :
    ∃ n, ∀ fuel ≥ n, ∃ rs T T', run cb alloc fuel (init hint useHint dup) ops = .ok (rs, T) ∧
      forEachM (p.call cb alloc fuel) fuel (T, x) = .ok ((Bag.each p cb dup (index cb (init hint useHint dup)) (init hint useHint dup).num 0 (bagOf cb hint useHint dup ops, x)).1,
        (T', (Bag.each p cb dup (index cb (init hint useHint dup)) (init hint useHint dup).num 0 (bagOf cb hint useHint dup ops, x)).2.2)) ∧
      Answers cb fuel T' (Bag.each p cb dup (index cb (init hint useHint dup)) (init hint useHint dup).num 0 (bagOf cb hint useHint dup ops, x)).2.1 := by
  refine ⟨ops.length + Bag.eachOps p cb dup (index cb (init hint useHint dup)) (init hint useHint dup).num 0 (bagOf cb hint useHint dup ops, x) + 1, fun fuel hf => ?_⟩
  obtain ⟨T, C, Z, e, h1, h2, h3, A⟩ := run_x al ops (init_x cb hint useHint dup hr) fuel (by omega)
  have hix : index cb T = index cb (init hint useHint dup) := by funext k; rw [index, index, h1]
  have hd : T.dup = dup := h3
  have A : AbsX cb T C Z (bagOf cb hint useHint dup ops) (0 + ops.length) := A
  obtain ⟨T', C', Z', L', e', -, -, -, A', l'⟩ := each_x al p fuel T.num 0 x A (by omega) (by rw [hix, hd, h2]; omega) (by rw [hix, hd, h2]; exact hs)
  rw [hix, hd, h2] at e' A' l'
  refine ⟨_, T, T', e, ?_, answers_x A' fuel (by omega)⟩
  rw [forEachM, h2]
  exact e'

theorem eachSafe_no_del {cb : Callbacks} {dup : Bool} {ix : Key → Nat} {p : Prog σ} (h : ∀ e s k, Op.del k ∉ p.plan e s) : ∀ (k i : Nat) (x : Bag × σ), Bag.EachSafe p cb dup ix k i x := by
  have hv : ∀ i (l : List Entry) (x : Bag × σ), Bag.VisitSafe p cb dup ix i l x := by
    intro i l
    induction l with
    | nil => intro x; trivial
    | cons e es ih => intro x; exact ⟨fun k hk => absurd hk (h _ _ _), ih _⟩
  intro k
  induction k with
  | zero => intro i x; trivial
  | succ k ih => intro i x; exact ⟨hv _ _ _, ih _ _⟩

theorem visit_inv {cb : Callbacks} (g : Good cb) {ix : Key → Nat} {p : Prog σ} : ∀ (l : List Entry) (x : Bag × σ), x.1.Distinct cb → x.1.Placed cb ix →
    (Bag.visit p cb false ix l x).2.1.Distinct cb ∧ (Bag.visit p cb false ix l x).2.1.Placed cb ix := by
  intro l
  induction l with
  | nil => intro x h1 h2; exact ⟨h1, h2⟩
  | cons e es ih =>
      rintro ⟨b, s⟩ h1 h2
      obtain ⟨k1, k2⟩ := bag_inv g ix (p.plan e s) b h1 h2
      simp only [Bag.visit]
      split
      · exact ⟨k1, k2⟩
      · exact ih _ k1 k2

theorem eachSafe_own {cb : Callbacks} (g : Good cb) {ix : Key → Nat} {p : Prog σ} (h : ∀ e s k, Op.del k ∈ p.plan e s → cb.cmp e.key k = true) : ∀ (k i : Nat) (x : Bag × σ),
    x.1.Distinct cb → x.1.Placed cb ix → Bag.EachSafe p cb false ix k i x := by
  have hv : ∀ i (l : List Entry) (x : Bag × σ), (l.Pairwise fun x y => cb.cmp x.key y.key = false) → Bag.VisitSafe p cb false ix i l x := by
    intro i l
    induction l with
    | nil => intro x _; trivial
    | cons e es ih =>
        intro x hp
        rw [List.pairwise_cons] at hp
        refine ⟨fun k hk _ y hy => ?_, ih _ hp.2⟩
        rw [meets_good g]
        cases hc : cb.cmp y.key k with
        | false => rfl
        | true =>
            have := g.trans _ _ _ (h _ _ _ hk) (g.symm _ _ hc)
            rw [hp.1 y hy] at this
            cases this
  intro k
  induction k with
  | zero => intro i x _ _; trivial
  | succ k ih =>
      intro i x h1 h2
      obtain ⟨k1, k2⟩ := visit_inv g (p := p) (x.1.bucket i) x h1 h2
      exact ⟨hv _ _ _ (h1 i), ih _ _ k1 k2⟩

theorem bagOf_inv {cb : Callbacks} (g : Good cb) (hint : Nat) (useHint : Bool) (ops : List Op) : (bagOf cb hint useHint false ops).Distinct cb ∧ (bagOf cb hint useHint false ops).Placed cb (index cb (init hint useHint false)) :=
  bag_inv g _ ops _ (fun _ => List.Pairwise.nil) (fun _ _ h => by cases h)

/-- A callback may insert what it likes, and look up: enumeration is as in `c130_exact` for every such callback, -/
theorem c130_insert (cb : Callbacks) (alloc : Tbl → Nat) (al : Allocator alloc) (hint : Nat) (useHint dup : Bool) (hr : InRange cb (init hint useHint dup)) (ops : List Op) (p : Prog σ) (x : σ)
    (hp : ∀ e s k, Op.del k ∉ p.plan e s) :
    ∃ n, ∀ fuel ≥ n, ∃ rs T T', run cb alloc fuel (init hint useHint dup) ops = .ok (rs, T) ∧
      forEachM (p.call cb alloc fuel) fuel (T, x) = .ok ((Bag.each p cb dup (index cb (init hint useHint dup)) (init hint useHint dup).num 0 (bagOf cb hint useHint dup ops, x)).1,
        (T', (Bag.each p cb dup (index cb (init hint useHint dup)) (init hint useHint dup).num 0 (bagOf cb hint useHint dup ops, x)).2.2)) ∧
      Answers cb fuel T' (Bag.each p cb dup (index cb (init hint useHint dup)) (init hint useHint dup).num 0 (bagOf cb hint useHint dup ops, x)).2.1 :=
  c130_exact cb alloc al hint useHint dup hr ops p x (eachSafe_no_del hp _ _ _)

/-- and it may also delete the entry it is called for (in tables without duplicates). -/
theorem c130_delete_own (cb : Callbacks) (g : Good cb) (alloc : Tbl → Nat) (al : Allocator alloc) (hint : Nat) (useHint : Bool) (hr : InRange cb (init hint useHint false)) (ops : List Op) (p : Prog σ) (x : σ)
    (hp : ∀ e s k, Op.del k ∈ p.plan e s → cb.cmp e.key k = true) :
    ∃ n, ∀ fuel ≥ n, ∃ rs T T', run cb alloc fuel (init hint useHint false) ops = .ok (rs, T) ∧
      forEachM (p.call cb alloc fuel) fuel (T, x) = .ok ((Bag.each p cb false (index cb (init hint useHint false)) (init hint useHint false).num 0 (bagOf cb hint useHint false ops, x)).1,
        (T', (Bag.each p cb false (index cb (init hint useHint false)) (init hint useHint false).num 0 (bagOf cb hint useHint false ops, x)).2.2)) ∧
      Answers cb fuel T' (Bag.each p cb false (index cb (init hint useHint false)) (init hint useHint false).num 0 (bagOf cb hint useHint false ops, x)).2.1 :=
  c130_exact cb alloc al hint useHint false hr ops p x (eachSafe_own g hp _ _ _ (bagOf_inv g hint useHint ops).1 (bagOf_inv g hint useHint ops).2)

/-! ### Inserting on the way -/

/-- The callback that makes the calls of a plan and notes the entries it is called for. -/
def noting (plan : Entry → List Entry → List Op) : Prog (List Entry) := ⟨plan, fun e _ s => (0, s ++ [e])⟩

theorem run_grows {cb : Callbacks} {dup : Bool} {ix : Key → Nat} : ∀ (ops : List Op) (b : Bag), (∀ k, Op.del k ∉ ops) → ∀ j, (b.bucket j).Sublist ((b.run cb dup ix ops).2.bucket j) := by
  intro ops
  induction ops with
  | nil => intro b _ j; exact List.Sublist.refl _
  | cons op ops ih =>
      intro b h j
      refine List.Sublist.trans ?_ (ih _ (fun k hk => h k (by simp [hk])) j)
      match op with
      | .get k => exact List.Sublist.refl _
      | .del k => exact absurd (List.mem_cons_self ..) (h k)
      | .set k d dl =>
          simp only [Bag.step]
          split
          · exact List.Sublist.refl _
          · dsimp only
            split
            · exact List.sublist_cons_self _ _
            · exact List.Sublist.refl _

theorem visit_noting {cb : Callbacks} {dup : Bool} {ix : Key → Nat} {plan : Entry → List Entry → List Op} (h : ∀ e s k, Op.del k ∉ plan e s) : ∀ (l : List Entry) (b : Bag) (s : List Entry), 
    ∃ b', Bag.visit (noting plan) cb dup ix l (b, s) = (0, (b', s ++ l)) ∧ ∀ j, (b.bucket j).Sublist (b'.bucket j) := by
  intro l
  induction l with
  | nil => intro b s; exact ⟨b, by simp [Bag.visit], fun _ => List.Sublist.refl _⟩
  | cons e es ih =>
      intro b s
      obtain ⟨b', e', h'⟩ := ih (b.run cb dup ix (plan e s)).2 (s ++ [e])
      refine ⟨b', ?_, fun j => (run_grows (plan e s) b (h e s) j).trans (h' j)⟩
      simp only [Bag.visit, noting, ne_eq, not_true, if_false]
      simp only [noting] at e'
      rw [e']; simp

theorem each_noting {cb : Callbacks} {dup : Bool} {ix : Key → Nat} {plan : Entry → List Entry → List Op} (h : ∀ e s k, Op.del k ∉ plan e s) : ∀ (k i : Nat) (b : Bag) (s : List Entry),
    ∃ b' v, Bag.each (noting plan) cb dup ix k i (b, s) = (0, (b', s ++ v)) ∧ (∀ j, (b.bucket j).Sublist (b'.bucket j)) ∧ ((List.range' i k).flatMap b.bucket).Sublist v := by
  intro k
  induction k with
  | zero => intro i b s; exact ⟨b, [], by simp [Bag.each], fun _ => List.Sublist.refl _, by simp⟩
  | succ k ih =>
      intro i b s
      obtain ⟨b1, e1, h1⟩ := visit_noting (cb := cb) (dup := dup) (ix := ix) h (b.bucket i) b s
      obtain ⟨b2, v, e2, h2, h3⟩ := ih (i + 1) b1 (s ++ b.bucket i)
      refine ⟨b2, b.bucket i ++ v, ?_, fun j => (h1 j).trans (h2 j), ?_⟩
      · simp only [Bag.each, e1, ne_eq, not_true, if_false, e2, List.append_assoc]
      · rw [List.range'_succ, List.flatMap_cons]
        refine List.Sublist.append (List.Sublist.refl _) (List.Sublist.trans ?_ h3)
        generalize List.range' (i + 1) k = r
        induction r with
        | nil => exact List.Sublist.refl _
        | cons a r ih' => rw [List.flatMap_cons, List.flatMap_cons]; exact (h1 a).append ih'

/-- Whatever a callback inserts (and looks up), every entry that was in the table is visited, in the same order as without the insertions, and is still there afterwards. (Which of the
new ones are visited depends on their buckets.) -/
theorem c130_insert_all (cb : Callbacks) (alloc : Tbl → Nat) (al : Allocator alloc) (hint : Nat) (useHint dup : Bool) (hr : InRange cb (init hint useHint dup)) (ops : List Op)
    (plan : Entry → List Entry → List Op) (hp : ∀ e s k, Op.del k ∉ plan e s) :
    ∃ n, ∀ fuel ≥ n, ∃ rs T T' v b, run cb alloc fuel (init hint useHint dup) ops = .ok (rs, T) ∧
      forEachM ((noting plan).call cb alloc fuel) fuel (T, []) = .ok (0, (T', v)) ∧
      ((List.range (init hint useHint dup).num).flatMap (bagOf cb hint useHint dup ops).bucket).Sublist v ∧
      Answers cb fuel T' b ∧ ∀ j, ((bagOf cb hint useHint dup ops).bucket j).Sublist (b.bucket j) := by
  obtain ⟨n, hn⟩ := c130_insert cb alloc al hint useHint dup hr ops (noting plan) [] hp
  obtain ⟨b, v, e, h1, h2⟩ := each_noting (cb := cb) (dup := dup) (ix := index cb (init hint useHint dup)) hp (init hint useHint dup).num 0 (bagOf cb hint useHint dup ops) []
  refine ⟨n, fun fuel hf => ?_⟩
  obtain ⟨rs, T, T', e0, k1, k2⟩ := hn fuel hf
  rw [e] at k1 k2
  exact ⟨rs, T, T', v, b, e0, k1, by rw [List.range_eq_range']; exact h2, k2, h1⟩

/-! ### Deleting every entry on the way -/

/-- The callback that deletes the entry it is called for and notes it. -/
def clear : Prog (List Entry) := ⟨fun e _ => [.del e.key], fun e _ s => (0, s ++ [e])⟩

theorem visit_clear {cb : Callbacks} (g : Good cb) {ix : Key → Nat} (i : Nat) : ∀ (l : List Entry) (b : Bag) (s : List Entry), b.bucket i = l → (∀ e ∈ l, ix e.key = i) →
    Bag.visit clear cb false ix l (b, s) = (0, (⟨fun j => if j = i then [] else b.bucket j, b.lost⟩, s ++ l)) := by
  intro l
  induction l with
  | nil =>
      intro b s hb _
      have : (fun j => if j = i then [] else b.bucket j) = b.bucket := by
        funext j; split
        · subst_vars; exact hb.symm
        · rfl
      simp [Bag.visit, this]
  | cons e es ih =>
      intro b s hb hi
      have hm : Meets cb e.key e = true := by rw [meets_good g]; exact g.refl _
      have ht : taken (Meets cb e.key) (b.bucket (ix e.key)) = some (e.datum, es, []) := by rw [hi e (by simp), hb]; exact taken_first hm
      have k := ih ⟨fun j => if j = ix e.key then es else b.bucket j, b.lost⟩ (s ++ [e]) (by simp [hi e (by simp)]) (fun x hx => hi x (by simp [hx]))
      simp only [Bag.visit, clear, Bag.run, Bag.step, ht, List.nil_append, ne_eq, not_true, if_false]
      simp only [clear] at k
      rw [k]
      simp only [List.append_assoc, List.cons_append, List.nil_append, Prod.mk.injEq, and_true, true_and, Bag.mk.injEq]
      funext j
      rw [hi e (by simp)]
      split <;> rfl

theorem each_clear {cb : Callbacks} (g : Good cb) {ix : Key → Nat} : ∀ (k i : Nat) (b : Bag) (s : List Entry), b.Placed cb ix →
    Bag.each clear cb false ix k i (b, s) = (0, (⟨fun j => if i ≤ j ∧ j < i + k then [] else b.bucket j, b.lost⟩, s ++ (List.range' i k).flatMap b.bucket)) := by
  intro k
  induction k with
  | zero =>
      intro i b s _
      have : (fun j => if i ≤ j ∧ j < i + 0 then [] else b.bucket j) = b.bucket := by funext j; rw [if_neg (by omega)]
      simp [Bag.each]
      exact congrArg (fun f => (⟨f, b.lost⟩ : Bag)) this.symm
  | succ k ih =>
      intro i b s hp
      have hv := visit_clear g (ix := ix) i (b.bucket i) b s rfl (fun e he => (hp i e he).1)
      simp only [Bag.each, hv, ne_eq, not_true, if_false]
      have hp' : Bag.Placed cb ix ⟨fun j => if j = i then [] else b.bucket j, b.lost⟩ := by
        intro j e he
        dsimp only at he
        split at he
        · cases he
        · exact hp j e he
      rw [ih (i + 1) _ _ hp']
      dsimp only
      have hfl : ∀ n m, i < n → (List.range' n m).flatMap (fun j => if j = i then [] else b.bucket j) = (List.range' n m).flatMap b.bucket := by
        intro n m
        induction m generalizing n with
        | zero => intro _; rfl
        | succ m ihm => intro hn; rw [List.range'_succ, List.flatMap_cons, List.flatMap_cons, ihm (n + 1) (by omega), if_neg (by omega)]
      rw [hfl _ _ (by omega), List.range'_succ, List.flatMap_cons, List.append_assoc]
      simp only [Prod.mk.injEq, and_true, true_and, Bag.mk.injEq]
      funext j
      by_cases c : j = i
      · subst c; simp
      · simp only [c, if_false]
        congr 1
        simp only [eq_iff_iff]
        omega

/-- Deleting every entry from within the enumeration visits every entry once and leaves the table empty, with nothing lost that was not lost before. -/
theorem c130_clear (cb : Callbacks) (g : Good cb) (alloc : Tbl → Nat) (al : Allocator alloc) (hint : Nat) (useHint : Bool) (hr : InRange cb (init hint useHint false)) (ops : List Op) :
    ∃ n, ∀ fuel ≥ n, ∃ rs T T', run cb alloc fuel (init hint useHint false) ops = .ok (rs, T) ∧
      forEachM (clear.call cb alloc fuel) fuel (T, []) = .ok (0, (T', (List.range (init hint useHint false).num).flatMap (bagOf cb hint useHint false ops).bucket)) ∧
      Answers cb fuel T' ⟨fun _ => [], (bagOf cb hint useHint false ops).lost⟩ := by
  obtain ⟨n, hn⟩ := c130_delete_own cb g alloc al hint useHint hr ops clear [] (fun e s k hk => by
    simp only [clear, List.mem_singleton, Op.del.injEq] at hk
    rw [hk]; exact g.refl _)
  refine ⟨n, fun fuel hf => ?_⟩
  obtain ⟨rs, T, T', e, h1, h2⟩ := hn fuel hf
  have hp := (bagOf_inv g hint useHint ops).2
  rw [each_clear g _ _ _ _ hp] at h1 h2
  refine ⟨rs, T, T', e, ?_, ?_⟩
  · rw [h1, List.nil_append, List.range_eq_range']
  · have : (fun j => if 0 ≤ j ∧ j < 0 + (init hint useHint false).num then [] else (bagOf cb hint useHint false ops).bucket j) = fun _ => [] := by
      funext j
      split
      · rfl
      · cases hb : (bagOf cb hint useHint false ops).bucket j with
        | nil => rfl
        | cons e es =>
            have := (hp j e (by rw [hb]; simp)).1
            have := hr e.key
            omega
    rw [this] at h2
    exact h2

/-! ### Violations -/

/-- The callback that deletes the key 1. -/
def killOne : Prog Unit := ⟨fun _ _ => [.del (1, 1)], fun _ _ s => (0, s)⟩

/-- Deleting the entry that comes next is a use after free: the loop has read its address before. -/
theorem c130_next_violation :
    (run constCb alloc4 10 (init 0 false false) [.set (1, 1) 10 0, .set (2, 1) 20 0] >>= fun r => forEachM (killOne.call constCb alloc4 10) 10 (r.2, ()) >>= fun o => pure o.1) = .ub ∧
    (run constCb alloc4 10 (init 0 false false) [.set (1, 1) 10 0, .set (2, 1) 20 0] >>= fun r => pure r.1) = .ok [.int 0, .int 0] := by
  rw [init_default]
  exact ⟨rfl, rfl⟩

/-- The callback that deletes the entry it is called for if that is the key 1, and notes the keys it is called for. -/
def dropOne : Prog (List Key) := ⟨fun e _ => if e.key = (1, 1) then [.del e.key] else [], fun e _ s => (0, s ++ [e.key])⟩

/-- Deleting only the entry just visited can lose another one, when it is the third of its bucket: all three are visited, one is deleted, and the one before it is gone too. -/
theorem c130_filter_violation :
    (run constCb alloc4 10 (init 0 false false) [.set (1, 1) 10 0, .set (2, 1) 20 0, .set (3, 1) 30 0] >>= fun r => forEachM (dropOne.call constCb alloc4 10) 10 (r.2, []) >>= fun o =>
      run constCb alloc4 10 o.2.1 [.get (2, 1), .get (3, 1)] >>= fun q => pure (o.1, o.2.2, q.1)) =
      .ok (0, [(3, 1), (2, 1), (1, 1)], [.ret ⟨0, true⟩, .ret ⟨30, false⟩]) := by
  rw [init_default]
  rfl

/-- The hypotheses of `c130_clear` hold for a table with three entries in one bucket. -/
example : Good constCb ∧ InRange constCb (init 0 false false) ∧ (bagOf constCb 0 false false [.set (1, 1) 10 0, .set (2, 1) 20 0, .set (3, 1) 30 0]).bucket 0 = [⟨(3, 1), 30, 0, 0⟩, ⟨(2, 1), 20, 0, 0⟩, ⟨(1, 1), 10, 0, 0⟩] :=
  ⟨constCb_good, in_range_small_partial _ 0 false (by decide), by rw [bagOf, init_default]; decide⟩

end ZT.Table
