import Verif.Table.Each

/-!
# C135: copying a hash table onto itself

`zt_table_copy(t, t)` (zt_table.c 262-279): the loop stores into the table it runs through, and reads `node->next` after the call of zt_table_set.
-/

namespace ZT.Table

/-! ## Model -/

/-- The inner loop of zt_table.c 269-274 with `t1 == t2`. -/
def selfChain (cb : Callbacks) (alloc : Tbl → Nat) (big : Nat) : (fuel : Nat) → Ptr → Bool → Tbl → Outcome (Bool × Tbl)
  | 0, _, _, _ => .ub
  | _ + 1, none, any, T => .ok (any, T)
  | fuel + 1, some a, _, T => do
      let n ← load T a
      let (_, T) ← set cb big T n.e.key n.e.datum n.e.datumLen (alloc T)
      let n ← load T a
      selfChain cb alloc big fuel n.next true T

/-- The outer loop of zt_table.c 267-275; `k` buckets are left. -/
def selfLoop (cb : Callbacks) (alloc : Tbl → Nat) (fuel : Nat) : (k i : Nat) → Bool → Tbl → Outcome (Bool × Tbl)
  | 0, _, any, T => .ok (any, T)
  | k + 1, i, any, T => do
      let b ← bucket T i
      let (any, T) ← selfChain cb alloc fuel fuel b any T
      selfLoop cb alloc fuel k (i + 1) any T

/-- zt_table.c 262-279 `zt_table_copy(t, t)`; the result is `any`. -/
def copySelf (cb : Callbacks) (alloc : Tbl → Nat) (fuel : Nat) (T : Tbl) : Outcome (Bool × Tbl) := selfLoop cb alloc fuel T.num 0 false T

/-! ## Proof -/

theorem selfChain_x {cb : Callbacks} {alloc} (al : Allocator alloc) (big : Nat) (i : Nat) : ∀ (rest : List (Nat × Entry)) {T : Tbl} {C Z s L pre} (any : Bool) {q : Ptr} {fuel : Nat}, AbsX cb T C Z s L →
    C i = pre ++ rest → Chain T.heap q rest → L + rest.length < big → rest.length < fuel →
    ∃ T' C' Z', selfChain cb alloc big fuel q any T = .ok (any || !rest.isEmpty, T') ∧ T'.nbits = T.nbits ∧ T'.num = T.num ∧ T'.dup = T.dup ∧
      AbsX cb T' C' Z' (s.run cb T.dup (index cb T) ((rest.map (·.2)).map setOp)).2 (L + rest.length) := by
  intro rest
  induction rest with
  | nil =>
      intro T C Z s L pre any q fuel A hC hq hb hf
      cases hq
      obtain ⟨f, rfl⟩ : ∃ f, fuel = f + 1 := ⟨fuel - 1, by simp at hf; omega⟩
      exact ⟨T, C, Z, by simp [selfChain], rfl, rfl, rfl, A⟩
  | cons y rest ih =>
      intro T C Z s L pre any q fuel A hC hq hb hf
      obtain ⟨a, e⟩ := y
      obtain ⟨rfl, nx, hn, hnx⟩ := hq
      obtain ⟨f, rfl⟩ : ∃ f, fuel = f + 1 := ⟨fuel - 1, by simp at hf; omega⟩
      simp only [List.length_cons] at hb hf
      obtain ⟨T1, C1, Z1, pre1, e1, g1, g2, g3, A1, c1⟩ := run_xk al i ((a, e) :: rest) [setOp e] A big (by simp; omega) hC (fun k hk => by simp [setOp] at hk)
      have hix : index cb T1 = index cb T := by funext k; rw [index, index, g1]
      have hch := A1.rep.chain i
      rw [c1] at hch
      obtain ⟨q', ⟨hq', nx', hn', hnx'⟩, -⟩ := chain_suffix pre1 _ hch
      simp only [run, setOp, exec] at e1
      obtain ⟨⟨r, T2⟩, h1, h2⟩ := Outcome.bind_eq_ok.1 e1
      obtain ⟨⟨r', T3⟩, h3, h4⟩ := Outcome.bind_eq_ok.1 h1
      cases h4
      simp only [Outcome.ok_bind, Outcome.pure_eq, Outcome.ok.injEq, Prod.mk.injEq] at h2
      obtain ⟨-, rfl⟩ := h2
      obtain ⟨T4, C4, Z4, e4, k1, k2, k3, A4⟩ := ih true (fuel := f) A1 (pre := pre1 ++ [(a, e)]) (by rw [c1]; simp) hnx' (by simp; omega) (by omega)
      refine ⟨T4, C4, Z4, ?_, k1.trans g1, k2.trans g2, k3.trans g3, ?_⟩
      · simp only [selfChain, load, hn, Outcome.ok_bind, h3, hn', e4]; simp
      · rw [hix, g3] at A4
        simp only [List.length_cons, List.length_nil] at A4 ⊢
        rw [show L + (0 + 1) + rest.length = L + (rest.length + 1) by omega] at A4
        exact A4

/-- What zt_table_set does for the entries of a bucket, in a table with duplicates. -/
theorem run_dup {cb : Callbacks} {ix : Key → Nat} (i : Nat) : ∀ (l : List Entry) (s : Bag), (∀ e ∈ l, e.hash = cb.hash e.key ∧ ix e.key = i) →
    (s.run cb true ix (l.map setOp)).2 = { s with bucket := fun j => if j = i then l.reverse ++ s.bucket j else s.bucket j } := by
  intro l
  induction l with
  | nil => intro s _; simp [Bag.run]
  | cons e es ih =>
      intro s h
      obtain ⟨h1, h2⟩ := h e (by simp)
      simp only [List.map_cons, Bag.run, setOp, Bag.step, Bool.not_true, Bool.false_and, Bool.false_eq_true, if_false]
      rw [ih _ (fun x hx => h x (by simp [hx]))]
      have he : (⟨e.key, e.datum, e.datumLen, cb.hash e.key⟩ : Entry) = e := by cases e; simp at h1 ⊢; exact h1.symm
      rw [he, h2]
      congr 1
      funext j
      by_cases hj : j = i <;> simp [hj]

/-- In a table without duplicates, none: each is found. -/
theorem run_nodup {cb : Callbacks} (g : Good cb) {ix : Key → Nat} (i : Nat) : ∀ (l : List Entry) (s : Bag), (∀ e ∈ l, e ∈ s.bucket i ∧ ix e.key = i) → (s.run cb false ix (l.map setOp)).2 = s := by
  intro l
  induction l with
  | nil => intro s _; rfl
  | cons e es ih =>
      intro s h
      obtain ⟨h1, h2⟩ := h e (by simp)
      have : (s.bucket (ix e.key)).any (Meets cb e.key) = true := by
        rw [h2, List.any_eq_true]
        exact ⟨e, h1, by simp [Meets, g.refl]⟩
      simp only [List.map_cons, Bag.run, setOp, Bag.step, Bool.not_false, Bool.true_and, this, if_true]
      exact ih s (fun x hx => h x (by simp [hx]))

/-! ## Specification -/

/-- Every entry twice, the new ones first, in reverse order. -/
def Bag.twice (s : Bag) : Bag := { s with bucket := fun j => (s.bucket j).reverse ++ s.bucket j }

/-! ## Proof -/

/-- Buckets `i` to `i + k - 1` done. -/
def Bag.twiceIn (s : Bag) (i k : Nat) : Bag := { s with bucket := fun j => if i ≤ j ∧ j < i + k then (s.bucket j).reverse ++ s.bucket j else s.bucket j }

theorem selfLoop_x {cb : Callbacks} {alloc} (al : Allocator alloc) (dup : Bool) (hg : dup = true ∨ Good cb) (big N : Nat) : ∀ (k i : Nat) {T : Tbl} {C Z s L} (any : Bool), AbsX cb T C Z s L → T.dup = dup → i + k ≤ T.num →
    (∀ j, i ≤ j → (s.bucket j).length ≤ N) → L + k * N < big →
    ∃ T' C' Z', selfLoop cb alloc big k i any T = .ok (any || !((List.range' i k).flatMap s.bucket).isEmpty, T') ∧ T'.nbits = T.nbits ∧ T'.num = T.num ∧ T'.dup = T.dup ∧
      AbsX cb T' C' Z' (if dup then s.twiceIn i k else s) (L + k * N) := by
  intro k
  induction k with
  | zero =>
      intro i T C Z s L any A hd _ _ _
      refine ⟨T, C, Z, by simp [selfLoop], rfl, rfl, rfl, ?_⟩
      have : s.twiceIn i 0 = s := by
        cases s; simp only [Bag.twiceIn, Bag.mk.injEq, and_true]; funext j; rw [if_neg (by omega)]
      rw [this, ite_self, Nat.zero_mul]; exact A
  | succ k ih =>
      intro i T C Z s L any A hd hk hN hb
      have hbk := A.buckets i
      have hl := A.len i
      have hlen : (C i).length = (s.bucket i).length := by rw [hbk, List.length_map]
      have hn := hN i (Nat.le_refl _)
      have hmul : (k + 1) * N = N + k * N := by rw [Nat.succ_mul, Nat.add_comm]
      have hplace : ∀ e ∈ s.bucket i, e.hash = cb.hash e.key ∧ index cb T e.key = i := by
        intro e he
        rw [hbk] at he
        obtain ⟨x, hx, rfl⟩ := List.mem_map.1 he
        exact ⟨(A.rep.hash i x hx).1, (A.rep.hash i x hx).2.1⟩
      obtain ⟨T1, C1, Z1, e1, g1, g2, g3, A1⟩ := selfChain_x al big i (C i) (pre := []) any (fuel := big) A rfl (A.rep.chain i) (by omega) (by omega)
      rw [← hbk, hd] at A1
      have hix : index cb T1 = index cb T := by funext k; rw [index, index, g1]
      have hs1 : (s.run cb dup (index cb T) ((s.bucket i).map setOp)).2 = if dup then s.twiceIn i 1 else s := by
        rcases hg with rfl | hg
        · rw [run_dup i _ s hplace, if_pos rfl, Bag.twiceIn]
          congr 1; funext j
          by_cases hj : j = i
          · subst hj; simp
          · rw [if_neg hj, if_neg (by omega)]
        · cases dup with
          | true => 
              rw [run_dup i _ s hplace, if_pos rfl, Bag.twiceIn]
              congr 1; funext j
              by_cases hj : j = i
              · subst hj; simp
              · rw [if_neg hj, if_neg (by omega)]
          | false => rw [run_nodup hg i _ s (fun e he => ⟨he, (hplace e he).2⟩)]; rfl
      rw [hs1] at A1
      have A1' : AbsX cb T1 C1 Z1 (if dup then s.twiceIn i 1 else s) (L + N) := { A1 with len := fun j => by have := A1.len j; omega }
      have hrest : ∀ j, i + 1 ≤ j → (if dup then s.twiceIn i 1 else s).bucket j = s.bucket j := by
        intro j hj
        cases dup with
        | true => simp only [if_true, Bag.twiceIn]; rw [if_neg (by omega)]
        | false => rfl
      obtain ⟨T2, C2, Z2, e2, k1, k2, k3, A2⟩ := ih (i + 1) (any || !(C i).isEmpty) A1' (g3.trans hd) (by omega) (fun j hj => by rw [hrest j hj]; exact hN j (by omega)) (by omega)
      have hflat : (List.range' (i + 1) k).flatMap (if dup then s.twiceIn i 1 else s).bucket = (List.range' (i + 1) k).flatMap s.bucket := by
        rw [List.flatMap_def, List.flatMap_def]
        congr 1
        refine List.map_congr_left fun j hj => hrest j ?_
        rw [List.mem_range'] at hj
        obtain ⟨m, _, rfl⟩ := hj; omega
      rw [hflat] at e2
      refine ⟨T2, C2, Z2, ?_, k1.trans g1, k2.trans g2, k3.trans g3, ?_⟩
      · simp only [selfLoop, bucket, if_pos (show i < T.num by omega), Outcome.ok_bind, e1, e2]
        rw [List.range'_succ, List.flatMap_cons, hbk]
        cases C i <;> simp
      · have : (if dup then (if dup then s.twiceIn i 1 else s).twiceIn (i + 1) k else (if dup then s.twiceIn i 1 else s)) = if dup then s.twiceIn i (k + 1) else s := by
          cases dup with
          | false => rfl
          | true =>
              simp only [if_true, Bag.twiceIn, Bag.mk.injEq, and_true]
              funext j
              grind
        rw [this] at A2
        rw [hmul, ← Nat.add_assoc]; exact A2

theorem run_places {cb : Callbacks} {T : Tbl} {C Z s L} (A : AbsX cb T C Z s L) (j : Nat) (hj : T.num ≤ j) : s.bucket j = [] := by
  rw [A.buckets, List.map_eq_nil_iff]
  cases h : C j with
  | nil => rfl
  | cons x xs =>
      exfalso
      have h1 := (A.rep.hash j x (by rw [h]; simp)).2.2
      omega

/-! ## The theorems -/

/-- **C135.** After every history: zt_table_copy of a table onto itself is defined and ends; it doubles every entry if duplicates are allowed (the copies are found first, the oldest entry of a bucket foremost) -/
theorem c135_dup (cb : Callbacks) (alloc : Tbl → Nat) (al : Allocator alloc) (hint : Nat) (useHint : Bool) (hr : InRange cb (init hint useHint true)) (ops : List Op) :
    ∃ n, ∀ fuel ≥ n, ∃ rs T T', run cb alloc fuel (init hint useHint true) ops = .ok (rs, T) ∧
      copySelf cb alloc fuel T = .ok (!((List.range (init hint useHint true).num).flatMap (bagOf cb hint useHint true ops).bucket).isEmpty, T') ∧ Answers cb fuel T' (bagOf cb hint useHint true ops).twice := by
  refine ⟨ops.length + (init hint useHint true).num * ops.length + 1, fun fuel hf => ?_⟩
  obtain ⟨T, C, Z, e, h1, h2, h3, A⟩ := run_x al ops (init_x cb hint useHint true hr) fuel (by omega)
  have A : AbsX cb T C Z (bagOf cb hint useHint true ops) (0 + ops.length) := A
  obtain ⟨T', C', Z', e', k1, k2, k3, A'⟩ := selfLoop_x al true (.inl rfl) fuel ops.length T.num 0 false A h3 (by omega) (fun j _ => by rw [A.buckets, List.length_map]; have := A.len j; omega) (by rw [h2]; omega)
  refine ⟨_, T, T', e, ?_, ?_⟩
  · rw [copySelf, e', h2, Bool.false_or, List.range_eq_range']
  · have : (if true = true then (bagOf cb hint useHint true ops).twiceIn 0 T.num else bagOf cb hint useHint true ops) = (bagOf cb hint useHint true ops).twice := by
      simp only [if_true, Bag.twiceIn, Bag.twice, Bag.mk.injEq, and_true]
      funext j
      by_cases hj : j < T.num
      · rw [if_pos (by omega)]
      · rw [if_neg (by omega), run_places A j (by omega)]; rfl
    rw [← this]
    exact answers_x A' fuel (by rw [h2]; omega)

/-- and otherwise changes nothing. -/
theorem c135_nodup (cb : Callbacks) (g : Good cb) (alloc : Tbl → Nat) (al : Allocator alloc) (hint : Nat) (useHint : Bool) (hr : InRange cb (init hint useHint false)) (ops : List Op) :
    ∃ n, ∀ fuel ≥ n, ∃ rs T T', run cb alloc fuel (init hint useHint false) ops = .ok (rs, T) ∧
      copySelf cb alloc fuel T = .ok (!((List.range (init hint useHint false).num).flatMap (bagOf cb hint useHint false ops).bucket).isEmpty, T') ∧ Answers cb fuel T' (bagOf cb hint useHint false ops) := by
  refine ⟨ops.length + (init hint useHint false).num * ops.length + 1, fun fuel hf => ?_⟩
  obtain ⟨T, C, Z, e, h1, h2, h3, A⟩ := run_x al ops (init_x cb hint useHint false hr) fuel (by omega)
  have A : AbsX cb T C Z (bagOf cb hint useHint false ops) (0 + ops.length) := A
  obtain ⟨T', C', Z', e', k1, k2, k3, A'⟩ := selfLoop_x al false (.inr g) fuel ops.length T.num 0 false A h3 (by omega) (fun j _ => by rw [A.buckets, List.length_map]; have := A.len j; omega) (by rw [h2]; omega)
  refine ⟨_, T, T', e, ?_, answers_x A' fuel (by rw [h2]; omega)⟩
  rw [copySelf, e', h2, Bool.false_or, List.range_eq_range']

/-! ## Non-vacuity -/

/-- Two entries in one bucket of a table with duplicates: four afterwards, the first lookup finds the copy. -/
example : (run constCb alloc4 20 (init 0 false true) [.set (1, 1) 10 0, .set (2, 1) 20 0] >>= fun r => copySelf constCb alloc4 20 r.2 >>= fun o =>
    run constCb alloc4 20 o.2 [.del (1, 1), .del (1, 1), .del (1, 1)] >>= fun q => pure (o.1, q.1)) = .ok (true, [.ret ⟨10, false⟩, .ret ⟨10, false⟩, .ret ⟨0, true⟩]) := by
  decide +kernel

example : InRange constCb (init 0 false true) ∧ (bagOf constCb 0 false true [.set (1, 1) 10 0, .set (2, 1) 20 0]).bucket 0 ≠ [] ∧ Good constCb :=
  ⟨in_range_small_partial _ 0 true (by decide), by decide +kernel, constCb_good⟩

end ZT.Table
