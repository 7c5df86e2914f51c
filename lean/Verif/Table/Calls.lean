import Verif.Table.Exact

/-!
# Which keys a hash table gives to its callbacks (C147)

The functions of zt_table.c with a record of every call of the hash and the comparison function and its arguments.
-/

namespace ZT.Table

/-! ## Model -/

/-- A call of a callback: `h->func(key, …)` or `h->cmp(stored key, …, sought key, …)`. -/
inductive Call where
  | hash (k : Key)
  | cmp (stored sought : Key)
  deriving Repr, DecidableEq

/-- The search loops of zt_table.c 179-186 and 215-222, `skey` being the hash of the key sought; `w` records the calls. -/
def findN (cb : Callbacks) (T : Tbl) (key : Key) (skey : ULong) : (fuel : Nat) → Ptr → List Call → Outcome (Option (Nat × Entry) × List Call)
  | 0, _, _ => .ub
  | _ + 1, none, w => .ok (none, w)
  | fuel + 1, some a, w => do
      let n ← load T a
      if n.e.hash == skey then
        let w := w ++ [.cmp n.e.key key]
        if cb.cmp n.e.key key then pure (some (a, n.e), w) else findN cb T key skey fuel n.next w
      else findN cb T key skey fuel n.next w

/-- zt_table.c 165-200 `zt_table_set`. -/
def setN (cb : Callbacks) (fuel : Nat) (T : Tbl) (key : Key) (datum datumLen : Nat) (a : Nat) : Outcome (Int × Tbl × List Call) := do
  let skey := cb.hash key
  let w : List Call := [.hash key]
  let i := (fold skey T.nbits).toNat
  let nn ← bucket T i
  let (found, w) ← if T.dup then pure (none, w) else findN cb T key skey fuel nn w
  match found with
  | some _ => pure (1, T, w)
  | none => do
      let b ← bucket T i
      let T := updHeap T a (some ⟨⟨key, datum, datumLen, skey⟩, b⟩)
      let T ← setBucket T i (some a)
      pure (0, T, w)

/-- zt_table.c 202-226 `zt_table_get`. -/
def getN (cb : Callbacks) (fuel : Nat) (T : Tbl) (key : Key) : Outcome (Ret × List Call) := do
  let skey := cb.hash key
  let w : List Call := [.hash key]
  let node ← bucket T (fold skey T.nbits).toNat
  let (found, w) ← findN cb T key skey fuel node w
  match found with
  | some (_, e) => pure (⟨e.datum, false⟩, w)
  | none => pure (⟨0, true⟩, w)

/-- The loop of zt_table.c 240-258. -/
def delLoopN (cb : Callbacks) (T : Tbl) (key : Key) (skey : ULong) (i : Nat) (prev : Ptr) : (fuel : Nat) → Ptr → List Call → Outcome (Ret × Tbl × List Call)
  | 0, _, _ => .ub
  | _ + 1, none, w => .ok (⟨0, true⟩, T, w)
  | fuel + 1, some a, w => do
      let n ← load T a
      if n.e.hash == skey then
        let w := w ++ [.cmp n.e.key key]
        if cb.cmp n.e.key key then do
          let T ← if prev = some a then setBucket T i n.next else
            match prev with
            | some p => setNext T p n.next
            | none => .ub
          let T ← release T a
          pure (⟨n.e.datum, false⟩, T, w)
        else delLoopN cb T key skey i prev fuel n.next w
      else delLoopN cb T key skey i prev fuel n.next w

/-- zt_table.c 228-260 `zt_table_del`. -/
def delN (cb : Callbacks) (fuel : Nat) (T : Tbl) (key : Key) : Outcome (Ret × Tbl × List Call) := do
  let skey := cb.hash key
  let w : List Call := [.hash key]
  let i := (fold skey T.nbits).toNat
  let node ← bucket T i
  delLoopN cb T key skey i node fuel node w

/-- One call of set, get or del (zt_table.c 165-260). -/
def execN (cb : Callbacks) (alloc : Tbl → Nat) (fuel : Nat) (T : Tbl) : Op → Outcome (Res × Tbl × List Call)
  | .set k d dl => do
      let (r, T, w) ← setN cb fuel T k d dl (alloc T)
      pure (.int r, T, w)
  | .get k => do
      let (r, w) ← getN cb fuel T k
      pure (.ret r, T, w)
  | .del k => do
      let (r, T, w) ← delN cb fuel T k
      pure (.ret r, T, w)

/-- A history: the result of each call and the calls of callbacks it made. -/
def runN (cb : Callbacks) (alloc : Tbl → Nat) (fuel : Nat) : Tbl → List Op → Outcome (List (Res × List Call) × Tbl)
  | T, [] => .ok ([], T)
  | T, op :: ops => do
      let (r, T, w) ← execN cb alloc fuel T op
      let (rs, T) ← runN cb alloc fuel T ops
      pure ((r, w) :: rs, T)

/-! ## Specification -/

/-- The stored keys that have the hash of `k`, in the order of the bucket (newest first). -/
def rivals (cb : Callbacks) (k : Key) (l : List Entry) : List Key := (l.map (·.key)).filter fun x => cb.hash x == cb.hash k

/-- The stored keys a search for `k` compares: the rivals up to and including the first one the comparison accepts. -/
def compared (cb : Callbacks) (k : Key) (l : List Entry) : List Key :=
  (rivals cb k l).takeWhile (fun x => !cb.cmp x k) ++ ((rivals cb k l).dropWhile fun x => !cb.cmp x k).take 1

/-- The calls of callbacks that an operation makes when the table holds the bag `s`. -/
def Bag.calls (cb : Callbacks) (dup : Bool) (ix : Key → Nat) (s : Bag) : Op → List Call
  | .set k _ _ => .hash k :: if dup then [] else (compared cb k (s.bucket (ix k))).map fun x => .cmp x k
  | .get k => .hash k :: (compared cb k (s.bucket (ix k))).map fun x => .cmp x k
  | .del k => .hash k :: (compared cb k (s.bucket (ix k))).map fun x => .cmp x k

/-- Results and calls along a history. -/
def Bag.runN (cb : Callbacks) (dup : Bool) (ix : Key → Nat) : Bag → List Op → List (Res × List Call)
  | _, [] => []
  | s, op :: ops => ((s.step cb dup ix op).1, s.calls cb dup ix op) :: Bag.runN cb dup ix (s.step cb dup ix op).2 ops

/-! ## Proof -/

/-- The calls of a search along a chain. -/
def asks (cb : Callbacks) (k : Key) : List (Nat × Entry) → List Call
  | [] => []
  | (_, e) :: l => if e.hash == cb.hash k then .cmp e.key k :: (if cb.cmp e.key k then [] else asks cb k l) else asks cb k l

theorem asks_compared (cb : Callbacks) (k : Key) (l : List (Nat × Entry)) (h : ∀ x ∈ l, x.2.hash = cb.hash x.2.key) :
    asks cb k l = (compared cb k (l.map (·.2))).map fun x => .cmp x k := by
  induction l with
  | nil => rfl
  | cons x xs ih =>
      obtain ⟨a, e⟩ := x
      have ih := ih fun x hx => h x (by simp [hx])
      have he : e.hash = cb.hash e.key := h (a, e) (by simp)
      simp only [asks, compared, rivals, List.map_cons, he] at ih ⊢
      by_cases c : cb.hash e.key == cb.hash k
      · rw [if_pos c, List.filter_cons_of_pos (p := fun x => cb.hash x == cb.hash k) c]
        by_cases d : cb.cmp e.key k
        · simp [d]
        · simp [d, ih]
      · rw [if_neg c, List.filter_cons_of_neg (p := fun x => cb.hash x == cb.hash k) c]; exact ih

theorem findN_spec (cb : Callbacks) (T : Tbl) (k : Key) (l : List (Nat × Entry)) : ∀ (p : Ptr) (fuel : Nat) (w : List Call), Chain T.heap p l →
    findN cb T k (cb.hash k) fuel p w = (find cb T k fuel p >>= fun r => .ok (r, w ++ asks cb k l)) := by
  induction l with
  | nil =>
      intro p fuel w h
      simp only [Chain] at h; subst h
      cases fuel with
      | zero => rfl
      | succ f => simp [findN, find, asks]
  | cons x xs ih =>
      obtain ⟨a, e⟩ := x
      intro p fuel w h
      obtain ⟨rfl, nx, hn, h⟩ := h
      cases fuel with
      | zero => rfl
      | succ f =>
          simp only [findN, find, load, hn, Outcome.ok_bind, hit, asks]
          by_cases c : e.hash == cb.hash k
          · by_cases d : cb.cmp e.key k
            · simp [c, d]
            · simp [c, d, ih nx f _ h]
          · simp [c, ih nx f _ h]

theorem delLoopN_spec (cb : Callbacks) (T : Tbl) (k : Key) (i : Nat) (prev : Ptr) (l : List (Nat × Entry)) : ∀ (p : Ptr) (fuel : Nat) (w : List Call), Chain T.heap p l →
    delLoopN cb T k (cb.hash k) i prev fuel p w = (delLoop cb T k i prev fuel p >>= fun r => .ok (r.1, r.2, w ++ asks cb k l)) := by
  induction l with
  | nil =>
      intro p fuel w h
      simp only [Chain] at h; subst h
      cases fuel with
      | zero => rfl
      | succ f => simp [delLoopN, delLoop, asks]
  | cons x xs ih =>
      obtain ⟨a, e⟩ := x
      intro p fuel w h
      obtain ⟨rfl, nx, hn, h⟩ := h
      cases fuel with
      | zero => rfl
      | succ f =>
          simp only [delLoopN, delLoop, load, hn, Outcome.ok_bind, hit, asks]
          by_cases c : e.hash == cb.hash k
          · by_cases d : cb.cmp e.key k
            · simp only [c, d, Bool.and_self, if_true]
              split
              · cases setBucket T i nx with
                | ok T1 =>
                    simp only [Outcome.ok_bind]
                    cases release T1 a <;> rfl
                | abort => rfl
                | ub => rfl
              · cases prev with
                | none => rfl
                | some q =>
                    simp only
                    cases setNext T q nx with
                    | ok T1 =>
                        simp only [Outcome.ok_bind]
                        cases release T1 a <;> rfl
                    | abort => rfl
                    | ub => rfl
            · simp [c, d, ih nx f _ h]
          · simp [c, ih nx f _ h]

/-- An operation with its record is the operation, and the record is that of the bag. -/
theorem execN_spec {cb : Callbacks} {alloc : Tbl → Nat} {T : Tbl} {C Z s L} (A : AbsX cb T C Z s L) (fuel : Nat) (op : Op) :
    execN cb alloc fuel T op = (exec cb alloc fuel T op >>= fun r => .ok (r.1, r.2, s.calls cb T.dup (index cb T) op)) := by
  have ask : ∀ k, asks cb k (C (index cb T k)) = (compared cb k (s.bucket (index cb T k))).map fun x => .cmp x k := by
    intro k
    rw [asks_compared cb k _ (fun x hx => (A.rep.hash _ x hx).1), A.buckets]
  cases op with
  | set k d dl =>
      simp only [execN, exec, setN, set]
      have hb : bucket T (index cb T k) = .ok (T.buckets (index cb T k)) := by simp [bucket, A.range k]
      rw [show (fold (cb.hash k) T.nbits).toNat = index cb T k from rfl, hb]
      simp only [Outcome.ok_bind]
      cases hd : T.dup with
      | true =>
          simp only [if_true, Outcome.pure_eq, Outcome.ok_bind, Bag.calls]
          generalize setBucket _ _ _ = X
          cases X <;> rfl
      | false =>
          simp only [Bool.false_eq_true, if_false, Bag.calls]
          rw [findN_spec cb T k _ _ fuel _ (A.rep.chain (index cb T k)), ask k]
          cases find cb T k fuel (T.buckets (index cb T k)) with
          | ok r =>
              cases r with
              | none =>
                  simp only [Outcome.ok_bind]
                  generalize setBucket _ _ _ = X
                  cases X <;> rfl
              | some x => rfl
          | abort => rfl
          | ub => rfl
  | get k =>
      simp only [execN, exec, getN, get]
      have hb : bucket T (index cb T k) = .ok (T.buckets (index cb T k)) := by simp [bucket, A.range k]
      rw [show (fold (cb.hash k) T.nbits).toNat = index cb T k from rfl, hb]
      simp only [Outcome.ok_bind, Bag.calls]
      rw [findN_spec cb T k _ _ fuel _ (A.rep.chain (index cb T k)), ask k]
      cases find cb T k fuel (T.buckets (index cb T k)) with
      | ok r => cases r <;> rfl
      | abort => rfl
      | ub => rfl
  | del k =>
      simp only [execN, exec, delN, del]
      have hb : bucket T (index cb T k) = .ok (T.buckets (index cb T k)) := by simp [bucket, A.range k]
      rw [show (fold (cb.hash k) T.nbits).toNat = index cb T k from rfl, hb]
      simp only [Outcome.ok_bind, Bag.calls]
      rw [delLoopN_spec cb T k _ _ _ _ fuel _ (A.rep.chain (index cb T k)), ask k]
      cases delLoop cb T k (index cb T k) (T.buckets (index cb T k)) fuel (T.buckets (index cb T k)) <;> rfl

theorem runN_spec {cb : Callbacks} {alloc} (al : Allocator alloc) (ops : List Op) : ∀ {T : Tbl} {C Z s L}, AbsX cb T C Z s L → ∀ fuel, L + ops.length < fuel →
    ∃ T', runN cb alloc fuel T ops = .ok (s.runN cb T.dup (index cb T) ops, T') := by
  induction ops with
  | nil => intro T C Z s L A fuel _; exact ⟨T, rfl⟩
  | cons op ops ih =>
      intro T C Z s L A fuel hf
      simp only [List.length_cons] at hf
      obtain ⟨T1, C1, Z1, e1, h1, h2, h3, A1⟩ := step_x al A fuel (by omega) op
      obtain ⟨T2, e2⟩ := ih A1 fuel (by omega)
      have hix : index cb T1 = index cb T := by funext k; rw [index, index, h1]
      rw [hix, h3] at e2
      refine ⟨T2, ?_⟩
      simp only [runN, execN_spec A fuel op, e1, Outcome.ok_bind, e2, Outcome.pure_eq, Bag.runN]

/-! ## The theorems -/

/-- The empty bag. -/
def Bag.empty : Bag := ⟨fun _ => [], []⟩

/-- **C147** Every history: the results are those of the bag (C17), each call of set, get and del calls the hash function once, with the key given, and the comparison function only with stored
keys that have the hash of that key, the stored key first, newest first, each once, and not beyond the first one accepted; set calls it not at all in tables that allow duplicates. -/
theorem c147_calls (cb : Callbacks) (alloc : Tbl → Nat) (al : Allocator alloc) (hint : Nat) (useHint dup : Bool) (hr : InRange cb (init hint useHint dup)) (ops : List Op) :
    ∃ n, ∀ fuel ≥ n, ∃ T, runN cb alloc fuel (init hint useHint dup) ops = .ok (Bag.empty.runN cb dup (index cb (init hint useHint dup)) ops, T) := by
  refine ⟨ops.length + 1, fun fuel hf => ?_⟩
  exact runN_spec al ops (init_x cb hint useHint dup hr) fuel (by omega)

theorem compared_sub (cb : Callbacks) (k : Key) (l : List Entry) : (compared cb k l).Sublist (rivals cb k l) := by
  conv => rhs; rw [← List.takeWhile_append_dropWhile (p := fun x => !cb.cmp x k) (l := rivals cb k l)]
  exact List.Sublist.append (List.Sublist.refl _) (List.take_sublist _ _)

/-- **C147** The cost: as many comparisons as there are stored keys with the same hash in the bucket, at most. -/
theorem c147_cost (cb : Callbacks) (dup : Bool) (ix : Key → Nat) (s : Bag) (op : Op) (k : Key) (hk : (∃ d dl, op = .set k d dl) ∨ op = .get k ∨ op = .del k) :
    (s.calls cb dup ix op).length ≤ 1 + ((s.bucket (ix k)).filter fun e => cb.hash e.key == cb.hash k).length := by
  have le : (compared cb k (s.bucket (ix k))).length ≤ ((s.bucket (ix k)).filter fun e => cb.hash e.key == cb.hash k).length := by
    have := (compared_sub cb k (s.bucket (ix k))).length_le
    rw [rivals, List.filter_map, List.length_map] at this
    exact this
  rcases hk with ⟨d, dl, rfl⟩ | rfl | rfl <;> simp only [Bag.calls]
  · cases dup <;> simp <;> omega
  · simp; omega
  · simp; omega

/-- **C147** Only stored keys: whatever the callbacks are given is the key of the call or a key the table holds, with the same hash. -/
theorem c147_stored (cb : Callbacks) (dup : Bool) (ix : Key → Nat) (s : Bag) (op : Op) (x y : Key) (h : Call.cmp x y ∈ s.calls cb dup ix op) :
    cb.hash x = cb.hash y ∧ ((∃ d dl, op = .set y d dl) ∨ op = .get y ∨ op = .del y) ∧ ∃ e ∈ s.bucket (ix y), e.key = x := by
  have mem : ∀ k, x ∈ compared cb k (s.bucket (ix k)) → cb.hash x = cb.hash k ∧ ∃ e ∈ s.bucket (ix k), e.key = x := by
    intro k hx
    have := (compared_sub cb k _).subset hx
    simp only [rivals, List.mem_filter, List.mem_map] at this
    exact ⟨by simpa using this.2, this.1⟩
  cases op with
  | set k d dl =>
      simp only [Bag.calls] at h
      cases dup with
      | true => simp at h
      | false =>
          simp only [Bool.false_eq_true, if_false, List.mem_cons, List.mem_map, reduceCtorEq, false_or, Call.cmp.injEq] at h
          obtain ⟨_, h1, rfl, rfl⟩ := h
          exact ⟨(mem _ h1).1, .inl ⟨d, dl, rfl⟩, (mem _ h1).2⟩
  | get k =>
      simp only [Bag.calls, List.mem_cons, List.mem_map, reduceCtorEq, false_or, Call.cmp.injEq] at h
      obtain ⟨_, h1, rfl, rfl⟩ := h
      exact ⟨(mem _ h1).1, .inr (.inl rfl), (mem _ h1).2⟩
  | del k =>
      simp only [Bag.calls, List.mem_cons, List.mem_map, reduceCtorEq, false_or, Call.cmp.injEq] at h
      obtain ⟨_, h1, rfl, rfl⟩ := h
      exact ⟨(mem _ h1).1, .inr (.inr rfl), (mem _ h1).2⟩

/-- The key is in no bucket. -/
def Bag.Without (s : Bag) (k : Key) : Prop := ∀ i, ∀ e ∈ s.bucket i, e.key ≠ k

theorem without_step (cb : Callbacks) (dup : Bool) (ix : Key → Nat) (s : Bag) (k : Key) (op : Op) (h : s.Without k) (hs : ∀ d dl, op ≠ .set k d dl) : (s.step cb dup ix op).2.Without k := by
  cases op with
  | set k' d dl =>
      simp only [Bag.step]
      split
      · exact h
      · intro i e he
        simp only at he
        split at he
        · rcases List.mem_cons.mp he with rfl | he
          · intro e; simp only at e; subst e; exact hs d dl rfl
          · exact h i e he
        · exact h i e he
  | get k' => exact h
  | del k' =>
      simp only [Bag.step]
      split
      · exact h
      · next d l z ht =>
        intro i e he
        simp only at he
        split at he
        · exact h _ e ((taken_sub ht).subset he)
        · exact h i e he

theorem without_calls (cb : Callbacks) (dup : Bool) (ix : Key → Nat) (k : Key) (ops : List Op) : ∀ s : Bag, s.Without k → (∀ d dl, Op.set k d dl ∉ ops) →
    ∀ r ∈ s.runN cb dup ix ops, ∀ y, Call.cmp k y ∉ r.2 := by
  induction ops with
  | nil => intro s _ _ r hr; simp [Bag.runN] at hr
  | cons op ops ih =>
      intro s h hs r hr y
      simp only [Bag.runN, List.mem_cons] at hr
      rcases hr with rfl | hr
      · intro hc
        obtain ⟨_, _, e, he, hk⟩ := c147_stored cb dup ix s op k y hc
        exact h _ e he hk
      · exact ih _ (without_step cb dup ix s k op h (fun d dl e => hs d dl (by simp [e]))) (fun d dl hm => hs d dl (by simp [hm])) r hr y

theorem taken_distinct {p : Entry → Bool} {l : List Entry} (hd : l.Pairwise fun x y => ¬ (p x = true ∧ p y = true)) {d : Nat} {r z : List Entry} (h : taken p l = some (d, r, z)) : ∀ e ∈ r, p e = false := by
  cases l with
  | nil => simp [taken] at h
  | cons e es =>
      rw [List.pairwise_cons] at hd
      simp only [taken] at h
      by_cases c : p e
      · rw [if_pos c] at h
        cases h
        intro x hx
        have := hd.1 x hx
        simp [c] at this; exact this
      · rw [if_neg c] at h
        rcases hw : es.dropWhile (fun x => !p x) with _ | ⟨x, xs⟩
        · rw [hw] at h; simp at h
        · rw [hw] at h
          simp only [List.head?_cons, Option.map_some, List.tail_cons, Option.some.injEq, Prod.mk.injEq] at h
          obtain ⟨_, rfl, _⟩ := h
          have px : p x = true := by
            have := List.head?_dropWhile_not (fun x => !p x) es
            rw [hw] at this
            simpa using this
          have sub : (x :: xs).Sublist es := hw ▸ List.dropWhile_sublist _
          have := (hd.2.sublist sub)
          rw [List.pairwise_cons] at this
          intro y hy
          rcases List.mem_cons.mp hy with rfl | hy
          · simpa using c
          · have := this.1 y hy
            simp [px] at this; exact this

/-- After a deletion the key is gone. -/
theorem del_without {cb : Callbacks} (g : Good cb) (ix : Key → Nat) (s : Bag) (hd : s.Distinct cb) (hp : s.Placed cb ix) (k : Key) : (s.step cb false ix (.del k)).2.Without k := by
  have hrefl := g.refl k
  have meet : ∀ e : Entry, e.key = k → Meets cb k e = true := by
    intro e he; rw [Meets, he, hrefl]; simp
  simp only [Bag.step]
  split
  · next ht =>
    intro i e he hk
    have hi := (hp i e he).1
    rw [hk] at hi
    rw [← hi] at he
    have m := meet e hk
    rcases hb : s.bucket (ix k) with _ | ⟨f, fs⟩
    · rw [hb] at he; simp at he
    · rw [hb] at ht he
      simp only [taken] at ht
      by_cases c : Meets cb k f
      · simp [c] at ht
      · rw [if_neg c] at ht
        simp only [Option.map_eq_none_iff, List.head?_eq_none_iff] at ht
        rcases List.mem_cons.mp he with rfl | he
        · exact c m
        · have no : ∀ l : List Entry, l.dropWhile (fun x => !Meets cb k x) = [] → ∀ e ∈ l, Meets cb k e = false := by
            intro l
            induction l with
            | nil => simp
            | cons y ys ih =>
                intro h e he
                rw [List.dropWhile_cons] at h
                split at h
                · next hy =>
                  rcases List.mem_cons.mp he with rfl | he
                  · simpa using hy
                  · exact ih h e he
                · cases h
          have := no fs ht e he
          rw [m] at this; cases this
  · next d l z ht =>
    intro i e he hk
    simp only at he
    have m := meet e hk
    split at he
    · have pw : (s.bucket (ix k)).Pairwise fun x y => ¬ (Meets cb k x = true ∧ Meets cb k y = true) := by
        refine (hd (ix k)).imp ?_
        intro x y hxy hh
        rw [meets_good g, meets_good g] at hh
        rw [g.trans _ _ _ hh.1 (g.symm _ _ hh.2)] at hxy
        simp at hxy
      have := taken_distinct pw ht e he
      rw [m] at this; simp at this
    · next hi => exact hi (by rw [← (hp i e he).1, hk])

/-- What the calls of a history are after a first part of it. -/
theorem runN_append (cb : Callbacks) (dup : Bool) (ix : Key → Nat) (ops ops' : List Op) : ∀ s : Bag, s.runN cb dup ix (ops ++ ops') = s.runN cb dup ix ops ++ (s.run cb dup ix ops).2.runN cb dup ix ops' := by
  induction ops with
  | nil => intro s; rfl
  | cons op ops ih => intro s; simp only [List.cons_append, Bag.runN, Bag.run, ih]

theorem bag_deleted (cb : Callbacks) (g : Good cb) (ix : Key → Nat) (before after : List Op) (k : Key) (hs : ∀ d dl, Op.set k d dl ∉ after) :
    ∀ r ∈ (Bag.empty.runN cb false ix (before ++ .del k :: after)).drop (before.length + 1), ∀ y, Call.cmp k y ∉ r.2 := by
  have len : ∀ (ops : List Op) (s : Bag), (s.runN cb false ix ops).length = ops.length := by
    intro ops
    induction ops with
    | nil => intro s; rfl
    | cons op ops ih => intro s; simp [Bag.runN, ih]
  have inv := bag_inv g ix before Bag.empty (fun _ => List.Pairwise.nil) (fun _ e he => by simp [Bag.empty] at he)
  rw [runN_append, List.drop_append, len, List.drop_of_length_le (by rw [len]; omega), List.nil_append, show before.length + 1 - before.length = 1 by omega]
  simp only [Bag.runN, List.drop_succ_cons, List.drop_zero]
  exact without_calls cb false ix k after _ (del_without g ix _ inv.1 inv.2 k) hs

/-- **C147** The memory of a deleted key may be reused: with lawful callbacks and no duplicates, after `zt_table_del(k)` no call gives `k` to the comparison function as a stored key,
until `k` is set again. -/
theorem c147_deleted (cb : Callbacks) (g : Good cb) (alloc : Tbl → Nat) (al : Allocator alloc) (hint : Nat) (useHint : Bool) (hr : InRange cb (init hint useHint false))
    (before after : List Op) (k : Key) (hs : ∀ d dl, Op.set k d dl ∉ after) :
    ∃ n, ∀ fuel ≥ n, ∃ rs T, runN cb alloc fuel (init hint useHint false) (before ++ .del k :: after) = .ok (rs, T) ∧ ∀ r ∈ rs.drop (before.length + 1), ∀ y, Call.cmp k y ∉ r.2 := by
  obtain ⟨n, hn⟩ := c147_calls cb alloc al hint useHint false hr (before ++ .del k :: after)
  refine ⟨n, fun fuel hf => ?_⟩
  obtain ⟨T, e⟩ := hn fuel hf
  exact ⟨_, T, e, bag_deleted cb g _ before after k hs⟩

/-- The key of an operation. -/
def Op.key : Op → Key
  | .set k _ _ => k
  | .get k => k
  | .del k => k

theorem within_step (cb : Callbacks) (dup : Bool) (ix : Key → Nat) (P : Key → Prop) (s : Bag) (op : Op) (h : ∀ i, ∀ e ∈ s.bucket i, P e.key) (hk : P op.key) :
    ∀ i, ∀ e ∈ (s.step cb dup ix op).2.bucket i, P e.key := by
  cases op with
  | set k d dl =>
      simp only [Bag.step]
      split
      · exact h
      · intro i e he
        simp only at he
        split at he
        · rcases List.mem_cons.mp he with rfl | he
          · exact hk
          · exact h i e he
        · exact h i e he
  | get k => exact h
  | del k =>
      simp only [Bag.step]
      split
      · exact h
      · next d l z ht =>
        intro i e he
        simp only at he
        split at he
        · exact h _ e ((taken_sub ht).subset he)
        · exact h i e he

theorem bag_once (cb : Callbacks) (g : Good cb) (P : Key → Prop) (hc : ∀ a b, P a → P b → cb.hash a = cb.hash b → cb.cmp a b = true) (ix : Key → Nat) (ops : List Op) :
    ∀ (s : Bag), s.Distinct cb → s.Placed cb ix → (∀ i, ∀ e ∈ s.bucket i, P e.key) → (∀ op ∈ ops, P op.key) → ∀ r ∈ s.runN cb false ix ops, r.2.length ≤ 2 := by
  induction ops with
  | nil => intro s _ _ _ _ r hr; simp [Bag.runN] at hr
  | cons op ops ih =>
      intro s hd hp hP hops r hr
      simp only [Bag.runN, List.mem_cons] at hr
      rcases hr with rfl | hr
      · have one : ∀ k, ((s.bucket (ix k)).filter fun e => cb.hash e.key == cb.hash k).length ≤ 1 := by
          intro k
          have pw := (hd (ix k)).sublist (List.filter_sublist (p := fun e => cb.hash e.key == cb.hash k))
          rcases hf : (s.bucket (ix k)).filter (fun e => cb.hash e.key == cb.hash k) with _ | ⟨x, _ | ⟨y, l⟩⟩
          · rw [hf]; simp
          · rw [hf]; simp
          · exfalso
            have hx : x ∈ (s.bucket (ix k)).filter (fun e => cb.hash e.key == cb.hash k) := by rw [hf]; simp
            have hy : y ∈ (s.bucket (ix k)).filter (fun e => cb.hash e.key == cb.hash k) := by rw [hf]; simp
            rw [hf, List.pairwise_cons] at pw
            have h1 := pw.1 y (by simp)
            simp only [List.mem_filter, beq_iff_eq] at hx hy
            rw [hc x.key y.key (hP _ x hx.1) (hP _ y hy.1) (hx.2.trans hy.2.symm)] at h1
            simp at h1
        cases op with
        | set k d dl => exact Nat.le_trans (c147_cost cb false ix s _ k (.inl ⟨d, dl, rfl⟩)) (by have := one k; omega)
        | get k => exact Nat.le_trans (c147_cost cb false ix s _ k (.inr (.inl rfl))) (by have := one k; omega)
        | del k => exact Nat.le_trans (c147_cost cb false ix s _ k (.inr (.inr rfl))) (by have := one k; omega)
      · have inv := bag_inv g ix [op] s hd hp
        exact ih _ inv.1 inv.2 (within_step cb false ix P s op hP (hops op (by simp))) (fun o ho => hops o (by simp [ho])) r hr

/-- **C147** With lawful callbacks and no duplicates, when no two different keys of the history have the same hash, every call calls the hash function once and the comparison function at most once. -/
theorem c147_once (cb : Callbacks) (g : Good cb) (alloc : Tbl → Nat) (al : Allocator alloc) (hint : Nat) (useHint : Bool)
    (hr : InRange cb (init hint useHint false)) (ops : List Op) (hc : ∀ o ∈ ops, ∀ o' ∈ ops, cb.hash o.key = cb.hash o'.key → cb.cmp o.key o'.key = true) :
    ∃ n, ∀ fuel ≥ n, ∃ rs T, runN cb alloc fuel (init hint useHint false) ops = .ok (rs, T) ∧ ∀ r ∈ rs, r.2.length ≤ 2 := by
  obtain ⟨n, hn⟩ := c147_calls cb alloc al hint useHint false hr ops
  refine ⟨n, fun fuel hf => ?_⟩
  obtain ⟨T, e⟩ := hn fuel hf
  refine ⟨_, T, e, bag_once cb g (fun k => ∃ o ∈ ops, o.key = k) ?_ _ ops Bag.empty (fun _ => List.Pairwise.nil) (fun _ e he => by simp [Bag.empty] at he)
    (fun _ e he => by simp [Bag.empty] at he) (fun o ho => ⟨o, ho, rfl⟩)⟩
  rintro a b ⟨o, ho, rfl⟩ ⟨o', ho', rfl⟩ h
  exact hc o ho o' ho' h

/-- Callbacks and a history of the kind the theorem speaks about: the key as its own hash. -/
example : ∀ o ∈ ([.set (5, 0) 50 0, .set (6, 0) 60 0, .get (5, 0)] : List Op), ∀ o' ∈ ([.set (5, 0) 50 0, .set (6, 0) 60 0, .get (5, 0)] : List Op),
    BitVec.ofNat 64 o.key.1 = BitVec.ofNat 64 o'.key.1 → (o.key == o'.key) = true := by
  simp [Op.key]

/-- A concrete history: one bucket, all hashes equal, two keys. -/
example : Bag.empty.runN constCb false (fun _ => 0) [.set (5, 0) 50 0, .set (6, 0) 60 0, .get (5, 0), .del (5, 0), .get (5, 0)] =
    [(.int 0, [.hash (5, 0)]), (.int 0, [.hash (6, 0), .cmp (5, 0) (6, 0)]), (.ret ⟨50, false⟩, [.hash (5, 0), .cmp (6, 0) (5, 0), .cmp (5, 0) (5, 0)]),
     (.ret ⟨50, false⟩, [.hash (5, 0), .cmp (6, 0) (5, 0), .cmp (5, 0) (5, 0)]), (.ret ⟨0, true⟩, [.hash (5, 0), .cmp (6, 0) (5, 0)])] := by decide +kernel

end ZT.Table
