import Verif.Table.Lemmas

/-!
# Property theorems for zt_table (C17, C18, C19, C58, C59)
-/

namespace ZT.Table

/-! ## Specification -/

/-- A finite map from keys to data. -/
abbrev Map := Key → Option Nat

/-- What the user's callbacks must satisfy: `cmp` is an equivalence and equal keys have equal hashes. -/
structure Good (cb : Callbacks) : Prop where
  refl : ∀ k, cb.cmp k k = true
  symm : ∀ k k', cb.cmp k k' = true → cb.cmp k' k = true
  trans : ∀ k k' k'', cb.cmp k k' = true → cb.cmp k' k'' = true → cb.cmp k k'' = true
  hash : ∀ k k', cb.cmp k k' = true → cb.hash k = cb.hash k'

inductive Op where
  | set (k : Key) (d dl : Nat)
  | get (k : Key)
  | del (k : Key)

/-- Observable results: the int returned by set, the pointer and errno of get and del. -/
inductive Res where
  | int (r : Int)
  | ret (r : Ret)
  deriving Repr, DecidableEq

/-- How a lookup result is reported. -/
def report : Option Nat → Ret
  | some d => ⟨d, false⟩
  | none => ⟨0, true⟩

def Map.put (cmp : Key → Key → Bool) (m : Map) (k : Key) (v : Option Nat) : Map := fun k' => if cmp k k' then v else m k'

theorem put_eq (cmp : Key → Key → Bool) (m : Map) (k : Key) (v : Option Nat) (k' : Key) : m.put cmp k v k' = if cmp k k' then v else m k' := rfl

/-- A finite map. -/
def specStep (cmp : Key → Key → Bool) (m : Map) : Op → Res × Map
  | .set k d _ => if (m k).isSome then (.int 1, m) else (.int 0, m.put cmp k (some d))
  | .get k => (.ret (report (m k)), m)
  | .del k => (.ret (report (m k)), m.put cmp k none)

def specRun (cmp : Key → Key → Bool) : Map → List Op → List Res × Map
  | m, [] => ([], m)
  | m, op :: ops => ((specStep cmp m op).1 :: (specRun cmp (specStep cmp m op).2 ops).1, (specRun cmp (specStep cmp m op).2 ops).2)

/-- The code. `alloc` is the node pool. -/
def exec (cb : Callbacks) (alloc : Tbl → Nat) (fuel : Nat) (T : Tbl) : Op → Outcome (Res × Tbl)
  | .set k d dl => do
      let (r, T) ← set cb fuel T k d dl (alloc T)
      pure (.int r, T)
  | .get k => do
      let r ← get cb fuel T k
      pure (.ret r, T)
  | .del k => do
      let (r, T) ← del cb fuel T k
      pure (.ret r, T)

def run (cb : Callbacks) (alloc : Tbl → Nat) (fuel : Nat) : Tbl → List Op → Outcome (List Res × Tbl)
  | T, [] => .ok ([], T)
  | T, op :: ops => do
      let (r, T) ← exec cb alloc fuel T op
      let (rs, T) ← run cb alloc fuel T ops
      pure (r :: rs, T)

/-- The pool returns an unused address whenever there is one. -/
def Allocator (alloc : Tbl → Nat) : Prop := ∀ T : Tbl, (∃ a, T.heap a = none) → T.heap (alloc T) = none

/-- Every key's bucket index is inside the bucket array. -/
def InRange (cb : Callbacks) (T : Tbl) : Prop := ∀ k, index cb T k < T.num

/-- At most two stored keys are in the bucket of `k`. -/
def TwoInBucket (cb : Callbacks) (nbits : Nat) (m : Map) (k : Key) : Prop :=
  ∀ a b c : Key, (∀ x ∈ [a, b, c], (m x).isSome ∧ fold (cb.hash x) nbits = fold (cb.hash k) nbits) →
    cb.cmp a b = true ∨ cb.cmp a c = true ∨ cb.cmp b c = true

/-- Every deletion in the history happens while at most two keys share the bucket. -/
def Shallow (cb : Callbacks) (nbits : Nat) : Map → List Op → Prop
  | _, [] => True
  | m, op :: ops => (∀ k, op = .del k → TwoInBucket cb nbits m k) ∧ Shallow cb nbits (specStep cb.cmp m op).2 ops

/-! ## Abstraction -/

/-- The table stands for the map `m`; no bucket holds more than `L` nodes. -/
structure Abs (cb : Callbacks) (T : Tbl) (C : Nat → List (Nat × Entry)) (m : Map) (L : Nat) : Prop where
  rep : Rep cb T C
  live : Live T C
  dist : ∀ i, (C i).Pairwise fun x y => cb.cmp x.2.key y.2.key = false
  look : ∀ k, m k = ((C (index cb T k)).find? fun x => cb.cmp x.2.key k).map (·.2.datum)
  len : ∀ i, (C i).length ≤ L
  range : InRange cb T
  nodup : T.dup = false

theorem find_hit {cb : Callbacks} (g : Good cb) {T : Tbl} {C} (R : Rep cb T C) (i : Nat) (k : Key) :
    ((C i).find? fun x => hit cb x.2 k) = (C i).find? fun x => cb.cmp x.2.key k := by
  have : ∀ l : List (Nat × Entry), (∀ x ∈ l, hit cb x.2 k = cb.cmp x.2.key k) → (l.find? fun x => hit cb x.2 k) = l.find? fun x => cb.cmp x.2.key k := by
    intro l hl
    induction l with
    | nil => rfl
    | cons x xs ih =>
        simp only [List.find?_cons, hl x (by simp)]
        rw [ih fun y hy => hl y (by simp [hy])]
  exact this _ fun x hx => hit_eq R g.hash hx k

theorem exists_free {cb : Callbacks} {T : Tbl} {C} {m L} (A : Abs cb T C m L) : ∃ a, T.heap a = none := by
  have hfin : ∀ a, T.heap a ≠ none → a ∈ ((List.range T.num).map fun i => adr (C i)).flatten := by
    intro a ha
    obtain ⟨i, hi⟩ := A.live a ha
    obtain ⟨x, hx, rfl⟩ := List.mem_map.mp hi
    have := (A.rep.hash i x hx).2.2
    exact List.mem_flatten.mpr ⟨_, List.mem_map.mpr ⟨i, by simpa using this, rfl⟩, hi⟩
  generalize ((List.range T.num).map fun i => adr (C i)).flatten = l at hfin
  have hb : ∃ b, ∀ a ∈ l, a < b := by
    clear hfin
    induction l with
    | nil => exact ⟨0, by simp⟩
    | cons x xs ih =>
        obtain ⟨b, hb⟩ := ih
        refine ⟨b + x + 1, ?_⟩
        intro a ha
        rcases List.mem_cons.mp ha with rfl | ha
        · omega
        · have := hb a ha; omega
  obtain ⟨b, hb⟩ := hb
  refine ⟨b, Decidable.byContradiction fun h => ?_⟩
  have := hb b (hfin b h)
  omega

theorem index_congr {cb : Callbacks} (g : Good cb) (T : Tbl) {k k' : Key} (h : cb.cmp k k' = true) : index cb T k = index cb T k' := by
  rw [index, index, g.hash k k' h]

theorem look_none {cb : Callbacks} (g : Good cb) {T : Tbl} {C m L} (A : Abs cb T C m L) (k : Key) (h : m k = none) {i} :
    ∀ x ∈ C i, cb.cmp x.2.key k = false := by
  intro x hx
  have h1 := A.look k
  rw [h] at h1
  have h2 := List.find?_eq_none.mp (Option.map_eq_none_iff.mp h1.symm)
  by_cases c : i = index cb T k
  · subst c; simpa using h2 x hx
  · cases hc : cb.cmp x.2.key k with
    | false => rfl
    | true =>
        exact absurd ((A.rep.hash i x hx).2.1.symm.trans (index_congr g T hc)) c

theorem set_abs {cb : Callbacks} (g : Good cb) {T : Tbl} {C m L} (A : Abs cb T C m L) (fuel : Nat) (hf : L < fuel) (k : Key) (d dl a : Nat)
    (ha : T.heap a = none) :
    ∃ T' C', set cb fuel T k d dl a = .ok (if (m k).isSome then 1 else 0, T') ∧ T'.nbits = T.nbits ∧
      Abs cb T' C' (if (m k).isSome then m else m.put cb.cmp k (some d)) (L + 1) := by
  have hs := set_spec A.rep fuel k d dl a (A.range k) (by have := A.len (index cb T k); omega)
  rw [find_hit g A.rep, A.nodup] at hs
  have hl := A.look k
  have hsome : ((C (index cb T k)).find? fun x => cb.cmp x.2.key k).isSome = (m k).isSome := by rw [hl]; simp
  rw [hsome] at hs
  by_cases c : (m k).isSome
  · refine ⟨T, C, by rw [hs]; simp [c], rfl, ?_⟩
    simp only [c, if_true]
    exact { A with len := fun i => by have := A.len i; omega }
  · have hnone : m k = none := by simpa using c
    refine ⟨pushed T (index cb T k) a ⟨k, d, dl, cb.hash k⟩, upd C (index cb T k) ((a, ⟨k, d, dl, cb.hash k⟩) :: C (index cb T k)), by rw [hs]; simp [c], rfl, ?_⟩
    have hnew := fun i => look_none g A k hnone (i := i)
    simp only [c, Bool.false_eq_true, if_false]
    refine ⟨pushed_rep A.rep (index cb T k) a ⟨k, d, dl, cb.hash k⟩ ha rfl rfl (A.range k), pushed_live A.live _ _ _, ?_, ?_, ?_, A.range, A.nodup⟩
    · intro i
      rw [upd_eq]
      split
      · rw [List.pairwise_cons]
        refine ⟨fun y hy => ?_, A.dist _⟩
        have := hnew _ y hy
        cases hc : cb.cmp k y.2.key with
        | false => rfl
        | true => rw [g.symm _ _ hc] at this; cases this
      · exact A.dist i
    · intro k'
      have hidx : index cb (pushed T (index cb T k) a ⟨k, d, dl, cb.hash k⟩) k' = index cb T k' := rfl
      rw [hidx, upd_eq, Map.put]
      by_cases hc : cb.cmp k k'
      · rw [if_pos hc, if_pos (index_congr g T (g.symm _ _ hc))]
        simp [hc]
      · rw [if_neg hc]
        split
        · rename_i he
          rw [List.find?_cons]
          simp only [hc]
          rw [A.look k', he]
        · exact A.look k'
    · intro i
      rw [upd_eq]
      have := A.len i
      split
      · subst_vars; simp; omega
      · omega

theorem find_split {α : Type} (p : α → Bool) (l : List α) (x : α) (h : l.find? p = some x) :
    ∃ pre post, l = pre ++ x :: post ∧ p x = true ∧ ∀ y ∈ pre, p y = false := by
  induction l with
  | nil => simp at h
  | cons y ys ih =>
      rw [List.find?_cons] at h
      cases hy : p y with
      | true => rw [hy] at h; simp at h; subst h; exact ⟨[], ys, rfl, hy, by simp⟩
      | false =>
          rw [hy] at h
          obtain ⟨pre, post, e, h1, h2⟩ := ih h
          refine ⟨y :: pre, post, by rw [e]; rfl, h1, ?_⟩
          intro z hz
          rcases List.mem_cons.mp hz with rfl | hz
          · exact hy
          · exact h2 z hz

/-- Removing from one chain the only node whose key equals `k` removes `k` from the map. -/
theorem abs_removed {cb : Callbacks} (g : Good cb) {T T' : Tbl} {C m L} (A : Abs cb T C m L) (k : Key) (pre post : List (Nat × Entry)) (x : Nat × Entry)
    (hC : C (index cb T k) = pre ++ x :: post) (hx : cb.cmp x.2.key k = true) (R' : Rep cb T' (upd C (index cb T k) (pre ++ post)))
    (hnb : T'.nbits = T.nbits) (hnum : T'.num = T.num) (hdup : T'.dup = T.dup) (hl : Live T' (upd C (index cb T k) (pre ++ post))) :
    Abs cb T' (upd C (index cb T k) (pre ++ post)) (m.put cb.cmp k none) L := by
  have hidx : ∀ k', index cb T' k' = index cb T k' := fun k' => by rw [index, index, hnb]
  have hd := A.dist (index cb T k)
  rw [hC] at hd
  have hother : ∀ y ∈ pre ++ post, cb.cmp y.2.key k = false := by
    intro y hy
    cases hc : cb.cmp y.2.key k with
    | false => rfl
    | true =>
        rw [List.pairwise_append, List.pairwise_cons] at hd
        have hyx := g.trans _ _ _ hc (g.symm _ _ hx)
        rcases List.mem_append.mp hy with hy | hy
        · have := hd.2.2 y hy x (by simp); rw [hyx] at this; cases this
        · have := hd.2.1.1 y hy; rw [g.symm _ _ hyx] at this; cases this
  refine ⟨R', hl, ?_, ?_, ?_, fun k' => by rw [hidx, hnum]; exact A.range k', hdup.trans A.nodup⟩
  · intro i
    rw [upd_eq]
    split
    · exact hd.sublist (List.Sublist.append_left (List.sublist_cons_self x post) pre)
    · exact A.dist i
  · intro k'
    rw [hidx, Map.put, upd_eq]
    by_cases hc : cb.cmp k k'
    · rw [if_pos hc, if_pos (index_congr g T (g.symm _ _ hc))]
      symm
      rw [Option.map_eq_none_iff, List.find?_eq_none]
      intro y hy
      have := hother y hy
      intro hyk
      rw [g.trans _ _ _ hyk (g.symm _ _ hc)] at this
      cases this
    · rw [if_neg hc]
      split
      · rename_i he
        rw [A.look k', he, hC, List.find?_append, List.find?_append, List.find?_cons]
        have : cb.cmp x.2.key k' = false := by
          cases hc' : cb.cmp x.2.key k' with
          | false => rfl
          | true => exact absurd (g.trans _ _ _ (g.symm _ _ hx) hc') hc
        rw [this]
      · exact A.look k'
  · intro i
    rw [upd_eq]
    have := A.len i
    split
    · subst_vars; rw [hC] at this; simp at this ⊢; omega
    · exact this

theorem del_abs {cb : Callbacks} (g : Good cb) {T : Tbl} {C m L} (A : Abs cb T C m L) (fuel : Nat) (hf : L < fuel) (k : Key)
    (h2 : TwoInBucket cb T.nbits m k) :
    ∃ T' C', del cb fuel T k = .ok (report (m k), T') ∧ T'.nbits = T.nbits ∧ Abs cb T' C' (m.put cb.cmp k none) L := by
  have hlen : (C (index cb T k)).length < fuel := by have := A.len (index cb T k); omega
  cases hfi : (C (index cb T k)).find? fun x => cb.cmp x.2.key k with
  | none =>
      have hm : m k = none := by rw [A.look k, hfi]; rfl
      have hmiss : ∀ x ∈ C (index cb T k), hit cb x.2 k = false := fun x hx => by
        rw [hit_eq A.rep g.hash hx]; exact look_none g A k hm x hx
      refine ⟨T, C, ?_, rfl, ?_⟩
      · rw [del_miss A.rep fuel k (A.range k) hmiss hlen, hm]; rfl
      · have : m.put cb.cmp k none = m := by
          funext k'
          rw [Map.put]
          split
          · rename_i hc
            rw [A.look k']
            symm
            rw [Option.map_eq_none_iff, List.find?_eq_none]
            intro y hy
            have := look_none g A k hm y hy
            intro hyk
            rw [g.trans _ _ _ hyk (g.symm _ _ hc)] at this
            cases this
          · rfl
        rw [this]; exact A
  | some x =>
      obtain ⟨pre, post, hC, hx, hpre⟩ := find_split _ _ _ hfi
      have hm : m k = some x.2.datum := by rw [A.look k, hfi]; rfl
      have hxh : hit cb x.2 k = true := by rw [hit_eq A.rep g.hash (i := index cb T k) (by rw [hC]; simp)]; exact hx
      have hpreh : ∀ y ∈ pre, hit cb y.2 k = false := fun y hy => by
        rw [hit_eq A.rep g.hash (i := index cb T k) (by rw [hC]; simp [hy])]; exact hpre y hy
      match pre, hC, hpreh with
      | [], hC, _ =>
          obtain ⟨T', e, R', h1, h2, h3, h4⟩ := del_first A.rep fuel k (A.range k) x.1 x.2 post hC hxh hlen
          exact ⟨T', _, by rw [e, hm]; rfl, h1, abs_removed g A k [] post x hC hx R' h1 h2 h3 (h4 A.live)⟩
      | [b], hC, hpreh =>
          obtain ⟨T', e, R', h1, h2, h3, h4, _⟩ := del_later A.rep fuel k (A.range k) b.1 b.2 [] x.1 x.2 post hC hpreh hxh hlen
          exact ⟨T', _, by rw [e, hm]; rfl, h1, abs_removed g A k [b] post x hC hx R' h1 h2 h3 (h4 rfl A.live)⟩
      | b :: b' :: pre', hC, _ =>
          exfalso
          have hd := A.dist (index cb T k)
          have hkeys : ∀ y ∈ C (index cb T k), (m y.2.key).isSome ∧ fold (cb.hash y.2.key) T.nbits = fold (cb.hash k) T.nbits := by
            intro y hy
            have hi := (A.rep.hash _ y hy).2.1
            refine ⟨?_, BitVec.eq_of_toNat_eq hi⟩
            rw [A.look y.2.key, hi, Option.isSome_map, List.find?_isSome]
            exact ⟨y, hy, g.refl _⟩
          have := h2 b.2.key b'.2.key x.2.key (by
            intro z hz
            simp only [List.mem_cons, List.not_mem_nil, or_false] at hz
            rcases hz with rfl | rfl | rfl
            · exact hkeys b (by rw [hC]; simp)
            · exact hkeys b' (by rw [hC]; simp)
            · exact hkeys x (by rw [hC]; simp))
          rw [hC] at hd
          simp only [List.cons_append, List.pairwise_cons, List.mem_cons, List.mem_append] at hd
          have e1 := hd.1 b' (by simp)
          have e2 := hd.1 x (by simp)
          have e3 := hd.2.1 x (by simp)
          rw [e1, e2, e3] at this
          simp at this

theorem step_abs {cb : Callbacks} (g : Good cb) {alloc} (al : Allocator alloc) {T : Tbl} {C m L} (A : Abs cb T C m L) (fuel : Nat) (hf : L < fuel)
    (op : Op) (h2 : ∀ k, op = .del k → TwoInBucket cb T.nbits m k) :
    ∃ T' C', exec cb alloc fuel T op = .ok ((specStep cb.cmp m op).1, T') ∧ T'.nbits = T.nbits ∧
      Abs cb T' C' (specStep cb.cmp m op).2 (L + 1) := by
  cases op with
  | set k d dl =>
      obtain ⟨T', C', e, hn, A'⟩ := set_abs g A fuel hf k d dl (alloc T) (al T (exists_free A))
      refine ⟨T', C', ?_, hn, ?_⟩
      · simp only [exec, e, Outcome.ok_bind, specStep, Outcome.pure_eq]; split <;> rfl
      · simp only [specStep]
        by_cases h : (m k).isSome
        · simp only [h, if_true] at A' ⊢; exact A'
        · simp only [h, if_false] at A' ⊢; exact A'
  | get k =>
      refine ⟨T, C, ?_, rfl, { A with len := fun i => by have := A.len i; omega }⟩
      simp only [exec, specStep]
      rw [get_spec A.rep fuel k (A.range k) (by have := A.len (index cb T k); omega), find_hit g A.rep, A.look k]
      simp only [Outcome.ok_bind]
      cases (C (index cb T k)).find? fun x => cb.cmp x.2.key k <;> rfl
  | del k =>
      obtain ⟨T', C', e, hn, A'⟩ := del_abs g A fuel hf k (h2 k rfl)
      refine ⟨T', C', ?_, hn, { A' with len := fun i => by have := A'.len i; omega }⟩
      simp only [exec, e, Outcome.ok_bind, specStep, Outcome.pure_eq]

theorem run_abs {cb : Callbacks} (g : Good cb) {alloc} (al : Allocator alloc) (ops : List Op) {T : Tbl} {C m L} (A : Abs cb T C m L) (fuel : Nat)
    (hf : L + ops.length < fuel) (h2 : Shallow cb T.nbits m ops) :
    ∃ T' C', run cb alloc fuel T ops = .ok ((specRun cb.cmp m ops).1, T') ∧ T'.nbits = T.nbits ∧
      Abs cb T' C' (specRun cb.cmp m ops).2 (L + ops.length) := by
  induction ops generalizing T C m L with
  | nil => exact ⟨T, C, rfl, rfl, A⟩
  | cons op ops ih =>
      obtain ⟨T1, C1, e1, hn1, A1⟩ := step_abs g al A fuel (by simp at hf; omega) op h2.1
      obtain ⟨T2, C2, e2, hn2, A2⟩ := ih A1 (by simp at hf; omega) (by rw [hn1]; exact h2.2)
      refine ⟨T2, C2, ?_, hn2.trans hn1, ?_⟩
      · simp only [run, e1, Outcome.ok_bind, e2, Outcome.pure_eq, specRun]
      · simp only [specRun, List.length_cons]
        rw [show L + (ops.length + 1) = L + 1 + ops.length by omega]
        exact A2

theorem init_abs (cb : Callbacks) (hint : Nat) (useHint : Bool) (hr : InRange cb (init hint useHint false)) :
    Abs cb (init hint useHint false) (fun _ => []) (fun _ => none) 0 :=
  ⟨⟨fun _ => rfl, fun _ => by simp, fun i j a h => by simp at h, fun i x h => by simp at h⟩, fun a h => absurd rfl h, fun _ => by simp,
    fun _ => rfl, fun _ => by simp, hr, rfl⟩

/-! ## C17: finite map -/

/-- **C17** Every history of set, get and del on a fresh table without duplicate keys returns exactly what a finite map returns, as
long as every deletion happens while at most two keys share the bucket (for every hint, flag, callbacks, allocation and data).
Missing for the full property: deletions from fuller buckets, where the code is wrong (`del_loses_entries`). -/
theorem history_partial (cb : Callbacks) (g : Good cb) (alloc : Tbl → Nat) (al : Allocator alloc) (hint : Nat) (useHint : Bool)
    (hr : InRange cb (init hint useHint false)) (ops : List Op) (h2 : Shallow cb (init hint useHint false).nbits (fun _ => none) ops) :
    ∃ n, ∀ fuel ≥ n, ∃ T, run cb alloc fuel (init hint useHint false) ops = .ok ((specRun cb.cmp (fun _ => none) ops).1, T) := by
  refine ⟨ops.length + 1, fun fuel hf => ?_⟩
  obtain ⟨T, _, e, _⟩ := run_abs g al ops (init_abs cb hint useHint hr) fuel (by omega) h2
  exact ⟨T, e⟩

theorem shallow_of_no_del (cb : Callbacks) (nb : Nat) (m : Map) (ops : List Op) (hd : ∀ k, Op.del k ∉ ops) : Shallow cb nb m ops := by
  induction ops generalizing m with
  | nil => trivial
  | cons op ops ih =>
      refine ⟨fun k hk => ?_, ih _ fun k hk => hd k (by simp [hk])⟩
      exact absurd (by simp [hk]) (hd k)

/-- **C17** Histories of set and get only: unconditional. -/
theorem history_no_del (cb : Callbacks) (g : Good cb) (alloc : Tbl → Nat) (al : Allocator alloc) (hint : Nat) (useHint : Bool)
    (hr : InRange cb (init hint useHint false)) (ops : List Op) (hd : ∀ k, Op.del k ∉ ops) :
    ∃ n, ∀ fuel ≥ n, ∃ T, run cb alloc fuel (init hint useHint false) ops = .ok ((specRun cb.cmp (fun _ => none) ops).1, T) :=
  history_partial cb g alloc al hint useHint hr ops (shallow_of_no_del cb _ _ ops hd)

/-- What deletion does in general, for a table holding any chains: if the key's entry is the first of its bucket just it is removed;
otherwise it and **every entry between the first and it** are removed, and those other entries stay allocated (leak). -/
theorem del_exact (cb : Callbacks) (g : Good cb) (T : Tbl) (C : Nat → List (Nat × Entry)) (m : Map) (L : Nat) (A : Abs cb T C m L) (k : Key)
    (b : Nat × Entry) (mid post : List (Nat × Entry)) (x : Nat × Entry) (hC : C (index cb T k) = b :: (mid ++ x :: post))
    (hx : cb.cmp x.2.key k = true) (fuel : Nat) (hf : L < fuel) :
    ∃ T', del cb fuel T k = .ok (⟨x.2.datum, false⟩, T') ∧ (∀ y ∈ mid, get cb fuel T' y.2.key = .ok ⟨0, true⟩ ∧ T'.heap y.1 ≠ none) := by
  have hd := A.dist (index cb T k)
  have hlen := A.len (index cb T k)
  rw [hC] at hd
  have hnot : ∀ y ∈ b :: mid, cb.cmp y.2.key k = false := by
    intro y hy
    cases hc : cb.cmp y.2.key k with
    | false => rfl
    | true =>
        have hyx := g.trans _ _ _ hc (g.symm _ _ hx)
        have : (b :: (mid ++ x :: post)) = (b :: mid) ++ x :: post := rfl
        rw [this, List.pairwise_append] at hd
        have := hd.2.2 y hy x (by simp)
        rw [hyx] at this; cases this
  have hh : ∀ y ∈ C (index cb T k), ∀ q, hit cb y.2 q = cb.cmp y.2.key q := fun y hy q => hit_eq A.rep g.hash hy q
  obtain ⟨T', e, R', h1, h2, h3, _, h5⟩ := del_later A.rep fuel k (A.range k) b.1 b.2 mid x.1 x.2 post hC
    (fun y hy => by rw [hh y (by rw [hC]; simp at hy ⊢; grind)]; exact hnot y hy)
    (by rw [hh x (by rw [hC]; simp)]; exact hx) (by omega)
  refine ⟨T', e, fun y hy => ⟨?_, h5 y hy⟩⟩
  have hyi : index cb T y.2.key = index cb T k := (A.rep.hash _ y (by rw [hC]; simp [hy])).2.1
  have hidx : index cb T' y.2.key = index cb T k := by rw [← hyi, index, index, h1]
  have hupd : upd C (index cb T k) ((b.1, b.2) :: post) (index cb T' y.2.key) = b :: post := by rw [hidx, upd_eq]; simp
  rw [get_spec R' fuel y.2.key (by rw [hidx, h2]; exact A.range k) (by rw [hupd]; rw [hC] at hlen; simp at hlen ⊢; omega), find_hit g R', hupd]
  have : ((b :: post).find? fun z => cb.cmp z.2.key y.2.key) = none := by
    rw [List.find?_eq_none]
    intro z hz
    have hpw : (b :: (mid ++ x :: post)).Pairwise fun x y => cb.cmp x.2.key y.2.key = false := hd
    rw [List.pairwise_cons, List.pairwise_append, List.pairwise_cons] at hpw
    rcases List.mem_cons.mp hz with rfl | hz
    · simpa using hpw.1 y (by simp [hy])
    · have := hpw.2.2.2 y hy z (by simp [hz])
      intro hc
      rw [g.symm _ _ hc] at this; cases this
  rw [this]

/-- Keys compared by address, one hash value for all. -/
def constCb : Callbacks := ⟨fun _ => 0, fun a b => a == b⟩
theorem constCb_good : Good constCb := by constructor <;> simp [constCb]
/-- Any allocator will do; this one returns the least of 1..4 that is free. -/
def alloc4 (T : Tbl) : Nat := if T.heap 1 = none then 1 else if T.heap 2 = none then 2 else if T.heap 3 = none then 3 else 4

theorem init_default : init 0 false false = ⟨1, false, 2, fun _ => none, fun _ => none⟩ := by
  simp [init, sizeFor, pickSize, powersOf2, nbits, nbitsLoop]

/-- Violation of C17: three keys in one bucket; deleting the oldest silently removes the second as well. The last lookup should
find 20. -/
theorem del_loses_entries :
    (run constCb alloc4 10 (init 0 false false) [.set (1, 1) 10 0, .set (2, 1) 20 0, .set (3, 1) 30 0, .del (1, 1), .get (2, 1)] >>= fun r => pure r.1) =
      .ok [.int 0, .int 0, .int 0, .ret ⟨10, false⟩, .ret ⟨0, true⟩] ∧
    (specRun constCb.cmp (fun _ => none) [.set (1, 1) 10 0, .set (2, 1) 20 0, .set (3, 1) 30 0, .del (1, 1), .get (2, 1)]).1 =
      [.int 0, .int 0, .int 0, .ret ⟨10, false⟩, .ret ⟨20, false⟩] := by
  rw [init_default]
  decide

/-- The hypotheses of `history_partial` hold for a history with collisions, replacement attempts and deletions. -/
example : Shallow constCb 1 (fun _ => none) [.set (1, 1) 10 0, .set (2, 1) 20 0, .del (1, 1), .set (2, 1) 21 0, .set (3, 1) 30 0, .del (2, 1)] := by
  simp only [Shallow, specStep, constCb, TwoInBucket]
  refine ⟨by simp, by simp, ?_, by simp, by simp, ?_, trivial⟩ <;>
    (rintro k - a b c h; simp [put_eq] at h; grind)

/-! ## C18: bucket index -/

theorem nbits_eq (v : Nat) : nbits v = v.log2 + 1 := by
  have : ∀ v n, nbitsLoop v n = v.log2 + n := by
    intro v
    induction v using Nat.strongRecOn with
    | _ v ih =>
      intro n
      rw [nbitsLoop]
      by_cases h : v / 2 = 0
      · simp only [h, dite_true]
        have : v < 2 := by omega
        rw [Nat.log2_def]; split <;> omega
      · simp only [h, dite_false]
        rw [ih (v / 2) (by omega)]
        conv => rhs; rw [Nat.log2_def]
        have : 2 ≤ v := by omega
        rw [if_pos this]; omega
  exact this v 1

theorem nbits_pow (k : Nat) (hk : 1 ≤ k) : nbits (2 ^ k - 1) = k := by
  rw [nbits_eq]
  have h2 : 2 ≤ 2 ^ k := by
    have := Nat.pow_le_pow_right (n := 2) (by decide) hk
    simpa using this
  have : (2 ^ k - 1).log2 = k - 1 := by
    rw [Nat.log2_eq_iff (by omega)]
    refine ⟨?_, ?_⟩
    · have : 2 ^ k = 2 * 2 ^ (k - 1) := by rw [← Nat.pow_succ']; congr 1; omega
      have := Nat.two_pow_pos (k - 1)
      omega
    · rw [show k - 1 + 1 = k by omega]; omega
  omega

theorem mask_toNat (x : Nat) (hx : x < 32) : (mask x).toNat = 2 ^ x - 1 := by
  have : ∀ y < 32, (mask y).toNat = 2 ^ y - 1 := by decide
  exact this x hx

theorem fold_lt (h : ULong) (x : Nat) (hx : x < 32) (hh : x < 16 ∨ h.toNat < 2 ^ 32) : (fold h x).toNat < 2 ^ x := by
  have hp : 0 < 2 ^ x := Nat.two_pow_pos x
  rw [fold, if_pos hx]
  split
  · rw [BitVec.toNat_and, mask_toNat x hx, Nat.and_two_pow_sub_one_eq_mod]
    exact Nat.mod_lt _ hp
  · rename_i hx16
    have hh : h.toNat < 2 ^ 32 := by omega
    rw [BitVec.toNat_xor, BitVec.toNat_and, mask_toNat x hx, Nat.and_two_pow_sub_one_eq_mod]
    apply Nat.xor_lt_two_pow
    · rw [BitVec.toNat_ushiftRight, Nat.shiftRight_eq_div_pow, Nat.div_lt_iff_lt_mul hp, ← Nat.pow_add]
      exact Nat.lt_of_lt_of_le hh (Nat.pow_le_pow_right (by decide) (by omega))
    · exact Nat.mod_lt _ hp

theorem pickSize_append (hint : Nat) (l1 l2 : List Nat) (h : ∃ p ∈ l1, p > hint) : pickSize hint (l1 ++ l2) ∈ l1 := by
  induction l1 with
  | nil => simp at h
  | cons p ps ih =>
      rw [List.cons_append, pickSize]
      split
      · simp
      · rename_i hp
        obtain ⟨q, hq, hq'⟩ := h
        rcases List.mem_cons.mp hq with rfl | hq
        · exact absurd hq' hp
        · exact List.mem_cons_of_mem _ (ih ⟨q, hq, hq'⟩)

theorem pickSize_skip (hint : Nat) (l1 l2 : List Nat) (h : ∀ p ∈ l1, p ≤ hint) : pickSize hint (l1 ++ l2) = pickSize hint l2 := by
  induction l1 with
  | nil => rfl
  | cons p ps ih =>
      rw [List.cons_append, pickSize, if_neg (by have := h p (by simp); omega)]
      exact ih fun q hq => h q (by simp [hq])

/-- The first sizes, up to 32768, and the last ones but UINT_MAX. -/
def smallSizes : List Nat := powersOf2.take 15
def bigSizes : List Nat := (powersOf2.drop 16).take 15

theorem init_pow (k : Nat) (h1 : 1 ≤ k) (hint : Nat) (u d : Bool) (hk : k < 64) (hs : sizeFor hint u = 2 ^ k) :
    (init hint u d).num = 2 ^ k ∧ (init hint u d).nbits = k := by
  refine ⟨hs, ?_⟩
  have : 2 ^ k < 2 ^ 64 := Nat.pow_lt_pow_right (by decide) hk
  have : 0 < 2 ^ k := Nat.two_pow_pos k
  rw [init, hs]
  simp only
  rw [show 2 ^ k + (2 ^ 64 - 1) = (2 ^ k - 1) + 2 ^ 64 by omega, Nat.add_mod_right, Nat.mod_eq_of_lt (by omega)]
  exact nbits_pow k h1

/-- **C18** Hints below 32768 (default sizing), any callbacks: every index is in range. -/
theorem in_range_small_partial (cb : Callbacks) (hint : Nat) (d : Bool) (h : hint < 32768) : InRange cb (init hint false d) := by
  have hmem : sizeFor hint false ∈ smallSizes := by
    have : powersOf2 = smallSizes ++ powersOf2.drop 15 := by decide
    rw [sizeFor, if_neg (by decide), this]
    exact pickSize_append hint _ _ ⟨32768, by decide, h⟩
  have : ∀ p ∈ smallSizes, ∃ k ∈ List.range 16, 1 ≤ k ∧ p = 2 ^ k := by decide
  obtain ⟨k, hk, h1, he⟩ := this _ hmem
  simp at hk
  obtain ⟨e1, e2⟩ := init_pow k h1 hint false d (by omega) he
  intro key
  rw [index, e1, e2]
  exact fold_lt _ k (by omega) (.inl hk)

/-- **C18** Hints in [65535, 2^31) (default sizing): in range for hash functions with 32-bit results, such as the shipped ones. -/
theorem in_range_big_partial (cb : Callbacks) (hint : Nat) (d : Bool) (h1 : 65535 ≤ hint) (h2 : hint < 2 ^ 31)
    (h32 : ∀ k, (cb.hash k).toNat < 2 ^ 32) : InRange cb (init hint false d) := by
  have hmem : sizeFor hint false ∈ bigSizes := by
    have : powersOf2 = powersOf2.take 16 ++ (bigSizes ++ [4294967295]) := by decide
    rw [sizeFor, if_neg (by decide), this, pickSize_skip]
    · exact pickSize_append hint _ _ ⟨2147483648, by decide, by omega⟩
    · have : ∀ p ∈ powersOf2.take 16, p ≤ 65535 := by decide
      intro p hp; have := this p hp; omega
  have : ∀ p ∈ bigSizes, ∃ k ∈ List.range 32, 1 ≤ k ∧ p = 2 ^ k := by decide
  obtain ⟨k, hk, h1, he⟩ := this _ hmem
  simp at hk
  obtain ⟨e1, e2⟩ := init_pow k h1 hint false d (by omega) he
  intro key
  rw [index, e1, e2]
  exact fold_lt _ k hk (.inr (h32 key))

/-- **C18** With ZT_TABLE_SIZE_USE_HINT: in range when the hint is a power of two from 2 to 2^31. -/
theorem in_range_hint_partial (cb : Callbacks) (k : Nat) (d : Bool) (h1 : 1 ≤ k) (h2 : k < 32)
    (h32 : k < 16 ∨ ∀ x, (cb.hash x).toNat < 2 ^ 32) : InRange cb (init (2 ^ k) true d) := by
  obtain ⟨e1, e2⟩ := init_pow k h1 (2 ^ k) true d (by omega) rfl
  intro key
  rw [index, e1, e2]
  exact fold_lt _ k h2 (h32.imp id fun h => h key)

theorem all_ub (cb : Callbacks) (T : Tbl) (k : Key) (h : T.num ≤ index cb T k) (fuel : Nat) :
    (∀ d dl a, set cb fuel T k d dl a = .ub) ∧ get cb fuel T k = .ub ∧ del cb fuel T k = .ub := by
  have hb : bucket T (index cb T k) = .ub := by rw [bucket, if_neg (by omega)]
  refine ⟨fun d dl a => ?_, ?_, ?_⟩
  · simp only [set, hb, Outcome.ub_bind]
  · simp only [get, hb, Outcome.ub_bind]
  · simp only [del, hb, Outcome.ub_bind]

/-- Violation of C18: for every hint in [32768, 65535) the table gets 65535 buckets but 16-bit indices; a key whose hash is 65535
is looked up outside the bucket array. -/
theorem out_of_range_65535 (cb : Callbacks) (hint : Nat) (d : Bool) (h1 : 32768 ≤ hint) (h2 : hint < 65535) (k : Key)
    (hk : cb.hash k = 65535#64) (fuel : Nat) : get cb fuel (init hint false d) k = .ub ∧ ∀ dt dl a, set cb fuel (init hint false d) k dt dl a = .ub := by
  have hs : sizeFor hint false = 65535 := by
    have : powersOf2 = smallSizes ++ (65535 :: powersOf2.drop 16) := by decide
    rw [sizeFor, if_neg (by decide), this, pickSize_skip, pickSize, if_pos h2]
    have : ∀ p ∈ smallSizes, p ≤ 32768 := by decide
    intro p hp; have := this p hp; omega
  have hn : (init hint false d).num = 65535 := hs
  have hb : (init hint false d).nbits = 16 := by
    rw [init, hs]; simp only; rw [nbits_eq]; decide +kernel
  have hi : index cb (init hint false d) k = 65535 := by rw [index, hb, hk]; decide
  have := all_ub cb (init hint false d) k (by rw [hi, hn]; omega) fuel
  exact ⟨this.2.1, this.1⟩

/-- Violation of C18: with ZT_TABLE_SIZE_USE_HINT any bucket count (below 2^15) that is not a power of two (or is 1) leaves hash
values whose index is outside the array. -/
theorem out_of_range_hint (n : Nat) (d : Bool) (h0 : 0 < n) (h1 : n < 2 ^ 15) (hp : ∀ k, 1 ≤ k → n ≠ 2 ^ k) :
    ∃ h : ULong, h.toNat < 2 ^ 32 ∧ ∀ (cb : Callbacks) (k : Key), cb.hash k = h → ∀ fuel, get cb fuel (init n true d) k = .ub := by
  have hb : (init n true d).nbits = nbits (n - 1) := by
    rw [init]; simp only [sizeFor, if_true]
    rw [show n + (2 ^ 64 - 1) = (n - 1) + 2 ^ 64 by omega, Nat.add_mod_right, Nat.mod_eq_of_lt (by omega)]
  generalize hx : nbits (n - 1) = x at hb
  rw [nbits_eq] at hx
  have hx15 : x ≤ 15 := by
    by_cases hz : n - 1 = 0
    · rw [hz] at hx; simp at hx; omega
    · have := (Nat.log2_lt hz (k := 15)).mpr (by omega); omega
  have hlt : n - 1 < 2 ^ x := by rw [← hx]; exact Nat.lt_log2_self
  have hle : n < 2 ^ x := by
    have := hp x (by omega)
    omega
  have hpow : 2 ^ x ≤ 2 ^ 15 := Nat.pow_le_pow_right (by decide) hx15
  refine ⟨BitVec.ofNat 64 (2 ^ x - 1), ?_, ?_⟩
  · rw [BitVec.toNat_ofNat]; exact Nat.lt_of_le_of_lt (Nat.mod_le _ _) (by omega)
  · intro cb k hk fuel
    have hi : index cb (init n true d) k = 2 ^ x - 1 := by
      rw [index, hb, hk, fold, if_pos (by omega), if_pos (by omega), BitVec.toNat_and, mask_toNat x (by omega), BitVec.toNat_xor,
        BitVec.toNat_ushiftRight, BitVec.toNat_ofNat, Nat.mod_eq_of_lt (by omega), Nat.shiftRight_eq_div_pow, Nat.div_eq_of_lt (by omega),
        Nat.zero_xor, Nat.and_self]
    exact (all_ub cb (init n true d) k (by rw [hi]; show n ≤ _; omega) fuel).2.1

/-- Violation of C18: hints of UINT_MAX and above give a table without buckets. -/
theorem no_buckets (cb : Callbacks) (hint : Nat) (d : Bool) (h : 4294967295 ≤ hint) (k : Key) (fuel : Nat) :
    (init hint false d).num = 0 ∧ get cb fuel (init hint false d) k = .ub := by
  have hs : (init hint false d).num = 0 := by
    show sizeFor hint false = 0
    have : powersOf2 = powersOf2 ++ [] := by simp
    rw [sizeFor, if_neg (by decide), this, pickSize_skip]
    · rfl
    · have : ∀ p ∈ powersOf2, p ≤ 4294967295 := by decide
      intro p hp; have := this p hp; omega
  exact ⟨hs, (all_ub cb _ k (by rw [hs]; omega) fuel).2.1⟩

end ZT.Table
