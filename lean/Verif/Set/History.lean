import Verif.Set.Destroy
import Verif.Table.Lossless

/-!
# Sets after every history, removals included

The other theorems about sets are about histories without zt_set_remove, which does not do its work (`remove_removes_nothing`). Here are those that hold for histories with any calls of it.
-/

namespace ZT.Set
open ZT.Table

/-- Calls on a set. -/
inductive SOpX where
  | insert (k : Key)
  | member (k : Key)
  | remove (data : Nat)

/-- The code; the results as numbers. -/
def execX (m : Key → Key → Bool) (alloc : Tbl → Nat) (fuel : Nat) (S : ZSet) : SOpX → Outcome (Int × ZSet)
  | .insert k => insert m alloc fuel S k
  | .member k => do
      let b ← isMember m fuel S k
      pure (if b then 1 else 0, S)
  | .remove d => do
      let (d', S) ← remove m fuel S d
      pure (d', S)

def runX (m : Key → Key → Bool) (alloc : Tbl → Nat) (fuel : Nat) : ZSet → List SOpX → Outcome (List Int × ZSet)
  | S, [] => .ok ([], S)
  | S, op :: ops => do
      let (r, S) ← execX m alloc fuel S op
      let (rs, S) ← runX m alloc fuel S ops
      pure (r :: rs, S)

/-- Elements passed are at most as long as a pointer (zt_table_hash_int is undefined for others). -/
def Short : SOpX → Prop
  | .insert k => k.2 ≤ 8
  | .member k => k.2 ≤ 8
  | .remove _ => True

/-- The call of the table behind a call of the set. -/
def behind : SOpX → Op
  | .insert k => .set k k.1 k.2
  | .member k => .get k
  | .remove d => .del (d, 0)

theorem isMember_x {m : Key → Key → Bool} {S : ZSet} {C Z s L} (A : AbsX (cbOf m) S.tbl C Z s L) (fuel : Nat) (hf : L < fuel) {k : Key} (hk : k.2 ≤ 8) :
    isMember m fuel S k = .ok ((s.bucket (index (cbOf m) S.tbl k)).any (Meets (cbOf m) k)) := by
  simp only [isMember, guard, hk, if_true, Outcome.ok_bind, get_x A fuel hf k]
  rw [← List.isSome_find?]
  cases (s.bucket (index (cbOf m) S.tbl k)).find? (Meets (cbOf m) k) <;> simp [report]

theorem execX_x {m : Key → Key → Bool} {alloc : Tbl → Nat} (al : Allocator alloc) {S : ZSet} {C Z s L} (A : AbsX (cbOf m) S.tbl C Z s L) (hd : S.tbl.dup = false) (fuel : Nat) (hf : L < fuel) (op : SOpX) (ho : Short op) :
    ∃ r S' C' Z', execX m alloc fuel S op = .ok (r, S') ∧ S'.tbl.nbits = S.tbl.nbits ∧ S'.tbl.num = S.tbl.num ∧ S'.tbl.dup = S.tbl.dup ∧
      AbsX (cbOf m) S'.tbl C' Z' (s.step (cbOf m) false (index (cbOf m) S.tbl) (behind op)).2 (L + 1) := by
  have A' : AbsX (cbOf m) S.tbl C Z s (L + 1) := { A with len := fun i => by have := A.len i; omega }
  cases op with
  | insert k =>
      have hm := isMember_x A fuel hf (k := k) ho
      obtain ⟨T', C', Z', e, h1, h2, h3, A1⟩ := step_x al A fuel hf (.set k k.1 k.2)
      rw [hd] at A1 e
      simp only [execX, insert, hm, Outcome.ok_bind, behind]
      by_cases c : (s.bucket (index (cbOf m) S.tbl k)).any (Meets (cbOf m) k) = true
      · refine ⟨1, S, C, Z, by rw [if_pos c]; rfl, rfl, rfl, rfl, ?_⟩
        simp only [Bag.step, Bool.not_false, Bool.true_and, if_pos c]
        exact A'
      · rw [if_neg c]
        simp only [exec] at e
        obtain ⟨x, e1, e2⟩ := Outcome.bind_eq_ok.1 e
        obtain ⟨r, T1⟩ := x
        simp only [Outcome.pure_eq, Outcome.ok.injEq, Prod.mk.injEq] at e2
        obtain ⟨_, rfl⟩ := e2
        refine ⟨r, ⟨T1, S.length + 1⟩, C', Z', by rw [e1]; rfl, h1, h2, h3, A1⟩
  | member k =>
      refine ⟨if (s.bucket (index (cbOf m) S.tbl k)).any (Meets (cbOf m) k) then 1 else 0, S, C, Z, ?_, rfl, rfl, rfl, A'⟩
      · simp only [execX, isMember_x A fuel hf (k := k) ho, Outcome.ok_bind, Outcome.pure_eq]
  | remove d =>
      obtain ⟨T', C', Z', e, h1, h2, h3, A1⟩ := step_x al A fuel hf (.del (d, 0))
      rw [hd] at A1
      simp only [exec] at e
      obtain ⟨x, e1, e2⟩ := Outcome.bind_eq_ok.1 e
      obtain ⟨r, T1⟩ := x
      simp only [Outcome.pure_eq, Outcome.ok.injEq, Prod.mk.injEq] at e2
      obtain ⟨_, rfl⟩ := e2
      exact ⟨r.ptr, ⟨T1, S.length - 1⟩, C', Z', by simp only [execX, remove, e1, Outcome.ok_bind, Outcome.pure_eq], h1, h2, h3, A1⟩

theorem runX_x {m : Key → Key → Bool} {alloc : Tbl → Nat} (al : Allocator alloc) (ops : List SOpX) (ho : ∀ op ∈ ops, Short op) : ∀ {S : ZSet} {C Z s L}, AbsX (cbOf m) S.tbl C Z s L → S.tbl.dup = false →
    ∀ fuel, L + ops.length < fuel → ∃ rs S' C' Z', runX m alloc fuel S ops = .ok (rs, S') ∧ S'.tbl.nbits = S.tbl.nbits ∧ S'.tbl.num = S.tbl.num ∧
      AbsX (cbOf m) S'.tbl C' Z' (s.run (cbOf m) false (index (cbOf m) S.tbl) (ops.map behind)).2 (L + ops.length) := by
  induction ops with
  | nil => intro S C Z s L A _ fuel _; exact ⟨[], S, C, Z, rfl, rfl, rfl, A⟩
  | cons op ops ih =>
      intro S C Z s L A hd fuel hf
      simp only [List.length_cons] at hf
      obtain ⟨r, S1, C1, Z1, e1, h1, h2, h3, A1⟩ := execX_x al A hd fuel (by omega) op (ho op (by simp))
      obtain ⟨rs, S2, C2, Z2, e2, g1, g2, A2⟩ := ih (fun o h => ho o (by simp [h])) A1 (h3.trans hd) fuel (by omega)
      have hix : index (cbOf m) S1.tbl = index (cbOf m) S.tbl := by funext k; rw [index, index, h1]
      rw [hix] at A2
      refine ⟨r :: rs, S2, C2, Z2, ?_, g1.trans h1, g2.trans h2, ?_⟩
      · simp only [runX, e1, Outcome.ok_bind, e2, Outcome.pure_eq]
      · simp only [List.map_cons, Bag.run, List.length_cons]
        rw [show L + (ops.length + 1) = L + 1 + ops.length by omega]
        exact A2

/-- The entries of the table of a set are the elements themselves. -/
def SelfBag (s : Bag) : Prop := ∀ i, ∀ e ∈ s.bucket i, e.key = (e.datum, e.datumLen)

theorem self_step {cb : Callbacks} {ix : Key → Nat} {s : Bag} (h : SelfBag s) (op : SOpX) : SelfBag (s.step cb false ix (behind op)).2 := by
  cases op with
  | insert k =>
      simp only [behind, Bag.step]
      split
      · exact h
      · intro i e he
        simp only at he
        split at he
        · rcases List.mem_cons.1 he with rfl | he
          · rfl
          · exact h i e he
        · exact h i e he
  | member k => exact h
  | remove d =>
      simp only [behind, Bag.step]
      cases ht : taken (Meets cb (d, 0)) (s.bucket (ix (d, 0))) with
      | none => exact h
      | some x =>
          obtain ⟨d', l, z⟩ := x
          intro i e he
          simp only at he
          split at he
          · exact h _ e ((taken_sub ht).subset he)
          · exact h i e he

theorem self_run {cb : Callbacks} {ix : Key → Nat} (ops : List SOpX) : ∀ {s : Bag}, SelfBag s → SelfBag (s.run cb false ix (ops.map behind)).2 := by
  induction ops with
  | nil => intro s h; exact h
  | cons op ops ih => intro s h; exact ih (self_step h op)

theorem visit_destroy (d : Bool) (l : List Entry) (acc : List Nat) : visit (destroyCb d) l acc = .ok (0, if d then acc ++ l.map (·.datum) else acc) := by
  induction l generalizing acc with
  | nil => simp [visit]
  | cons x xs ih =>
      simp only [visit, destroyCb, Outcome.ok_bind, ne_eq, not_true, if_false, ih]
      cases d <;> simp

/-- **C91 (every history).** After every history of insertions, queries and removals, zt_set_destroy is defined and calls the destroy callback, if there is one, exactly once for each member: there is a list `es` of pairwise
different elements such that zt_set_is_member answers 1 exactly for the elements matching one of them, and the calls are those with `es`. If nothing was ever removed, no node of the set is left allocated. -/
theorem c91_destroy (m : Key → Key → Bool) (g : GoodMatch m) (alloc : Tbl → Nat) (al : Allocator alloc) (ops : List SOpX) (ho : ∀ op ∈ ops, Short op) (d : Bool) :
    ∃ n, ∀ fuel ≥ n, ∃ (rs : List Int) (S : ZSet) (es : List Key) (T : Tbl), runX m alloc fuel init ops = .ok (rs, S) ∧ (es.Pairwise fun x y => m x y = false) ∧ (∀ k : Key, k.2 ≤ 8 → isMember m fuel S k = .ok (es.any fun e => m e k)) ∧
      destroy d fuel S = .ok (if d then es.map (·.1) else [], T) ∧ ((∀ x, .remove x ∉ ops) → ∀ a, T.heap a = none) := by
  have hr : InRange (cbOf m) (Table.init 128 false false) := (init_holds m).elim fun _ ⟨_, _, A, _⟩ => A.range
  refine ⟨ops.length + 1, fun fuel hf => ?_⟩
  obtain ⟨rs, S, C, Z, e, h1, h2, A⟩ := runX_x (m := m) al ops ho (S := init) (init_x (cbOf m) 128 false false hr) rfl fuel (by omega)
  have B := answers_x A fuel (by omega)
  have hself := self_run (cb := cbOf m) (ix := index (cbOf m) init.tbl) ops (s := ⟨fun _ => [], []⟩) (fun _ _ h => by simp at h)
  obtain ⟨hD, hP⟩ := bag_inv g.good (index (cbOf m) init.tbl) (ops.map behind) ⟨fun _ => [], []⟩ (fun _ => List.Pairwise.nil) (fun _ _ h => by simp at h)
  have hlost : (∀ x, SOpX.remove x ∉ ops) → (Bag.run (cbOf m) false (index (cbOf m) init.tbl) ⟨fun _ => [], []⟩ (ops.map behind)).2.lost = [] := by
    intro hno
    rw [bag_no_del]
    intro k hk
    obtain ⟨o, ho, e⟩ := List.mem_map.1 hk
    cases o with
    | insert k => cases e
    | member k => cases e
    | remove x => exact hno x ho
  have hmem := fun (k : Key) (hk : k.2 ≤ 8) => isMember_x A fuel (by omega) hk
  have hix : index (cbOf m) S.tbl = index (cbOf m) init.tbl := by funext k; rw [index, index, h1]
  generalize (Bag.run (cbOf m) false (index (cbOf m) init.tbl) ⟨fun _ => [], []⟩ (ops.map behind)).2 = s at A B hself hD hP hmem hlost
  obtain ⟨T, left, ht, _, hlen, hleft⟩ := B.destroyed
  have hall : ∀ x ∈ (List.range S.tbl.num).flatMap s.bucket, x.key = (x.datum, x.datumLen) := by
    intro x hx
    obtain ⟨i, _, hi⟩ := List.mem_flatMap.1 hx
    exact hself i x hi
  refine ⟨rs, S, ((List.range S.tbl.num).flatMap s.bucket).map (·.key), T, e, ?_, ?_, ?_, ?_⟩
  · rw [List.pairwise_map, List.pairwise_flatMap]
    refine ⟨fun i _ => hD i, ?_⟩
    refine List.Pairwise.imp (R := (· < ·)) ?_ List.pairwise_lt_range
    intro i j hlt x hx y hy
    cases hc : m x.key y.key with
    | false => rfl
    | true =>
        have h1 := (hP i x hx).1
        have h2 := (hP j y hy).1
        have := index_congr g.good init.tbl (show (cbOf m).cmp x.key y.key = true from hc)
        omega
  · intro k hk
    rw [hmem k hk]
    congr 1
    rw [Bool.eq_iff_iff, List.any_eq_true, List.any_eq_true]
    constructor
    · rintro ⟨x, hx, hm⟩
      rw [meets_good g.good] at hm
      refine ⟨x.key, List.mem_map.2 ⟨x, List.mem_flatMap.2 ⟨_, ?_, hx⟩, rfl⟩, hm⟩
      rw [List.mem_range]
      exact A.range k
    · rintro ⟨y, hy, hm⟩
      obtain ⟨x, hx, rfl⟩ := List.mem_map.1 hy
      obtain ⟨i, _, hi⟩ := List.mem_flatMap.1 hx
      have := (hP i x hi).1
      rw [← hix] at this
      have h2 := index_congr g.good S.tbl (show (cbOf m).cmp x.key k = true from hm)
      refine ⟨x, ?_, by rw [meets_good g.good]; exact hm⟩
      rw [← h2, this]
      exact hi
  · rw [destroy, B.each, visit_destroy]
    simp only [Outcome.ok_bind, ht, Outcome.pure_eq, List.map_map, Outcome.ok.injEq, Prod.mk.injEq, and_true]
    cases d with
    | false => simp
    | true =>
        simp only [if_true, List.nil_append]
        refine List.map_congr_left fun x hx => ?_
        simp [hall x hx]
  · intro hno a
    have hl : left = [] := List.length_eq_zero_iff.1 (by rw [hlen, hlost hno]; rfl)
    have := hleft a
    rw [hl] at this
    simpa using this

/-- Elements are equal if address and length are. -/
def matchEq (k k' : Key) : Bool := decide (k = k')

theorem matchEq_good : GoodMatch matchEq := by
  refine ⟨by simp [matchEq], ?_, ?_, ?_⟩ <;> simp only [matchEq, decide_eq_true_eq]
  · exact fun _ _ h => h.symm
  · exact fun _ _ _ h1 h2 => h1.trans h2
  · rintro k k' rfl; rfl

/-- Violation of C91 (and of C20): with elements of length 0, for which zt_set_remove does find the element, removing one loses another: after inserting 1, 2, 3 and removing 1, the set does not have 2 any more; zt_set_destroy
does not call the callback for it and leaves its node allocated, whatever the allocator. -/
theorem c91_leak_violation (alloc : Tbl → Nat) (al : Allocator alloc) :
    ∃ n, ∀ fuel ≥ n, ∃ rs S T a, runX matchEq alloc fuel init [.insert (1, 0), .insert (2, 0), .insert (3, 0), .remove 1] = .ok (rs, S) ∧
      isMember matchEq fuel S (2, 0) = .ok false ∧ destroy true fuel S = .ok ([3], T) ∧ T.heap a ≠ none := by
  have hr : InRange (cbOf matchEq) (Table.init 128 false false) := (init_holds matchEq).elim fun _ ⟨_, _, A, _⟩ => A.range
  refine ⟨5, fun fuel hf => ?_⟩
  obtain ⟨rs, S, C, Z, e, h1, h2, A⟩ := runX_x (m := matchEq) al [.insert (1, 0), .insert (2, 0), .insert (3, 0), .remove 1] (by simp [Short]) (S := init) (init_x (cbOf matchEq) 128 false false hr) rfl fuel (by simp; omega)
  have B := answers_x A fuel (by simp; omega)
  have hmem := isMember_x A fuel (by simp; omega) (k := (2, 0)) (by simp)
  have hix : index (cbOf matchEq) S.tbl = index (cbOf matchEq) init.tbl := by funext k; rw [index, index, h1]
  obtain ⟨T, left, ht, _, hlen, hleft⟩ := B.destroyed
  have hl : left.length = 1 := by rw [hlen]; decide +kernel
  have hdata : ((List.range S.tbl.num).flatMap (Bag.run (cbOf matchEq) false (index (cbOf matchEq) init.tbl) ⟨fun _ => [], []⟩ ([SOpX.insert (1, 0), .insert (2, 0), .insert (3, 0), .remove 1].map behind)).2.bucket).map (·.datum) = [3] := by
    rw [h2]; decide +kernel
  match left, hl with
  | [a], _ =>
      refine ⟨rs, S, T, a, e, ?_, ?_, (hleft a).2 (by simp)⟩
      · rw [hmem, hix]
        congr 1
        decide +kernel
      · rw [destroy, B.each, visit_destroy]
        simp only [Outcome.ok_bind, ht, Outcome.pure_eq, if_true, List.nil_append]
        rw [hdata]

end ZT.Set
