import Verif.LList.Props

/-!
# Lists that share their ends (C146)

Lists of pairs may share cells: `b = zt_llist_cons(x, a)` and `c = zt_llist_cons(y, a)` both end in the cells of `a`. A program that uses only the functions that do not write
into existing pairs sees immutable lists, however much they share. The functions that do write (`nreverse`, `sort`, `pop`, `free`, `nmerge`) are described for the
other lists that share cells with their argument.
-/

namespace ZT.LList
variable {V : Type}

/-- The list that starts at `p` is finite and has the items `xs`. -/
def Reads (H : Heap V) (p : Ptr) (xs : List V) : Prop := ∃ l, IsL H p l ∧ items l = xs

/-- One statement of a program with variables `v0, v1, …` of type `zt_llist`, using the functions that leave existing pairs alone. -/
inductive Op (V : Type) where
  /-- `d = zt_llist_cons(v, s)` -/
  | cons (d : Nat) (v : V) (s : Nat)
  /-- `zt_llist_push(v, &x)` -/
  | push (v : V) (x : Nat)
  /-- `d = zt_llist_reverse(s)` -/
  | reverse (d s : Nat)
  /-- `d = zt_llist_nthtail(s, k)` -/
  | nthtail (d s : Nat) (k : Int)
  /-- `d = zt_llist_ppop(&s)` -/
  | ppop (d s : Nat)
  /-- `d = s` -/
  | copy (d s : Nat)
  /-- `d = NULL` -/
  | clear (d : Nat)

/-- Assignment to a variable. -/
def put {α : Type} (f : Nat → α) (d : Nat) (x : α) : Nat → α := fun y => if y = d then x else f y

/-- The statements executed with the functions of zt_llist.h 37-46, 61-84, 102-106, 126-138. -/
def exec (fuel : Nat) (H : Heap V) (vars : Nat → Ptr) : Op V → Outcome (Heap V × (Nat → Ptr))
  | .cons d v s => .ok ((cons H v (vars s)).1, put vars d (cons H v (vars s)).2)
  | .push v x => .ok ((push H v (vars x)).1, put vars x (push H v (vars x)).2)
  | .reverse d s => do
      let (H, r) ← reverse fuel H (vars s)
      pure (H, put vars d r)
  | .nthtail d s k => do
      let r ← nthtail H (vars s) k
      pure (H, put vars d r)
  | .ppop d s => do
      let (r, l) ← ppop H (vars s)
      pure (H, put (put vars s l) d r)
  | .copy d s => .ok (H, put vars d (vars s))
  | .clear d => .ok (H, put vars d none)

/-- A sequence of statements. -/
def execs (fuel : Nat) (H : Heap V) (vars : Nat → Ptr) : List (Op V) → Outcome (Heap V × (Nat → Ptr))
  | [] => .ok (H, vars)
  | o :: os => do
      let (H, vars) ← exec fuel H vars o
      execs fuel H vars os

/-- What the same statement means when lists are immutable values; `none` is the failed assertion of nthtail beyond the end. -/
def meaning (S : Nat → List V) : Op V → Option (Nat → List V)
  | .cons d v s => some (put S d (v :: S s))
  | .push v x => some (put S x (v :: S x))
  | .reverse d s => some (put S d (S s).reverse)
  | .nthtail d s k => if k.toNat < (S s).length then some (put S d ((S s).drop (k.toNat + 1))) else none
  | .ppop d s => some (put (put S s (S s).tail) d (S s))
  | .copy d s => some (put S d (S s))
  | .clear d => some (put S d [])

def meanings (S : Nat → List V) : List (Op V) → Option (Nat → List V)
  | [] => some S
  | o :: os => match meaning S o with
      | some S => meanings S os
      | none => none

theorem reads_frame (H H' : Heap V) (hf : Fresh H) (ho : ∀ a, a < H.brk → H'.cells a = H.cells a) (p : Ptr) (l : List (Nat × V)) (h : IsL H p l) : IsL H' p l := by
  refine isL_frame H H' p l (fun a ha => ho a ?_) h
  apply Decidable.byContradiction
  intro hh; exact isL_cells H p l h a ha (hf a (by omega))

theorem exec_spec (o : Op V) (H : Heap V) (vars : Nat → Ptr) (S : Nat → List V) (hf : Fresh H) (hs : ∀ x, Reads H (vars x) (S x)) :
    ∃ n, ∀ fuel, n ≤ fuel → (match meaning S o with
      | some S' => ∃ H' vars', exec fuel H vars o = .ok (H', vars') ∧ Fresh H' ∧ (∀ x, Reads H' (vars' x) (S' x)) ∧ ∀ p l, IsL H p l → IsL H' p l
      | none => exec fuel H vars o = .abort) := by
  cases o with
  | cons d v s =>
      refine ⟨0, fun fuel _ => ?_⟩
      obtain ⟨l, hl, hi⟩ := hs s
      obtain ⟨c1, c2, c3⟩ := cons_isL H hf v (vars s) l hl
      have fr := fun p l h => reads_frame H _ hf c3 p l h
      refine ⟨_, _, rfl, c2, fun x => ?_, fr⟩
      simp only [put]
      split
      · exact ⟨_, c1, by simp [items] at hi ⊢; exact hi⟩
      · obtain ⟨m, hm, hmi⟩ := hs x; exact ⟨m, fr _ _ hm, hmi⟩
  | push v s =>
      refine ⟨0, fun fuel _ => ?_⟩
      obtain ⟨l, hl, hi⟩ := hs s
      obtain ⟨c1, c2, c3⟩ := cons_isL H hf v (vars s) l hl
      have fr := fun p l h => reads_frame H _ hf c3 p l h
      refine ⟨_, _, rfl, c2, fun x => ?_, fr⟩
      simp only [put]
      split
      · exact ⟨_, c1, by simp [items] at hi ⊢; exact hi⟩
      · obtain ⟨m, hm, hmi⟩ := hs x; exact ⟨m, fr _ _ hm, hmi⟩
  | reverse d s =>
      obtain ⟨l, hl, hi⟩ := hs s
      refine ⟨l.length + 1, fun fuel hfu => ?_⟩
      obtain ⟨H', q, l', e, hq, hi', hfr', hnew, _, ho⟩ := revLoop_spec l [] H (vars s) none fuel hf hl rfl (by omega)
      rw [List.append_nil] at hq
      have fr := fun p l h => reads_frame H _ hf ho p l h
      refine ⟨H', put vars d q, ?_, hfr', fun x => ?_, fr⟩
      · simp only [exec, reverse]; rw [e]; rfl
      simp only [put]
      split
      · exact ⟨_, hq, by rw [hi', hi]⟩
      · obtain ⟨m, hm, hmi⟩ := hs x; exact ⟨m, fr _ _ hm, hmi⟩
  | nthtail d s k =>
      refine ⟨0, fun fuel _ => ?_⟩
      obtain ⟨l, hl, hi⟩ := hs s
      have hlen : l.length = (S s).length := by rw [← hi]; simp [items]
      obtain ⟨n1, n2⟩ := nthtail_spec H (vars s) l hl k
      simp only [meaning]
      split
      · next S' hS =>
        split at hS
        · next hk =>
          cases hS
          obtain ⟨q, e, hq⟩ := n1 (by omega)
          refine ⟨H, put vars d q, ?_, hf, fun x => ?_, fun p l h => h⟩
          · simp only [exec]; rw [e]; rfl
          simp only [put]
          split
          · exact ⟨_, hq, by rw [← hi]; simp [items, List.map_drop]⟩
          · exact hs x
        · cases hS
      · next hS =>
        split at hS
        · cases hS
        · simp only [exec]; rw [n2 (by omega)]; rfl
  | ppop d s =>
      refine ⟨0, fun fuel _ => ?_⟩
      obtain ⟨l, hl, hi⟩ := hs s
      cases l with
      | nil =>
          simp only [IsL] at hl
          have hS : S s = [] := by rw [← hi]; rfl
          refine ⟨H, put (put vars s none) d none, ?_, hf, fun x => ?_, fun p l h => h⟩
          · simp only [exec, ppop, hl]; rfl
          simp only [put, hS]
          split
          · exact ⟨[], rfl, rfl⟩
          · split
            · exact ⟨[], rfl, rfl⟩
            · exact hs x
      | cons c cs =>
          obtain ⟨a, v⟩ := c
          have h0 := hl
          simp only [IsL] at hl
          obtain ⟨hv, t, hc, hl⟩ := hl
          refine ⟨H, put (put vars s t) d (some a), ?_, hf, fun x => ?_, fun p l h => h⟩
          · simp only [exec, ppop, hv]; rw [load_some H a _ hc]; rfl
          simp only [put]
          split
          · exact ⟨_, by rw [← hv]; exact h0, hi⟩
          · split
            · exact ⟨cs, hl, by rw [← hi]; rfl⟩
            · exact hs x
  | copy d s =>
      refine ⟨0, fun fuel _ => ⟨_, _, rfl, hf, fun x => ?_, fun p l h => h⟩⟩
      simp only [put]
      split
      · exact hs s
      · exact hs x
  | clear d =>
      refine ⟨0, fun fuel _ => ⟨_, _, rfl, hf, fun x => ?_, fun p l h => h⟩⟩
      simp only [put]
      split
      · exact ⟨[], rfl, rfl⟩
      · exact hs x

/-- **C146** Immutable lists: whatever statements of these kinds a program executes, each of its variables has the value it has when lists are values that
are copied by every statement, although cells are shared; no list that existed before has changed (also those no variable holds). -/
theorem shared_lists_are_values (os : List (Op V)) : ∀ (H : Heap V) (vars : Nat → Ptr) (S : Nat → List V), Fresh H → (∀ x, Reads H (vars x) (S x)) →
    ∃ n, ∀ fuel, n ≤ fuel →
      (∀ S', meanings S os = some S' → ∃ H' vars', execs fuel H vars os = .ok (H', vars') ∧ Fresh H' ∧ (∀ x, Reads H' (vars' x) (S' x)) ∧ ∀ p l, IsL H p l → IsL H' p l) ∧
      (meanings S os = none → execs fuel H vars os = .abort) := by
  induction os with
  | nil =>
      intro H vars S hf hs
      exact ⟨0, fun fuel _ => ⟨fun S' h => by cases h; exact ⟨H, vars, rfl, hf, hs, fun _ _ h => h⟩, fun h => by cases h⟩⟩
  | cons o os ih =>
      intro H vars S hf hs
      obtain ⟨n1, h1⟩ := exec_spec o H vars S hf hs
      cases hm : meaning S o with
      | none =>
          refine ⟨n1, fun fuel hfu => ⟨fun S' h => ?_, fun _ => ?_⟩⟩
          · simp [meanings, hm] at h
          · have := h1 fuel hfu
            rw [hm] at this
            simp only at this
            rw [execs, this]; rfl
      | some S1 =>
          have e1 := h1 n1 (Nat.le_refl _)
          rw [hm] at e1
          simp only at e1
          obtain ⟨H1, v1, x1, f1, r1, g1⟩ := e1
          obtain ⟨n2, h2⟩ := ih H1 v1 S1 f1 r1
          refine ⟨max n1 n2, fun fuel hfu => ?_⟩
          have k1 := h1 fuel (by omega)
          rw [hm] at k1
          simp only at k1
          obtain ⟨H1', v1', x1', _⟩ := k1
          have same : H1' = H1 ∧ v1' = v1 := by
            have : exec fuel H vars o = exec n1 H vars o := exec_same o H vars n1 fuel (by omega) H1 v1 x1
            rw [x1', x1] at this
            cases this; exact ⟨rfl, rfl⟩
          obtain ⟨rfl, rfl⟩ := same
          obtain ⟨k2, k3⟩ := h2 fuel (by omega)
          simp only [meanings, hm]
          refine ⟨fun S' h => ?_, fun h => ?_⟩
          · obtain ⟨H', v', e, f', r', g'⟩ := k2 S' h
            exact ⟨H', v', by rw [execs, x1']; exact e, f', r', fun p l h => g' p l (g1 p l h)⟩
          · rw [execs, x1']; exact k3 h
where
  exec_same (o : Op V) (H : Heap V) (vars : Nat → Ptr) (n fuel : Nat) (h : n ≤ fuel) (H1 : Heap V) (v1 : Nat → Ptr) (e : exec n H vars o = .ok (H1, v1)) :
      exec fuel H vars o = exec n H vars o := by
    cases o with
    | reverse d s =>
        simp only [exec] at e ⊢
        rw [Outcome.bind_eq_ok] at e
        obtain ⟨r, e, _⟩ := e
        have : reverse fuel H (vars s) = reverse n H (vars s) := by
          rw [e]; exact rev_same n fuel H _ _ r h e
        rw [this]
    | _ => rfl
  rev_same (n fuel : Nat) (H : Heap V) (p q : Ptr) (r : Heap V × Ptr) (h : n ≤ fuel) (e : revLoop n H p q = .ok r) : revLoop fuel H p q = .ok r := by
    induction n generalizing fuel H p q with
    | zero => cases e
    | succ n ih =>
        match fuel, h with
        | f + 1, h =>
        cases p with
        | none => exact e
        | some a =>
            simp only [revLoop] at e ⊢
            rw [Outcome.bind_eq_ok] at e
            obtain ⟨c, e1, e⟩ := e
            rw [Outcome.bind_eq_ok] at e
            obtain ⟨c', e2, e⟩ := e
            rw [e1, Outcome.ok_bind, e2, Outcome.ok_bind]
            exact ih f _ _ _ (by omega) e

/-- The program of the header of this file: `a = (1); b = cons(2, a); c = cons(3, a); push(4, &a); d = reverse(b); e = ppop(&c)`. -/
def demoOps : List (Op Nat) := [.push 1 0, .cons 1 2 0, .cons 2 3 0, .push 4 0, .reverse 3 1, .ppop 4 2]

example : ((meanings (fun _ => []) demoOps).map fun S => [S 0, S 1, S 2, S 3, S 4]) = some [[4, 1], [2, 1], [1], [1, 2], [3, 1]] := by decide +kernel

/-- The hypotheses hold when the program starts: all variables NULL. -/
example : Fresh (⟨fun _ => none, 1⟩ : Heap Nat) ∧ ∀ x, Reads (⟨fun _ => none, 1⟩ : Heap Nat) ((fun _ => none : Nat → Ptr) x) ((fun _ => []) x) :=
  ⟨fun _ _ => rfl, fun _ => ⟨[], rfl, rfl⟩⟩

/-! ## The functions that write -/

/-- Another list whose first part is not touched and then reaches the cell `a`. -/
theorem isL_splice (H H' : Heap V) (pre rest m : List (Nat × V)) (a : Nat) (v : V) (q : Ptr) (h : IsL H q (pre ++ (a, v) :: rest))
    (ho : ∀ b ∈ adr pre, H'.cells b = H.cells b) (hm : IsL H' (some a) m) : IsL H' q (pre ++ m) := by
  induction pre generalizing q with
  | nil => simp only [List.nil_append, IsL] at h; rw [h.1]; exact hm
  | cons x xs ih =>
      obtain ⟨b, w⟩ := x
      simp only [List.cons_append, IsL] at h ⊢
      obtain ⟨rfl, t, hc, h⟩ := h
      exact ⟨rfl, t, by rw [ho b (by simp [adr]), hc], ih t h (fun c hc => ho c (by simp [adr] at hc ⊢; right; exact hc))⟩

/-- **C146** `zt_llist_nreverse` of a list: another list that shares its end from the cell `a` on keeps its own part and its first shared item, and then continues with
the items *before* `a`, in reverse; what followed `a` is lost to it. -/
theorem nreverse_shared (H : Heap V) (p q : Ptr) (pre own rest : List (Nat × V)) (a : Nat) (v : V) (h : IsL H p (pre ++ (a, v) :: rest))
    (hq : IsL H q (own ++ (a, v) :: rest)) (hd : ∀ b ∈ adr own, b ∉ adr (pre ++ (a, v) :: rest)) :
    ∃ n, ∀ fuel, n ≤ fuel → ∃ H' r, nreverse fuel H p = .ok (H', r) ∧ IsL H' r (pre ++ (a, v) :: rest).reverse ∧ IsL H' q (own ++ (a, v) :: pre.reverse) := by
  refine ⟨(pre ++ (a, v) :: rest).length + 1, fun fuel hf => ?_⟩
  obtain ⟨H', r, e, hr, _, ho⟩ := nreverse_spec _ H p fuel h (by omega)
  refine ⟨H', r, e, hr, isL_splice H H' own rest _ a v q hq (fun b hb => ho b (hd b hb)) ?_⟩
  rw [List.reverse_append, List.reverse_cons, List.append_assoc] at hr
  exact isL_append H' r _ a v _ (by simpa using hr)

/-- **C146** `zt_llist_sort` of a list: another list that shares its end from the cell `a` on keeps its own part, and then continues with the part of the sorted list from `a` on. -/
theorem sort_shared (cmp : V → V → Bool) (H : Heap V) (p q : Ptr) (pre own rest : List (Nat × V)) (a : Nat) (v : V) (h : IsL H p (pre ++ (a, v) :: rest))
    (hq : IsL H q (own ++ (a, v) :: rest)) (hd : ∀ b ∈ adr own, b ∉ adr (pre ++ (a, v) :: rest)) :
    ∃ n, ∀ fuel, n ≤ fuel → ∃ H' r before after, sort cmp fuel H p = .ok (H', r) ∧ (before ++ (a, v) :: after).Perm (pre ++ (a, v) :: rest) ∧
      IsL H' r (before ++ (a, v) :: after) ∧ IsL H' q (own ++ (a, v) :: after) := by
  refine ⟨(pre ++ (a, v) :: rest).length + 2, fun fuel hf => ?_⟩
  obtain ⟨H', r, e, hr, _, ho⟩ := sort_spec cmp _ H p fuel h (by omega)
  have pm := msort_perm cmp (pre ++ (a, v) :: rest)
  have mem : (a, v) ∈ msort cmp (pre ++ (a, v) :: rest) := pm.mem_iff.mpr (by simp)
  obtain ⟨s, t, e2⟩ := List.append_of_mem mem
  rw [e2] at pm hr
  exact ⟨H', r, s, t, e, pm, hr, isL_splice H H' own rest _ a v q hq (fun b hb => ho b (hd b hb)) (isL_append H' r _ a v _ hr)⟩

/-- Reaching a freed cell. -/
theorem walk_dead (H : Heap V) (pre : List (Nat × V)) (a : Nat) (v : V) (rest : List (Nat × V)) (H' : Heap V) (q : Ptr) (h : IsL H q (pre ++ (a, v) :: rest))
    (ho : ∀ b ∈ adr pre, H'.cells b = H.cells b) : walk H' q pre.length = .ok (some a) := by
  induction pre generalizing q with
  | nil => simp only [List.nil_append, IsL] at h; rw [h.1]; rfl
  | cons x xs ih =>
      obtain ⟨b, w⟩ := x
      simp only [List.cons_append, IsL] at h
      obtain ⟨rfl, t, hc, h⟩ := h
      rw [List.length_cons, walk, load_some H' b ⟨w, t⟩ (by rw [ho b (by simp [adr]), hc]), Outcome.ok_bind]
      exact ih t h (fun c hc => ho c (by simp [adr] at hc ⊢; right; exact hc))

/-- **C146** `zt_llist_pop` frees the first pair: lists that do not contain this pair are unchanged (also those that share the rest); in a list that contains it, the position of this pair
can no longer be read. -/
theorem pop_shared (H : Heap V) (p : Ptr) (a : Nat) (v : V) (rest : List (Nat × V)) (h : IsL H p ((a, v) :: rest)) :
    ∃ H' r, pop H p = .ok (some v, H', r) ∧ (∀ q m, IsL H q m → a ∉ adr m → IsL H' q m) ∧
      ∀ q own, IsL H q (own ++ (a, v) :: rest) → nth H' q own.length = .ub := by
  obtain ⟨H', r, e, _, hd, ho⟩ := pop_spec H p _ h
  have dead := hd a v rest rfl
  refine ⟨H', r, e, fun q m hm ha => isL_frame H H' q m (fun b hb => ho b (by simp [adr]; rintro rfl; exact ha hb)) hm, fun q own hq => ?_⟩
  have nd := isL_nodup H q _ hq
  have w := walk_dead H own a v rest H' q hq (fun b hb => ho b (by
    simp [adr]; rintro rfl
    rw [adr, List.map_append, List.nodup_append] at nd
    exact nd.2.2 b hb b (by simp) rfl))
  rw [nth, Int.toNat_natCast, w, Outcome.ok_bind]
  simp only [load, dead]
  rfl

/-- **C146** Two lists that share an end cannot both be freed: after the first `zt_llist_free` the second one reads a freed pair (the first shared one), however many steps it is allowed. -/
theorem free_shared (H : Heap V) (p q : Ptr) (pre own rest : List (Nat × V)) (a : Nat) (v : V) (h : IsL H p (pre ++ (a, v) :: rest))
    (hq : IsL H q (own ++ (a, v) :: rest)) (hd : ∀ b ∈ adr own, b ∉ adr (pre ++ (a, v) :: rest)) :
    ∃ n, ∀ fuel, n ≤ fuel → ∃ H', freeList fuel H p = .ok H' ∧ walk H' q own.length = .ok (some a) ∧ load H' (some a) = .ub ∧ ∀ fuel', freeList fuel' H' q = .ub := by
  obtain ⟨n, hn⟩ := free_spec H p _ h
  refine ⟨n, fun fuel hf => ?_⟩
  obtain ⟨H', e, d, o⟩ := hn fuel hf
  have dead : H'.cells a = none := d a (by simp [adr])
  have keep : ∀ b ∈ adr own, H'.cells b = H.cells b := fun b hb => o b (hd b hb)
  refine ⟨H', e, walk_dead H own a v rest H' q hq keep, by simp [load, dead], ?_⟩
  have nd := isL_nodup H q _ hq
  clear hd h hn e d o
  intro fuel'
  induction own generalizing q H' H fuel' with
  | nil =>
      simp only [List.nil_append, IsL] at hq
      rw [hq.1]
      match fuel' with
      | 0 => rfl
      | f + 1 => simp [freeList, load, dead]
  | cons x xs ih =>
      obtain ⟨b, w⟩ := x
      simp only [List.cons_append, IsL] at hq
      obtain ⟨rfl, t, hc, hq⟩ := hq
      have hc' : H'.cells b = some ⟨w, t⟩ := by rw [keep b (by simp [adr]), hc]
      match fuel' with
      | 0 => rfl
      | f + 1 =>
        rw [freeList, load_some H' b _ hc', Outcome.ok_bind, free]
        simp only [hc']
        rw [Outcome.ok_bind]
        simp only [List.cons_append, adr, List.map_cons, List.nodup_cons] at nd
        refine ih H t hq _ ?_ ?_ nd.2 f
        · rw [upd_cells]; split
          · rfl
          · exact dead
        · intro c hc2
          rw [upd_cells, if_neg, keep c (by simp [adr] at hc2 ⊢; right; exact hc2)]
          rintro rfl
          exact nd.1 (by simp [adr] at hc2 ⊢; left; exact hc2)

/-- **C146** `zt_llist_nmerge` needs lists without common pairs: merging a list of one item with itself gives a list that has no end, in which every position can be read. -/
theorem nmerge_self_violation (cmp : V → V → Bool) (H : Heap V) (a : Nat) (v : V) (h : IsL H (some a) [(a, v)]) :
    ∃ n, ∀ fuel, n ≤ fuel → ∃ H', nmerge cmp fuel H (some a) (some a) = .ok (H', some a) ∧ (∀ k, nth H' (some a) k = .ok v) ∧ ¬ ∃ l, IsL H' (some a) l := by
  simp only [IsL] at h
  obtain ⟨_, t, hc, rfl⟩ := h
  refine ⟨4, fun fuel hf => ?_⟩
  obtain ⟨f, rfl⟩ : ∃ f, fuel = f + 4 := ⟨fuel - 4, by omega⟩
  have cyc : ∀ H' : Heap V, H'.cells a = some ⟨v, some a⟩ → (∀ k, nth H' (some a) k = .ok v) ∧ ¬ ∃ l, IsL H' (some a) l := by
    intro H' hH
    refine ⟨fun k => ?_, ?_⟩
    · have w : ∀ n, walk H' (some a) n = .ok (some a) := by
        intro n
        induction n with
        | zero => rfl
        | succ n ih => rw [walk, load_some H' a _ hH, Outcome.ok_bind]; exact ih
      rw [nth, w, Outcome.ok_bind]
      simp only [load, hH]
      rfl
    · rintro ⟨l, hl⟩
      match l, hl with
      | [], hl => simp [IsL] at hl
      | (b, w) :: xs, hl =>
          have h0 := hl
          simp only [IsL] at hl
          obtain ⟨e, t, hc2, hl⟩ := hl
          cases e
          rw [hH] at hc2
          cases hc2
          have := isL_det H' _ _ _ h0 hl
          have := congrArg List.length this
          simp at this
  refine ⟨(((H.upd a (some ⟨v, none⟩)).upd a (some ⟨v, some a⟩)).upd a (some ⟨v, none⟩)).upd a (some ⟨v, some a⟩), ?_, cyc _ (by simp [upd_cells])⟩
  simp [nmerge, mergeLoop, load, hc, ppop, ppush, setTail, upd_cells, nreverse, nrevLoop]

/-- `a = (1)`, `b = cons(2, a)`, `c = cons(3, a)`: two lists with a common end, as the theorems above assume. -/
example : IsL (⟨fun x => if x = 1 then some ⟨1, none⟩ else if x = 2 then some ⟨2, some 1⟩ else if x = 3 then some ⟨3, some 1⟩ else none, 4⟩ : Heap Nat) (some 2) ([(2, 2)] ++ (1, 1) :: []) ∧
    IsL (⟨fun x => if x = 1 then some ⟨1, none⟩ else if x = 2 then some ⟨2, some 1⟩ else if x = 3 then some ⟨3, some 1⟩ else none, 4⟩ : Heap Nat) (some 3) ([(3, 3)] ++ (1, 1) :: []) ∧
    ∀ b ∈ adr ([(3, 3)] : List (Nat × Nat)), b ∉ adr ([(2, 2)] ++ (1, 1) :: [] : List (Nat × Nat)) := by
  refine ⟨⟨rfl, _, rfl, rfl, _, rfl, rfl⟩, ⟨rfl, _, rfl, rfl, _, rfl, rfl⟩, by decide⟩

end ZT.LList
