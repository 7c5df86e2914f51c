import Verif.Array.Props

/-!
# C144: elements moved within an array

zt_array_put and zt_array_elem_copy with element pointers that zt_array_get has returned for the same array, together with temporaries of the caller: what sorting
or reversing an array in place consists of.
-/

namespace ZT.Arr

/-! ## Model -/

/-- `memcpy(m + to, m + from, n)` within one block: undefined if the ranges overlap (C11 7.24.2.1). -/
def memcpyOwn (m : List Byte) (to src n : Nat) : Outcome (List Byte) :=
  if to + n ≤ src ∨ src + n ≤ to then do
    let e ← slice m src n
    blit m to e
  else .ub

/-- zt_array.c 179-189 `zt_array_put(a, i, a->data + p)`. -/
def putOwn (a : Arr) (i p : Nat) : Outcome Arr :=
  if i < a.length then
    match a.data with
    | some m => do
        let m ← memcpyOwn m (sz (i * a.size)) p a.size
        pure { a with data := some m }
    | none => .ub
  else .abort

/-- zt_array.c 154-163 `zt_array_elem_copy(a, i, a->data + p)`. -/
def elemCopyOwn (a : Arr) (i p : Nat) : Outcome Arr :=
  if i < a.length then
    match a.data with
    | some m => do
        let m ← memcpyOwn m p (sz (i * a.size)) a.size
        pure { a with data := some m }
    | none => .ub
  else .abort

/-- The calls of a program; `t` numbers the caller's temporaries. -/
inductive Step where
  /-- `zt_array_elem_copy(a, i, t)` -/
  | save (i t : Nat)
  /-- `zt_array_put(a, i, t)` -/
  | load (i t : Nat)
  /-- `zt_array_put(a, i, zt_array_get(a, j))` -/
  | move (i j : Nat)
  /-- `zt_array_elem_copy(a, j, zt_array_get(a, i))` -/
  | fetch (i j : Nat)

/-- The array and the temporaries. -/
structure Env where
  a : Arr
  tmp : Nat → List Byte

/-- zt_array.c 154-189: one call. -/
def Step.run (s : Env) : Step → Outcome Env
  | .save i t => do
      let e ← elemCopy s.a i
      let b ← blit (s.tmp t) 0 e
      pure { s with tmp := fun x => if x = t then b else s.tmp x }
  | .load i t => do
      let a ← put s.a i (s.tmp t)
      pure { s with a := a }
  | .move i j => do
      let p ← get s.a j
      let a ← putOwn s.a i p
      pure { s with a := a }
  | .fetch i j => do
      let p ← get s.a i
      let a ← elemCopyOwn s.a j p
      pure { s with a := a }

/-- zt_array.c 154-189: a program. -/
def runSteps : List Step → Env → Outcome Env
  | [], s => .ok s
  | c :: cs, s => c.run s >>= runSteps cs

/-! ## Specification -/

/-- A list of elements and named values. -/
structure Vals where
  l : List (List Byte)
  v : Nat → List Byte

/-- The calls on values. -/
def Step.sem (s : Vals) : Step → Vals
  | .save i t => { s with v := fun x => if x = t then s.l.getD i [] else s.v x }
  | .load i t => { s with l := s.l.set i (s.v t) }
  | .move i j => { s with l := s.l.set i (s.l.getD j []) }
  | .fetch i j => { s with l := s.l.set i (s.l.getD j []) }

def semAll : List Step → Vals → Vals
  | [], s => s
  | c :: cs, s => semAll cs (c.sem s)

/-- The indices of a call are in range, and no element is copied onto itself. -/
def Step.Allowed (n : Nat) : Step → Prop
  | .save i _ => i < n
  | .load i _ => i < n
  | .move i j => i < n ∧ j < n ∧ i ≠ j
  | .fetch i j => i < n ∧ j < n ∧ i ≠ j

/-- The array has these elements. -/
structure Elems (a : Arr) (l : List (List Byte)) : Prop where
  wf : WF a
  len : l.length = a.length
  at_ : ∀ i, i < a.length → elem a i = l.getD i []

/-- Array, elements and temporaries (each with room for one element) correspond. -/
structure Same (s : Env) (w : Vals) : Prop where
  elems : Elems s.a w.l
  tmps : ∀ t, s.tmp t = w.v t ∧ (s.tmp t).length = s.a.size

/-! ## Proof -/

theorem Elems.set {a a' : Arr} {l : List (List Byte)} {i : Nat} {e : List Byte} (E : Elems a l) (hi : i < a.length) (w : WF a') (h1 : a'.length = a.length)
    (h2 : elemCopy a' i = .ok e) (h3 : ∀ j, j < a.length → j ≠ i → elemCopy a' j = elemCopy a j) : Elems a' (l.set i e) := by
  refine ⟨w, by simp [E.len, h1], fun k hk => ?_⟩
  have hk' : k < a.length := by omega
  by_cases hki : k = i
  · subst hki
    rw [elemCopy_eq w hk] at h2
    cases h2
    simp [List.getD, E.len, hk']
  · have := h3 k hk' hki
    rw [elemCopy_eq w hk, elemCopy_eq E.wf hk'] at this
    rw [Outcome.ok.inj this, E.at_ k hk']
    simp [List.getD, Ne.symm hki]

/-- An element of the array itself is as good as a copy of it. -/
theorem memcpyOwn_put {a : Arr} (w : WF a) {i j : Nat} (hi : i < a.length) (hj : j < a.length) (hij : i ≠ j) :
    putOwn a i (sz (j * a.size)) = put a i (elem a j) ∧ elemCopyOwn a j (sz (i * a.size)) = put a i (elem a j) := by
  obtain ⟨m, hm, hl⟩ := w.some (by omega)
  have h1 := idx_le (s := a.size) hi
  have h2 := idx_le (s := a.size) hj
  have h3 := w.small
  have hsep : i * a.size + a.size ≤ j * a.size ∨ j * a.size + a.size ≤ i * a.size := by
    rcases Nat.lt_or_gt_of_ne hij with h | h
    · exact .inl (idx_le h)
    · exact .inr (idx_le h)
  have el := elem_length w hj
  have hs := w.size
  have e1 : memcpyOwn m (i * a.size) (j * a.size) a.size = blit m (i * a.size) (elem a j) := by
    rw [memcpyOwn, if_pos hsep, slice_ok (by omega)]
    simp [elem, hm]
  constructor
  · rw [putOwn, put, if_pos hi, if_pos hi, hm]
    simp only
    rw [sz_lt (by omega), sz_lt (by omega), slice_ok (by omega), e1]
    simp only [Outcome.ok_bind, List.drop_zero]
    rw [List.take_of_length_le (by omega)]
  · rw [elemCopyOwn, put, if_pos hj, if_pos hi, hm]
    simp only
    rw [sz_lt (by omega), sz_lt (by omega), slice_ok (by omega), e1]
    simp only [Outcome.ok_bind, List.drop_zero]
    rw [List.take_of_length_le (by omega)]

theorem step_same {s : Env} {w : Vals} (h : Same s w) (c : Step) (hc : c.Allowed s.a.length) : ∃ s', c.run s = .ok s' ∧ Same s' (c.sem w) ∧ s'.a.length = s.a.length := by
  have wf := h.elems.wf
  have moved : ∀ i j, i < s.a.length → j < s.a.length → ∃ a', put s.a i (elem s.a j) = .ok a' ∧ Elems a' (w.l.set i (w.l.getD j [])) ∧ a'.length = s.a.length ∧ a'.size = s.a.size := by
    intro i j hi hj
    obtain ⟨a', e, w', l', z', h1, h2⟩ := c27_put wf hi (elem_length wf hj)
    exact ⟨a', e, by rw [← h.elems.at_ j hj]; exact h.elems.set hi w' l' h1 h2, l', z'⟩
  cases c with
  | save i t =>
      have el := elem_length wf hc
      have hb : blit (s.tmp t) 0 (elem s.a i) = .ok (elem s.a i) := by
        rw [blit_ok (by rw [(h.tmps t).2, el]; omega), List.drop_of_length_le (by rw [(h.tmps t).2, el]; omega)]
        simp
      refine ⟨{ s with tmp := fun x => if x = t then elem s.a i else s.tmp x }, ?_, ⟨h.elems, fun x => ?_⟩, rfl⟩
      · rw [Step.run, elemCopy_eq wf hc]; simp only [Outcome.ok_bind]; rw [hb]; rfl
      · simp only [Step.sem]
        by_cases hx : x = t
        · simp only [hx, if_true]
          exact ⟨h.elems.at_ i hc, el⟩
        · simp only [hx, if_false]; exact h.tmps x
  | load i t =>
      obtain ⟨a', e, w', l', z', h1, h2⟩ := c27_put wf hc (h.tmps t).2
      refine ⟨⟨a', s.tmp⟩, by rw [Step.run, e]; rfl, ⟨?_, fun x => ⟨(h.tmps x).1, by rw [z']; exact (h.tmps x).2⟩⟩, l'⟩
      have := h.elems.set hc w' l' h1 h2
      rw [(h.tmps t).1] at this
      exact this
  | move i j =>
      obtain ⟨hi, hj, hij⟩ := hc
      obtain ⟨a', e, E, l', z'⟩ := moved i j hi hj
      refine ⟨⟨a', s.tmp⟩, ?_, ⟨E, fun x => ⟨(h.tmps x).1, by rw [z']; exact (h.tmps x).2⟩⟩, l'⟩
      rw [Step.run, get, if_pos hj]
      simp only [Outcome.ok_bind]
      rw [(memcpyOwn_put wf hi hj hij).1, e]; rfl
  | fetch i j =>
      obtain ⟨hi, hj, hij⟩ := hc
      obtain ⟨a', e, E, l', z'⟩ := moved i j hi hj
      refine ⟨⟨a', s.tmp⟩, ?_, ⟨E, fun x => ⟨(h.tmps x).1, by rw [z']; exact (h.tmps x).2⟩⟩, l'⟩
      rw [Step.run, get, if_pos hi]
      simp only [Outcome.ok_bind]
      rw [(memcpyOwn_put wf hi hj hij).2, e]; rfl

/-- **C144 (programs of moves).** Any program of such calls, of any length, with indices in range and no element copied onto itself, does to the elements and the
temporaries exactly what the assignments of values do. -/
theorem c144_program (cs : List Step) {s : Env} {w : Vals} (h : Same s w) (hc : ∀ c ∈ cs, c.Allowed s.a.length) : ∃ s', runSteps cs s = .ok s' ∧ Same s' (semAll cs w) := by
  induction cs generalizing s w with
  | nil => exact ⟨s, rfl, h⟩
  | cons c cs ih =>
      obtain ⟨s1, e1, h1, l1⟩ := step_same h c (hc c List.mem_cons_self)
      obtain ⟨s2, e2, h2⟩ := ih h1 (fun d hd => by rw [l1]; exact hc d (List.mem_cons_of_mem _ hd))
      exact ⟨s2, by rw [runSteps, e1]; exact e2, h2⟩

/-- Exchange of elements `i` and `j` by way of temporary 0. -/
def swap (i j : Nat) : List Step := [.save i 0, .move i j, .load j 0]

theorem set_set_perm {α : Type} {l : List α} {i j : Nat} (hi : i < l.length) (hj : j < l.length) : ((l.set i l[j]).set j l[i]).Perm l := List.set_set_perm hi hj

theorem swap_sem (i j : Nat) (w : Vals) (hi : i < w.l.length) (hj : j < w.l.length) : (semAll (swap i j) w).l = (w.l.set i w.l[j]).set j w.l[i] := by
  simp [swap, semAll, Step.sem, List.getD, hi, hj]

/-- **C144 (exchanges).** Any sequence of exchanges of different elements ends, and the elements afterwards are a permutation of the elements before. -/
theorem c144_swaps (ps : List (Nat × Nat)) {s : Env} {w : Vals} (h : Same s w) (hp : ∀ p ∈ ps, p.1 < s.a.length ∧ p.2 < s.a.length ∧ p.1 ≠ p.2) :
    ∃ s' l', runSteps (ps.flatMap fun p => swap p.1 p.2) s = .ok s' ∧ Elems s'.a l' ∧ l'.Perm w.l := by
  have hall : ∀ c ∈ ps.flatMap fun p => swap p.1 p.2, c.Allowed s.a.length := by
    intro c hc
    obtain ⟨p, h1, h2⟩ := List.mem_flatMap.1 hc
    obtain ⟨a1, a2, a3⟩ := hp p h1
    simp only [swap, List.mem_cons, List.not_mem_nil, or_false] at h2
    rcases h2 with rfl | rfl | rfl
    · exact a1
    · exact ⟨a1, a2, a3⟩
    · exact a2
  obtain ⟨s', e, h'⟩ := c144_program _ h hall
  refine ⟨s', _, e, h'.elems, ?_⟩
  have hl := h.elems.len
  have hp' : ∀ p ∈ ps, p.1 < w.l.length ∧ p.2 < w.l.length ∧ p.1 ≠ p.2 := by rw [hl]; exact hp
  clear h h' e hall hp hl
  induction ps generalizing w with
  | nil => exact .refl _
  | cons p ps ih =>
      obtain ⟨a1, a2, _⟩ := hp' p List.mem_cons_self
      have hs := swap_sem p.1 p.2 w a1 a2
      have happ : ∀ (xs ys : List Step) (w : Vals), semAll (xs ++ ys) w = semAll ys (semAll xs w) := by
        intro xs; induction xs with
        | nil => intro ys w; rfl
        | cons x xs ih => intro ys w; exact ih ys _
      rw [List.flatMap_cons, happ]
      have hperm : (semAll (swap p.1 p.2) w).l.Perm w.l := by rw [hs]; exact set_set_perm a1 a2
      refine (ih (w := semAll (swap p.1 p.2) w) fun q hq => ?_).trans hperm
      rw [hperm.length_eq]
      exact hp' q (List.mem_cons_of_mem _ hq)

/-- Violation: an element copied onto itself is an overlapping memcpy, in every array. -/
theorem c144_self_violation {a : Arr} (w : WF a) {i : Nat} (hi : i < a.length) (tmp : Nat → List Byte) : Step.run ⟨a, tmp⟩ (.move i i) = .ub ∧ Step.run ⟨a, tmp⟩ (.fetch i i) = .ub := by
  obtain ⟨m, hm, hl⟩ := w.some (by omega)
  have hs := w.size
  constructor
  · simp only [Step.run, get, if_pos hi, Outcome.ok_bind, putOwn, hm]
    rw [memcpyOwn, if_neg (by omega)]; rfl
  · simp only [Step.run, get, if_pos hi, Outcome.ok_bind, elemCopyOwn, hm]
    rw [memcpyOwn, if_neg (by omega)]; rfl

/-- The hypotheses are met: three elements of two bytes. -/
theorem moves_case : Same ⟨⟨3, 2, some [1, 2, 3, 4, 5, 6]⟩, fun _ => [0, 0]⟩ ⟨[[1, 2], [3, 4], [5, 6]], fun _ => [0, 0]⟩ := by
  refine ⟨⟨⟨by decide, by decide, fun m h => by cases h; rfl, by simp⟩, rfl, fun i hi => ?_⟩, fun t => ⟨rfl, rfl⟩⟩
  match i, hi with
  | 0, _ => rfl
  | 1, _ => rfl
  | 2, _ => rfl
  | k + 3, hi => simp at hi; omega

example : ∃ s', runSteps (swap 0 2) ⟨⟨3, 2, some [1, 2, 3, 4, 5, 6]⟩, fun _ => [0, 0]⟩ = .ok s' ∧ s'.a.data = some [5, 6, 3, 4, 1, 2] := ⟨_, rfl, rfl⟩

end ZT.Arr
