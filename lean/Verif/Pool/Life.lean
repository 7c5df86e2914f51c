import Verif.Mem

/-!
# C95: the life of the threads of thread pools (zt_threads.c 213-262, 471-492, 514-549, 551-600)

Which loops a pool runs is decided by callbacks that are global to the process and can be changed at any time; the functions that make, start and kill a pool each look at
them. Modelled: the callbacks, the arrays of thread handles of all pools, and the trace of threads started and joined. The queues, mutexes and pipes are the subject of
Verif.Pool.Model and Verif.Pool.Pipe. The primitives are those of zt_threads/zt_threads_pthreads.c once zt_threads_use_pthreads has been called; before, the function pointer
`zt_threads_alloc_thread` is NULL. `pthread_join` of a handle whose thread was not started or has been joined already is undefined. A failing calloc is not modelled.
-/

namespace ZT.Pool.Life

/-- zt_threads.h 42-69 `struct zt_threadpool_callbacks`: function pointers, `none` is NULL. -/
structure Cbs where
  iputLoop : Option Nat
  oputLoop : Option Nat
  init : Option Nat
  iputWorker : Option Nat
  oputWorker : Option Nat
  finalize : Option Nat
  deriving DecidableEq, Repr

/-- zt_threads.c 31-33: `_zt_threadpool_cbs` at program start; 0 and 1 are the two built-in loops. -/
def defaults : Cbs := ⟨some 0, some 1, none, none, none, none⟩

/-- zt_threads.c 223-262 `zt_threadpool_set_callbacks`. -/
def setCallbacks (cur : Cbs) : Option Cbs → Cbs
  | none => { cur with iputLoop := some 0, oputLoop := some 1, init := none, iputWorker := none, oputWorker := none }
  | some c => ⟨c.iputLoop.or cur.iputLoop, c.oputLoop.or cur.oputLoop, c.init.or cur.init, c.iputWorker.or cur.iputWorker, c.oputWorker.or cur.oputWorker, c.finalize.or cur.finalize⟩

/-- Input or output loop. -/
inductive Role where
  | i
  | o
  deriving DecidableEq, Repr

/-- What happens to threads: thread `h` is started for a pool, or has been waited for. -/
inductive Ev where
  | start (pool : Nat) (r : Role) (h : Nat)
  | join (h : Nat)
  deriving DecidableEq, Repr

/-- zt_threads.h 77-99 `struct zt_threadpool`: number of threads and arrays of handles (`none` is NULL). -/
structure P where
  min : Int
  ith : List (Option Nat)
  oth : Option (List (Option Nat))
  deriving DecidableEq, Repr

/-- The process: callbacks, whether zt_threads_use_pthreads was called, pools, number of handles allocated, trace. -/
structure G where
  cbs : Cbs
  ready : Bool
  pools : List P
  next : Nat
  trace : List Ev
  deriving DecidableEq, Repr

/-- The process at its start. -/
def G.zero : G := ⟨defaults, false, [], 0, []⟩

/-- zt_threads.c 551-600 `zt_threadpool_init`: the arrays of handles. `calloc` with a negative number gives NULL or an array that is not used. -/
def initPool (g : G) (min : Int) : G :=
  { g with pools := g.pools ++ [⟨min, List.replicate min.toNat none, if g.cbs.oputLoop.isSome then some (List.replicate min.toNat none) else none⟩] }

/-- zt_threads.c 476-480 and 484-488: the loop with `n` rounds left, at index `i` of the array `a`. `create h` tells whether `pthread_create` succeeds for handle `h`; the
result of zt_threads_start is ignored. -/
def startLoop (create : Nat → Bool) (k : Nat) (r : Role) : Nat → Nat → List (Option Nat) → G → Outcome (List (Option Nat) × G)
  | 0, _, a, g => .ok (a, g)
  | n + 1, i, a, g =>
      if g.ready then do
        let a ← wr a i (some g.next)
        startLoop create k r n (i + 1) a { g with next := g.next + 1, trace := g.trace ++ (if create g.next then [Ev.start k r g.next] else []) }
      else .ub

/-- zt_threads.c 475-481: the threads of the input loop. -/
def startI (create : Nat → Bool) (k : Nat) (p : P) (g : G) : Outcome (List (Option Nat) × G) :=
  if g.cbs.iputLoop.isSome then startLoop create k .i p.min.toNat 0 p.ith g else .ok (p.ith, g)

/-- zt_threads.c 483-489: the threads of the output loop; the array is NULL if the loop was disabled when the pool was made. -/
def startO (create : Nat → Bool) (k : Nat) (p : P) (g : G) : Outcome (Option (List (Option Nat)) × G) :=
  if g.cbs.oputLoop.isSome then
    match p.oth with
    | some a => do
        let (a, g) ← startLoop create k .o p.min.toNat 0 a g
        pure (some a, g)
    | none => if p.min.toNat = 0 then .ok (none, g) else .ub
  else .ok (p.oth, g)

/-- zt_threads.c 471-492 `zt_threadpool_start`. -/
def start (create : Nat → Bool) (k : Nat) (g : G) : Outcome G := do
  let p ← rd g.pools k
  let (ith, g) ← startI create k p g
  let (oth, g) ← startO create k p g
  pure { g with pools := g.pools.set k { p with ith := ith, oth := oth } }

/-- The threads started, in order. -/
def startedAll (tr : List Ev) : List Nat := tr.filterMap fun e => match e with
  | .start _ _ h => some h
  | .join _ => none

/-- The threads started for a loop of a pool, in order. -/
def startedFor (k : Nat) (r : Role) (tr : List Ev) : List Nat := tr.filterMap fun e => match e with
  | .start k' r' h => if k' = k ∧ r' = r then some h else none
  | .join _ => none

/-- The threads waited for, in order. -/
def joined (tr : List Ev) : List Nat := tr.filterMap fun e => match e with
  | .start _ _ _ => none
  | .join h => some h

/-- zt_threads.c 182-189 `zt_threads_join` and zt_threads_pthreads.c 177-183 `zt_threads_pthread_join`. -/
def joinHandle (h : Option Nat) (g : G) : Outcome G :=
  match h with
  | none => .ub
  | some h => if h ∈ startedAll g.trace ∧ h ∉ joined g.trace then .ok { g with trace := g.trace ++ [.join h] } else .ub

/-- zt_threads.c 527-529 and 531-533: join the thread at index `i` of an array, if the callback is set; the array may be NULL. -/
def joinAt (enabled : Bool) (arr : Option (List (Option Nat))) (i : Nat) (g : G) : Outcome G :=
  if enabled then
    match arr with
    | none => .ub
    | some a => do
        let h ← rd a i
        joinHandle h g
  else .ok g

/-- zt_threads.c 526-534: the loop of zt_threadpool_kill with `n` rounds left, at index `i`. -/
def killLoop (p : P) : Nat → Nat → G → Outcome G
  | 0, _, g => .ok g
  | n + 1, i, g => do
      let g ← joinAt g.cbs.iputLoop.isSome (some p.ith) i g
      let g ← joinAt g.cbs.oputLoop.isSome p.oth i g
      killLoop p n (i + 1) g

/-- zt_threads.c 514-549 `zt_threadpool_kill` without the signals. -/
def kill (k : Nat) (g : G) : Outcome G := do
  let p ← rd g.pools k
  killLoop p p.min.toNat 0 g

/-- The calls of a program. -/
inductive Op where
  | setCallbacks (c : Option Cbs)
  | disableIput
  | disableOput
  | usePthreads
  | init (min : Int)
  | start (k : Nat)
  | kill (k : Nat)

/-- zt_threads.c 213-221 for the two disabling functions; the others are above. -/
def step (create : Nat → Bool) : Op → G → Outcome G
  | .setCallbacks c, g => .ok { g with cbs := setCallbacks g.cbs c }
  | .disableIput, g => .ok { g with cbs := { g.cbs with iputLoop := none } }
  | .disableOput, g => .ok { g with cbs := { g.cbs with oputLoop := none } }
  | .usePthreads, g => .ok { g with ready := true }
  | .init min, g => .ok (initPool g min)
  | .start k, g => start create k g
  | .kill k, g => kill k g

/-- The loops enabled. -/
def flags (g : G) : Bool × Bool := (g.cbs.iputLoop.isSome, g.cbs.oputLoop.isSome)

/-! ## Specification -/

/-- State of a pool as its user sees it. -/
inductive Phase where
  | fresh
  | started
  | killed
  deriving DecidableEq, Repr

/-- A pool as its user sees it: its state, the number of threads asked for, and the loops enabled when it was made (`fresh`) or started. -/
structure View where
  phase : Phase
  min : Int
  flags : Bool × Bool

/-- The calls that only change the callbacks. -/
def Op.config : Op → Bool
  | .setCallbacks _ => true
  | .disableIput => true
  | .disableOput => true
  | .usePthreads => true
  | _ => false

/-- The histories of correct use: each pool is started once, after zt_threads_use_pthreads, with the output loop enabled only if it was when the pool was made, and killed
once, with the same loops enabled as when it was started. Everything else, including the callbacks at all other times and any other pools, is free. -/
inductive Hist (create : Nat → Bool) : G → List View → Prop
  | zero : Hist create G.zero []
  | config {g vs op g'} : Hist create g vs → op.config = true → step create op g = .ok g' → Hist create g' vs
  | init {g vs min g'} : Hist create g vs → step create (.init min) g = .ok g' → Hist create g' (vs ++ [⟨.fresh, min, flags g⟩])
  | start {g vs k v g'} : Hist create g vs → vs[k]? = some v → v.phase = .fresh → g.ready = true → ((flags g).2 = true → v.flags.2 = true) →
      step create (.start k) g = .ok g' → Hist create g' (vs.set k ⟨.started, v.min, flags g⟩)
  | kill {g vs k v g'} : Hist create g vs → vs[k]? = some v → v.phase = .started → v.flags = flags g → step create (.kill k) g = .ok g' →
      Hist create g' (vs.set k ⟨.killed, v.min, v.flags⟩)

/-! ## Proofs -/

theorem startedAll_append (a b : List Ev) : startedAll (a ++ b) = startedAll a ++ startedAll b := List.filterMap_append
theorem startedFor_append (k : Nat) (r : Role) (a b : List Ev) : startedFor k r (a ++ b) = startedFor k r a ++ startedFor k r b := List.filterMap_append
theorem joined_append (a b : List Ev) : joined (a ++ b) = joined a ++ joined b := List.filterMap_append

/-- The events of `n` threads from handle `h` on. -/
def starts (k : Nat) (r : Role) (h n : Nat) : List Ev := (List.range' h n).map (Ev.start k r)

theorem startedAll_starts (k : Nat) (r : Role) (h n : Nat) : startedAll (starts k r h n) = List.range' h n := by
  rw [starts, startedAll, List.filterMap_map]
  have : ((fun e => match e with | Ev.start _ _ h => some h | Ev.join _ => none) ∘ Ev.start k r) = some := rfl
  rw [this, List.filterMap_some]

theorem startLoop_spec {create : Nat → Bool} (hc : ∀ h, create h = true) (k : Nat) (r : Role) : ∀ (n i : Nat) (a : List (Option Nat)) (g : G), g.ready = true → i + n = a.length →
    startLoop create k r n i a g = .ok (a.take i ++ (List.range' g.next n).map some, { g with next := g.next + n, trace := g.trace ++ starts k r g.next n }) := by
  intro n
  induction n with
  | zero =>
      intro i a g _ hi
      simp [startLoop, starts, List.take_of_length_le (show a.length ≤ i by omega)]
  | succ n ih =>
      intro i a g hg hi
      rw [startLoop, if_pos hg, wr_lt (by omega)]
      simp only [Outcome.ok_bind, hc, if_true]
      rw [ih (i + 1) (a.set i (some g.next)) { g with next := g.next + 1, trace := g.trace ++ [Ev.start k r g.next] } hg (by simp; omega)]
      simp only [Outcome.ok.injEq, Prod.mk.injEq]
      refine ⟨?_, ?_⟩
      · rw [List.range'_succ, List.map_cons, List.take_succ_eq_append_getElem (by simp; omega)]
        simp [List.take_set_of_le]
      · rw [starts, starts, List.range'_succ, List.map_cons]
        simp; omega

theorem startLoop_any (create : Nat → Bool) (k : Nat) (r : Role) : ∀ (n i : Nat) (a : List (Option Nat)) (g : G), g.ready = true → i + n = a.length →
    ∃ tr : List Ev, startLoop create k r n i a g = .ok (a.take i ++ (List.range' g.next n).map some, { g with next := g.next + n, trace := tr }) ∧
      ∀ h, h ∈ startedAll tr → h ∈ startedAll g.trace ∨ create h = true := by
  intro n
  induction n with
  | zero =>
      intro i a g _ hi
      exact ⟨g.trace, by simp [startLoop, List.take_of_length_le (show a.length ≤ i by omega)], fun h hh => .inl hh⟩
  | succ n ih =>
      intro i a g hg hi
      obtain ⟨tr, e, ht⟩ := ih (i + 1) (a.set i (some g.next)) { g with next := g.next + 1, trace := g.trace ++ (if create g.next then [Ev.start k r g.next] else []) } hg (by simp; omega)
      refine ⟨tr, ?_, ?_⟩
      · rw [startLoop, if_pos hg, wr_lt (by omega)]
        simp only [Outcome.ok_bind]
        rw [e]
        simp only [Outcome.ok.injEq, Prod.mk.injEq]
        refine ⟨?_, ?_⟩
        · rw [List.range'_succ, List.map_cons, List.take_succ_eq_append_getElem (by simp; omega)]
          simp [List.take_set_of_le]
        · simp; omega
      · intro h hh
        rcases ht h hh with h1 | h1
        · simp only [startedAll_append, List.mem_append] at h1
          rcases h1 with h1 | h1
          · exact .inl h1
          · cases hcr : create g.next with
            | false => rw [hcr] at h1; cases h1
            | true =>
                rw [hcr] at h1
                simp [startedAll] at h1
                exact .inr (h1 ▸ hcr)
        · exact .inr h1

theorem mem_startedAll {h : Nat} {tr : List Ev} : h ∈ startedAll tr ↔ ∃ k r, Ev.start k r h ∈ tr := by
  rw [startedAll, List.mem_filterMap]
  constructor
  · rintro ⟨e, he, h1⟩
    cases e with
    | start k r h' => simp only [Option.some.injEq] at h1; exact ⟨k, r, h1 ▸ he⟩
    | join h' => cases h1
  · rintro ⟨k, r, he⟩; exact ⟨_, he, rfl⟩

theorem mem_startedFor {k : Nat} {r : Role} {h : Nat} {tr : List Ev} : h ∈ startedFor k r tr ↔ Ev.start k r h ∈ tr := by
  rw [startedFor, List.mem_filterMap]
  constructor
  · rintro ⟨e, he, h1⟩
    cases e with
    | start k' r' h' =>
        simp only at h1
        split at h1
        · rename_i hk
          cases h1
          rw [hk.1, hk.2] at he; exact he
        · cases h1
    | join h' => cases h1
  · intro he; exact ⟨_, he, by simp⟩

theorem mem_joined {h : Nat} {tr : List Ev} : h ∈ joined tr ↔ Ev.join h ∈ tr := by
  rw [joined, List.mem_filterMap]
  constructor
  · rintro ⟨e, he, h1⟩
    cases e with
    | start k' r' h' => cases h1
    | join h' => simp only [Option.some.injEq] at h1; exact h1 ▸ he
  · intro he; exact ⟨_, he, rfl⟩

theorem start_unique {h k k' : Nat} {r r' : Role} : ∀ {tr : List Ev}, (startedAll tr).Nodup → Ev.start k r h ∈ tr → Ev.start k' r' h ∈ tr → k = k' ∧ r = r' := by
  intro tr
  induction tr with
  | nil => intro _ h1; cases h1
  | cons e tr ih =>
      intro hn h1 h2
      cases e with
      | join x =>
          simp only [List.mem_cons, reduceCtorEq, false_or] at h1 h2
          exact ih hn h1 h2
      | start k0 r0 x =>
          have hn' : (x :: startedAll tr).Nodup := hn
          obtain ⟨hx, hn2⟩ := List.nodup_cons.1 hn'
          simp only [List.mem_cons, Ev.start.injEq] at h1 h2
          rcases h1 with ⟨rfl, rfl, rfl⟩ | h1
          · rcases h2 with ⟨rfl, rfl, _⟩ | h2
            · exact ⟨rfl, rfl⟩
            · exact absurd (mem_startedAll.2 ⟨_, _, h2⟩) hx
          · rcases h2 with ⟨rfl, rfl, rfl⟩ | h2
            · exact absurd (mem_startedAll.2 ⟨_, _, h1⟩) hx
            · exact ih hn2 h1 h2

theorem startedFor_nodup {k : Nat} {r : Role} {tr : List Ev} (h : (startedAll tr).Nodup) : (startedFor k r tr).Nodup := by
  induction tr with
  | nil => exact .nil
  | cons e tr ih =>
      cases e with
      | join x => exact ih h
      | start k0 r0 x =>
          obtain ⟨hx, hn2⟩ := List.nodup_cons.1 (show (x :: startedAll tr).Nodup from h)
          have e1 : startedFor k r (Ev.start k0 r0 x :: tr) = if k0 = k ∧ r0 = r then x :: startedFor k r tr else startedFor k r tr := by
            rw [startedFor, List.filterMap_cons]
            by_cases hk : k0 = k ∧ r0 = r <;> simp [hk, startedFor]
          rw [e1]
          split
          · refine List.nodup_cons.2 ⟨fun hm => hx (mem_startedAll.2 ⟨_, _, mem_startedFor.1 hm⟩), ih hn2⟩
          · exact ih hn2

theorem startedFor_starts (k k' : Nat) (r r' : Role) (h n : Nat) : startedFor k r (starts k' r' h n) = if k' = k ∧ r' = r then List.range' h n else [] := by
  rw [starts, startedFor, List.filterMap_map]
  split
  · rename_i hk
    have : ((fun e => match e with | Ev.start k' r' h => if k' = k ∧ r' = r then some h else none | Ev.join _ => none) ∘ Ev.start k' r') = some := by
      funext x; simp [hk]
    rw [this, List.filterMap_some]
  · rename_i hk
    have : ((fun e => match e with | Ev.start k' r' h => if k' = k ∧ r' = r then some h else none | Ev.join _ => none) ∘ Ev.start k' r') = fun _ => none := by
      funext x; simp [hk]
    rw [this]; simp

theorem joined_starts (k : Nat) (r : Role) (h n : Nat) : joined (starts k r h n) = [] := by
  rw [starts, joined, List.filterMap_map]
  have : ((fun e => match e with | Ev.start _ _ _ => none | Ev.join h => some h) ∘ Ev.start k r) = fun _ => none := rfl
  rw [this]; simp

theorem startI_spec {create : Nat → Bool} (hc : ∀ h, create h = true) (k : Nat) (p : P) (g : G) (hr : g.ready = true) (hl : p.ith.length = p.min.toNat) :
    startI create k p g = .ok (if g.cbs.iputLoop.isSome then (List.range' g.next p.min.toNat).map some else p.ith,
      { g with next := g.next + (if g.cbs.iputLoop.isSome then p.min.toNat else 0), trace := g.trace ++ starts k .i g.next (if g.cbs.iputLoop.isSome then p.min.toNat else 0) }) := by
  rw [startI]
  cases hf : g.cbs.iputLoop.isSome with
  | false => simp [starts]
  | true =>
      simp only [if_true]
      rw [startLoop_spec hc k .i p.min.toNat 0 p.ith g hr (by omega)]
      simp

theorem startO_spec {create : Nat → Bool} (hc : ∀ h, create h = true) (k : Nat) (p : P) (g : G) (hr : g.ready = true)
    (hl : g.cbs.oputLoop.isSome = true → ∃ a, p.oth = some a ∧ a.length = p.min.toNat) :
    startO create k p g = .ok (if g.cbs.oputLoop.isSome then some ((List.range' g.next p.min.toNat).map some) else p.oth,
      { g with next := g.next + (if g.cbs.oputLoop.isSome then p.min.toNat else 0), trace := g.trace ++ starts k .o g.next (if g.cbs.oputLoop.isSome then p.min.toNat else 0) }) := by
  rw [startO]
  cases hf : g.cbs.oputLoop.isSome with
  | false => simp [starts]
  | true =>
      obtain ⟨a, ha, hal⟩ := hl hf
      simp only [if_true, ha]
      rw [startLoop_spec hc k .o p.min.toNat 0 a g hr (by omega)]
      simp

theorem joinHandle_spec {h : Nat} {g : G} (h1 : h ∈ startedAll g.trace) (h2 : h ∉ joined g.trace) : joinHandle (some h) g = .ok { g with trace := g.trace ++ [.join h] } := by
  rw [joinHandle, if_pos ⟨h1, h2⟩]

/-- Joining the thread at an index, the array being the handles `hs` if the loop is enabled. -/
theorem joinAt_spec {b : Bool} {arr : Option (List (Option Nat))} {hs : List Nat} {i N : Nat} {g : G} (hb : b = true → arr = some (hs.map some) ∧ hs.length = N) (hb' : b = false → hs = [])
    (hi : i < N) (h1 : ∀ h ∈ hs.drop i, h ∈ startedAll g.trace ∧ h ∉ joined g.trace) :
    joinAt b arr i g = .ok { g with trace := g.trace ++ (hs[i]?).toList.map Ev.join } := by
  cases b with
  | false => simp [hb' rfl, joinAt]
  | true =>
      obtain ⟨rfl, hl⟩ := hb rfl
      have hm : hs[i] ∈ hs.drop i := by
        rw [List.drop_eq_getElem_cons (by omega)]; exact List.mem_cons_self
      simp only [joinAt, if_true]
      rw [rd_lt (by simp; omega)]
      simp only [Outcome.ok_bind, List.getElem_map]
      rw [joinHandle_spec (h1 _ hm).1 (h1 _ hm).2]
      simp [show i < hs.length by omega]

theorem drop_cases (hs : List Nat) (i : Nat) : hs.drop i = (hs[i]?).toList ++ hs.drop (i + 1) := by
  by_cases h : i < hs.length
  · rw [List.drop_eq_getElem_cons h]; simp [h]
  · simp [List.drop_eq_nil_of_le (show hs.length ≤ i by omega), List.drop_eq_nil_of_le (show hs.length ≤ i + 1 by omega), show hs.length ≤ i by omega]

theorem startedAll_joins (l : List Nat) : startedAll (l.map Ev.join) = [] := by
  rw [startedAll, List.filterMap_map]
  have : ((fun e => match e with | Ev.start _ _ h => some h | Ev.join _ => none) ∘ Ev.join) = fun _ => none := rfl
  rw [this]; simp

theorem joined_joins (l : List Nat) : joined (l.map Ev.join) = l := by
  rw [joined, List.filterMap_map]
  have : ((fun e => match e with | Ev.start _ _ _ => none | Ev.join h => some h) ∘ Ev.join) = some := rfl
  rw [this, List.filterMap_some]

theorem killLoop_spec (p : P) (hs os : List Nat) (N : Nat) : ∀ (n i : Nat) (g : G), i + n = N →
    (g.cbs.iputLoop.isSome = true → p.ith = hs.map some ∧ hs.length = N) → (g.cbs.iputLoop.isSome = false → hs = []) →
    (g.cbs.oputLoop.isSome = true → p.oth = some (os.map some) ∧ os.length = N) → (g.cbs.oputLoop.isSome = false → os = []) →
    (hs.drop i ++ os.drop i).Nodup → (∀ h ∈ hs.drop i ++ os.drop i, h ∈ startedAll g.trace ∧ h ∉ joined g.trace) →
    ∃ js : List Nat, killLoop p n i g = .ok { g with trace := g.trace ++ js.map Ev.join } ∧ js.Perm (hs.drop i ++ os.drop i) := by
  intro n
  induction n with
  | zero =>
      intro i g hN h1 h2 h3 h4 _ _
      refine ⟨[], by simp [killLoop], ?_⟩
      have e1 : hs.length ≤ i := by
        cases hb : g.cbs.iputLoop.isSome with
        | true => have := (h1 hb).2; omega
        | false => simp [h2 hb]
      have e2 : os.length ≤ i := by
        cases hb : g.cbs.oputLoop.isSome with
        | true => have := (h3 hb).2; omega
        | false => simp [h4 hb]
      simp [List.drop_eq_nil_of_le e1, List.drop_eq_nil_of_le e2]
  | succ n ih =>
      intro i g hN h1 h2 h3 h4 hnd hm
      rw [killLoop, joinAt_spec (hs := hs) (N := N) (fun hb => ⟨congrArg some (h1 hb).1, (h1 hb).2⟩) h2 (by omega) (fun h hh => hm h (by simp [hh]))]
      simp only [Outcome.ok_bind]
      have hd1 := drop_cases hs i
      have hd2 := drop_cases os i
      rw [hd1, hd2] at hnd hm
      rw [joinAt_spec (hs := os) (N := N) h3 h4 (by omega) (fun h hh => by
        rw [hd2] at hh
        have := hm h (by rcases List.mem_append.1 hh with h | h <;> simp [h])
        simp only [startedAll_append, joined_append, startedAll_joins, joined_joins, List.append_nil, List.mem_append, not_or]
        refine ⟨this.1, this.2, fun hx => ?_⟩
        exact (List.nodup_append.1 hnd).2.2 h (by simp [hx]) h hh rfl)]
      simp only [Outcome.ok_bind]
      obtain ⟨js, e, hp⟩ := ih (i + 1) { g with trace := g.trace ++ (hs[i]?).toList.map Ev.join ++ (os[i]?).toList.map Ev.join } (by omega) h1 h2 h3 h4 (by
          refine hnd.sublist ?_
          exact List.Sublist.append (List.sublist_append_right _ _) (List.sublist_append_right _ _)) (fun h hh => by
        have := hm h (by rcases List.mem_append.1 hh with h | h <;> simp [h])
        simp only [startedAll_append, joined_append, startedAll_joins, joined_joins, List.append_nil, List.mem_append, not_or]
        refine ⟨this.1, ⟨this.2, fun hx => ?_⟩, fun hx => ?_⟩
        · rcases List.mem_append.1 hh with hh | hh
          · exact (List.nodup_append.1 (List.nodup_append.1 hnd).1).2.2 h hx h hh rfl
          · exact (List.nodup_append.1 hnd).2.2 h (by simp [hx]) h (by simp [hh]) rfl
        · rcases List.mem_append.1 hh with hh | hh
          · exact (List.nodup_append.1 hnd).2.2 h (by simp [hh]) h (by simp [hx]) rfl
          · exact (List.nodup_append.1 (List.nodup_append.1 hnd).2.1).2.2 h hx h hh rfl)
      refine ⟨(hs[i]?).toList ++ (os[i]?).toList ++ js, ?_, ?_⟩
      · rw [e]; simp
      · rw [hd1, hd2, List.perm_iff_count]
        intro x
        have := List.perm_iff_count.1 hp x
        simp only [List.count_append] at this ⊢
        omega

/-- The invariant of one pool. -/
structure PInv (tr : List Ev) (k : Nat) (p : P) (v : View) : Prop where
  min : p.min = v.min
  fresh : v.phase = .fresh → p.ith = List.replicate v.min.toNat none ∧ (v.flags.2 = true → p.oth = some (List.replicate v.min.toNat none)) ∧
    startedFor k .i tr = [] ∧ startedFor k .o tr = []
  leni : v.phase ≠ .fresh → (startedFor k .i tr).length = if v.flags.1 then v.min.toNat else 0
  leno : v.phase ≠ .fresh → (startedFor k .o tr).length = if v.flags.2 then v.min.toNat else 0
  ith : v.phase ≠ .fresh → v.flags.1 = true → p.ith = (startedFor k .i tr).map some
  oth : v.phase ≠ .fresh → v.flags.2 = true → p.oth = some ((startedFor k .o tr).map some)
  running : v.phase = .started → ∀ r, ∀ h ∈ startedFor k r tr, h ∉ joined tr
  dead : v.phase = .killed → ∀ r, ∀ h ∈ startedFor k r tr, h ∈ joined tr

/-- The invariant. -/
structure Inv (g : G) (vs : List View) : Prop where
  len : g.pools.length = vs.length
  pool : ∀ k p v, g.pools[k]? = some p → vs[k]? = some v → PInv g.trace k p v
  nodup : (startedAll g.trace).Nodup
  bound : ∀ h ∈ startedAll g.trace, h < g.next
  jnodup : (joined g.trace).Nodup
  jsub : ∀ h ∈ joined g.trace, ∃ k v r, vs[k]? = some v ∧ v.phase = .killed ∧ h ∈ startedFor k r g.trace
  inside : ∀ k r, ∀ h ∈ startedFor k r g.trace, k < g.pools.length

theorem Inv.congr {g g' : G} {vs : List View} (I : Inv g vs) (h1 : g'.pools = g.pools) (h2 : g'.trace = g.trace) (h3 : g'.next = g.next) : Inv g' vs := by
  refine ⟨by rw [h1]; exact I.len, ?_, ?_, ?_, ?_, ?_, ?_⟩ <;> simp only [h1, h2, h3]
  · exact I.pool
  · exact I.nodup
  · exact I.bound
  · exact I.jnodup
  · exact I.jsub
  · exact I.inside

/-- A pool that other events do not concern. -/
theorem PInv.frame {tr tr' : List Ev} {k : Nat} {p : P} {v : View} (I : PInv tr k p v) (h1 : ∀ r, startedFor k r tr' = startedFor k r tr)
    (h2 : ∀ r, ∀ h ∈ startedFor k r tr, (h ∈ joined tr' ↔ h ∈ joined tr)) : PInv tr' k p v := by
  refine ⟨I.min, ?_, ?_, ?_, ?_, ?_, ?_, ?_⟩
  · simp only [h1]; exact I.fresh
  · simp only [h1]; exact I.leni
  · simp only [h1]; exact I.leno
  · simp only [h1]; exact I.ith
  · simp only [h1]; exact I.oth
  · intro hp r h hh; rw [h1] at hh; rw [h2 r h hh]; exact I.running hp r h hh
  · intro hp r h hh; rw [h1] at hh; rw [h2 r h hh]; exact I.dead hp r h hh

theorem Inv.initPool {g : G} {vs : List View} (I : Inv g vs) (min : Int) : Inv (initPool g min) (vs ++ [⟨.fresh, min, flags g⟩]) := by
  have hno : ∀ r, startedFor g.pools.length r g.trace = [] := by
    intro r
    rw [List.eq_nil_iff_forall_not_mem]
    intro h hh
    exact absurd (I.inside _ _ _ hh) (Nat.lt_irrefl _)
  refine ⟨by simp [Life.initPool, I.len], ?_, I.nodup, I.bound, I.jnodup, ?_, ?_⟩
  · intro k p v hp hv
    simp only [Life.initPool] at hp
    rcases Nat.lt_trichotomy k g.pools.length with hk | hk | hk
    · rw [List.getElem?_append_left hk] at hp
      rw [List.getElem?_append_left (by rw [← I.len]; exact hk)] at hv
      exact I.pool k p v hp hv
    · subst hk
      rw [List.getElem?_append_right (Nat.le_refl _)] at hp
      rw [List.getElem?_append_right (by rw [I.len]; exact Nat.le_refl _)] at hv
      simp only [Nat.sub_self, List.getElem?_cons_zero, Option.some.injEq, I.len] at hp hv
      subst hp; subst hv
      refine ⟨rfl, fun _ => ⟨rfl, ?_, hno .i, hno .o⟩, by simp, by simp, by simp, by simp, by simp, by simp⟩
      intro hf
      exact if_pos hf
    · rw [List.getElem?_eq_none (by simp; omega)] at hp; cases hp
  · intro h hh
    obtain ⟨k, v, r, h1, h2, h3⟩ := I.jsub h hh
    refine ⟨k, v, r, ?_, h2, h3⟩
    rw [List.getElem?_append_left (List.getElem?_eq_some_iff.1 h1).1]; exact h1
  · intro k r h hh
    have := I.inside k r h hh
    simp only [Life.initPool, List.length_append]; omega

theorem getElem?_set_cases {α : Type} {l : List α} {k j : Nat} {x y : α} (h : (l.set k x)[j]? = some y) : (j = k ∧ x = y) ∨ (j ≠ k ∧ l[j]? = some y) := by
  by_cases hj : j = k
  · subst hj
    have hl := (List.getElem?_eq_some_iff.1 h).1
    rw [List.length_set] at hl
    rw [List.getElem?_set_self hl] at h
    exact .inl ⟨rfl, by simpa using h⟩
  · rw [List.getElem?_set_ne (fun e => hj e.symm)] at h
    exact .inr ⟨hj, h⟩

/-- The effect of starting pool `k`. -/
theorem Inv.started {g : G} {vs : List View} (I : Inv g vs) {k : Nat} {p' : P} {v : View} (hv : vs[k]? = some v) (hp : v.phase = .fresh) {f : Bool × Bool} {A B : Nat}
    (hA : (if f.1 then v.min.toNat else 0) = A) (hB : (if f.2 then v.min.toNat else 0) = B) (hm : p'.min = v.min) (hi : f.1 = true → p'.ith = (List.range' g.next A).map some)
    (ho : f.2 = true → p'.oth = some ((List.range' (g.next + A) B).map some)) :
    Inv { g with pools := g.pools.set k p', next := g.next + A + B, trace := g.trace ++ (starts k .i g.next A ++ starts k .o (g.next + A) B) } (vs.set k ⟨.started, v.min, f⟩) := by
  have hkv : k < vs.length := (List.getElem?_eq_some_iff.1 hv).1
  have hk : k < g.pools.length := by rw [I.len]; exact hkv
  obtain ⟨p, hpk⟩ : ∃ p, g.pools[k]? = some p := ⟨_, List.getElem?_eq_getElem hk⟩
  have PI := I.pool k p v hpk hv
  obtain ⟨f1, f2, f3, f4⟩ := PI.fresh hp
  have eall : startedAll (g.trace ++ (starts k .i g.next A ++ starts k .o (g.next + A) B)) = startedAll g.trace ++ (List.range' g.next A ++ List.range' (g.next + A) B) := by
    rw [startedAll_append, startedAll_append, startedAll_starts, startedAll_starts]
  have ejoin : joined (g.trace ++ (starts k .i g.next A ++ starts k .o (g.next + A) B)) = joined g.trace := by
    rw [joined_append, joined_append, joined_starts, joined_starts]; simp
  have efor : ∀ j r, j ≠ k → startedFor j r (g.trace ++ (starts k .i g.next A ++ starts k .o (g.next + A) B)) = startedFor j r g.trace := by
    intro j r hj
    rw [startedFor_append, startedFor_append, startedFor_starts, startedFor_starts, if_neg (fun h => hj h.1.symm), if_neg (fun h => hj h.1.symm)]; simp
  have efi : startedFor k .i (g.trace ++ (starts k .i g.next A ++ starts k .o (g.next + A) B)) = List.range' g.next A := by
    rw [startedFor_append, startedFor_append, startedFor_starts, startedFor_starts, f3]; simp
  have efo : startedFor k .o (g.trace ++ (starts k .i g.next A ++ starts k .o (g.next + A) B)) = List.range' (g.next + A) B := by
    rw [startedFor_append, startedFor_append, startedFor_starts, startedFor_starts, f4]; simp
  have hold : ∀ h ∈ joined g.trace, h < g.next := by
    intro h hh
    obtain ⟨_, _, _, _, _, h3⟩ := I.jsub h hh
    exact I.bound h (mem_startedAll.2 ⟨_, _, mem_startedFor.1 h3⟩)
  constructor
  · simp [I.len]
  · intro j q u hq hu
    rcases getElem?_set_cases hq with ⟨rfl, rfl⟩ | ⟨hj, hq⟩
    · rcases getElem?_set_cases hu with ⟨_, rfl⟩ | ⟨hj, _⟩
      · refine ⟨hm, by simp, ?_, ?_, ?_, ?_, ?_, by simp⟩
        · intro _; simp only [efi, hA, List.length_range']
        · intro _; simp only [efo, hB, List.length_range']
        · intro _ h1; simp only [efi]; exact hi h1
        · intro _ h1; simp only [efo]; exact ho h1
        · intro _ r h hh
          simp only at hh ⊢
          rw [ejoin]
          intro hx
          have := hold h hx
          cases r with
          | i => rw [efi, List.mem_range'_1] at hh; omega
          | o => rw [efo, List.mem_range'_1] at hh; omega
      · exact absurd rfl hj
    · rcases getElem?_set_cases hu with ⟨rfl, _⟩ | ⟨_, hu⟩
      · exact absurd rfl hj
      · exact (I.pool j q u hq hu).frame (fun r => efor j r hj) (fun r h _ => by simp only [ejoin])
  · simp only [eall]
    refine List.nodup_append.2 ⟨I.nodup, List.nodup_append.2 ⟨List.nodup_range', List.nodup_range', ?_⟩, ?_⟩
    · intro a ha b hb
      rw [List.mem_range'_1] at ha hb; omega
    · intro a ha b hb
      have := I.bound a ha
      simp only [List.mem_append, List.mem_range'_1] at hb; omega
  · intro h hh
    simp only [eall, List.mem_append, List.mem_range'_1] at hh
    simp only
    rcases hh with hh | hh | hh
    · have := I.bound h hh; omega
    · omega
    · omega
  · simp only [ejoin]; exact I.jnodup
  · intro h hh
    simp only [ejoin] at hh
    obtain ⟨j, u, r, h1, h2, h3⟩ := I.jsub h hh
    have hj : j ≠ k := by
      rintro rfl
      rw [hv] at h1; cases h1
      rw [hp] at h2; cases h2
    exact ⟨j, u, r, by rw [List.getElem?_set_ne (fun e => hj e.symm)]; exact h1, h2, by simp only [efor j r hj]; exact h3⟩
  · intro j r h hh
    simp only [List.length_set]
    by_cases hj : j = k
    · rw [hj]; exact hk
    · simp only [efor j r hj] at hh
      exact I.inside j r h hh

theorem Inv.start {create : Nat → Bool} (hc : ∀ h, create h = true) {g : G} {vs : List View} (I : Inv g vs) {k : Nat} {v : View} (hv : vs[k]? = some v) (hp : v.phase = .fresh)
    (hr : g.ready = true) (ho : (flags g).2 = true → v.flags.2 = true) :
    ∃ g', step create (.start k) g = .ok g' ∧ Inv g' (vs.set k ⟨.started, v.min, flags g⟩) := by
  have hkv : k < vs.length := (List.getElem?_eq_some_iff.1 hv).1
  have hk : k < g.pools.length := by rw [I.len]; exact hkv
  obtain ⟨p, hpk⟩ : ∃ p, g.pools[k]? = some p := ⟨_, List.getElem?_eq_getElem hk⟩
  have PI := I.pool k p v hpk hv
  obtain ⟨f1, f2, f3, f4⟩ := PI.fresh hp
  have hrd : rd g.pools k = .ok p := rd_eq_ok.2 hpk
  have hli : p.ith.length = p.min.toNat := by rw [f1, PI.min]; simp
  generalize hA : (if (flags g).1 then v.min.toNat else 0) = A
  generalize hB : (if (flags g).2 then v.min.toNat else 0) = B
  have eA : (if g.cbs.iputLoop.isSome then p.min.toNat else 0) = A := by rw [PI.min]; exact hA
  have eB : (if g.cbs.oputLoop.isSome then p.min.toNat else 0) = B := by rw [PI.min]; exact hB
  have e : step create (.start k) g = .ok { g with
      pools := g.pools.set k { p with
        ith := (if g.cbs.iputLoop.isSome then (List.range' g.next p.min.toNat).map some else p.ith),
        oth := (if g.cbs.oputLoop.isSome then some ((List.range' (g.next + A) p.min.toNat).map some) else p.oth) },
      next := g.next + A + B, trace := g.trace ++ (starts k .i g.next A ++ starts k .o (g.next + A) B) } := by
    rw [step, Life.start, hrd]
    simp only [Outcome.ok_bind]
    rw [startI_spec hc k p g hr hli]
    simp only [Outcome.ok_bind]
    rw [startO_spec hc k p { g with next := g.next + (if g.cbs.iputLoop.isSome then p.min.toNat else 0), trace := g.trace ++ starts k .i g.next (if g.cbs.iputLoop.isSome then p.min.toNat else 0) }
      hr (fun hf => ⟨_, f2 (ho hf), by simp [PI.min]⟩)]
    simp only [Outcome.ok_bind, Outcome.pure_eq, eA, eB, List.append_assoc]
  refine ⟨_, e, I.started hv hp (f := flags g) hA hB PI.min ?_ ?_⟩
  · intro hf
    have : g.cbs.iputLoop.isSome = true := hf
    rw [this, if_pos rfl] at eA
    simp only [this, if_true, eA]
  · intro hf
    have : g.cbs.oputLoop.isSome = true := hf
    rw [this, if_pos rfl] at eB
    simp only [this, if_true, eB]

theorem startedFor_joins (k : Nat) (r : Role) (l : List Nat) : startedFor k r (l.map Ev.join) = [] := by
  rw [startedFor, List.filterMap_map]
  have : ((fun e => match e with | Ev.start k' r' h => if k' = k ∧ r' = r then some h else none | Ev.join _ => none) ∘ Ev.join) = fun _ => none := rfl
  rw [this]; simp

theorem Inv.kill {create : Nat → Bool} {g : G} {vs : List View} (I : Inv g vs) {k : Nat} {v : View} (hv : vs[k]? = some v) (hp : v.phase = .started) (hf : v.flags = flags g) :
    ∃ g', step create (.kill k) g = .ok g' ∧ Inv g' (vs.set k ⟨.killed, v.min, v.flags⟩) := by
  have hkv : k < vs.length := (List.getElem?_eq_some_iff.1 hv).1
  have hk : k < g.pools.length := by rw [I.len]; exact hkv
  obtain ⟨p, hpk⟩ : ∃ p, g.pools[k]? = some p := ⟨_, List.getElem?_eq_getElem hk⟩
  have PI := I.pool k p v hpk hv
  have hnf : v.phase ≠ .fresh := by rw [hp]; decide
  have l1 : (startedFor k .i g.trace).length = if g.cbs.iputLoop.isSome then v.min.toNat else 0 := by have := PI.leni hnf; rw [hf] at this; exact this
  have l2 : (startedFor k .o g.trace).length = if g.cbs.oputLoop.isSome then v.min.toNat else 0 := by have := PI.leno hnf; rw [hf] at this; exact this
  have a1 := PI.ith hnf
  have a2 := PI.oth hnf
  rw [hf] at a1 a2
  simp only [flags] at a1 a2
  have hnd : (startedFor k .i g.trace ++ startedFor k .o g.trace).Nodup := by
    refine List.nodup_append.2 ⟨startedFor_nodup I.nodup, startedFor_nodup I.nodup, ?_⟩
    rintro a ha b hb rfl
    have := (start_unique I.nodup (mem_startedFor.1 ha) (mem_startedFor.1 hb)).2
    cases this
  obtain ⟨js, e, hperm⟩ := killLoop_spec p (startedFor k .i g.trace) (startedFor k .o g.trace) p.min.toNat p.min.toNat 0 g (by omega)
    (fun hb => ⟨a1 hb, by rw [hb, if_pos rfl] at l1; rw [PI.min]; exact l1⟩) (fun hb => by rw [hb] at l1; exact List.length_eq_zero_iff.1 l1)
    (fun hb => ⟨a2 hb, by rw [hb, if_pos rfl] at l2; rw [PI.min]; exact l2⟩) (fun hb => by rw [hb] at l2; exact List.length_eq_zero_iff.1 l2)
    (by simpa using hnd)
    (by
      intro h hh
      simp only [List.drop_zero, List.mem_append] at hh
      rcases hh with hh | hh
      · exact ⟨mem_startedAll.2 ⟨_, _, mem_startedFor.1 hh⟩, PI.running hp _ h hh⟩
      · exact ⟨mem_startedAll.2 ⟨_, _, mem_startedFor.1 hh⟩, PI.running hp _ h hh⟩)
  simp only [List.drop_zero] at hperm
  have hmem : ∀ h, h ∈ js ↔ ∃ r, h ∈ startedFor k r g.trace := by
    intro h
    rw [hperm.mem_iff, List.mem_append]
    constructor
    · rintro (h | h)
      · exact ⟨_, h⟩
      · exact ⟨_, h⟩
    · rintro ⟨r, h⟩
      cases r
      · exact .inl h
      · exact .inr h
  have hst : step create (.kill k) g = .ok { g with trace := g.trace ++ js.map Ev.join } := by
    rw [step, Life.kill, rd_eq_ok.2 hpk]; exact e
  refine ⟨_, hst, ?_⟩
  have eall : startedAll (g.trace ++ js.map Ev.join) = startedAll g.trace := by rw [startedAll_append, startedAll_joins, List.append_nil]
  have efor : ∀ j r, startedFor j r (g.trace ++ js.map Ev.join) = startedFor j r g.trace := by intro j r; rw [startedFor_append, startedFor_joins, List.append_nil]
  have ejoin : joined (g.trace ++ js.map Ev.join) = joined g.trace ++ js := by rw [joined_append, joined_joins]
  constructor
  · simp [I.len]
  · intro j q u hq hu
    simp only at hq
    rcases getElem?_set_cases hu with ⟨rfl, rfl⟩ | ⟨hj, hu⟩
    · rw [hpk] at hq; cases hq
      refine ⟨PI.min, by simp, ?_, ?_, ?_, ?_, by simp, ?_⟩
      · intro _; simp only [efor]; exact PI.leni hnf
      · intro _; simp only [efor]; exact PI.leno hnf
      · intro _; simp only [efor]; exact PI.ith hnf
      · intro _; simp only [efor]; exact PI.oth hnf
      · intro _ r h hh
        simp only [efor] at hh
        simp only [ejoin, List.mem_append]
        exact .inr ((hmem h).2 ⟨r, hh⟩)
    · refine (I.pool j q u hq hu).frame (fun r => efor j r) (fun r h hh => ?_)
      simp only [ejoin, List.mem_append]
      constructor
      · rintro (h1 | h1)
        · exact h1
        · obtain ⟨r', h2⟩ := (hmem h).1 h1
          exact absurd (start_unique I.nodup (mem_startedFor.1 hh) (mem_startedFor.1 h2)).1 hj
      · exact .inl
  · simp only [eall]; exact I.nodup
  · simp only [eall]; exact I.bound
  · simp only [ejoin]
    refine List.nodup_append.2 ⟨I.jnodup, hperm.nodup_iff.2 hnd, ?_⟩
    rintro a ha b hb rfl
    obtain ⟨r, h2⟩ := (hmem a).1 hb
    exact PI.running hp r a h2 ha
  · intro h hh
    simp only [ejoin, List.mem_append] at hh
    rcases hh with hh | hh
    · obtain ⟨j, u, r, h1, h2, h3⟩ := I.jsub h hh
      have hj : j ≠ k := by
        rintro rfl
        rw [hv] at h1; cases h1
        rw [hp] at h2; cases h2
      exact ⟨j, u, r, by rw [List.getElem?_set_ne (fun e => hj e.symm)]; exact h1, h2, by simp only [efor]; exact h3⟩
    · obtain ⟨r, h2⟩ := (hmem h).1 hh
      exact ⟨k, _, r, List.getElem?_set_self hkv, rfl, by simp only [efor]; exact h2⟩
  · simp only [efor]; exact I.inside

theorem inv_of_hist {create : Nat → Bool} (hc : ∀ h, create h = true) {g : G} {vs : List View} (h : Hist create g vs) : Inv g vs := by
  induction h with
  | zero => exact ⟨rfl, by simp [G.zero], by simp [G.zero, startedAll], by simp [G.zero, startedAll], by simp [G.zero, joined], by simp [G.zero, joined], by simp [G.zero, startedFor]⟩
  | @config g vs op g' _ ho e ih =>
      cases op with
      | setCallbacks c => cases e; exact ih.congr rfl rfl rfl
      | disableIput => cases e; exact ih.congr rfl rfl rfl
      | disableOput => cases e; exact ih.congr rfl rfl rfl
      | usePthreads => cases e; exact ih.congr rfl rfl rfl
      | init _ => cases ho
      | start _ => cases ho
      | kill _ => cases ho
  | @init g vs min g' _ e ih => cases e; exact ih.initPool min
  | @start g vs k v g' _ hv hp hr ho e ih =>
      obtain ⟨g1, e1, h1⟩ := ih.start hc hv hp hr ho
      rw [e1] at e; cases e
      exact h1
  | @kill g vs k v g' _ hv hp hf e ih =>
      obtain ⟨g1, e1, h1⟩ := ih.kill (create := create) hv hp hf
      rw [e1] at e; cases e
      exact h1

/-- **C95 (partial).** If every thread can be created: after any history of correct use, whatever callbacks were set in between and whatever other pools there are, a pool that was
started has one thread for each of the `min_threads` rounds and each loop enabled at its start, and none before; all of them are different; none has been waited for before the pool
is killed; and after zt_threadpool_kill each of them has been waited for exactly once, and no other thread. Missing: histories in which the loops enabled change
between init, start and kill, threads that cannot be created, and pools started without zt_threads_use_pthreads (see the violations). -/
theorem c95_threads_partial {create : Nat → Bool} (hc : ∀ h, create h = true) {g : G} {vs : List View} (h : Hist create g vs) {k : Nat} {v : View} (hv : vs[k]? = some v) :
    (v.phase = .fresh → ∀ r, startedFor k r g.trace = []) ∧
    (v.phase ≠ .fresh → (startedFor k .i g.trace).length = (if v.flags.1 then v.min.toNat else 0) ∧ (startedFor k .o g.trace).length = if v.flags.2 then v.min.toNat else 0) ∧
    (startedAll g.trace).Nodup ∧ (joined g.trace).Nodup ∧
    (v.phase ≠ .killed → ∀ r, ∀ x ∈ startedFor k r g.trace, x ∉ joined g.trace) ∧ (v.phase = .killed → ∀ r, ∀ x ∈ startedFor k r g.trace, x ∈ joined g.trace) ∧
    ∀ x ∈ joined g.trace, ∃ k v r, vs[k]? = some v ∧ v.phase = .killed ∧ x ∈ startedFor k r g.trace := by
  have I := inv_of_hist hc h
  have hk : k < g.pools.length := by rw [I.len]; exact (List.getElem?_eq_some_iff.1 hv).1
  have PI := I.pool k _ v (List.getElem?_eq_getElem hk) hv
  refine ⟨fun hp r => ?_, fun hp => ⟨PI.leni hp, PI.leno hp⟩, I.nodup, I.jnodup, fun hp r x hx => ?_, PI.dead, I.jsub⟩
  · cases r with
    | i => exact (PI.fresh hp).2.2.1
    | o => exact (PI.fresh hp).2.2.2
  · cases hph : v.phase with
    | fresh =>
        cases r with
        | i => rw [(PI.fresh hph).2.2.1] at hx; cases hx
        | o => rw [(PI.fresh hph).2.2.2] at hx; cases hx
    | started => exact PI.running hph r x hx
    | killed => exact absurd hph hp

/-- **C95 (no undefined behaviour, partial).** The calls of such a history complete. -/
theorem c95_total_partial {create : Nat → Bool} (hc : ∀ h, create h = true) {g : G} {vs : List View} (h : Hist create g vs) :
    (∀ op : Op, op.config = true → ∃ g', step create op g = .ok g') ∧ (∀ min, ∃ g', step create (.init min) g = .ok g') ∧
    (∀ k v, vs[k]? = some v → v.phase = .fresh → g.ready = true → ((flags g).2 = true → v.flags.2 = true) → ∃ g', step create (.start k) g = .ok g') ∧
    ∀ k v, vs[k]? = some v → v.phase = .started → v.flags = flags g → ∃ g', step create (.kill k) g = .ok g' := by
  have I := inv_of_hist hc h
  refine ⟨fun op ho => ?_, fun min => ⟨_, rfl⟩, fun k v hv hp hr ho => ?_, fun k v hv hp hf => ?_⟩
  · cases op with
    | init _ => cases ho
    | start _ => cases ho
    | kill _ => cases ho
    | _ => exact ⟨_, rfl⟩
  · obtain ⟨g', e, _⟩ := I.start hc hv hp hr ho; exact ⟨g', e⟩
  · obtain ⟨g', e, _⟩ := I.kill (create := create) hv hp hf; exact ⟨g', e⟩

/-- The calls one after the other. -/
def runs (create : Nat → Bool) : List Op → G → Outcome G
  | [], g => .ok g
  | op :: ops, g => do
      let g ← step create op g
      runs create ops g

theorem start_any (create : Nat → Bool) (k : Nat) (g : G) (p : P) (hr : g.ready = true) (hk : g.pools[k]? = some p) (hi : p.ith.length = p.min.toNat)
    (ho : g.cbs.oputLoop.isSome = true → ∃ a, p.oth = some a ∧ a.length = p.min.toNat) :
    ∃ (oth : Option (List (Option Nat))) (nx : Nat) (tr : List Ev), start create k g = .ok { g with
      pools := g.pools.set k { p with ith := (if g.cbs.iputLoop.isSome then (List.range' g.next p.min.toNat).map some else p.ith), oth := oth }, next := nx, trace := tr } ∧
      (∀ h, h ∈ startedAll tr → h ∈ startedAll g.trace ∨ create h = true) := by
  have e1 : ∃ (nx : Nat) (tr : List Ev), startI create k p g = .ok (if g.cbs.iputLoop.isSome then (List.range' g.next p.min.toNat).map some else p.ith, { g with next := nx, trace := tr }) ∧
      ∀ h, h ∈ startedAll tr → h ∈ startedAll g.trace ∨ create h = true := by
    rw [startI]
    cases hf : g.cbs.iputLoop.isSome with
    | false => exact ⟨g.next, g.trace, rfl, fun h hh => .inl hh⟩
    | true =>
        obtain ⟨tr, e, ht⟩ := startLoop_any create k .i p.min.toNat 0 p.ith g hr (by omega)
        exact ⟨g.next + p.min.toNat, tr, by simp [e], ht⟩
  obtain ⟨nx, tr, e1, ht⟩ := e1
  have e2 : ∃ (oth : Option (List (Option Nat))) (nx2 : Nat) (tr2 : List Ev), startO create k p { g with next := nx, trace := tr } = .ok (oth, { g with next := nx2, trace := tr2 }) ∧
      ∀ h, h ∈ startedAll tr2 → h ∈ startedAll tr ∨ create h = true := by
    rw [startO]
    cases hf : g.cbs.oputLoop.isSome with
    | false => exact ⟨p.oth, nx, tr, by simp [hf], fun h hh => .inl hh⟩
    | true =>
        obtain ⟨a, ha, hl⟩ := ho hf
        obtain ⟨tr2, e, ht2⟩ := startLoop_any create k .o p.min.toNat 0 a { g with next := nx, trace := tr } hr (by omega)
        refine ⟨some (a.take 0 ++ (List.range' nx p.min.toNat).map some), nx + p.min.toNat, tr2, ?_, ht2⟩
        simp only [hf, if_true, ha, e, Outcome.ok_bind, Outcome.pure_eq]
  obtain ⟨oth, nx2, tr2, e2, ht2⟩ := e2
  refine ⟨oth, nx2, tr2, ?_, fun h hh => ?_⟩
  · rw [start, rd_eq_ok.2 hk]
    simp only [Outcome.ok_bind, e1, e2, Outcome.pure_eq]
  · rcases ht2 h hh with h1 | h1
    · exact ht h h1
    · exact .inr h1

/-- Violation of C95: a pool made while the output loop was disabled is started after the defaults have been restored: the handles are stored through a NULL pointer. -/
theorem c95_start_violation {min : Int} (h : 0 < min) (create : Nat → Bool) : runs create [.usePthreads, .disableOput, .init min, .setCallbacks none, .start 0] G.zero = .ub := by
  have hn : min.toNat ≠ 0 := by omega
  obtain ⟨tr, e, -⟩ := startLoop_any create 0 .i min.toNat 0 (List.replicate min.toNat none)
    { G.zero with ready := true, cbs := setCallbacks { defaults with oputLoop := none } none, pools := [⟨min, List.replicate min.toNat none, none⟩] } rfl (by simp)
  have e1 : startI create 0 ⟨min, List.replicate min.toNat none, none⟩
    { G.zero with ready := true, cbs := setCallbacks { defaults with oputLoop := none } none, pools := [⟨min, List.replicate min.toNat none, none⟩] } = _ := e
  show Outcome.bind (Outcome.bind (startI create 0 ⟨min, List.replicate min.toNat none, none⟩
    { G.zero with ready := true, cbs := setCallbacks { defaults with oputLoop := none } none, pools := [⟨min, List.replicate min.toNat none, none⟩] }) _) _ = _
  rw [e1]
  simp only [Outcome.bind, startO, setCallbacks, Option.isSome_some, if_true, hn, if_false]
  rfl

/-- Violation of C95: a pool started while the input loop was disabled is killed after the defaults have been restored: a NULL handle is joined. -/
theorem c95_join_null_violation {min : Int} (h : 0 < min) (create : Nat → Bool) :
    runs create [.usePthreads, .disableIput, .init min, .start 0, .setCallbacks none, .kill 0] G.zero = .ub := by
  obtain ⟨n, hn⟩ : ∃ n, min.toNat = n + 1 := ⟨min.toNat - 1, by omega⟩
  obtain ⟨oth, nx, tr, e, -⟩ := start_any create 0
    { G.zero with ready := true, cbs := { defaults with iputLoop := none }, pools := [⟨min, List.replicate min.toNat none, some (List.replicate min.toNat none)⟩] }
    ⟨min, List.replicate min.toNat none, some (List.replicate min.toNat none)⟩ rfl rfl (by simp) (fun _ => ⟨_, rfl, by simp⟩)
  show Outcome.bind (start create 0
    { G.zero with ready := true, cbs := { defaults with iputLoop := none }, pools := [⟨min, List.replicate min.toNat none, some (List.replicate min.toNat none)⟩] }) _ = _
  rw [e]
  simp only [Outcome.bind, runs, step, Outcome.ok_bind, setCallbacks, kill, rd, List.set_cons_zero, List.getElem?_cons_zero, hn, killLoop, Option.isSome_some, joinAt, if_true, defaults,
    Option.isSome_none, Bool.false_eq_true, if_false, List.replicate_succ, joinHandle]
  rfl

/-- Violation of C95: a thread that could not be created is not noticed, and is joined. -/
theorem c95_create_violation {min : Int} (h : 0 < min) (create : Nat → Bool) (hc : create 0 = false) : runs create [.usePthreads, .init min, .start 0, .kill 0] G.zero = .ub := by
  obtain ⟨n, hn⟩ : ∃ n, min.toNat = n + 1 := ⟨min.toNat - 1, by omega⟩
  obtain ⟨oth, nx, tr, e, ht⟩ := start_any create 0
    { G.zero with ready := true, pools := [⟨min, List.replicate min.toNat none, some (List.replicate min.toNat none)⟩] }
    ⟨min, List.replicate min.toNat none, some (List.replicate min.toNat none)⟩ rfl rfl (by simp) (fun _ => ⟨_, rfl, by simp⟩)
  have h0 : 0 ∉ startedAll tr := by
    intro h0
    rcases ht 0 h0 with h1 | h1
    · cases h1
    · rw [hc] at h1; cases h1
  show Outcome.bind (start create 0
    { G.zero with ready := true, pools := [⟨min, List.replicate min.toNat none, some (List.replicate min.toNat none)⟩] }) _ = _
  rw [e]
  simp only [Outcome.bind, runs, step, Outcome.ok_bind, kill, rd, List.set_cons_zero, List.getElem?_cons_zero, hn, killLoop, Option.isSome_some, joinAt, if_true, defaults, G.zero,
    List.range'_succ, List.map_cons, joinHandle, h0, false_and, if_false]
  rfl

/-- Violation of C95: if the loops are disabled between start and kill, zt_threadpool_kill returns without having waited for any thread. -/
theorem c95_leak_violation {min : Int} (create : Nat → Bool) (hc : ∀ h, create h = true) :
    ∃ g', runs create [.usePthreads, .init min, .start 0, .disableIput, .disableOput, .kill 0] G.zero = .ok g' ∧ joined g'.trace = [] ∧
      (startedFor 0 .i g'.trace).length = min.toNat ∧ (startedFor 0 .o g'.trace).length = min.toNat := by
  have h1 : Hist create { G.zero with ready := true, pools := [⟨min, List.replicate min.toNat none, some (List.replicate min.toNat none)⟩] } [⟨.fresh, min, (true, true)⟩] :=
    .init (g := { G.zero with ready := true }) (vs := []) (min := min) (.config (op := .usePthreads) .zero rfl rfl) rfl
  obtain ⟨g1, e1, I1⟩ := (inv_of_hist hc h1).start hc (k := 0) (v := ⟨.fresh, min, (true, true)⟩) rfl rfl rfl (fun _ => rfl)
  have h2 := Hist.start (k := 0) h1 rfl rfl rfl (fun _ => rfl) e1
  obtain ⟨-, hlen, -, -, -, -, hj⟩ := c95_threads_partial hc h2 (k := 0) (v := ⟨.started, min, (true, true)⟩) rfl
  obtain ⟨l1, l2⟩ := hlen (fun hx => by cases hx)
  have hk : ∃ p, g1.pools[0]? = some p := ⟨_, List.getElem?_eq_getElem (by rw [I1.len]; exact Nat.zero_lt_one)⟩
  obtain ⟨p, hp⟩ := hk
  refine ⟨{ g1 with cbs := { g1.cbs with iputLoop := none, oputLoop := none } }, ?_, ?_, l1, l2⟩
  · show Outcome.bind (step create (.start 0) { G.zero with ready := true, pools := [⟨min, List.replicate min.toNat none, some (List.replicate min.toNat none)⟩] }) _ = _
    rw [e1]
    have hl : ∀ n i (g : G), g.cbs.iputLoop = none → g.cbs.oputLoop = none → killLoop p n i g = .ok g := by
      intro n
      induction n with
      | zero => intro i g _ _; rfl
      | succ n ih => intro i g ha hb; simp only [killLoop, ha, hb, joinAt, Option.isSome_none, Bool.false_eq_true, if_false, Outcome.ok_bind]; exact ih _ g ha hb
    show runs create [.disableIput, .disableOput, .kill 0] g1 = _
    simp only [runs, step, Outcome.ok_bind, kill, rd_eq_ok.2 hp]
    rw [hl _ _ _ rfl rfl]; rfl
  · rw [List.eq_nil_iff_forall_not_mem]
    intro x hx
    obtain ⟨j, u, r, hu, hph, -⟩ := hj x hx
    cases j with
    | zero => cases hu; cases hph
    | succ j => cases hu

/-- Violation of C95: zt_threadpool_set_callbacks(NULL) restores the default callbacks except `finalize`. -/
theorem c95_reset_violation (f : Nat) : setCallbacks (setCallbacks defaults (some ⟨none, none, none, none, none, some f⟩)) none ≠ defaults := by
  simp [setCallbacks, defaults]

/-- Violation of C95: without zt_threads_use_pthreads, starting a pool calls a NULL function pointer. -/
theorem c95_ready_violation {min : Int} (h : 0 < min) (create : Nat → Bool) : runs create [.init min, .start 0] G.zero = .ub := by
  obtain ⟨n, hn⟩ : ∃ n, min.toNat = n + 1 := ⟨min.toNat - 1, by omega⟩
  simp only [runs, step, Outcome.ok_bind, initPool, G.zero, start, List.nil_append, rd, List.getElem?_cons_zero, startI, defaults, Option.isSome_some, if_true, hn, startLoop]
  rfl

/-- Two pools: the first with both loops is started and killed, the second, made while the output loop was disabled, is still running. -/
example : ∃ g, Hist (fun _ => true) g [⟨.killed, 2, (true, true)⟩, ⟨.started, 3, (true, false)⟩] ∧ joined g.trace = [0, 2, 1, 3] ∧ startedFor 1 .i g.trace = [4, 5, 6] :=
  ⟨_, .kill (v := ⟨.started, 2, (true, true)⟩) (k := 0) (vs := [⟨.started, 2, (true, true)⟩, ⟨.started, 3, (true, false)⟩])
    (.config (op := .setCallbacks none)
      (.start (k := 1) (v := ⟨.fresh, 3, (true, false)⟩) (vs := [⟨.started, 2, (true, true)⟩, ⟨.fresh, 3, (true, false)⟩])
        (.init (min := 3) (vs := [⟨.started, 2, (true, true)⟩])
          (.config (op := .disableOput)
            (.start (k := 0) (v := ⟨.fresh, 2, (true, true)⟩) (vs := [⟨.fresh, 2, (true, true)⟩])
              (.init (min := 2) (vs := []) (.config (op := .usePthreads) .zero rfl rfl) rfl) rfl rfl rfl (fun _ => rfl) rfl) rfl rfl) rfl) rfl rfl rfl (fun h => by cases h) rfl) rfl rfl)
    rfl rfl rfl rfl, rfl, rfl⟩

end ZT.Pool.Life
