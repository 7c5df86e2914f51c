import Verif.Pool.Model

/-!
# C128: the memory of the thread pool, access by access

A finer model of zt_threads.c 262-548 than `Pool/Model.lean`: a step is a single access to shared memory or a single call of a synchronisation function, and the
entries of the queues are blocks of memory that are allocated and freed (the address of a freed entry may be given out again). Any number of threads: those with
`role t = some q` run the loop of queue `q`, the others call the functions of the pool. The callbacks of the pool may call zt_threadpool_insert_iput, zt_threadpool_insert_oput and
zt_threadpool_get_oput too. Blocked threads may wake up at any time, so what signals and broadcasts do is not modelled (there are more executions here than in reality),
nor is that zt_threadpool_kill waits for the threads. calloc succeeds.
-/

namespace ZT.Pool.Race

/-- Shared memory: the head of a queue (struct zt_threadpool, `iput_queue` and `oput_queue`), an entry, `kill`, the pipe descriptors, and the global callbacks. -/
inductive Loc where
  | head (q : Q)
  | entry (e : Nat)
  | kill
  | fds
  | cbs
  deriving DecidableEq

/-- Where a call of insert or get returns to: a client, the end of the input worker's turn with entry `e`, or a callback that works on entry `e`. -/
inductive K where
  | client
  | release (q : Q) (e : Nat)
  | callback (q : Q) (e : Nat)
  deriving DecidableEq

/-- Where a thread is. -/
inductive P where
  /-- 334-336 (269-271): `_zt_threadpool_cbs.init` -/
  | begin (q : Q)
  /-- zt_threads.c 343 (278): `zt_threads_lock` -/
  | top (q : Q)
  /-- 347 (282): `TAILQ_EMPTY` -/
  | test (q : Q)
  /-- 348 (283): `tpool->kill` -/
  | killed (q : Q)
  /-- 349 (284): unlocks and ends -/
  | exit (q : Q)
  | done
  /-- 353 (288): `zt_threads_cond_wait` releases the mutex and blocks -/
  | wait (q : Q)
  | waiting (q : Q)
  | relock (q : Q)
  /-- 354 (289): unlocks -/
  | again (q : Q)
  /-- 357-358 (292-293): `TAILQ_FIRST`, `TAILQ_REMOVE` -/
  | take (q : Q)
  /-- 373 (306): unlocks -/
  | got (q : Q) (e : Nat)
  /-- 375 (308): `_zt_threadpool_cbs.iput_worker` (`oput_worker`) -/
  | worker (q : Q) (e : Nat)
  /-- 378 (311): `_zt_threadpool_cbs.iput_worker` again, `entry->data`, and the callback is called -/
  | data (q : Q) (e : Nat)
  /-- in the callback -/
  | run (q : Q) (e : Nat)
  /-- 314-315: `_zt_threadpool_cbs.finalize` -/
  | finalize (e : Nat)
  /-- 385-387 (320-322): `free(entry)` -/
  | release (q : Q) (e : Nat)
  /-- 399 (424): `calloc` in zt_threadpool_insert_iput/oput -/
  | alloc (q : Q) (k : K)
  /-- 400 (425): `entry->data = data` -/
  | fill (q : Q) (e : Nat) (k : K)
  /-- 402 (427): `zt_threads_lock` -/
  | insLock (q : Q) (e : Nat) (k : K)
  /-- 404 (429): `TAILQ_INSERT_TAIL` -/
  | put (q : Q) (e : Nat) (k : K)
  /-- 405 (430): `zt_threads_cond_signal` -/
  | signal (q : Q) (k : K)
  /-- 407-411 (432-436): `tpool->iput_fd_sigs[1]`, `write` -/
  | pipe (q : Q) (k : K)
  /-- 413 (438): unlocks -/
  | insUnlock (q : Q) (k : K)
  /-- 448: zt_threadpool_get_oput, `zt_threads_lock` -/
  | getLock (k : K)
  /-- 451: `TAILQ_EMPTY` -/
  | getTest (k : K)
  /-- 455-456: `TAILQ_FIRST`, `TAILQ_REMOVE` -/
  | getTake (k : K)
  /-- 459: unlocks -/
  | getUnlock (r : Option Nat) (k : K)
  /-- 465: `data = entry->data` -/
  | getData (e : Nat) (k : K)
  /-- 466: `free(entry)` -/
  | getFree (e : Nat) (k : K)
  | idle
  /-- 520: zt_threadpool_kill, `tpool->kill = 1` -/
  | kill
  /-- 522-534: broadcasts and joins (`_zt_threadpool_cbs.iput_loop`) -/
  | join
  /-- 536-546: `oput_fd_sigs[1]`, `iput_fd_sigs[1]` -/
  | killPipe
  /-- 222-260: zt_threadpool_set_callbacks (and 211-219) -/
  | setCbs
  deriving DecidableEq

/-- Where the thread goes on after the call. -/
def K.pc : K → P
  | .client => .idle
  | .release q e => .release q e
  | .callback q e => .run q e

/-- The entry the thread has meanwhile. -/
def K.held : K → List Nat
  | .client => []
  | .release _ e => [e]
  | .callback _ e => [e]

/-- The entries a thread has pointers to (other than through the queues). -/
def P.held : P → List Nat
  | .got _ e | .worker _ e | .data _ e | .run _ e | .finalize e | .release _ e => [e]
  | .alloc _ k | .signal _ k | .pipe _ k | .insUnlock _ k | .getLock k | .getTest k | .getTake k => k.held
  | .fill _ e k | .insLock _ e k | .put _ e k | .getData e k | .getFree e k => e :: k.held
  | .getUnlock r k => r.toList ++ k.held
  | _ => []

variable {T : Type} [DecidableEq T]

/-- The shared memory (queues as lists of entries, `live` the allocated entries), the owners of the mutexes, the threads. -/
structure S (T : Type) where
  queue : Q → List Nat
  owner : Q → Option T
  kill : Bool
  live : Nat → Bool
  pc : T → P

/-- Thread `t` goes on at `p`. -/
def S.goto (s : S T) (t : T) (p : P) : S T := { s with pc := upd s.pc t p }
/-- The mutex of queue `q` gets owner `o`. -/
def S.own (s : S T) (q : Q) (o : Option T) : S T := { s with owner := upd s.owner q o }
/-- Queue `q` becomes `l`. -/
def S.setq (s : S T) (q : Q) (l : List Nat) : S T := { s with queue := upd s.queue q l }
/-- The allocator's view of entry `e`. -/
def S.mem (s : S T) (e : Nat) (b : Bool) : S T := { s with live := upd s.live e b }

/-- Which memory the next step of a thread reads (`false`) or writes (`true`). TAILQ_REMOVE of the first entry writes the head and the link of the second entry and reads
the link of the first; TAILQ_INSERT_TAIL writes the head, the new entry and the link of the last one (sys/queue.h). free counts as a write to the entry. Allocating is not an access. -/
def acc (s : S T) : P → List (Loc × Bool)
  | .begin _ => [(.cbs, false)]
  | .test q => [(.head q, false)]
  | .killed _ => [(.kill, false)]
  | .take q => (.head q, true) :: ((s.queue q).take 2).map fun e => (.entry e, true)
  | .worker _ _ => [(.cbs, false)]
  | .data _ e => [(.cbs, false), (.entry e, false)]
  | .finalize _ => [(.cbs, false)]
  | .release _ e => [(.entry e, true)]
  | .fill _ e _ => [(.entry e, true)]
  | .put q e _ => [(.head q, true), (.entry e, true)] ++ (s.queue q).getLast?.toList.map fun e => (.entry e, true)
  | .pipe _ _ => [(.fds, false)]
  | .getTest _ => [(.head .o, false)]
  | .getTake _ => (.head .o, true) :: ((s.queue .o).take 2).map fun e => (.entry e, true)
  | .getData e _ => [(.entry e, false)]
  | .getFree e _ => [(.entry e, true)]
  | .kill => [(.kill, true)]
  | .join => [(.cbs, false)]
  | .killPipe => [(.fds, false)]
  | .setCbs => [(.cbs, true)]
  | _ => []

/-- A step of thread `t`. -/
inductive Step (t : T) : S T → S T → Prop
  /-- zt_threads.c 334-336 (269-271) -/
  | begin {s q} : s.pc t = .begin q → Step t s (s.goto t (.top q))
  /-- 343 (278) -/
  | lock {s q} : s.pc t = .top q → s.owner q = none → Step t s ((s.goto t (.test q)).own q (some t))
  /-- 347 (282) -/
  | empty {s q} : s.pc t = .test q → s.queue q = [] → Step t s (s.goto t (.killed q))
  | full {s q} : s.pc t = .test q → s.queue q ≠ [] → Step t s (s.goto t (.take q))
  /-- 348 (283) -/
  | kill {s q} : s.pc t = .killed q → s.kill = true → Step t s (s.goto t (.exit q))
  | noKill {s q} : s.pc t = .killed q → s.kill = false → Step t s (s.goto t (.wait q))
  /-- 349-351 (284-286) -/
  | exit {s q} : s.pc t = .exit q → Step t s ((s.goto t .done).own q none)
  /-- 353 (288) -/
  | wait {s q} : s.pc t = .wait q → Step t s ((s.goto t (.waiting q)).own q none)
  | wake {s q} : s.pc t = .waiting q → Step t s (s.goto t (.relock q))
  | relock {s q} : s.pc t = .relock q → s.owner q = none → Step t s ((s.goto t (.again q)).own q (some t))
  /-- 354 (289) -/
  | again {s q} : s.pc t = .again q → Step t s ((s.goto t (.top q)).own q none)
  /-- 357-358 (292-293) -/
  | take {s q e es} : s.pc t = .take q → s.queue q = e :: es → Step t s ((s.goto t (.got q e)).setq q es)
  /-- 373 (306) -/
  | unlock {s q e} : s.pc t = .got q e → Step t s ((s.goto t (.worker q e)).own q none)
  /-- 375 (308) -/
  | worker {s q e} : s.pc t = .worker q e → Step t s (s.goto t (.data q e))
  | noWorker {s q e} : s.pc t = .worker q e → Step t s (s.goto t (.release q e))
  /-- 378 (311) -/
  | data {s q e} : s.pc t = .data q e → Step t s (s.goto t (.run q e))
  /-- 380 (313): the callback returns NULL -/
  | null {s q e} : s.pc t = .run q e → Step t s (s.goto t (.release q e))
  /-- 381: `zt_threadpool_insert_oput` -/
  | result {s e} : s.pc t = .run .i e → Step t s (s.goto t (.alloc .o (.release .i e)))
  /-- 314 -/
  | final {s e} : s.pc t = .run .o e → Step t s (s.goto t (.finalize e))
  | finalized {s e} : s.pc t = .finalize e → Step t s (s.goto t (.release .o e))
  /-- the callback calls insert or get -/
  | insertIn {s q e} (q' : Q) : s.pc t = .run q e → Step t s (s.goto t (.alloc q' (.callback q e)))
  | getIn {s q e} : s.pc t = .run q e → Step t s (s.goto t (.getLock (.callback q e)))
  /-- 385-387 (320-322) -/
  | release {s q e} : s.pc t = .release q e → Step t s ((s.goto t (.top q)).mem e false)
  /-- 399 (424) -/
  | alloc {s q k} (e : Nat) : s.pc t = .alloc q k → s.live e = false → Step t s ((s.goto t (.fill q e k)).mem e true)
  /-- 400 (425) -/
  | fill {s q e k} : s.pc t = .fill q e k → Step t s (s.goto t (.insLock q e k))
  /-- 402 (427) -/
  | insLock {s q e k} : s.pc t = .insLock q e k → s.owner q = none → Step t s ((s.goto t (.put q e k)).own q (some t))
  /-- 404 (429) -/
  | put {s q e k} : s.pc t = .put q e k → Step t s ((s.goto t (.signal q k)).setq q (s.queue q ++ [e]))
  /-- 405 (430) -/
  | signal {s q k} : s.pc t = .signal q k → Step t s (s.goto t (.pipe q k))
  /-- 407-411 (432-436) -/
  | pipe {s q k} : s.pc t = .pipe q k → Step t s (s.goto t (.insUnlock q k))
  /-- 413 (438) -/
  | insUnlock {s q k} : s.pc t = .insUnlock q k → Step t s ((s.goto t k.pc).own q none)
  /-- 448 -/
  | getLock {s k} : s.pc t = .getLock k → s.owner .o = none → Step t s ((s.goto t (.getTest k)).own .o (some t))
  /-- 451 -/
  | getEmpty {s k} : s.pc t = .getTest k → s.queue .o = [] → Step t s (s.goto t (.getUnlock none k))
  | getFull {s k} : s.pc t = .getTest k → s.queue .o ≠ [] → Step t s (s.goto t (.getTake k))
  /-- 455-456 -/
  | getTake {s k e es} : s.pc t = .getTake k → s.queue .o = e :: es → Step t s ((s.goto t (.getUnlock (some e) k)).setq .o es)
  /-- 459-463 -/
  | getNone {s k} : s.pc t = .getUnlock none k → Step t s ((s.goto t k.pc).own .o none)
  | getSome {s e k} : s.pc t = .getUnlock (some e) k → Step t s ((s.goto t (.getData e k)).own .o none)
  /-- 465 -/
  | getData {s e k} : s.pc t = .getData e k → Step t s (s.goto t (.getFree e k))
  /-- 466 -/
  | getFree {s e k} : s.pc t = .getFree e k → Step t s ((s.goto t k.pc).mem e false)
  /-- a client begins a call -/
  | callInsert {s} (q : Q) : s.pc t = .idle → Step t s (s.goto t (.alloc q .client))
  | callGet {s} : s.pc t = .idle → Step t s (s.goto t (.getLock .client))
  | callKill {s} : s.pc t = .idle → Step t s (s.goto t .kill)
  | callSet {s} : s.pc t = .idle → Step t s (s.goto t .setCbs)
  /-- 520 -/
  | setKill {s} : s.pc t = .kill → Step t s { s.goto t .join with kill := true }
  /-- 522-534 -/
  | join {s} : s.pc t = .join → Step t s (s.goto t .killPipe)
  /-- 536-548 -/
  | killPipe {s} : s.pc t = .killPipe → Step t s (s.goto t .idle)
  /-- 222-260 -/
  | setCbs {s} : s.pc t = .setCbs → Step t s (s.goto t .idle)

/-- After zt_threadpool_init (551-600) and zt_threadpool_start (471-492). -/
def init (role : T → Option Q) : S T := ⟨fun _ => [], fun _ => none, false, fun _ => false, fun t => match role t with | some q => .begin q | none => .idle⟩

/-- The states of all executions. -/
inductive Reachable (role : T → Option Q) : S T → Prop
  | init : Reachable role (init role)
  | step {s s' t} : Reachable role s → Step t s s' → Reachable role s'

/-! ## Specification -/

/-- Two threads are about to access the same memory, and at least one of them writes (C11 5.1.2.4: a data race). -/
def Races (s : S T) (l : Loc) : Prop := ∃ t u, t ≠ u ∧ ∃ w w', (l, w) ∈ acc s (s.pc t) ∧ (l, w') ∈ acc s (s.pc u) ∧ (w = true ∨ w' = true)

/-! ## Invariant -/

/-- The mutex a thread holds. -/
def P.cs : P → Option Q
  | .test q | .killed q | .exit q | .wait q | .again q | .take q | .got q _ | .put q _ _ | .signal q _ | .pipe q _ | .insUnlock q _ => some q
  | .getTest _ | .getTake _ | .getUnlock _ _ => some .o
  | _ => none

/-- Where an entry is. -/
inductive Place (T : Type) where
  | none
  | hand (t : T)
  | queue (q : Q)

structure Inv (s : S T) (pl : Nat → Place T) : Prop where
  mutex : ∀ t q, (s.pc t).cs = some q → s.owner q = some t
  hand : ∀ t e, e ∈ (s.pc t).held ↔ pl e = .hand t
  handOnce : ∀ t, (s.pc t).held.Nodup
  queue : ∀ q e, e ∈ s.queue q ↔ pl e = .queue q
  queueOnce : ∀ q, (s.queue q).Nodup
  live : ∀ e, s.live e = true ↔ pl e ≠ .none

omit [DecidableEq T] in
theorem inv_init (role : T → Option Q) : Inv (init role) (fun _ => .none) where
  mutex t q h := by
    simp only [init] at h
    split at h <;> simp [P.cs] at h
  hand t e := by
    simp only [init]
    split <;> simp [P.held]
  handOnce t := by
    simp only [init]
    split <;> simp [P.held]
  queue q e := by simp [init]
  queueOnce q := by simp [init]
  live e := by simp [init]

theorem K.pc_cs (k : K) : k.pc.cs = none := by cases k <;> rfl
theorem K.pc_held (k : K) : k.pc.held = k.held := by cases k <;> rfl

/-- A step that moves no entry. -/
theorem inv_goto {s : S T} {pl} (h : Inv s pl) (t : T) (p : P) (hh : p.held = (s.pc t).held) (hc : p.cs = none ∨ p.cs = (s.pc t).cs) : Inv (s.goto t p) pl := by
  obtain ⟨h1, h2, h3, h4, h5, h6⟩ := h
  constructor <;> simp only [S.goto, upd] <;> grind

theorem inv_lock {s : S T} {pl} (h : Inv s pl) (t : T) (p : P) (q : Q) (hh : p.held = (s.pc t).held) (hc : p.cs = some q) (ho : s.owner q = none) :
    Inv ((s.goto t p).own q (some t)) pl := by
  obtain ⟨h1, h2, h3, h4, h5, h6⟩ := h
  constructor <;> simp only [S.goto, S.own, upd] <;> grind

theorem inv_unlock {s : S T} {pl} (h : Inv s pl) (t : T) (p : P) (q : Q) (hh : p.held = (s.pc t).held) (hc : p.cs = none) (ho : (s.pc t).cs = some q) :
    Inv ((s.goto t p).own q none) pl := by
  obtain ⟨h1, h2, h3, h4, h5, h6⟩ := h
  constructor <;> simp only [S.goto, S.own, upd] <;> grind

theorem inv_take {s : S T} {pl} (h : Inv s pl) (t : T) (p : P) (q : Q) (e : Nat) (es : List Nat) (hq : s.queue q = e :: es)
    (hh : p.held = e :: (s.pc t).held) (hc : p.cs = none ∨ p.cs = (s.pc t).cs) : Inv ((s.goto t p).setq q es) (upd pl e (.hand t)) := by
  obtain ⟨h1, h2, h3, h4, h5, h6⟩ := h
  have a := h4 q e
  have b := h5 q
  have c := h3 t
  have d := h2 t e
  rw [hq] at a b
  constructor <;> simp only [S.goto, S.setq, upd] <;> grind

theorem inv_put {s : S T} {pl} (h : Inv s pl) (t : T) (p : P) (q : Q) (e : Nat)
    (hh : (s.pc t).held = e :: p.held) (hc : p.cs = none ∨ p.cs = (s.pc t).cs) : Inv ((s.goto t p).setq q (s.queue q ++ [e])) (upd pl e (.queue q)) := by
  obtain ⟨h1, h2, h3, h4, h5, h6⟩ := h
  have a := h4 q e
  have b := h5 q
  have c := h3 t
  have d := h2 t e
  constructor <;> simp only [S.goto, S.setq, upd] <;> grind

theorem inv_alloc {s : S T} {pl} (h : Inv s pl) (t : T) (p : P) (e : Nat) (hl : s.live e = false)
    (hh : p.held = e :: (s.pc t).held) (hc : p.cs = none ∨ p.cs = (s.pc t).cs) : Inv ((s.goto t p).mem e true) (upd pl e (.hand t)) := by
  obtain ⟨h1, h2, h3, h4, h5, h6⟩ := h
  have a := h6 e
  have c := h3 t
  have d := h2 t e
  constructor <;> simp only [S.goto, S.mem, upd] <;> grind

theorem inv_free {s : S T} {pl} (h : Inv s pl) (t : T) (p : P) (e : Nat)
    (hh : (s.pc t).held = e :: p.held) (hc : p.cs = none ∨ p.cs = (s.pc t).cs) : Inv ((s.goto t p).mem e false) (upd pl e .none) := by
  obtain ⟨h1, h2, h3, h4, h5, h6⟩ := h
  have a := h6 e
  have c := h3 t
  have d := h2 t e
  constructor <;> simp only [S.goto, S.mem, upd] <;> grind

theorem inv_step {s s' : S T} {t : T} {pl} (h : Inv s pl) (st : Step t s s') : ∃ pl', Inv s' pl' := by
  cases st with
  | lock a b => exact ⟨_, inv_lock h _ _ _ (by rw [a]; rfl) rfl b⟩
  | relock a b => exact ⟨_, inv_lock h _ _ _ (by rw [a]; rfl) rfl b⟩
  | insLock a b => exact ⟨_, inv_lock h _ _ _ (by rw [a]; rfl) rfl b⟩
  | getLock a b => exact ⟨_, inv_lock h _ _ _ (by rw [a]; rfl) rfl b⟩
  | exit a => exact ⟨_, inv_unlock h _ _ _ (by rw [a]; rfl) rfl (by rw [a]; rfl)⟩
  | wait a => exact ⟨_, inv_unlock h _ _ _ (by rw [a]; rfl) rfl (by rw [a]; rfl)⟩
  | again a => exact ⟨_, inv_unlock h _ _ _ (by rw [a]; rfl) rfl (by rw [a]; rfl)⟩
  | unlock a => exact ⟨_, inv_unlock h _ _ _ (by rw [a]; rfl) rfl (by rw [a]; rfl)⟩
  | insUnlock a => exact ⟨_, inv_unlock h _ _ _ (by rw [a, K.pc_held]; rfl) (K.pc_cs _) (by rw [a]; rfl)⟩
  | getNone a => exact ⟨_, inv_unlock h _ _ _ (by rw [a, K.pc_held]; rfl) (K.pc_cs _) (by rw [a]; rfl)⟩
  | getSome a => exact ⟨_, inv_unlock h _ _ _ (by rw [a]; rfl) rfl (by rw [a]; rfl)⟩
  | take a b => exact ⟨_, inv_take h _ _ _ _ _ b (by rw [a]; rfl) (by rw [a]; exact .inr rfl)⟩
  | getTake a b => exact ⟨_, inv_take h _ _ _ _ _ b (by rw [a]; rfl) (by rw [a]; exact .inr rfl)⟩
  | put a => exact ⟨_, inv_put h _ _ _ _ (by rw [a]; rfl) (by rw [a]; exact .inr rfl)⟩
  | alloc e a b => exact ⟨_, inv_alloc h _ _ _ b (by rw [a]; rfl) (.inl rfl)⟩
  | release a => exact ⟨_, inv_free h _ _ _ (by rw [a]; rfl) (.inl rfl)⟩
  | getFree a => exact ⟨_, inv_free h _ _ _ (by rw [a, K.pc_held]; rfl) (.inl (K.pc_cs _))⟩
  | setKill a =>
    have k := inv_goto h t .join (by rw [a]; rfl) (.inl rfl)
    exact ⟨pl, ⟨k.1, k.2, k.3, k.4, k.5, k.6⟩⟩
  | _ => exact ⟨_, inv_goto h _ _ (by simp [*, P.held, K.held]) (by simp [*, P.cs])⟩

theorem inv {role : T → Option Q} {s : S T} (h : Reachable role s) : ∃ pl, Inv s pl := by
  induction h with
  | init => exact ⟨_, inv_init role⟩
  | step _ st ih => obtain ⟨pl, i⟩ := ih; exact inv_step i st

omit [DecidableEq T] in
/-- An entry that a thread is about to access is in its hands, or it is in the queue whose mutex the thread holds. -/
theorem acc_entry {s : S T} {pl} (h : Inv s pl) {t : T} {e : Nat} {w : Bool} (ha : (Loc.entry e, w) ∈ acc s (s.pc t)) :
    pl e = .hand t ∨ ∃ q, pl e = .queue q ∧ s.owner q = some t := by
  have h1 := h.mutex t
  have h2 := h.hand t e
  have h4 := h.queue
  have ht : ∀ q, e ∈ (s.queue q).take 2 → e ∈ s.queue q := fun q => List.mem_of_mem_take
  have hl : ∀ q, (s.queue q).getLast? = some e → e ∈ s.queue q := fun q => List.mem_of_getLast?
  generalize s.pc t = p at *
  cases p <;> simp [acc, P.held, P.cs] at ha h1 h2 <;> grind

omit [DecidableEq T] in
theorem acc_head {s : S T} {pl} (h : Inv s pl) {t : T} {q : Q} {w : Bool} (ha : (Loc.head q, w) ∈ acc s (s.pc t)) : s.owner q = some t := by
  have h1 := h.mutex t
  generalize s.pc t = p at *
  cases p <;> simp [acc, P.cs] at ha h1 <;> grind

omit [DecidableEq T] in
theorem acc_kill {s : S T} {p : P} (ha : (Loc.kill, true) ∈ acc s p) : p = .kill := by
  cases p <;> simp [acc, -List.map_take] at ha <;> rfl

omit [DecidableEq T] in
theorem acc_cbs {s : S T} {p : P} (ha : (Loc.cbs, true) ∈ acc s p) : p = .setCbs := by
  cases p <;> simp [acc, -List.map_take] at ha <;> rfl

omit [DecidableEq T] in
theorem acc_fds {s : S T} {p : P} (ha : (Loc.fds, true) ∈ acc s p) : False := by
  cases p <;> simp [acc, -List.map_take] at ha

/-! ## The theorems -/

/-- In every execution with any number of threads: the only data races of the pool are those with the write of `kill` in zt_threadpool_kill and with zt_threadpool_set_callbacks. -/
theorem c128_race {role : T → Option Q} {s : S T} (h : Reachable role s) {l : Loc} (r : Races s l) :
    (l = .kill ∧ ∃ t, s.pc t = .kill) ∨ (l = .cbs ∧ ∃ t, s.pc t = .setCbs) := by
  obtain ⟨pl, i⟩ := inv h
  obtain ⟨t, u, n, w, w', a, b, c⟩ := r
  cases l with
  | head q => have x := acc_head i a; have y := acc_head i b; grind
  | entry e => have x := acc_entry i a; have y := acc_entry i b; grind
  | fds => rcases c with rfl | rfl <;> exact (acc_fds (by assumption)).elim
  | kill => exact .inl ⟨rfl, by rcases c with rfl | rfl <;> exact ⟨_, acc_kill (by assumption)⟩⟩
  | cbs => exact .inr ⟨rfl, by rcases c with rfl | rfl <;> exact ⟨_, acc_cbs (by assumption)⟩⟩

/-- No thread reads, writes or frees an entry that is not allocated. -/
theorem c128_valid {role : T → Option Q} {s : S T} (h : Reachable role s) {t : T} {e : Nat} {w : Bool} (a : (Loc.entry e, w) ∈ acc s (s.pc t)) : s.live e = true := by
  obtain ⟨pl, i⟩ := inv h
  have := acc_entry i a
  have := i.live e
  grind

/-- No entry is lost: an allocated entry is in a queue or a thread has it, -/
theorem c128_kept {role : T → Option Q} {s : S T} (h : Reachable role s) (e : Nat) :
    s.live e = true ↔ (∃ q, e ∈ s.queue q) ∨ ∃ t, e ∈ (s.pc t).held := by
  obtain ⟨pl, i⟩ := inv h
  have a := i.live e
  have b := fun q => i.queue q e
  have c := fun t => i.hand t e
  cases hp : pl e with
  | none => simp [hp] at a b c; simp [a, b, c]
  | hand u => simp [hp] at a; simp [a]; exact .inr ⟨u, (c u).2 hp⟩
  | queue q => simp [hp] at a; simp [a]; exact .inl ⟨q, (b q).2 hp⟩

/-- and in one place only. -/
theorem c128_once {role : T → Option Q} {s : S T} (h : Reachable role s) :
    (∀ q, (s.queue q).Nodup) ∧ (∀ e q q', e ∈ s.queue q → e ∈ s.queue q' → q = q') ∧ (∀ e q t, e ∈ s.queue q → e ∉ (s.pc t).held) ∧
      (∀ e t u, e ∈ (s.pc t).held → e ∈ (s.pc u).held → t = u) ∧ ∀ t, (s.pc t).held.Nodup := by
  obtain ⟨pl, h1, h2, h3, h4, h5, h6⟩ := inv h
  refine ⟨h5, ?_, ?_, ?_, h3⟩ <;> grind

/-- The race on `kill`: a loop tests it under the mutex of its queue while zt_threadpool_kill writes it under none. -/
theorem c128_kill_violation {role : T → Option Q} {t u : T} {q : Q} (ht : role t = some q) (hu : role u = none) : ∃ s, Reachable role s ∧ Races s .kill := by
  have ne : t ≠ u := by rintro rfl; rw [ht] at hu; cases hu
  have ne' := ne.symm
  have r0 : Reachable role _ := .init
  have r0 := r0.step (Step.begin (t := t) (q := q) (by simp [init, ht]))
  have r1 := r0.step (Step.lock (t := t) (q := q) (by simp [S.goto, upd]) rfl)
  have r2 := r1.step (Step.empty (t := t) (q := q) (by simp [S.goto, S.own, upd]) rfl)
  have r3 := r2.step (Step.callKill (t := u) (by simp [S.goto, S.own, upd, ne', init, hu]))
  exact ⟨_, r3, t, u, ne, false, true, by simp [S.goto, S.own, upd, ne, acc], by simp [S.goto, S.own, upd, acc], .inr rfl⟩

/-- The race on the callbacks: a loop reads them under no mutex, and so does zt_threadpool_set_callbacks write them. -/
theorem c128_cbs_violation {role : T → Option Q} {t u : T} {q : Q} (ht : role t = some q) (hu : role u = none) : ∃ s, Reachable role s ∧ Races s .cbs := by
  have ne : t ≠ u := by rintro rfl; rw [ht] at hu; cases hu
  have ne' := ne.symm
  have r0 : Reachable role _ := .init
  have r0 := r0.step (Step.begin (t := t) (q := q) (by simp [init, ht]))
  have r1 := r0.step (Step.callInsert (t := u) q (by simp [init, hu, S.goto, upd, ne']))
  have r2 := r1.step (Step.alloc (t := u) (q := q) (k := .client) 7 (by simp [S.goto, upd]) rfl)
  have r3 := r2.step (Step.fill (t := u) (q := q) (e := 7) (k := .client) (by simp [S.goto, S.mem, upd]))
  have r4 := r3.step (Step.insLock (t := u) (q := q) (e := 7) (k := .client) (by simp [S.goto, S.mem, upd]) rfl)
  have r5 := r4.step (Step.put (t := u) (q := q) (e := 7) (k := .client) (by simp [S.goto, S.mem, S.own, upd]))
  have r6 := r5.step (Step.signal (t := u) (q := q) (k := .client) (by simp [S.goto, S.mem, S.own, S.setq, upd]))
  have r7 := r6.step (Step.pipe (t := u) (q := q) (k := .client) (by simp [S.goto, S.mem, S.own, S.setq, upd]))
  have r8 := r7.step (Step.insUnlock (t := u) (q := q) (k := .client) (by simp [S.goto, S.mem, S.own, S.setq, upd]))
  have r9 := r8.step (Step.lock (t := t) (q := q) (by simp [S.goto, S.mem, S.own, S.setq, upd, ne, init]) (by simp [S.goto, S.mem, S.own, S.setq, upd]))
  have r10 := r9.step (Step.full (t := t) (q := q) (by simp [S.goto, S.mem, S.own, S.setq, upd]) (by simp [S.goto, S.mem, S.own, S.setq, upd]))
  have r11 := r10.step (Step.take (t := t) (q := q) (e := 7) (es := []) (by simp [S.goto, S.mem, S.own, S.setq, upd]) (by simp [S.goto, S.mem, S.own, S.setq, upd, init]))
  have r12 := r11.step (Step.unlock (t := t) (q := q) (e := 7) (by simp [S.goto, S.mem, S.own, S.setq, upd]))
  have r13 := r12.step (Step.callSet (t := u) (by simp [S.goto, S.mem, S.own, S.setq, upd, ne', K.pc]))
  exact ⟨_, r13, t, u, ne, false, true, by simp [S.goto, S.mem, S.own, S.setq, upd, ne, acc], by simp [S.goto, S.mem, S.own, S.setq, upd, acc], .inr rfl⟩

/-- A state where a thread is about to access an entry: a client that inserts one. -/
example {role : T → Option Q} {u : T} (hu : role u = none) : ∃ s, Reachable role s ∧ (Loc.entry 7, true) ∈ acc s (s.pc u) ∧ s.live 7 = true := by
  have r0 : Reachable role _ := .init
  have r1 := r0.step (Step.callInsert (t := u) .i (by simp [init, hu]))
  have r2 := r1.step (Step.alloc (t := u) (q := .i) (k := .client) 7 (by simp [S.goto, upd]) rfl)
  exact ⟨_, r2, by simp [S.goto, S.mem, upd, acc], by simp [S.mem, upd]⟩

end ZT.Pool.Race
