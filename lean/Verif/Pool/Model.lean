import Verif.Common

/-!
# zt_threads.c 212-600: the thread pool

An interleaving model: a step is one action of one thread between two accesses to shared data. Accesses to a queue happen with its mutex held (that this excludes the others is proved, not assumed). `tpool->kill` is
written without a mutex; its accesses are single steps here (in C11 terms they are a data race). The synchronisation functions are those of pthreads (zt_threads/zt_threads_pthreads.c): a mutex has an owner,
`cond_wait` releases the mutex and blocks in one step and takes the mutex again before it returns, `signal` wakes at least one of the threads blocked, `broadcast` all of them, and threads may also wake up for no
reason. Locking does not fail. The queues are those of <sys/queue.h>, as lists of the `data` pointers of their entries. There are `ni` threads in the input loop and `no` in the output loop (both `min_threads`, or 0
if the loop is disabled), and `nc` other threads that call the functions of the pool. The signalling pipes and the `init` callback are not modelled, nor is a failing calloc.
-/

namespace ZT.Pool

/-- The two queues, with their mutexes and condition variables. -/
inductive Q where
  | i
  | o
  deriving DecidableEq, Repr

/-- The set-up of a pool: numbers of threads, NULL, and which callbacks are set. -/
structure Cfg (D : Type) where
  ni : Nat
  no : Nat
  nc : Nat
  null : D
  worker : Q → Bool
  finalize : Bool

/-- The threads: input loop, output loop, clients. -/
inductive Tid {D : Type} (c : Cfg D) where
  | iw (k : Fin c.ni)
  | ow (k : Fin c.no)
  | cl (k : Fin c.nc)
  deriving DecidableEq

/-- Where a thread is. -/
inductive PC {D : Type} (c : Cfg D) where
  /-- at the top of the loop: zt_threads.c 343 (278), `zt_threads_lock` -/
  | lock (q : Q)
  /-- 347 (282): has the mutex, looks at the queue -/
  | test (q : Q)
  /-- 353 (288): has the mutex, has found the queue empty and `kill` not set -/
  | wait (q : Q)
  /-- 353 (288): blocked in `zt_threads_cond_wait` -/
  | waiting (q : Q)
  /-- 353 (288): woken, to take the mutex again -/
  | relock (q : Q)
  /-- 354 (289): has the mutex, unlocks and continues -/
  | again (q : Q)
  /-- 349-350 (284-285): has the mutex, has found the queue empty and `kill` set -/
  | exit (q : Q)
  /-- ended -/
  | done
  /-- 373 (306): has the mutex and the entry, unlocks -/
  | got (q : Q) (d : D)
  /-- 375-378 (308-311): calls the worker -/
  | work (q : Q) (d : D)
  /-- 313-317: calls `finalize` -/
  | fin (r : D)
  /-- 402 (427): in zt_threadpool_insert_iput/oput, `zt_threads_lock` -/
  | ins (q : Q) (d : D)
  /-- 404 (429): has the mutex, appends the entry -/
  | insHeld (q : Q) (d : D)
  /-- 405 (430): has the mutex, signals -/
  | insSig (q : Q)
  /-- 413 (438): has the mutex, unlocks and returns -/
  | insUnlock (q : Q)
  /-- not in a call (clients only) -/
  | idle
  /-- 443-469: zt_threadpool_get_oput -/
  | getLock
  | getHeld
  | getUnlock (r : Option D)
  /-- 514-520: zt_threadpool_kill, sets `kill` -/
  | kill0
  /-- 523: broadcast on `iput_cond` -/
  | kill1
  /-- 524: broadcast on `oput_cond` -/
  | kill2
  /-- 526-534: joins these threads -/
  | join (l : List (Tid c))

variable {D : Type} [DecidableEq D] {c : Cfg D}

/-- What happens, as seen from outside. -/
inductive Event (c : Cfg D) where
  /-- an entry appended to a queue -/
  | put (t : Tid c) (q : Q) (d : D)
  /-- an entry removed from a queue -/
  | take (t : Tid c) (q : Q) (d : D)
  /-- a worker called with the data, and its result -/
  | call (t : Tid c) (q : Q) (d r : D)
  /-- `finalize` called -/
  | final (t : Tid c) (r : D)
  /-- zt_threadpool_get_oput returns; `none` for an empty queue -/
  | gave (t : Tid c) (r : Option D)
  /-- zt_threadpool_kill returns -/
  | killed (t : Tid c)

/-- The shared data, the positions of the threads, and what has happened so far. -/
structure St (c : Cfg D) where
  queue : Q → List D
  owner : Q → Option (Tid c)
  kill : Bool
  pc : Tid c → PC c
  log : List (Event c)

/-- Changing a function at one point. -/
def upd {α β : Type} [DecidableEq α] (f : α → β) (a : α) (b : β) : α → β := fun x => if x = a then b else f x

/-- Thread `t` goes on at `p`. -/
def St.goto (s : St c) (t : Tid c) (p : PC c) : St c := { s with pc := upd s.pc t p }

/-- Mutex `q` gets the owner `o`. -/
def St.own (s : St c) (q : Q) (o : Option (Tid c)) : St c := { s with owner := upd s.owner q o }

/-- Queue `q` becomes `l`. -/
def St.setq (s : St c) (q : Q) (l : List D) : St c := { s with queue := upd s.queue q l }

/-- Event `e` happens. -/
def St.ev (s : St c) (e : Event c) : St c := { s with log := s.log ++ [e] }

/-- Where a thread goes on after zt_threadpool_insert_iput/oput: the loops at their top (388), clients return. -/
def home : Tid c → PC c
  | .iw _ => .lock .i
  | .ow _ => .lock .o
  | .cl _ => .idle

/-- After the worker has returned `r`: zt_threads.c 380-382 (input loop), 313-317 (output loop). -/
def after (c : Cfg D) (q : Q) (r : D) : PC c :=
  if r = c.null then .lock q
  else match q with
    | .i => .ins .o r
    | .o => if c.finalize then .fin r else .lock .o

/-- 523-524: every thread blocked on the condition variable of `q` wakes up. -/
def wakeAll (q : Q) (p : PC c) : PC c :=
  match p with
  | .waiting q' => if q' = q then .relock q else .waiting q'
  | p => p

/-- 526-534: the threads joined, in order: for each index the input and the output thread. -/
def joinOrder (c : Cfg D) : List (Tid c) :=
  (List.range (max c.ni c.no)).flatMap fun k =>
    (if h : k < c.ni then [.iw ⟨k, h⟩] else []) ++ (if h : k < c.no then [.ow ⟨k, h⟩] else [])

/-- A step of thread `t` within a loop or a call. -/
inductive Step (t : Tid c) : St c → St c → Prop
  /-- zt_threads.c 343 (278) -/
  | lock {s q} : s.pc t = .lock q → s.owner q = none → Step t s ((s.goto t (.test q)).own q (some t))
  /-- zt_threads.c 357-358 (292-293) `TAILQ_FIRST`, `TAILQ_REMOVE` -/
  | take {s q d ds} : s.pc t = .test q → s.queue q = d :: ds → Step t s (((s.goto t (.got q d)).setq q ds).ev (.take t q d))
  /-- zt_threads.c 347-348 (282-283) -/
  | seeKill {s q} : s.pc t = .test q → s.queue q = [] → s.kill = true → Step t s (s.goto t (.exit q))
  /-- zt_threads.c 347-348 (282-283) -/
  | seeEmpty {s q} : s.pc t = .test q → s.queue q = [] → s.kill = false → Step t s (s.goto t (.wait q))
  /-- zt_threads.c 353 (288) `zt_threads_cond_wait`, first half -/
  | wait {s q} : s.pc t = .wait q → Step t s ((s.goto t (.waiting q)).own q none)
  /-- zt_threads.c 353 (288) `zt_threads_cond_wait`, second half -/
  | relock {s q} : s.pc t = .relock q → s.owner q = none → Step t s ((s.goto t (.again q)).own q (some t))
  /-- zt_threads.c 354 (289) -/
  | again {s q} : s.pc t = .again q → Step t s ((s.goto t (.lock q)).own q none)
  /-- zt_threads.c 349-351 (284-286) -/
  | exit {s q} : s.pc t = .exit q → Step t s ((s.goto t .done).own q none)
  /-- zt_threads.c 373 (306) -/
  | unlock {s q d} : s.pc t = .got q d → Step t s ((s.goto t (.work q d)).own q none)
  /-- zt_threads.c 375-383 (308-318); the worker may return anything -/
  | call {s q d} (r : D) : s.pc t = .work q d → c.worker q = true → Step t s ((s.goto t (after c q r)).ev (.call t q d r))
  /-- zt_threads.c 375 (308): no worker set -/
  | skip {s q d} : s.pc t = .work q d → c.worker q = false → Step t s (s.goto t (.lock q))
  /-- zt_threads.c 315 -/
  | fin {s r} : s.pc t = .fin r → Step t s ((s.goto t (.lock .o)).ev (.final t r))
  /-- zt_threads.c 402 (427) -/
  | insLock {s q d} : s.pc t = .ins q d → s.owner q = none → Step t s ((s.goto t (.insHeld q d)).own q (some t))
  /-- zt_threads.c 404 (429) `TAILQ_INSERT_TAIL` -/
  | insert {s q d} : s.pc t = .insHeld q d → Step t s (((s.goto t (.insSig q)).setq q (s.queue q ++ [d])).ev (.put t q d))
  /-- zt_threads.c 405 (430), nobody blocked -/
  | signalNone {s q} : s.pc t = .insSig q → (∀ u, s.pc u ≠ .waiting q) → Step t s (s.goto t (.insUnlock q))
  /-- zt_threads.c 405 (430), some thread blocked -/
  | signalOne {s q} (u : Tid c) : s.pc t = .insSig q → s.pc u = .waiting q → Step t s ((s.goto t (.insUnlock q)).goto u (.relock q))
  /-- zt_threads.c 413 (438) -/
  | insUnlock {s q} : s.pc t = .insUnlock q → Step t s ((s.goto t (home t)).own q none)
  /-- zt_threads.c 448 -/
  | getLock {s} : s.pc t = .getLock → s.owner .o = none → Step t s ((s.goto t .getHeld).own .o (some t))
  /-- zt_threads.c 451-453 -/
  | getEmpty {s} : s.pc t = .getHeld → s.queue .o = [] → Step t s (s.goto t (.getUnlock none))
  /-- zt_threads.c 455-456 -/
  | getFirst {s d ds} : s.pc t = .getHeld → s.queue .o = d :: ds → Step t s (((s.goto t (.getUnlock (some d))).setq .o ds).ev (.take t .o d))
  /-- zt_threads.c 459-468 -/
  | getUnlock {s r} : s.pc t = .getUnlock r → Step t s (((s.goto t .idle).own .o none).ev (.gave t r))
  /-- zt_threads.c 520 -/
  | setKill {s} : s.pc t = .kill0 → Step t s { s.goto t .kill1 with kill := true }
  /-- zt_threads.c 523 -/
  | broadcastI {s} : s.pc t = .kill1 → Step t s { s with pc := upd (fun u => wakeAll .i (s.pc u)) t .kill2 }
  /-- zt_threads.c 524 -/
  | broadcastO {s} : s.pc t = .kill2 → Step t s { s with pc := upd (fun u => wakeAll .o (s.pc u)) t (.join (joinOrder c)) }
  /-- zt_threads.c 526-534 `zt_threads_join`; joining a thread twice, by two calls of zt_threadpool_kill, is undefined in pthreads and allowed here -/
  | join {s u l} : s.pc t = .join (u :: l) → s.pc u = .done → Step t s (s.goto t (.join l))
  /-- zt_threads.c 548, returning -/
  | joined {s} : s.pc t = .join [] → Step t s ((s.goto t .idle).ev (.killed t))

/-- A client begins a call. -/
inductive Call (t : Tid c) : St c → St c → Prop
  | insert {s} (q : Q) (d : D) : s.pc t = .idle → Call t s (s.goto t (.ins q d))
  | get {s} : s.pc t = .idle → Call t s (s.goto t .getLock)
  | kill {s} : s.pc t = .idle → Call t s (s.goto t .kill0)

/-- A thread wakes up for no reason (pthread_cond_wait may). -/
inductive Wake (t : Tid c) : St c → St c → Prop
  | wake {s q} : s.pc t = .waiting q → Wake t s (s.goto t (.relock q))

/-- After zt_threadpool_init (551-600) and zt_threadpool_start (471-492): the threads at the top of their loops, the queues empty. -/
def St.init (c : Cfg D) : St c := ⟨fun _ => [], fun _ => none, false, home, []⟩

/-- Any step. -/
def Any (s s' : St c) : Prop := ∃ t, Step t s s' ∨ Call t s s' ∨ Wake t s s'

/-- The states of all executions. -/
inductive Reachable : St c → Prop
  | init : Reachable (St.init c)
  | step {s s'} : Reachable s → Any s s' → Reachable s'

end ZT.Pool
