import Verif.Pool.Inv

/-!
# zt_threads.c: the notification pipes of the thread pool

zt_threadpool_init can give each queue a pipe (arguments `pipe_iput`, `pipe_oput`). zt_threadpool_insert_iput/oput write a zero byte for each entry, and zt_threadpool_kill writes a last byte, so that a program can
wait for results in poll(): it reads a byte from zt_threadpool_oput_fd_reader and calls zt_threadpool_get_oput.

An interleaving model of one queue with its mutex and its pipe. A thread is a `producer` (calls insert at any time), a `consumer` (for each byte it reads, if it is zero calls get; stops when the byte is another), a `taker`
(calls get, or is a worker loop removing entries, without looking at the pipe) or a `killer` (writes the byte of zt_threadpool_kill). A pipe holds `cap` bytes; write() to a full pipe blocks; it may also fail at any
time (`fails`). The condition variable plays no part here (see Pool/Model.lean).
-/

namespace ZT.Pool.Pipe

inductive Role where
  | producer
  | consumer
  | taker
  | killer
  deriving DecidableEq, Repr

/-- zt_threads.c 536-546: the byte zt_threadpool_kill writes: `k`, which is 1, to the output pipe; to the input pipe the first byte of `i`, which the loop has left at `min_threads`. -/
def killByte (q : Q) (minThreads : Nat) : Byte :=
  match q with
  | .o => 1
  | .i => UInt8.ofNat minThreads

/-- The set-up. -/
structure Cfg where
  n : Nat
  role : Fin n → Role
  cap : Nat
  fails : Bool
  kb : Byte

/-- Where a thread is. -/
inductive PC (D : Type) where
  /-- not in a call -/
  | idle
  /-- zt_threads.c 402 (427): in insert, `zt_threads_lock` -/
  | ins (d : D)
  /-- 404 (429): has the mutex, appends the entry -/
  | insHeld (d : D)
  /-- 407-411 (432-436): has the mutex, writes to the pipe -/
  | insWrite
  /-- 413-415 (438-440): has the mutex, unlocks and returns `ret` -/
  | insUnlock (ret : Int)
  /-- the consumer, in read() -/
  | read
  /-- the consumer after another byte than zero -/
  | ended
  /-- 448: in get, `zt_threads_lock` -/
  | getLock
  /-- 450-457: has the mutex, removes the first entry -/
  | getHeld
  /-- 459-468: has the mutex, unlocks and returns -/
  | getUnlock (r : Option D)
  /-- 536-546: writes the last byte (no mutex) -/
  | kill
  deriving DecidableEq

/-- What is seen from outside. -/
inductive Event (D : Type) where
  | put (d : D)
  | failed
  | ret (r : Int)
  | byte (b : Byte)
  | gave (r : Option D)

structure St (c : Cfg) (D : Type) where
  queue : List D
  owner : Option (Fin c.n)
  pipe : List Byte
  pc : Fin c.n → PC D
  log : List (Event D)

variable {c : Cfg} {D : Type}

/-- Thread `t` goes on at `p`. -/
def St.goto (s : St c D) (t : Fin c.n) (p : PC D) : St c D := { s with pc := upd s.pc t p }

/-- Where a thread is when it is in no call. -/
def home : Role → PC D
  | .consumer => .read
  | _ => .idle

/-- A step within a call. -/
inductive Step (t : Fin c.n) : St c D → St c D → Prop
  /-- zt_threads.c 402 (427) -/
  | insLock {s d} : s.pc t = .ins d → s.owner = none → Step t s { s.goto t (.insHeld d) with owner := some t }
  /-- zt_threads.c 404 (429) -/
  | insert {s d} : s.pc t = .insHeld d → Step t s { s.goto t .insWrite with queue := s.queue ++ [d], log := s.log ++ [.put d] }
  /-- zt_threads.c 408 (433): one byte of `i`, which is 0 -/
  | write {s} : s.pc t = .insWrite → s.pipe.length < c.cap → Step t s { s.goto t (.insUnlock 0) with pipe := s.pipe ++ [0] }
  /-- zt_threads.c 408-410 (433-435) -/
  | writeFail {s} : s.pc t = .insWrite → c.fails = true → Step t s { s.goto t (.insUnlock (-1)) with log := s.log ++ [.failed] }
  /-- zt_threads.c 413-415 (438-440) -/
  | insUnlock {s r} : s.pc t = .insUnlock r → Step t s { s.goto t (home (c.role t)) with owner := none, log := s.log ++ [.ret r] }
  /-- the consumer: read() of one byte, then get if it is zero -/
  | read {s b bs} : s.pc t = .read → s.pipe = b :: bs → Step t s { s.goto t (if b = 0 then .getLock else .ended) with pipe := bs, log := s.log ++ [.byte b] }
  /-- zt_threads.c 448 -/
  | getLock {s} : s.pc t = .getLock → s.owner = none → Step t s { s.goto t .getHeld with owner := some t }
  /-- zt_threads.c 451-456 -/
  | getHeld {s} : s.pc t = .getHeld → Step t s { s.goto t (.getUnlock s.queue.head?) with queue := s.queue.tail }
  /-- zt_threads.c 459-468 -/
  | getUnlock {s r} : s.pc t = .getUnlock r → Step t s { s.goto t (home (c.role t)) with owner := none, log := s.log ++ [.gave r] }
  /-- zt_threads.c 536-546 -/
  | kill {s} : s.pc t = .kill → s.pipe.length < c.cap → Step t s { s.goto t .idle with pipe := s.pipe ++ [c.kb] }

/-- A thread begins a call. -/
inductive Call (t : Fin c.n) : St c D → St c D → Prop
  | insert {s} (d : D) : c.role t = .producer → s.pc t = .idle → Call t s (s.goto t (.ins d))
  | get {s} : c.role t = .taker → s.pc t = .idle → Call t s (s.goto t .getLock)
  | kill {s} : c.role t = .killer → s.pc t = .idle → Call t s (s.goto t .kill)

def St.init (c : Cfg) (D : Type) : St c D := ⟨[], none, [], fun t => home (c.role t), []⟩

inductive Reachable : St c D → Prop
  | init : Reachable (St.init c D)
  | step {s s' t} : Reachable s → Step t s s' → Reachable s'
  | call {s s' t} : Reachable s → Call t s s' → Reachable s'

/-- Nothing can happen any more unless a new call is made. -/
def Quiet (s : St c D) : Prop := ∀ t s', ¬Step t s s'

/-! ### Counting threads -/

/-- How many threads are at a place satisfying `f`. -/
def cnt (f : PC D → Bool) (pc : Fin c.n → PC D) : Nat := (List.finRange c.n).countP fun t => f (pc t)

theorem finRange_nodup (n : Nat) : (List.finRange n).Nodup := by
  rw [List.nodup_iff_pairwise_ne, List.pairwise_iff_getElem]
  intro i j hi hj hij
  simp only [List.getElem_finRange, ne_eq, Fin.ext_iff, Fin.val_cast]
  omega

theorem countP_upd {α β : Type} [DecidableEq α] (f : β → Bool) (g : α → β) (a : α) (b : β) {l : List α} (hn : l.Nodup) :
    (l.countP fun x => f (upd g a b x)) + (if a ∈ l ∧ f (g a) = true then 1 else 0) = (l.countP fun x => f (g x)) + (if a ∈ l ∧ f b = true then 1 else 0) := by
  induction l with
  | nil => simp
  | cons x l ih =>
      rw [List.nodup_cons] at hn
      have := ih hn.2
      simp only [List.countP_cons]
      by_cases e : x = a
      · subst e
        simp only [hn.1, false_and, if_false, upd_same, List.mem_cons, true_or, true_and] at this ⊢
        omega
      · rw [upd_ne _ _ e]
        have h1 : (a ∈ x :: l) ↔ a ∈ l := by simp [Ne.symm e]
        simp only [h1]
        omega

theorem cnt_upd (f : PC D → Bool) (pc : Fin c.n → PC D) (t : Fin c.n) (p : PC D) :
    cnt f (upd pc t p) + (f (pc t)).toNat = cnt f pc + (f p).toNat := by
  have := countP_upd f pc t p (finRange_nodup c.n)
  simp only [List.mem_finRange, true_and] at this
  unfold cnt
  cases h1 : f (pc t) <;> cases h2 : f p <;> simp_all

theorem cnt_pos {f : PC D → Bool} {pc : Fin c.n → PC D} {t : Fin c.n} (h : f (pc t) = true) : 0 < cnt f pc := by
  unfold cnt
  rw [List.countP_pos_iff]
  exact ⟨t, List.mem_finRange t, h⟩

theorem cnt_zero {f : PC D → Bool} {pc : Fin c.n → PC D} (h : ∀ t, f (pc t) = false) : cnt f pc = 0 := by
  unfold cnt
  rw [List.countP_eq_zero]
  intro t _
  simp [h t]

/-! ### What is counted -/

def isPut : Event D → Bool | .put _ => true | _ => false
def isFailed : Event D → Bool | .failed => true | _ => false
def isRet (r : Int) : Event D → Bool | .ret r' => r' = r | _ => false
def isByte (b : Byte) : Event D → Bool | .byte b' => b' = b | _ => false

/-- Inside the part of insert with the mutex held, after the entry is appended. -/
def writing : PC D → Bool | .insWrite => true | _ => false
def returning (r : Int) : PC D → Bool | .insUnlock r' => r' = r | _ => false
/-- Has read a zero byte and not yet taken an entry. -/
def pending : PC D → Bool | .getLock | .getHeld => true | _ => false
def holds : PC D → Bool | .insHeld _ | .insWrite | .insUnlock _ | .getHeld | .getUnlock _ => true | _ => false

/-- Every thread is where its role can be. -/
def shape : Role → PC D → Bool
  | .producer, .idle | .producer, .ins _ | .producer, .insHeld _ | .producer, .insWrite | .producer, .insUnlock _ => true
  | .consumer, .read | .consumer, .ended | .consumer, .getLock | .consumer, .getHeld | .consumer, .getUnlock _ => true
  | .taker, .idle | .taker, .getLock | .taker, .getHeld | .taker, .getUnlock _ => true
  | .killer, .idle | .killer, .kill => true
  | _, _ => false

def Shape (s : St c D) : Prop := ∀ t, shape (c.role t) (s.pc t) = true
def Excl (s : St c D) : Prop := ∀ t, s.owner = some t ↔ holds (s.pc t) = true

structure Counts (s : St c D) : Prop where
  bytes : c.kb ≠ 0 → s.pipe.countP (· == 0) + s.log.countP (isByte 0) = s.log.countP (isRet 0) + cnt (returning 0) s.pc
  fail : s.log.countP isFailed = s.log.countP (isRet (-1)) + cnt (returning (-1)) s.pc
  puts : s.log.countP isPut = s.log.countP (isRet 0) + s.log.countP (isRet (-1)) + cnt (returning 0) s.pc + cnt (returning (-1)) s.pc + cnt writing s.pc
  rets : ∀ t r, s.pc t = .insUnlock r → r = 0 ∨ r = -1
  room : s.pipe.length ≤ c.cap

theorem home_holds (r : Role) : holds (home r : PC D) = false := by cases r <;> rfl
theorem home_returning (r : Role) (x : Int) : returning x (home r : PC D) = false := by cases r <;> rfl
theorem home_writing (r : Role) : writing (home r : PC D) = false := by cases r <;> rfl
theorem home_pending (r : Role) : pending (home r : PC D) = false := by cases r <;> rfl
theorem home_shape (r : Role) : shape r (home r : PC D) = true := by cases r <;> rfl
theorem home_ret (r : Role) (x : Int) : (home r : PC D) ≠ .insUnlock x := by cases r <;> simp [home]

theorem shape_goto {s : St c D} (h : Shape s) {t : Fin c.n} {p : PC D} (hp : shape (c.role t) p = true) : ∀ u, shape (c.role u) (upd s.pc t p u) = true := by
  intro u
  by_cases e : u = t
  · subst e; rw [upd_same]; exact hp
  · rw [upd_ne _ _ e]; exact h u

theorem Shape.step {s s' : St c D} {t : Fin c.n} (h : Shape s) (k : Step t s s') : Shape s' := by
  have ht := h t
  cases k with
  | insLock e _ => refine shape_goto h ?_; rw [e] at ht; cases hr : c.role t <;> rw [hr] at ht <;> first | rfl | cases ht
  | insert e => refine shape_goto h ?_; rw [e] at ht; cases hr : c.role t <;> rw [hr] at ht <;> first | rfl | cases ht
  | write e _ => refine shape_goto h ?_; rw [e] at ht; cases hr : c.role t <;> rw [hr] at ht <;> first | rfl | cases ht
  | writeFail e _ => refine shape_goto h ?_; rw [e] at ht; cases hr : c.role t <;> rw [hr] at ht <;> first | rfl | cases ht
  | insUnlock e => exact shape_goto h (home_shape _)
  | read e _ => refine shape_goto h ?_; rw [e] at ht; cases hr : c.role t <;> rw [hr] at ht <;> first | (split <;> rfl) | cases ht
  | getLock e _ => refine shape_goto h ?_; rw [e] at ht; cases hr : c.role t <;> rw [hr] at ht <;> first | rfl | cases ht
  | getHeld e => refine shape_goto h ?_; rw [e] at ht; cases hr : c.role t <;> rw [hr] at ht <;> first | rfl | cases ht
  | getUnlock e => exact shape_goto h (home_shape _)
  | kill e _ => refine shape_goto h ?_; rw [e] at ht; cases hr : c.role t <;> rw [hr] at ht <;> first | rfl | cases ht

theorem Shape.call {s s' : St c D} {t : Fin c.n} (h : Shape s) (k : Call t s s') : Shape s' := by
  cases k <;> rename_i e _ <;> refine shape_goto h ?_ <;> rw [e] <;> rfl

theorem Excl.step {s s' : St c D} {t : Fin c.n} (h : Excl s) (k : Step t s s') : Excl s' := by
  intro u
  have hu := h u
  have ht := h t
  cases k <;> simp only [St.goto] <;> by_cases e : u = t <;> grind [upd, holds, home_holds]

theorem Excl.call {s s' : St c D} {t : Fin c.n} (h : Excl s) (k : Call t s s') : Excl s' := by
  intro u
  have hu := h u
  have ht := h t
  cases k <;> simp only [St.goto] <;> by_cases e : u = t <;> grind [upd, holds]

theorem rets_goto {s : St c D} (h : ∀ t r, s.pc t = .insUnlock r → r = 0 ∨ r = -1) {t : Fin c.n} {p : PC D} (hp : ∀ r, p = .insUnlock r → r = 0 ∨ r = -1) :
    ∀ u r, upd s.pc t p u = .insUnlock r → r = 0 ∨ r = -1 := by
  intro u r
  by_cases e : u = t
  · subst e; rw [upd_same]; exact hp r
  · rw [upd_ne _ _ e]; exact h u r

theorem Counts.move {s s' : St c D} {t : Fin c.n} {p : PC D} (h : Counts s) (e : s'.pc = upd s.pc t p) (hl : s'.log = s.log) (hpipe : s'.pipe = s.pipe)
    (h1 : ∀ r, returning r (s.pc t) = false ∧ returning r p = false) (h2 : writing (s.pc t) = false ∧ writing p = false) : Counts s' := by
  have c1 := cnt_upd (returning 0) s.pc t p
  have c2 := cnt_upd (returning (-1)) s.pc t p
  have c3 := cnt_upd writing s.pc t p
  rw [(h1 0).1, (h1 0).2] at c1
  rw [(h1 (-1)).1, (h1 (-1)).2] at c2
  rw [h2.1, h2.2] at c3
  have hb := h.bytes
  have hf := h.fail
  have hp := h.puts
  refine ⟨?_, ?_, ?_, ?_, ?_⟩
  · rw [e, hl, hpipe]; intro h0; have := hb h0; simp only [Bool.toNat_false, Nat.add_zero] at c1; omega
  · rw [e, hl]; simp only [Bool.toNat_false, Nat.add_zero] at c2; omega
  · rw [e, hl]; simp only [Bool.toNat_false, Nat.add_zero] at c1 c2 c3; omega
  · rw [e]; refine rets_goto h.rets ?_
    intro r hr
    have := (h1 r).2
    rw [hr] at this
    simp [returning] at this
  · rw [hpipe]; exact h.room

theorem Counts.step {s s' : St c D} {t : Fin c.n} (h : Counts s) (k : Step t s s') : Counts s' := by
  have c1 := fun p => cnt_upd (returning 0) s.pc t p
  have c2 := fun p => cnt_upd (returning (-1)) s.pc t p
  have c3 := fun p => cnt_upd writing s.pc t p
  have hb := h.bytes
  have hf := h.fail
  have hp := h.puts
  have hr := h.rets
  have hm := h.room
  cases k with
  | insLock e _ => exact h.move rfl rfl rfl (by rw [e]; simp [returning]) (by rw [e]; simp [writing])
  | getLock e _ => exact h.move rfl rfl rfl (by rw [e]; simp [returning]) (by rw [e]; simp [writing])
  | getHeld e => exact h.move rfl rfl rfl (by rw [e]; simp [returning]) (by rw [e]; simp [writing])
  | @insert d e =>
      have c1 := c1 .insWrite; have c2 := c2 .insWrite; have c3 := c3 .insWrite
      rw [e] at c1 c2 c3
      simp [returning, writing] at c1 c2 c3
      refine ⟨fun h0 => ?_, ?_, ?_, rets_goto hr (by simp), hm⟩
      · have := hb h0; simp [St.goto, isByte, isRet]; omega
      · simp [St.goto, isFailed, isRet]; omega
      · simp [St.goto, isPut, isRet]; omega
  | write e hroom =>
      have c1 := c1 (.insUnlock 0); have c2 := c2 (.insUnlock 0); have c3 := c3 (.insUnlock 0)
      rw [e] at c1 c2 c3
      simp [returning, writing] at c1 c2 c3
      refine ⟨fun h0 => ?_, ?_, ?_, rets_goto hr (by simp), by simp; omega⟩
      · have := hb h0; simp [St.goto]; omega
      · simp [St.goto]; omega
      · simp [St.goto]; omega
  | writeFail e hroom =>
      have c1 := c1 (.insUnlock (-1)); have c2 := c2 (.insUnlock (-1)); have c3 := c3 (.insUnlock (-1))
      rw [e] at c1 c2 c3
      simp [returning, writing] at c1 c2 c3
      refine ⟨fun h0 => ?_, ?_, ?_, rets_goto hr (by simp), hm⟩
      · have := hb h0; simp [St.goto, isByte, isRet]; omega
      · simp [St.goto, isFailed, isRet]; omega
      · simp [St.goto, isPut, isRet]; omega
  | @insUnlock r e =>
      have c1 := c1 (home (c.role t)); have c2 := c2 (home (c.role t)); have c3 := c3 (home (c.role t))
      rw [e, home_returning] at c1 c2
      rw [e, home_writing] at c3
      simp only [returning, writing] at c1 c2 c3
      have hr' := hr t r e
      refine ⟨fun h0 => ?_, ?_, ?_, rets_goto hr (fun r hr => absurd hr (home_ret _ _)), hm⟩
      · have := hb h0
        simp only [St.goto, List.countP_append, List.countP_cons, List.countP_nil, isByte, isRet]
        rcases hr' with rfl | rfl <;> simp at c1 c2 c3 ⊢ <;> omega
      · simp only [St.goto, List.countP_append, List.countP_cons, List.countP_nil, isFailed, isRet]
        rcases hr' with rfl | rfl <;> simp at c1 c2 c3 ⊢ <;> omega
      · simp only [St.goto, List.countP_append, List.countP_cons, List.countP_nil, isPut, isRet]
        rcases hr' with rfl | rfl <;> simp at c1 c2 c3 ⊢ <;> omega
  | @read b bs e hpipe =>
      have hw : ∀ r, returning r (if b = 0 then PC.getLock else PC.ended : PC D) = false := by intro r; split <;> rfl
      have hw2 : writing (if b = 0 then PC.getLock else PC.ended : PC D) = false := by split <;> rfl
      have c1 := c1 (if b = 0 then PC.getLock else PC.ended); have c2 := c2 (if b = 0 then PC.getLock else PC.ended); have c3 := c3 (if b = 0 then PC.getLock else PC.ended)
      rw [e, hw] at c1 c2
      rw [e, hw2] at c3
      simp [returning, writing] at c1 c2 c3
      rw [hpipe] at hb hm
      refine ⟨fun h0 => ?_, ?_, ?_, rets_goto hr (fun r hr => ?_), by simp at hm ⊢; omega⟩
      · have := hb h0
        simp only [St.goto, List.countP_append, List.countP_cons, List.countP_nil, isByte, isRet] at this ⊢
        by_cases hb0 : b = 0 <;> simp [hb0] at c1 c2 c3 this ⊢ <;> omega
      · simp [St.goto, isFailed, isRet]; omega
      · simp [St.goto, isPut, isRet]; omega
      · have := hw r; rw [hr] at this; simp [returning] at this
  | @getUnlock r e =>
      have c1 := c1 (home (c.role t)); have c2 := c2 (home (c.role t)); have c3 := c3 (home (c.role t))
      rw [e, home_returning] at c1 c2
      rw [e, home_writing] at c3
      simp [returning, writing] at c1 c2 c3
      refine ⟨fun h0 => ?_, ?_, ?_, rets_goto hr (fun r hr => absurd hr (home_ret _ _)), hm⟩
      · have := hb h0; simp [St.goto, isByte, isRet]; omega
      · simp [St.goto, isFailed, isRet]; omega
      · simp [St.goto, isPut, isRet]; omega
  | kill e hroom =>
      have c1 := c1 .idle; have c2 := c2 .idle; have c3 := c3 .idle
      rw [e] at c1 c2 c3
      simp [returning, writing] at c1 c2 c3
      refine ⟨fun h0 => ?_, ?_, ?_, rets_goto hr (by simp), by simp; omega⟩
      · have := hb h0; simp [St.goto, h0]; omega
      · simp [St.goto]; omega
      · simp [St.goto]; omega

theorem Counts.call {s s' : St c D} {t : Fin c.n} (h : Counts s) (k : Call t s s') : Counts s' := by
  cases k <;> rename_i e <;> exact h.move rfl rfl rfl (by rw [e]; simp [returning]) (by rw [e]; simp [writing])

theorem Reachable.shape {s : St c D} (h : Reachable s) : Shape s := by
  induction h with
  | init => exact fun t => home_shape _
  | step _ k ih => exact ih.step k
  | call _ k ih => exact ih.call k

theorem Reachable.excl {s : St c D} (h : Reachable s) : Excl s := by
  induction h with
  | init => intro t; simp [St.init, home_holds]
  | step _ k ih => exact ih.step k
  | call _ k ih => exact ih.call k

theorem Reachable.counts {s : St c D} (h : Reachable s) : Counts s := by
  induction h with
  | init =>
      have h1 : ∀ r, cnt (returning r) (St.init c D).pc = 0 := fun r => cnt_zero fun t => home_returning _ _
      have h3 : cnt writing (St.init c D).pc = 0 := cnt_zero fun t => home_writing _
      refine ⟨fun _ => ?_, ?_, ?_, fun t r h => absurd h (home_ret _ _), Nat.zero_le _⟩
      · rw [h1]; rfl
      · rw [h1]; rfl
      · rw [h1, h1, h3]; rfl
  | step _ k ih => exact ih.step k
  | call _ k ih => exact ih.call k

/-- Without takers, every entry in the queue has its byte in the pipe, or is owed to a consumer that has read one, or its byte is being written or could not be. -/
def Owed (s : St c D) : Prop := s.queue.length = s.pipe.countP (· == 0) + cnt pending s.pc + cnt writing s.pc + s.log.countP isFailed

theorem Owed.move {s s' : St c D} {t : Fin c.n} {p : PC D} (h : Owed s) (e : s'.pc = upd s.pc t p) (hl : s'.log.countP isFailed = s.log.countP isFailed) (hpipe : s'.pipe = s.pipe) (hq : s'.queue = s.queue)
    (h1 : pending (s.pc t) = pending p) (h2 : writing (s.pc t) = writing p) : Owed s' := by
  have c1 := cnt_upd pending s.pc t p
  have c3 := cnt_upd writing s.pc t p
  unfold Owed at h ⊢
  rw [h1] at c1
  rw [h2] at c3
  rw [e, hl, hpipe, hq]
  omega

theorem Owed.step {s s' : St c D} {t : Fin c.n} (hk : c.kb ≠ 0) (h : Owed s) (k : Step t s s') : Owed s' := by
  have c1 := fun p => cnt_upd pending s.pc t p
  have c3 := fun p => cnt_upd writing s.pc t p
  cases k with
  | insLock e _ => exact h.move rfl rfl rfl rfl (by rw [e]; rfl) (by rw [e]; rfl)
  | @insert d e =>
      have c1 := c1 .insWrite; have c3 := c3 .insWrite
      rw [e] at c1 c3
      simp [pending, writing] at c1 c3
      unfold Owed at h ⊢
      simp [St.goto, isFailed]; omega
  | write e _ =>
      have c1 := c1 (.insUnlock 0); have c3 := c3 (.insUnlock 0)
      rw [e] at c1 c3
      simp [pending, writing] at c1 c3
      unfold Owed at h ⊢
      simp [St.goto]; omega
  | writeFail e _ =>
      have c1 := c1 (.insUnlock (-1)); have c3 := c3 (.insUnlock (-1))
      rw [e] at c1 c3
      simp [pending, writing] at c1 c3
      unfold Owed at h ⊢
      simp [St.goto, isFailed]; omega
  | insUnlock e => exact h.move rfl (by simp [isFailed]) rfl rfl (by rw [e, home_pending]; rfl) (by rw [e, home_writing]; rfl)
  | @read b bs e hpipe =>
      have c1 := c1 (if b = 0 then .getLock else .ended); have c3 := c3 (if b = 0 then .getLock else .ended)
      unfold Owed at h ⊢
      rw [e] at c1 c3
      rw [hpipe] at h
      simp only [St.goto, List.countP_append, List.countP_cons, List.countP_nil, isFailed] at h ⊢
      by_cases hb : b = 0 <;> simp [hb, pending, writing] at c1 c3 h ⊢ <;> omega
  | getLock e _ => exact h.move rfl rfl rfl rfl (by rw [e]; rfl) (by rw [e]; rfl)
  | getHeld e =>
      have c1 := c1 (.getUnlock s.queue.head?); have c3 := c3 (.getUnlock s.queue.head?)
      have hpos : 0 < cnt pending s.pc := cnt_pos (t := t) (by rw [e]; rfl)
      rw [e] at c1 c3
      simp [pending, writing] at c1 c3
      unfold Owed at h ⊢
      simp [St.goto]; omega
  | getUnlock e => exact h.move rfl (by simp [isFailed]) rfl rfl (by rw [e, home_pending]; rfl) (by rw [e, home_writing]; rfl)
  | kill e _ =>
      have c1 := c1 .idle; have c3 := c3 .idle
      rw [e] at c1 c3
      simp [pending, writing] at c1 c3
      unfold Owed at h ⊢
      simp [St.goto, hk]; omega

theorem Owed.call {s s' : St c D} {t : Fin c.n} (ht : ∀ t, c.role t ≠ .taker) (h : Owed s) (k : Call t s s') : Owed s' := by
  cases k with
  | insert d r e => exact h.move rfl rfl rfl rfl (by rw [e]; rfl) (by rw [e]; rfl)
  | get r e => exact absurd r (ht t)
  | kill r e => exact h.move rfl rfl rfl rfl (by rw [e]; rfl) (by rw [e]; rfl)

theorem Reachable.owed {s : St c D} (hk : c.kb ≠ 0) (ht : ∀ t, c.role t ≠ .taker) (h : Reachable s) : Owed s := by
  induction h with
  | init =>
      have h1 : cnt pending (St.init c D).pc = 0 := cnt_zero fun t => home_pending _
      have h3 : cnt writing (St.init c D).pc = 0 := cnt_zero fun t => home_writing _
      unfold Owed
      rw [h1, h3]
      rfl
  | step _ k ih => exact ih.step hk k
  | call _ k ih => exact ih.call ht k

/-! ### C92 -/

/-- **C92 (what insert reports).** A call of insert queues its entry whatever it returns; it returns 0 if a zero byte was written and -1 if not. Counted over any moment: entries queued are the calls that have returned and
those still on their way out; zero bytes written (in the pipe or read) are the calls that returned, or are about to return, 0. -/
theorem c92_insert {s : St c D} (h : Reachable s) (hk : c.kb ≠ 0) (hi : ∀ t, holds (s.pc t) = false) :
    s.log.countP isPut = s.log.countP (isRet 0) + s.log.countP (isRet (-1)) ∧
    s.pipe.countP (· == 0) + s.log.countP (isByte 0) = s.log.countP (isRet 0) ∧ s.log.countP isFailed = s.log.countP (isRet (-1)) := by
  have hr : ∀ r, cnt (returning r) s.pc = 0 := fun r => cnt_zero fun t => by
    have := hi t
    cases e : s.pc t <;> rw [e] at this <;> first | rfl | cases this
  have hw : cnt writing s.pc = 0 := cnt_zero fun t => by
    have := hi t
    cases e : s.pc t <;> rw [e] at this <;> first | rfl | cases this
  have h1 := h.counts.puts
  have h2 := h.counts.bytes hk
  have h3 := h.counts.fail
  rw [hr, hr, hw] at h1
  rw [hr] at h2 h3
  omega

/-- **C92 (a byte is an entry).** If entries are only taken by threads that first read a zero byte, and the last byte is not zero, then every one of their calls of zt_threadpool_get_oput returns an entry; none returns NULL. -/
theorem c92_never_null {s : St c D} (h : Reachable s) (hk : c.kb ≠ 0) (ht : ∀ t, c.role t ≠ .taker) : .gave none ∉ s.log := by
  have key : .gave none ∉ s.log ∧ ∀ t, s.pc t ≠ .getUnlock none := by
    induction h with
    | init => exact ⟨by simp [St.init], fun t => by show home _ ≠ _; cases c.role t <;> simp [home]⟩
    | @step s s' t h k ih =>
        have ho := h.owed hk ht
        have hh : ∀ (r : Role), (home r : PC D) ≠ .getUnlock none := by intro r; cases r <;> simp [home]
        have go : ∀ (p : PC D), p ≠ .getUnlock none → ∀ u, upd s.pc t p u ≠ .getUnlock none := by
          intro p hp u
          by_cases e : u = t
          · subst e; rw [upd_same]; exact hp
          · rw [upd_ne _ _ e]; exact ih.2 u
        cases k with
        | insLock e _ => exact ⟨ih.1, go _ (by simp)⟩
        | insert e => exact ⟨by simp [ih.1], go _ (by simp)⟩
        | write e _ => exact ⟨ih.1, go _ (by simp)⟩
        | writeFail e _ => exact ⟨by simp [ih.1], go _ (by simp)⟩
        | insUnlock e => exact ⟨by simp [ih.1], go _ (hh _)⟩
        | read e _ => exact ⟨by simp [ih.1], go _ (by split <;> simp)⟩
        | getLock e _ => exact ⟨ih.1, go _ (by simp)⟩
        | getHeld e =>
            refine ⟨ih.1, go _ ?_⟩
            have hpos : 0 < cnt pending s.pc := cnt_pos (t := t) (by rw [e]; rfl)
            unfold Owed at ho
            cases hq : s.queue with
            | nil => rw [hq] at ho; simp at ho; omega
            | cons d ds => simp
        | @getUnlock r e =>
            refine ⟨?_, go _ (hh _)⟩
            have := ih.2 t
            rw [e] at this
            simp [ih.1]
            intro hr
            exact this (by rw [← hr])
        | kill e _ => exact ⟨ih.1, go _ (by simp)⟩
    | @call s s' t h k ih =>
        refine ⟨by cases k <;> exact ih.1, fun u => ?_⟩
        cases k <;> simp only [St.goto] <;> by_cases e : u = t <;> grind [upd]
  exact key.1

/-- **C92 (no entry without notice).** With consumers only, as long as the pool is not killed and the queue is not longer than the pipe can hold (and one entry more), whenever nothing can go on by itself, every insert has returned, the pipe is empty, every consumer waits for a byte, and the
queue holds exactly the entries whose insert has reported a failure. -/
theorem c92_delivered_partial {s : St c D} (h : Reachable s) (hc : 0 < c.cap) (hk : c.kb ≠ 0) (ht : ∀ t, c.role t ≠ .taker) (hnk : ∀ t, c.role t ≠ .killer) (hcons : ∃ t, c.role t = .consumer) (hlen : s.queue.length ≤ c.cap + 1) (hq : Quiet s) :
    (∀ t, c.role t = .producer → s.pc t = .idle) ∧ (∀ t, c.role t = .consumer → s.pc t = .read) ∧ s.pipe = [] ∧ s.queue.length = s.log.countP (isRet (-1)) := by
  have hsh := h.shape
  have hex := h.excl
  have hro := h.counts.room
  -- no byte but zero is ever in the pipe, so no consumer has ended
  have hz : (∀ b ∈ s.pipe, b = 0) ∧ ∀ t, s.pc t ≠ .ended := by
    clear hq hsh hex hro hlen
    induction h with
    | init => exact ⟨by simp [St.init], fun t => by show home _ ≠ _; cases c.role t <;> simp [home]⟩
    | @step s s' t h k ih =>
        have hh : ∀ (r : Role), (home r : PC D) ≠ .ended := by intro r; cases r <;> simp [home]
        have go : ∀ (p : PC D), p ≠ .ended → ∀ u, upd s.pc t p u ≠ .ended := by
          intro p hp u
          by_cases e : u = t
          · subst e; rw [upd_same]; exact hp
          · rw [upd_ne _ _ e]; exact ih.2 u
        cases k with
        | insLock e _ => exact ⟨ih.1, go _ (by simp)⟩
        | insert e => exact ⟨ih.1, go _ (by simp)⟩
        | write e _ =>
            refine ⟨fun b hb => ?_, go _ (by simp)⟩
            simp only [List.mem_append, List.mem_singleton] at hb
            rcases hb with hb | hb
            · exact ih.1 b hb
            · exact hb
        | writeFail e _ => exact ⟨ih.1, go _ (by simp)⟩
        | insUnlock e => exact ⟨ih.1, go _ (hh _)⟩
        | read e e2 =>
            have := ih.1
            rw [e2] at this
            refine ⟨fun b hb => this b (List.mem_cons_of_mem _ hb), go _ ?_⟩
            rw [if_pos (this _ (by simp))]
            simp
        | getLock e _ => exact ⟨ih.1, go _ (by simp)⟩
        | getHeld e => exact ⟨ih.1, go _ (by simp)⟩
        | getUnlock e => exact ⟨ih.1, go _ (hh _)⟩
        | kill e _ =>
            exfalso
            have := h.shape t
            rw [e] at this
            cases hr : c.role t <;> rw [hr] at this <;> first | exact hnk t hr | cases this
    | @call s s' t h k ih =>
        refine ⟨by cases k <;> exact ih.1, fun u => ?_⟩
        cases k <;> simp only [St.goto] <;> by_cases e : u = t <;> grind [upd]
  -- nobody holds the mutex, except perhaps in front of a full pipe
  have hh : ∀ t, holds (s.pc t) = true → s.pc t = .insWrite ∧ s.pipe.length = c.cap := by
    intro t hp
    cases e : s.pc t <;> rw [e] at hp <;> try cases hp
    · exact absurd (.insert e) (hq t _)
    · refine ⟨rfl, Classical.byContradiction fun hne => ?_⟩
      exact hq t _ (.write e (by omega))
    · exact absurd (.insUnlock e) (hq t _)
    · exact absurd (.getHeld e) (hq t _)
    · exact absurd (.getUnlock e) (hq t _)
  -- a consumer is in read, or waits for the mutex
  obtain ⟨w, hw⟩ := hcons
  have hpe : s.pipe = [] ∨ ∀ t, c.role t = .consumer → s.pc t = .getLock := by
    cases hp : s.pipe with
    | nil => exact .inl rfl
    | cons b bs =>
        refine .inr fun t hr => ?_
        have hs := hsh t
        rw [hr] at hs
        have hn := hh t
        cases e : s.pc t <;> rw [e] at hs hn <;> first | rfl | cases hs | skip
        · exact absurd (.read e hp) (hq t _)
        · exact absurd e (hz.2 t)
        · exact absurd (hn rfl).1 (by simp)
        · exact absurd (hn rfl).1 (by simp)
  have hno : ∀ t, holds (s.pc t) = false := by
    intro t
    cases e : holds (s.pc t) with
    | false => rfl
    | true =>
        exfalso
        obtain ⟨e1, e2⟩ := hh t e
        rcases hpe with hp | hp
        · rw [hp] at e2; simp at e2; omega
        · have h1 : 0 < cnt pending s.pc := cnt_pos (t := w) (by rw [hp w hw]; rfl)
          have h2 : 0 < cnt writing s.pc := cnt_pos (t := t) (by rw [e1]; rfl)
          have h3 : s.pipe.countP (· == 0) = s.pipe.length := by
            rw [List.countP_eq_length]
            intro b hb
            simp [hz.1 b hb]
          have := h.owed hk ht
          unfold Owed at this
          omega
  have hown : s.owner = none := by
    cases e : s.owner with
    | none => rfl
    | some t =>
        have := (hex t).1 e
        rw [hno t] at this
        cases this
  have hgl : ∀ t, s.pc t ≠ .getLock := fun t e => hq t _ (.getLock e hown)
  have hpipe : s.pipe = [] := by
    rcases hpe with hp | hp
    · exact hp
    · exact absurd (hp w hw) (hgl w)
  have hcr : ∀ t, c.role t = .consumer → s.pc t = .read := by
    intro t hr
    have hs := hsh t
    rw [hr] at hs
    have hn := hno t
    have hg := hgl t
    have hz' := hz.2 t
    cases e : s.pc t <;> rw [e] at hs hn hg hz' <;> first | rfl | exact absurd rfl hg | exact absurd rfl hz' | (cases hs; done) | (cases hn; done)
  have hpr : ∀ t, c.role t = .producer → s.pc t = .idle := by
    intro t hr
    have hs := hsh t
    rw [hr] at hs
    have hn := hno t
    cases e : s.pc t <;> rw [e] at hs hn <;> first | rfl | (cases hs; done) | (cases hn; done) | skip
    exact absurd (.insLock e hown) (hq t _)
  refine ⟨hpr, hcr, hpipe, ?_⟩
  have ho := h.owed hk ht
  unfold Owed at ho
  have h1 : cnt pending s.pc = 0 := cnt_zero fun t => by
    have hs := hsh t
    have hn := hno t
    have hg := hgl t
    cases e : s.pc t <;> rw [e] at hs hn hg <;> first | rfl | exact absurd rfl hg | cases hn
  have h2 : cnt writing s.pc = 0 := cnt_zero fun t => by
    have hn := hno t
    cases e : s.pc t <;> rw [e] at hn <;> first | rfl | cases hn
  have h3 : cnt (returning (-1)) s.pc = 0 := cnt_zero fun t => by
    have hn := hno t
    cases e : s.pc t <;> rw [e] at hn <;> first | rfl | cases hn
  have hf := h.counts.fail
  rw [h3] at hf
  rw [h1, h2, hpipe] at ho
  simp at ho
  omega

/-! ### Deadlocks -/

/-- A producer and a second thread. -/
def two (r : Role) (cap : Nat) : Cfg := ⟨2, fun t => if t = 0 then .producer else r, cap, false, 1⟩

/-- The positions of the two threads. -/
def at2 {r : Role} {cap : Nat} (p q : PC D) : Fin (two r cap).n → PC D := fun t => if t.val = 0 then p else q

theorem at2_0 {r : Role} {cap : Nat} (p q x : PC D) : upd (at2 (r := r) (cap := cap) p q) (0 : Fin 2) x = at2 x q := by
  funext t
  unfold upd at2
  have : t = (0 : Fin 2) ∨ t = (1 : Fin 2) := by
    have : ∀ t : Fin 2, t = 0 ∨ t = 1 := by decide
    exact this t
  rcases this with rfl | rfl <;> rfl

theorem at2_1 {r : Role} {cap : Nat} (p q x : PC D) : upd (at2 (r := r) (cap := cap) p q) (1 : Fin 2) x = at2 p x := by
  funext t
  unfold upd at2
  have : t = (0 : Fin 2) ∨ t = (1 : Fin 2) := by
    have : ∀ t : Fin 2, t = 0 ∨ t = 1 := by decide
    exact this t
  rcases this with rfl | rfl <;> rfl

/-- The producer inserts an entry while the other thread stays where it is. -/
theorem insert_one {r : Role} {cap : Nat} (d : D) {q : PC D} {qu : List D} {pi : List Byte} {lg : List (Event D)} (h : Reachable (c := two r cap) ⟨qu, none, pi, at2 .idle q, lg⟩) (hp : pi.length < cap) :
    ∃ lg', Reachable (c := two r cap) ⟨qu ++ [d], none, pi ++ [0], at2 .idle q, lg'⟩ := by
  have h1 := Reachable.call h (.insert (t := (0 : Fin 2)) d rfl rfl)
  simp only [St.goto, at2_0] at h1
  have h2 := Reachable.step h1 (.insLock (t := (0 : Fin 2)) rfl rfl)
  simp only [St.goto, at2_0] at h2
  have h3 := Reachable.step h2 (.insert (t := (0 : Fin 2)) rfl)
  simp only [St.goto, at2_0] at h3
  have h4 := Reachable.step h3 (.write (t := (0 : Fin 2)) rfl hp)
  simp only [St.goto, at2_0] at h4
  have h5 := Reachable.step h4 (.insUnlock (t := (0 : Fin 2)) rfl)
  simp only [St.goto, at2_0] at h5
  exact ⟨_, h5⟩

/-- The producer gets as far as the write. -/
theorem insert_part {r : Role} {cap : Nat} (d : D) {q : PC D} {qu : List D} {pi : List Byte} {lg : List (Event D)} (h : Reachable (c := two r cap) ⟨qu, none, pi, at2 .idle q, lg⟩) :
    ∃ lg', Reachable (c := two r cap) ⟨qu ++ [d], some (0 : Fin 2), pi, at2 .insWrite q, lg'⟩ := by
  have h1 := Reachable.call h (.insert (t := (0 : Fin 2)) d rfl rfl)
  simp only [St.goto, at2_0] at h1
  have h2 := Reachable.step h1 (.insLock (t := (0 : Fin 2)) rfl rfl)
  simp only [St.goto, at2_0] at h2
  have h3 := Reachable.step h2 (.insert (t := (0 : Fin 2)) rfl)
  simp only [St.goto, at2_0] at h3
  exact ⟨_, h3⟩

theorem insert_many {r : Role} {cap : Nat} (d : D) {q : PC D} (k : Nat) {qu : List D} {pi : List Byte} {lg : List (Event D)} (h : Reachable (c := two r cap) ⟨qu, none, pi, at2 .idle q, lg⟩) (hp : pi.length + k ≤ cap) :
    ∃ lg', Reachable (c := two r cap) ⟨qu ++ List.replicate k d, none, pi ++ List.replicate k 0, at2 .idle q, lg'⟩ := by
  induction k with
  | zero => exact ⟨lg, by simpa using h⟩
  | succ k ih =>
      obtain ⟨l1, h1⟩ := ih (by omega)
      obtain ⟨l2, h2⟩ := insert_one d h1 (by simp; omega)
      exact ⟨l2, by simpa [List.replicate_succ', List.append_assoc] using h2⟩

theorem quiet_two {r : Role} {cap : Nat} {qu : List D} {pi : List Byte} {lg : List (Event D)} (hp : cap ≤ pi.length) : Quiet (c := two r cap) ⟨qu, some (0 : Fin 2), pi, at2 .insWrite .getLock, lg⟩ := by
  intro t s' k
  have : t = (0 : Fin 2) ∨ t = (1 : Fin 2) := by
    have : ∀ t : Fin 2, t = 0 ∨ t = 1 := by decide
    exact this t
  rcases this with rfl | rfl
  · cases k with
    | write e hr => simp [two] at hr; omega
    | writeFail e hr => simp [two] at hr
    | insLock e | insert e | insUnlock e | read e | getLock e | getHeld e | getUnlock e | kill e => simp [at2] at e
  · cases k with
    | getLock e hr => simp at hr
    | insLock e | insert e | insUnlock e | read e | getHeld e | getUnlock e | kill e | write e | writeFail e => simp [at2] at e

/-- Violation of C92: insert writes to the pipe with the mutex held (zt_threads.c 402-413, 427-438). However large the pipe, when it is full the pool can be stuck for ever although the consumer does what it should: it has
read a byte and waits for the mutex, which the producer holds while it waits for room in the pipe. -/
theorem c92_deadlock_violation (d : D) (cap : Nat) (hc : 0 < cap) : ∃ s : St (two .consumer cap) D, Reachable s ∧ Quiet s ∧ s.pc (0 : Fin 2) = .insWrite ∧ s.pc (1 : Fin 2) = .getLock ∧ s.pipe = List.replicate cap 0 := by
  have h0 : Reachable (c := two .consumer cap) (D := D) ⟨[], none, [], at2 .idle .read, []⟩ := by
    have : at2 .idle .read = (St.init (two .consumer cap) D).pc := by
      funext t
      have : t = (0 : Fin 2) ∨ t = (1 : Fin 2) := by
        have : ∀ t : Fin 2, t = 0 ∨ t = 1 := by decide
        exact this t
      rcases this with rfl | rfl <;> rfl
    rw [this]
    exact .init
  obtain ⟨l1, h1⟩ := insert_one d h0 (by simpa using hc)
  have h2 := Reachable.step h1 (.read (t := (1 : Fin 2)) rfl rfl)
  simp only [St.goto, at2_1] at h2
  obtain ⟨l3, h3⟩ := insert_many d cap h2 (by simp)
  obtain ⟨l4, h4⟩ := insert_part d h3
  exact ⟨_, h4, quiet_two (by simp), rfl, rfl, by simp⟩

/-- C92 is about something: an entry is inserted, its byte read and the entry delivered, and the pool is at rest. -/
theorem c92_demo (d : D) {cap : Nat} (hc : 0 < cap) : ∃ s : St (two .consumer cap) D, Reachable s ∧ Quiet s ∧ s.queue.length ≤ cap + 1 ∧ .gave (some d) ∈ s.log ∧ s.queue = [] := by
  have h0 : Reachable (c := two .consumer cap) (D := D) ⟨[], none, [], at2 .idle .read, []⟩ := by
    have : at2 .idle .read = (St.init (two .consumer cap) D).pc := by
      funext t
      have : t = (0 : Fin 2) ∨ t = (1 : Fin 2) := by
        have : ∀ t : Fin 2, t = 0 ∨ t = 1 := by decide
        exact this t
      rcases this with rfl | rfl <;> rfl
    rw [this]
    exact .init
  obtain ⟨l1, h1⟩ := insert_one d h0 (by simpa using hc)
  have h2 := Reachable.step h1 (.read (t := (1 : Fin 2)) rfl rfl)
  simp only [St.goto, at2_1] at h2
  have h3 := Reachable.step h2 (.getLock (t := (1 : Fin 2)) rfl rfl)
  simp only [St.goto, at2_1] at h3
  have h4 := Reachable.step h3 (.getHeld (t := (1 : Fin 2)) rfl)
  simp only [St.goto, at2_1] at h4
  have h5 := Reachable.step h4 (.getUnlock (t := (1 : Fin 2)) rfl)
  simp only [St.goto, at2_1] at h5
  refine ⟨_, h5, ?_, by simp, by simp, by simp⟩
  intro t s' k
  have : t = (0 : Fin 2) ∨ t = (1 : Fin 2) := by
    have : ∀ t : Fin 2, t = 0 ∨ t = 1 := by decide
    exact this t
  rcases this with rfl | rfl
  · cases k with
    | insLock e | insert e | insUnlock e | read e | getLock e | getHeld e | getUnlock e | kill e | write e | writeFail e => simp [at2] at e
  · cases k with
    | read e hr => simp at hr
    | insLock e | insert e | insUnlock e | getLock e | getHeld e | getUnlock e | kill e | write e | writeFail e => simp [at2, home, two] at e

/-- Violation of C92: a pool with a pipe nobody reads (its queue is emptied by the loops of the pool or by polling zt_threadpool_get_oput) is stuck after as many inserts as the pipe holds bytes and one more, even if every entry
could be taken at once. -/
theorem c92_unread_violation (d : D) (cap : Nat) : ∃ s : St (two .taker cap) D, Reachable s ∧ Quiet s ∧ s.pc (0 : Fin 2) = .insWrite ∧ s.pc (1 : Fin 2) = .getLock ∧ s.queue = List.replicate (cap + 1) d := by
  have h0 : Reachable (c := two .taker cap) (D := D) ⟨[], none, [], at2 .idle .idle, []⟩ := by
    have : at2 .idle .idle = (St.init (two .taker cap) D).pc := by
      funext t
      have : t = (0 : Fin 2) ∨ t = (1 : Fin 2) := by
        have : ∀ t : Fin 2, t = 0 ∨ t = 1 := by decide
        exact this t
      rcases this with rfl | rfl <;> rfl
    rw [this]
    exact .init
  obtain ⟨l1, h1⟩ := insert_many d cap h0 (by simp)
  have h2 := Reachable.call h1 (.get (t := (1 : Fin 2)) rfl rfl)
  simp only [St.goto, at2_1] at h2
  obtain ⟨l4, h4⟩ := insert_part d h2
  exact ⟨_, h4, quiet_two (by simp), rfl, rfl, by simp [List.replicate_succ']⟩

/-- The last byte differs from those of the entries on the output pipe. -/
theorem c92_kill_byte (n : Nat) : killByte .o n ≠ 0 ∧ (n % 256 ≠ 0 → killByte .i n ≠ 0) := by
  refine ⟨by show (1 : Byte) ≠ 0; decide, fun h e => h ?_⟩
  have := congrArg UInt8.toNat e
  simpa [killByte] using this

/-- Violation of C92: zt_threadpool_kill writes `i` instead of `k` to the input pipe (zt_threads.c 543): with a number of threads divisible by 256 the last byte looks like one more entry. -/
theorem c92_kill_byte_violation {n : Nat} (h : n % 256 = 0) : killByte .i n = 0 := by
  apply UInt8.toNat_inj.1
  simpa [killByte] using h

/-! ### Creation: zt_threadpool_init -/

/-- What `pipe` answers in the state with these open descriptors: two descriptors that were not open, or failure. -/
structure Os where
  pipe : List Nat → Option (Nat × Nat)
  fresh : ∀ o r w, pipe o = some (r, w) → r ∉ o ∧ w ∉ o ∧ r ≠ w

/-- `close`: of a descriptor that is not open it does nothing (EBADF). -/
def close (o : List Nat) (fd : Nat) : List Nat := o.filter (· ≠ fd)

/-- zt_threads.c 560-569 (571-585): the pipe of a queue, if asked for; `(none, none)` stands for the descriptors -1, the outer `none` for failure. -/
def openPipe (os : Os) (want : Bool) (o : List Nat) : Option (Option (Nat × Nat)) × List Nat :=
  if want then
    match os.pipe o with
    | some (r, w) => (some (some (r, w)), r :: w :: o)
    | none => (none, o)
  else (some none, o)

/-- zt_threads.c 551-600 `zt_threadpool_init`, as far as descriptors go: the descriptors of the two pipes or NULL, and what is open afterwards. When the second pipe fails, 573-576 close `oput_fd_sigs`, which calloc (556) has
set to 0 and the failed pipe() has left so. -/
def init (os : Os) (wi wo : Bool) (o : List Nat) : Option (Option (Nat × Nat) × Option (Nat × Nat)) × List Nat :=
  match openPipe os wi o with
  | (none, o) => (none, o)
  | (some i, o) =>
      match openPipe os wo o with
      | (some u, o) => (some (i, u), o)
      | (none, o) => (none, if wi then close (close o 0) 0 else o)

/-- zt_threads.c 494-512: the four functions giving descriptors. -/
def fdReader (p : Option (Nat × Nat)) : Int := match p with | some (r, _) => r | none => -1
def fdWriter (p : Option (Nat × Nat)) : Int := match p with | some (_, w) => w | none => -1

/-- **C92 (creation).** A pool that is created has exactly the pipes asked for, each with its own two new descriptors, and -1 is given for the others; nothing else is opened or closed. -/
theorem c92_init (os : Os) (wi wo : Bool) (o o' : List Nat) (i u : Option (Nat × Nat)) (h : init os wi wo o = (some (i, u), o')) :
    i.isSome = wi ∧ u.isSome = wo ∧ (wi = false → fdReader i = -1 ∧ fdWriter i = -1) ∧ (wo = false → fdReader u = -1 ∧ fdWriter u = -1) ∧
    ∃ new : List Nat, new.Nodup ∧ (∀ x ∈ new, x ∉ o) ∧ o'.Perm (new ++ o) ∧ new = (i.toList ++ u.toList).flatMap fun p => [p.1, p.2] := by
  unfold init openPipe at h
  cases wi <;> cases wo <;> simp only [if_true, if_false, Bool.false_eq_true] at h
  · cases h; exact ⟨rfl, rfl, fun _ => ⟨rfl, rfl⟩, fun _ => ⟨rfl, rfl⟩, [], by simp⟩
  · cases e : os.pipe o with
    | none => rw [e] at h; simp at h
    | some x =>
        obtain ⟨r, w⟩ := x
        rw [e] at h; simp at h
        obtain ⟨⟨rfl, rfl⟩, rfl⟩ := h
        obtain ⟨h1, h2, h3⟩ := os.fresh _ _ _ e
        exact ⟨rfl, rfl, fun _ => ⟨rfl, rfl⟩, by simp, [r, w], by simp [h3], by simp [h1, h2], .refl _, by simp⟩
  · cases e : os.pipe o with
    | none => rw [e] at h; simp at h
    | some x =>
        obtain ⟨r, w⟩ := x
        rw [e] at h; simp at h
        obtain ⟨⟨rfl, rfl⟩, rfl⟩ := h
        obtain ⟨h1, h2, h3⟩ := os.fresh _ _ _ e
        exact ⟨rfl, rfl, by simp, fun _ => ⟨rfl, rfl⟩, [r, w], by simp [h3], by simp [h1, h2], .refl _, by simp⟩
  · cases e : os.pipe o with
    | none => rw [e] at h; simp at h
    | some x =>
        obtain ⟨r, w⟩ := x
        rw [e] at h
        simp only at h
        cases e' : os.pipe (r :: w :: o) with
        | none => rw [e'] at h; simp at h
        | some y =>
            obtain ⟨r', w'⟩ := y
            rw [e'] at h; simp at h
            obtain ⟨⟨rfl, rfl⟩, rfl⟩ := h
            obtain ⟨h1, h2, h3⟩ := os.fresh _ _ _ e
            obtain ⟨g1, g2, g3⟩ := os.fresh _ _ _ e'
            simp only [List.mem_cons, not_or] at g1 g2
            refine ⟨rfl, rfl, by simp, by simp, [r, w, r', w'], ?_, ?_, ?_, by simp⟩
            · simp [h3, g3, Ne.symm g1.1, Ne.symm g1.2.1, Ne.symm g2.1, Ne.symm g2.2.1]
            · simp [h1, h2, g1.2.2, g2.2.2]
            · exact (List.perm_append_comm (l₁ := [r', w']) (l₂ := [r, w])).append_right o

/-- **C92 (creation fails).** If at most one pipe is asked for, or the first one fails, a failing zt_threadpool_init leaves the descriptors as they were. -/
theorem c92_init_fails_partial (os : Os) (wi wo : Bool) (o o' : List Nat) (h : init os wi wo o = (none, o')) (h1 : (wi && wo) = false ∨ os.pipe o = none) : o' = o := by
  unfold init openPipe at h
  cases wi <;> cases wo <;> simp only [if_true, if_false, Bool.false_eq_true] at h
  · cases h
  · cases e : os.pipe o with
    | none => rw [e] at h; simp at h; exact h.symm
    | some x => rw [e] at h; simp at h
  · cases e : os.pipe o with
    | none => rw [e] at h; simp at h; exact h.symm
    | some x => rw [e] at h; simp at h
  · have h1 : os.pipe o = none := by simpa using h1
    rw [h1] at h; simp at h; exact h.symm

/-- Violation of C92: when the second of two pipes fails, the clean-up closes the wrong descriptors (zt_threads.c 573-576): those of the first pipe stay open for ever, and descriptor 0, the standard input of the program, is
closed. -/
theorem c92_init_fails_violation (os : Os) (o : List Nat) (r w : Nat) (h1 : os.pipe o = some (r, w)) (h2 : os.pipe (r :: w :: o) = none) (h0 : 0 ∈ o) :
    ∃ o', init os true true o = (none, o') ∧ r ∈ o' ∧ w ∈ o' ∧ 0 ∉ o' := by
  obtain ⟨f1, f2, f3⟩ := os.fresh _ _ _ h1
  refine ⟨close (close (r :: w :: o) 0) 0, ?_, ?_, ?_, ?_⟩
  · simp [init, openPipe, h1, h2]
  · have : r ≠ 0 := fun e => f1 (e ▸ h0)
    simp [close, this]
  · have : w ≠ 0 := fun e => f2 (e ▸ h0)
    simp [close, this]
  · simp [close]

end ZT.Pool.Pipe
