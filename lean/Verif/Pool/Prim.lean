import Verif.IntTime.Props

/-!
# C96: the thread primitives (zt_threads.c 15-206, zt_threads/zt_threads_pthreads.c)

Locks, conditions and threads are reached through tables of callbacks that the program registers. Modelled: the registration of the three tables, the wrappers that look up the
tables, the pthreads implementation of lock and unlock over a model of POSIX mutexes (type PTHREAD_MUTEX_DEFAULT), and the computation of the deadline of a timed wait.
Function pointers are numbers, `none` is NULL.
-/

namespace ZT.Pool.Prim

open ZT.Time ZT.CInt

/-- zt_threads.h 19-24 `struct zt_threads_lock_callbacks`. -/
structure LockCbs where
  alloc : Option Nat
  free : Option Nat
  lock : Option Nat
  unlock : Option Nat
  deriving DecidableEq, Repr

/-- zt_threads.h 26-31 `struct zt_threads_cond_callbacks`. -/
structure CondCbs where
  alloc : Option Nat
  free : Option Nat
  signal : Option Nat
  wait : Option Nat
  deriving DecidableEq, Repr

/-- zt_threads.h 33-40 `struct zt_threads_cntrl_callbacks`. -/
structure CntrlCbs where
  start : Option Nat
  fin : Option Nat
  kill : Option Nat
  id : Option Nat
  join : Option Nat
  detach : Option Nat
  deriving DecidableEq, Repr

/-- The three tables, zt_threads.c 19-29. -/
structure Cbs where
  lock : LockCbs
  cond : CondCbs
  cntrl : CntrlCbs
  deriving DecidableEq, Repr

/-- zt_threads.c 19-29: all NULL at the start of the program. -/
def Cbs.zero : Cbs := ⟨⟨none, none, none, none⟩, ⟨none, none, none, none⟩, ⟨none, none, none, none, none, none⟩⟩

/-- zt_threads.c 37-52 `zt_threads_set_lock_callbacks`: new table and result. -/
def setLock (cur : LockCbs) : Option LockCbs → LockCbs × Int
  | none => (⟨none, none, none, none⟩, 0)
  | some c => if c.alloc.isSome && c.free.isSome && c.lock.isSome && c.unlock.isSome then (c, 0) else (cur, -1)

/-- zt_threads.c 54-69 `zt_threads_set_cond_callbacks`. -/
def setCond (cur : CondCbs) : Option CondCbs → CondCbs × Int
  | none => (⟨none, none, none, none⟩, 0)
  | some c => if c.alloc.isSome && c.free.isSome && c.signal.isSome && c.wait.isSome then (c, 0) else (cur, -1)

/-- zt_threads.c 71-86 `zt_threads_set_cntrl_callbacks`. -/
def setCntrl (cur : CntrlCbs) : Option CntrlCbs → CntrlCbs × Int
  | none => (⟨none, none, none, none, none, none⟩, 0)
  | some c => if c.start.isSome && c.fin.isSome then (c, 0) else (cur, -1)

/-- The calls of the primitives, with their arguments as numbers. -/
inductive Call where
  | allocLock (ty : Int)
  | freeLock (m : Nat) (ty : Int)
  | lock (mode : Int) (m : Nat)
  | unlock (mode : Int) (m : Nat)
  | condAlloc (ty : Int)
  | condFree (c : Nat)
  | signal (c : Nat) (broadcast : Int)
  | wait (c m tv : Nat)
  | start (th attr cb arg : Nat)
  | fin (arg : Nat)
  | kill (th : Nat)
  | id
  | join (th data : Nat)
  | detach (th : Nat)
  deriving DecidableEq, Repr

/-- A callback called with arguments. -/
structure Inv where
  fn : Nat
  args : List Int
  deriving DecidableEq, Repr

/-- `if (cb) return cb(args); return dflt;` -/
def via (f : Option Nat) (args : List Int) (dflt : Int) (impl : Inv → Int) : Int × List Inv :=
  match f with
  | some f => (impl ⟨f, args⟩, [⟨f, args⟩])
  | none => (dflt, [])

/-- zt_threads.c 88-206: the wrappers: result (0 for void functions without callback) and callbacks called. -/
def invoke (t : Cbs) (impl : Inv → Int) : Call → Int × List Inv
  | .allocLock ty => via t.lock.alloc [ty] 0 impl
  | .freeLock m ty => via t.lock.free [m, ty] 0 impl
  | .lock mode m => via t.lock.lock [mode, m] 0 impl
  | .unlock mode m => via t.lock.unlock [mode, m] 0 impl
  | .condAlloc ty => via t.cond.alloc [ty] 0 impl
  | .condFree c => via t.cond.free [c] 0 impl
  | .signal c b => via t.cond.signal [c, b] 0 impl
  | .wait c m tv => via t.cond.wait [c, m, tv] 0 impl
  | .start th attr cb arg => via t.cntrl.start [th, attr, cb, arg] 0 impl
  | .fin arg => via t.cntrl.fin [arg] 0 impl
  | .kill th => via t.cntrl.kill [th] 0 impl
  | .id => via t.cntrl.id [] 0 impl
  | .join th data => via t.cntrl.join [th, data] 0 impl
  | .detach th => via t.cntrl.detach [th] (-1) impl

/-- Registrations. -/
inductive Reg where
  | lock (c : Option LockCbs)
  | cond (c : Option CondCbs)
  | cntrl (c : Option CntrlCbs)
  deriving DecidableEq, Repr

/-- One registration: new tables and result. -/
def register (t : Cbs) : Reg → Cbs × Int
  | .lock c => ({ t with lock := (setLock t.lock c).1 }, (setLock t.lock c).2)
  | .cond c => ({ t with cond := (setCond t.cond c).1 }, (setCond t.cond c).2)
  | .cntrl c => ({ t with cntrl := (setCntrl t.cntrl c).1 }, (setCntrl t.cntrl c).2)

/-- The tables after a history of registrations. -/
def tables (regs : List Reg) : Cbs := regs.foldl (fun t r => (register t r).1) Cbs.zero

/-- The three tables of zt_threads_pthreads.c 191-214: the pthreads functions are numbered from 1 in the order of the file. -/
def pthreadsLock : LockCbs := ⟨some 1, some 2, some 3, some 4⟩
def pthreadsCond : CondCbs := ⟨some 5, some 6, some 7, some 8⟩
def pthreadsCntrl : CntrlCbs := ⟨some 9, some 10, some 11, some 12, some 13, some 14⟩

/-- zt_threads_pthreads.c 191-222 `zt_threads_use_pthreads`, without the pointer `zt_threads_alloc_thread` (see Verif.Pool.Life). -/
def usePthreads : List Reg := [.lock (some pthreadsLock), .cond (some pthreadsCond), .cntrl (some pthreadsCntrl)]

/-! ## Specification -/

/-- What a program gave to the last accepted registration of a table: `regs` are its registrations of the table, oldest first; a registration is accepted if it is NULL or complete. -/
inductive Current {α : Type} (complete : α → Prop) : List (Option α) → Option α → Prop
  | start : Current complete [] none
  | clear {l x} : Current complete l x → Current complete (l ++ [none]) none
  | accept {l x c} : Current complete l x → complete c → Current complete (l ++ [some c]) (some c)
  | refuse {l x c} : Current complete l x → ¬ complete c → Current complete (l ++ [some c]) x

/-- The registrations of each table in a history. -/
def lockRegs (regs : List Reg) : List (Option LockCbs) := regs.filterMap fun r => match r with
  | .lock c => some c
  | _ => none
def condRegs (regs : List Reg) : List (Option CondCbs) := regs.filterMap fun r => match r with
  | .cond c => some c
  | _ => none
def cntrlRegs (regs : List Reg) : List (Option CntrlCbs) := regs.filterMap fun r => match r with
  | .cntrl c => some c
  | _ => none

/-- All functions of a table of locks are there. -/
def LockCbs.Complete (c : LockCbs) : Prop := c.alloc ≠ none ∧ c.free ≠ none ∧ c.lock ≠ none ∧ c.unlock ≠ none
def CondCbs.Complete (c : CondCbs) : Prop := c.alloc ≠ none ∧ c.free ≠ none ∧ c.signal ≠ none ∧ c.wait ≠ none
/-- What the code asks of a table of threads. -/
def CntrlCbs.Complete (c : CntrlCbs) : Prop := c.start ≠ none ∧ c.fin ≠ none

/-- The function of the three tables in use (`none`: no table) that a call is for. -/
def Call.target (lk : Option LockCbs) (cd : Option CondCbs) (ct : Option CntrlCbs) : Call → Option Nat
  | .allocLock _ => lk.bind (·.alloc)
  | .freeLock _ _ => lk.bind (·.free)
  | .lock _ _ => lk.bind (·.lock)
  | .unlock _ _ => lk.bind (·.unlock)
  | .condAlloc _ => cd.bind (·.alloc)
  | .condFree _ => cd.bind (·.free)
  | .signal _ _ => cd.bind (·.signal)
  | .wait _ _ _ => cd.bind (·.wait)
  | .start _ _ _ _ => ct.bind (·.start)
  | .fin _ => ct.bind (·.fin)
  | .kill _ => ct.bind (·.kill)
  | .id => ct.bind (·.id)
  | .join _ _ => ct.bind (·.join)
  | .detach _ => ct.bind (·.detach)

/-- The arguments of a call. -/
def Call.args : Call → List Int
  | .allocLock ty => [ty]
  | .freeLock m ty => [m, ty]
  | .lock mode m => [mode, m]
  | .unlock mode m => [mode, m]
  | .condAlloc ty => [ty]
  | .condFree c => [c]
  | .signal c b => [c, b]
  | .wait c m tv => [c, m, tv]
  | .start th attr cb arg => [th, attr, cb, arg]
  | .fin arg => [arg]
  | .kill th => [th]
  | .id => []
  | .join th data => [th, data]
  | .detach th => [th]

/-! ## Proofs: registration -/

theorem tables_snoc (l : List Reg) (r : Reg) : tables (l ++ [r]) = (register (tables l) r).1 := by simp [tables, List.foldl_append]

theorem lock_complete (c : LockCbs) : (c.alloc.isSome && c.free.isSome && c.lock.isSome && c.unlock.isSome) = true ↔ c.Complete := by
  simp only [LockCbs.Complete, Bool.and_eq_true, Option.isSome_iff_ne_none, and_assoc]
theorem cond_complete (c : CondCbs) : (c.alloc.isSome && c.free.isSome && c.signal.isSome && c.wait.isSome) = true ↔ c.Complete := by
  simp only [CondCbs.Complete, Bool.and_eq_true, Option.isSome_iff_ne_none, and_assoc]
theorem cntrl_complete (c : CntrlCbs) : (c.start.isSome && c.fin.isSome) = true ↔ c.Complete := by
  simp only [CntrlCbs.Complete, Bool.and_eq_true, Option.isSome_iff_ne_none]

/-- **C96 (registration).** After any history of registrations there are tables (`none`: none registered) such that each is the last one accepted in the history, a registration is accepted
exactly if it is NULL or complete, which its result tells, and every primitive calls the function of that table once, with the caller's arguments, and returns its result. -/
theorem c96_dispatch (regs : List Reg) : ∃ (lk : Option LockCbs) (cd : Option CondCbs) (ct : Option CntrlCbs),
    Current LockCbs.Complete (lockRegs regs) lk ∧ Current CondCbs.Complete (condRegs regs) cd ∧ Current CntrlCbs.Complete (cntrlRegs regs) ct ∧
    (∀ impl call f, call.target lk cd ct = some f → invoke (tables regs) impl call = (impl ⟨f, call.args⟩, [⟨f, call.args⟩])) ∧
    ∀ impl call, call.target lk cd ct = none → (invoke (tables regs) impl call).2 = [] := by
  have key : ∃ (lk : Option LockCbs) (cd : Option CondCbs) (ct : Option CntrlCbs),
      Current LockCbs.Complete (lockRegs regs) lk ∧ Current CondCbs.Complete (condRegs regs) cd ∧ Current CntrlCbs.Complete (cntrlRegs regs) ct ∧
      tables regs = ⟨lk.getD Cbs.zero.lock, cd.getD Cbs.zero.cond, ct.getD Cbs.zero.cntrl⟩ := by
    generalize hn : regs.length = n
    induction n generalizing regs with
    | zero => rw [List.length_eq_zero_iff] at hn; subst hn; exact ⟨none, none, none, .start, .start, .start, rfl⟩
    | succ n ih =>
        obtain ⟨l, r, rfl⟩ : ∃ l r, regs = l ++ [r] := ⟨regs.dropLast, regs.getLast (by intro h; rw [h] at hn; cases hn), (List.dropLast_concat_getLast _).symm⟩
        obtain ⟨lk, cd, ct, h1, h2, h3, h4⟩ := ih l (by simpa using hn)
        rw [tables_snoc, h4]
        cases r with
        | lock c =>
            have e1 : lockRegs (l ++ [.lock c]) = lockRegs l ++ [c] := by simp [lockRegs]
            have e2 : condRegs (l ++ [.lock c]) = condRegs l := by simp [condRegs]
            have e3 : cntrlRegs (l ++ [.lock c]) = cntrlRegs l := by simp [cntrlRegs]
            rw [e1, e2, e3]
            cases c with
            | none => exact ⟨none, cd, ct, h1.clear, h2, h3, rfl⟩
            | some c =>
                by_cases hc : c.Complete
                · exact ⟨some c, cd, ct, h1.accept hc, h2, h3, by simp [register, setLock, (lock_complete c).2 hc]⟩
                · refine ⟨lk, cd, ct, h1.refuse hc, h2, h3, ?_⟩
                  have : ¬ (c.alloc.isSome && c.free.isSome && c.lock.isSome && c.unlock.isSome) = true := fun h => hc ((lock_complete c).1 h)
                  simp only [register, setLock, if_neg this]
        | cond c =>
            have e1 : lockRegs (l ++ [.cond c]) = lockRegs l := by simp [lockRegs]
            have e2 : condRegs (l ++ [.cond c]) = condRegs l ++ [c] := by simp [condRegs]
            have e3 : cntrlRegs (l ++ [.cond c]) = cntrlRegs l := by simp [cntrlRegs]
            rw [e1, e2, e3]
            cases c with
            | none => exact ⟨lk, none, ct, h1, h2.clear, h3, rfl⟩
            | some c =>
                by_cases hc : c.Complete
                · exact ⟨lk, some c, ct, h1, h2.accept hc, h3, by simp [register, setCond, (cond_complete c).2 hc]⟩
                · refine ⟨lk, cd, ct, h1, h2.refuse hc, h3, ?_⟩
                  have : ¬ (c.alloc.isSome && c.free.isSome && c.signal.isSome && c.wait.isSome) = true := fun h => hc ((cond_complete c).1 h)
                  simp only [register, setCond, if_neg this]
        | cntrl c =>
            have e1 : lockRegs (l ++ [.cntrl c]) = lockRegs l := by simp [lockRegs]
            have e2 : condRegs (l ++ [.cntrl c]) = condRegs l := by simp [condRegs]
            have e3 : cntrlRegs (l ++ [.cntrl c]) = cntrlRegs l ++ [c] := by simp [cntrlRegs]
            rw [e1, e2, e3]
            cases c with
            | none => exact ⟨lk, cd, none, h1, h2, h3.clear, rfl⟩
            | some c =>
                by_cases hc : c.Complete
                · exact ⟨lk, cd, some c, h1, h2, h3.accept hc, by simp [register, setCntrl, (cntrl_complete c).2 hc]⟩
                · refine ⟨lk, cd, ct, h1, h2, h3.refuse hc, ?_⟩
                  have : ¬ (c.start.isSome && c.fin.isSome) = true := fun h => hc ((cntrl_complete c).1 h)
                  simp only [register, setCntrl, if_neg this]
  obtain ⟨lk, cd, ct, h1, h2, h3, h4⟩ := key
  have gl : ∀ f : LockCbs → Option Nat, f Cbs.zero.lock = none → f (lk.getD Cbs.zero.lock) = lk.bind f := by intro f hf; cases lk <;> simp [hf]
  have gc : ∀ f : CondCbs → Option Nat, f Cbs.zero.cond = none → f (cd.getD Cbs.zero.cond) = cd.bind f := by intro f hf; cases cd <;> simp [hf]
  have gt : ∀ f : CntrlCbs → Option Nat, f Cbs.zero.cntrl = none → f (ct.getD Cbs.zero.cntrl) = ct.bind f := by intro f hf; cases ct <;> simp [hf]
  have hv : ∀ impl call, ∃ d, invoke (tables regs) impl call = via (call.target lk cd ct) call.args d impl := by
    intro impl call
    rw [h4]
    cases call with
    | allocLock ty => exact ⟨0, by simp only [invoke, Call.target, Call.args]; rw [← gl (·.alloc) rfl]⟩
    | freeLock m ty => exact ⟨0, by simp only [invoke, Call.target, Call.args]; rw [← gl (·.free) rfl]⟩
    | lock mode m => exact ⟨0, by simp only [invoke, Call.target, Call.args]; rw [← gl (·.lock) rfl]⟩
    | unlock mode m => exact ⟨0, by simp only [invoke, Call.target, Call.args]; rw [← gl (·.unlock) rfl]⟩
    | condAlloc ty => exact ⟨0, by simp only [invoke, Call.target, Call.args]; rw [← gc (·.alloc) rfl]⟩
    | condFree c => exact ⟨0, by simp only [invoke, Call.target, Call.args]; rw [← gc (·.free) rfl]⟩
    | signal c b => exact ⟨0, by simp only [invoke, Call.target, Call.args]; rw [← gc (·.signal) rfl]⟩
    | wait c m tv => exact ⟨0, by simp only [invoke, Call.target, Call.args]; rw [← gc (·.wait) rfl]⟩
    | start th attr cb arg => exact ⟨0, by simp only [invoke, Call.target, Call.args]; rw [← gt (·.start) rfl]⟩
    | fin arg => exact ⟨0, by simp only [invoke, Call.target, Call.args]; rw [← gt (·.fin) rfl]⟩
    | kill th => exact ⟨0, by simp only [invoke, Call.target, Call.args]; rw [← gt (·.kill) rfl]⟩
    | id => exact ⟨0, by simp only [invoke, Call.target, Call.args]; rw [← gt (·.id) rfl]⟩
    | join th data => exact ⟨0, by simp only [invoke, Call.target, Call.args]; rw [← gt (·.join) rfl]⟩
    | detach th => exact ⟨-1, by simp only [invoke, Call.target, Call.args]; rw [← gt (·.detach) rfl]⟩
  refine ⟨lk, cd, ct, h1, h2, h3, ?_, ?_⟩
  · intro impl call f hf
    obtain ⟨d, e⟩ := hv impl call
    rw [e, hf]; rfl
  · intro impl call hf
    obtain ⟨d, e⟩ := hv impl call
    rw [e, hf]; rfl

/-- **C96 (registration).** The result of a registration tells whether it was accepted. -/
theorem c96_registered (t : Cbs) : (∀ c, (register t (.lock c)).2 = 0 ↔ ∀ x, c = some x → x.Complete) ∧ (∀ c, (register t (.cond c)).2 = 0 ↔ ∀ x, c = some x → x.Complete) ∧
    ∀ c, (register t (.cntrl c)).2 = 0 ↔ ∀ x, c = some x → x.Complete := by
  refine ⟨fun c => ?_, fun c => ?_, fun c => ?_⟩ <;> cases c with
  | none => simp [register, setLock, setCond, setCntrl]
  | some c =>
      simp only [Option.some.injEq, forall_eq', register, setLock, setCond, setCntrl]
      first
        | rw [← lock_complete]; split <;> simp_all
        | rw [← cond_complete]; split <;> simp_all
        | rw [← cntrl_complete]; split <;> simp_all

/-! ## Mutual exclusion -/

/-- What threads see: `lock`: thread `t` called zt_threads_lock(mode, m) and it returned `ret`; `unlock` likewise; `reg`: some thread registered a table of locks. -/
inductive Ev where
  | lock (t : Nat) (mode : Int) (m : Nat) (ret : Int)
  | unlock (t : Nat) (mode : Int) (m : Nat) (ret : Int)
  | reg (c : Option LockCbs) (ret : Int)

/-- Table of locks, and the owner of each mutex. -/
structure W where
  tbl : LockCbs
  owner : Nat → Option Nat

/-- pthread_mutex_lock and pthread_mutex_trylock by thread `t`: POSIX. A blocking call does not return while the mutex has an owner (also the caller itself); EBUSY is 16; any other
error leaves the mutex as it is. -/
inductive Posix.Lock (t : Nat) (m : Nat) : Bool → (Nat → Option Nat) → Int → (Nat → Option Nat) → Prop
  | free {nb o} : o m = none → Posix.Lock t m nb o 0 (fun x => if x = m then some t else o x)
  | busy {nb o x} : nb = true → o m = some x → Posix.Lock t m nb o 16 o
  | err {nb o e} : e ≠ 0 → e ≠ 16 → Posix.Lock t m nb o e o

/-- zt_threads_pthreads.c 38-49 `zt_threads_pthreads_lock`: whether the caller asked not to wait. -/
def nonblocking (mode : Int) : Bool := mode % 2 ≠ 0

/-- One call seen from outside: zt_threads.c 107-123 over zt_threads_pthreads.c 38-58. Only the owner may unlock a mutex (otherwise POSIX leaves the behaviour undefined). Functions
other than those of pthreads are not modelled. -/
inductive Step : W → Ev → W → Prop
  | lockNone {w t mode m} : w.tbl.lock = none → Step w (.lock t mode m 0) w
  | lock {w t mode m ret o} : w.tbl.lock = pthreadsLock.lock → Posix.Lock t m (nonblocking mode) w.owner ret o → Step w (.lock t mode m ret) { w with owner := o }
  | unlockNone {w t mode m} : w.tbl.unlock = none → Step w (.unlock t mode m 0) w
  | unlock {w t mode m} : w.tbl.unlock = pthreadsLock.unlock → w.owner m = some t → Step w (.unlock t mode m 0) { w with owner := fun x => if x = m then none else w.owner x }
  | reg {w c} : Step w (.reg c (setLock w.tbl c).2) { w with tbl := (setLock w.tbl c).1 }

/-- Histories, newest event first. -/
inductive Steps : W → List Ev → W → Prop
  | nil {w} : Steps w [] w
  | cons {w w' w'' l e} : Steps w l w' → Step w' e w'' → Steps w (e :: l) w''

/-- Thread `t` was told that it holds `m`: its last call about `m` was a lock that returned 0. -/
def told (t m : Nat) : List Ev → Bool
  | [] => false
  | .lock t' _ m' ret :: l => if t' = t ∧ m' = m ∧ ret = 0 then true else told t m l
  | .unlock t' _ m' _ :: l => if t' = t ∧ m' = m then false else told t m l
  | .reg _ _ :: l => told t m l

/-- No registration of the history replaces the functions: each is refused or that of pthreads. -/
def KeepsPthreads (l : List Ev) : Prop := ∀ c ret, Ev.reg c ret ∈ l → c = some pthreadsLock ∨ ∃ x, c = some x ∧ ¬ x.Complete

theorem told_iff {w0 w : W} (h0 : w0.tbl = pthreadsLock) (ho : ∀ m, w0.owner m = none) {l : List Ev} (hl : KeepsPthreads l) (h : Steps w0 l w) :
    w.tbl = pthreadsLock ∧ ∀ t m, told t m l = true ↔ w.owner m = some t := by
  induction h with
  | nil => exact ⟨h0, fun t m => by simp [told, ho]⟩
  | @cons w' w'' l e h he ih =>
      obtain ⟨ht, hi⟩ := ih (fun c ret hm => hl c ret (.tail _ hm))
      cases he with
      | lockNone hn => rw [ht] at hn; cases hn
      | unlockNone hn => rw [ht] at hn; cases hn
      | @lock t mode m ret o hl2 hp =>
          refine ⟨ht, fun t' m' => ?_⟩
          cases hp with
          | free hf =>
              simp only [told]
              by_cases hm : m = m'
              · subst hm
                by_cases htt : t = t'
                · simp [htt]
                · have : ¬ (told t' m l = true) := by rw [hi, hf]; simp
                  simp [htt, this]
              · simp [hm, Ne.symm hm, hi]
          | busy _ _ => simp [told, hi]
          | err he _ => simp [told, hi, he]
      | @unlock t mode m hu hw =>
          refine ⟨ht, fun t' m' => ?_⟩
          simp only [told]
          by_cases hm : m = m'
          · subst hm
            by_cases htt : t = t'
            · simp [htt]
            · have : ¬ (told t' m l = true) := by rw [hi, hw]; simp [htt]
              simp [htt, this]
          · simp [hm, Ne.symm hm, hi]
      | @reg c =>
          refine ⟨?_, fun t' m' => by simp [told, hi]⟩
          rcases hl c _ (.head _) with rfl | ⟨x, rfl, hx⟩
          · rfl
          · have : ¬ (x.alloc.isSome && x.free.isSome && x.lock.isSome && x.unlock.isSome) = true := fun h => hx ((lock_complete x).1 h)
            simp only [setLock, if_neg this]; exact ht

/-- **C96 (mutual exclusion, partial).** In any history in which the pthreads functions are registered throughout, however the threads are scheduled, whatever modes they use and whatever incomplete tables
are offered: at most one thread has been told that it holds a mutex. Missing: locks taken while no functions are registered (see the violations). -/
theorem c96_exclusion_partial {w0 w : W} (h0 : w0.tbl = pthreadsLock) (ho : ∀ m, w0.owner m = none) {l : List Ev} (hl : KeepsPthreads l) (h : Steps w0 l w) {t t' m : Nat}
    (ht : told t m l = true) (ht' : told t' m l = true) : t = t' := by
  have H := (told_iff h0 ho hl h).2
  have a := (H t m).1 ht
  rw [(H t' m).1 ht'] at a
  cases a; rfl

/-- **C96 (progress, partial).** In such a history, a thread that asks not to wait always gets an answer, 0 exactly if nobody has been told that it holds the mutex or the 16 of EBUSY if somebody
has (unless the system reports another error); and a thread that was told it holds the mutex can give it back, after which the next thread can have it. -/
theorem c96_progress_partial {w0 w : W} (h0 : w0.tbl = pthreadsLock) (ho : ∀ m, w0.owner m = none) {l : List Ev} (hl : KeepsPthreads l) (h : Steps w0 l w) (m : Nat) :
    (∀ t (mode : Int), mode % 2 ≠ 0 → ((∀ x, told x m l = false) ∧ (∃ w', Step w (.lock t mode m 0) w') ∧ ¬ ∃ w', Step w (.lock t mode m 16) w') ∨
      ((∃ x, told x m l = true) ∧ (∃ w', Step w (.lock t mode m 16) w') ∧ ¬ ∃ w', Step w (.lock t mode m 0) w')) ∧
    (∀ t mode, told t m l = true → ∃ w', Step w (.unlock t mode m 0) w' ∧ ∀ t' mode', ∃ w'', Step w' (.lock t' mode' m 0) w'') := by
  obtain ⟨hk, H⟩ := told_iff h0 ho hl h
  have hkl : w.tbl.lock = pthreadsLock.lock := by rw [hk]
  refine ⟨fun t mode hm => ?_, fun t mode ht => ?_⟩
  · have hnb : nonblocking mode = true := by simp [nonblocking, hm]
    cases hw : w.owner m with
    | none =>
        refine .inl ⟨fun x => ?_, ⟨_, .lock hkl (.free hw)⟩, ?_⟩
        · cases hx : told x m l with
          | false => rfl
          | true => rw [H, hw] at hx; cases hx
        · rintro ⟨w', hs⟩
          cases hs with
          | lock _ hp => cases hp with
            | busy _ hb => rw [hw] at hb; cases hb
            | err _ h16 => exact h16 rfl
    | some x =>
        refine .inr ⟨⟨x, (H x m).2 hw⟩, ⟨_, .lock hkl (.busy hnb hw)⟩, ?_⟩
        rintro ⟨w', hs⟩
        cases hs with
        | lockNone hn => rw [hk] at hn; cases hn
        | lock _ hp => cases hp with
          | free hf => rw [hw] at hf; cases hf
          | err h0 _ => exact h0 rfl
  · have hw := (H t m).1 ht
    exact ⟨_, .unlock (by rw [hk]) hw, fun t' mode' => ⟨_, .lock hkl (.free (by simp))⟩⟩

/-- Two threads, one lock refused with EBUSY, then handed over. -/
example : ∃ w, Steps ⟨pthreadsLock, fun _ => none⟩ [.lock 2 0 7 0, .unlock 1 0 7 0, .lock 2 1 7 16, .reg (some ⟨none, none, none, none⟩) (-1), .lock 1 0 7 0] w ∧
    told 2 7 [.lock 2 0 7 0, .unlock 1 0 7 0, .lock 2 1 7 16, .reg (some ⟨none, none, none, none⟩) (-1), .lock 1 0 7 0] = true :=
  ⟨_, .cons (.cons (.cons (.cons (.cons .nil (.lock rfl (.free rfl))) .reg) (.lock rfl (.busy (x := 1) rfl rfl))) (.unlock rfl rfl)) (.lock rfl (.free rfl)), rfl⟩

/-- Violation of C96: as long as no functions are registered, a lock succeeds for every thread. -/
theorem c96_unregistered_violation (t t' m : Nat) : ∃ w, Steps ⟨Cbs.zero.lock, fun _ => none⟩ [.lock t 0 m 0, .lock t' 0 m 0] w ∧
    told t m [.lock t 0 m 0, .lock t' 0 m 0] = true ∧ told t' m [.lock t 0 m 0, .lock t' 0 m 0] = true :=
  ⟨_, .cons (.cons .nil (.lockNone rfl)) (.lockNone rfl), by simp [told], by simp [told]⟩

/-- Violation of C96: removing the functions with NULL hands a held mutex to every other thread. -/
theorem c96_removed_violation (t t' m : Nat) : ∃ w, Steps ⟨pthreadsLock, fun _ => none⟩ [.lock t 0 m 0, .reg none 0, .lock t' 0 m 0] w ∧
    told t m [.lock t 0 m 0, .reg none 0, .lock t' 0 m 0] = true ∧ told t' m [.lock t 0 m 0, .reg none 0, .lock t' 0 m 0] = true :=
  ⟨_, .cons (.cons (.cons .nil (.lock rfl (.free rfl))) .reg) (.lockNone rfl), by simp [told], by simp [told]⟩

/-- Violation of C96: an accepted table of threads need not be able to join: zt_threads_join then returns 0 without having waited and without having called anything. -/
theorem c96_join_violation (f g : Nat) (impl : Inv → Int) (th data : Nat) : (register Cbs.zero (.cntrl (some ⟨some f, some g, none, none, none, none⟩))).2 = 0 ∧
    invoke (tables [.cntrl (some ⟨some f, some g, none, none, none, none⟩)]) impl (.join th data) = (0, []) := ⟨rfl, rfl⟩

/-! ## Timed waits -/

/-- zt_threads_pthreads.c 102-139 `zt_threads_pthreads_cond_wait`: `now` is the answer of gettimeofday, `timedwait` and `wait` are the answers of pthread; ETIMEDOUT is 110. -/
def condWait (now : Timeval) (tv : Option Timeval) (timedwait : Int → Int → Int) (wait : Int) : Outcome Int :=
  match tv with
  | some tv => do
      let abs ← add now tv
      let nsec ← arith 64 (abs.usec * 1000)
      if timedwait abs.sec nsec = 110 then .ok 1 else if timedwait abs.sec nsec ≠ 0 then .ok (-1) else .ok 0
  | none => if wait ≠ 0 then .ok (-1) else .ok 0

theorem carryLoop_exact : ∀ (n : Nat) (s u : Int), u.toNat = n → 0 ≤ u → -(2 ^ 63) ≤ s → s + u / 1000000 < 2 ^ 63 →
    carryLoop s u = .ok ⟨s + u / 1000000, u % 1000000⟩ := by
  intro n
  induction n using Nat.strongRecOn with
  | ind n ih =>
      intro s u hn h0 h1 h2
      rw [carryLoop]
      split
      · rename_i hu
        have e : u / 1000000 = (u - 1000000) / 1000000 + 1 := by omega
        have h3 : InS 64 (s + 1) := by simp only [InS, smin, smax]; omega
        simp only [arith, h3, if_true, Outcome.ok_bind]
        rw [ih (u - 1000000).toNat (by omega) (s + 1) (u - 1000000) rfl (by omega) (by omega) (by omega)]
        simp only [Outcome.ok.injEq, Timeval.mk.injEq]
        omega
      · simp only [Outcome.ok.injEq, Timeval.mk.injEq]
        omega

/-- How the answer of pthread is reported. -/
def report (status : Int) : Int := if status = 0 then 0 else if status = 110 then 1 else -1

/-- **C96 (timeouts).** A wait with a timeout passes pthread a valid deadline (nanoseconds below 10^9), which is exactly the present time plus the timeout, for any timeout without negative microseconds, normalized
or not, as long as seconds stay in range; without a timeout it waits without a deadline; and the result is 0 if woken, 1 if the deadline passed, -1 on an error. -/
theorem c96_deadline_partial (now tv : Timeval) (timedwait : Int → Int → Int) (wait : Int) (hn : Norm now) (sn : Small now) (h0 : 0 ≤ tv.usec) (h1 : tv.usec < 2 ^ 62) (st : Small tv)
    (hs : now.sec + tv.sec + tv.usec / 1000000 + 1 < 2 ^ 63) :
    (∃ s ns : Int, condWait now (some tv) timedwait wait = .ok (report (timedwait s ns)) ∧ 0 ≤ ns ∧ ns < 10 ^ 9 ∧ s * 10 ^ 9 + ns = (micros now + micros tv) * 1000) ∧
    condWait now none timedwait wait = .ok (if wait = 0 then 0 else -1) := by
  simp only [Norm, Small] at hn sn st
  refine ⟨?_, ?_⟩
  · have i1 : InS 64 (now.sec + tv.sec) := by simp only [InS, smin, smax]; omega
    have i2 : InS 64 (now.usec + tv.usec) := by simp only [InS, smin, smax]; omega
    have i3 : InS 64 ((now.usec + tv.usec) % 1000000 * 1000) := by simp only [InS, smin, smax]; omega
    refine ⟨now.sec + tv.sec + (now.usec + tv.usec) / 1000000, (now.usec + tv.usec) % 1000000 * 1000, ?_, by omega, by omega, by simp only [micros]; omega⟩
    simp only [condWait, add, arith, i1, i2, if_true, Outcome.ok_bind]
    rw [carryLoop_exact _ _ _ rfl (by omega) (by omega) (by omega)]
    simp only [Outcome.ok_bind, i3, if_true, report]
    split
    · rename_i h; simp [h]
    · rename_i h; split <;> simp_all
  · simp only [condWait]
    split <;> simp_all

example : condWait ⟨100, 999999⟩ (some ⟨1, 3000001⟩) (fun s ns => if s = 105 ∧ ns = 0 then 110 else 22) 0 = .ok 1 := by
  simp only [condWait, add, arith]
  rw [if_pos (by simp [InS, smin, smax]), Outcome.ok_bind, if_pos (by simp [InS, smin, smax]), Outcome.ok_bind, carryLoop_exact _ _ _ rfl (by decide) (by decide) (by decide)]
  simp [InS, smin, smax]

/-- Violation of C96: a timeout with negative microseconds (say 2 s - 1 us written as {2, -1}, at a full second) gives a deadline that pthread must refuse (EINVAL, 22): the wait fails at once. -/
theorem c96_negative_violation (timedwait : Int → Int → Int) (hp : ∀ s ns, ns < 0 → timedwait s ns = 22) :
    condWait ⟨100, 0⟩ (some ⟨2, -1⟩) timedwait 0 = .ok (-1) ∧ micros ⟨100, 0⟩ < micros ⟨100, 0⟩ + micros ⟨2, -1⟩ := by
  refine ⟨?_, by decide⟩
  simp only [condWait, add, arith]
  rw [if_pos (by simp [InS, smin, smax]), Outcome.ok_bind, if_pos (by simp [InS, smin, smax]), Outcome.ok_bind, carryLoop, if_neg (by decide), Outcome.ok_bind, if_pos (by simp [InS, smin, smax]), Outcome.ok_bind,
    hp _ _ (by decide)]
  decide

end ZT.Pool.Prim
