import Verif.Pool.Prim

/-!
# C120: the functions of zt_threads over pthreads (zt_threads_pthreads.c)

Which calls of POSIX each function of zt_threads makes after zt_threads_use_pthreads, what it returns, and what becomes of the memory, whatever the system answers. The system is an arbitrary function of the calls made so far. Pointers are
numbers, NULL is 0; a thread is identified by the address of its pthread_t. Sizes are those of glibc on x86-64. The deadline of a wait with timeout is the subject of C96.
-/

namespace ZT.Pool.Posix

open ZT.Pool.Prim

/-! ## Model -/

/-- Calls of the C library and pthreads. -/
inductive Sys where
  | calloc (size : Nat)
  | free (p : Nat)
  | mutexInit (p : Nat)
  | mutexDestroy (p : Nat)
  | trylock (p : Nat)
  | lock (p : Nat)
  | unlock (p : Nat)
  | condInit (p : Nat)
  | condDestroy (p : Nat)
  | signal (p : Nat)
  | broadcast (p : Nat)
  | wait (c m : Nat)
  | timedwait (c m tv : Nat)
  | create (th attr cb arg : Nat)
  | exit (arg : Nat)
  | cancel (th : Nat)
  | self
  | join (th data : Nat)
  | detach (th : Nat)
  deriving DecidableEq, Repr

/-- The calls made and the answers, newest first. -/
abbrev Hist := List (Sys × Nat)
/-- The system: any answer to any call (a pointer for calloc, a status otherwise). -/
abbrev Os := Hist → Sys → Nat

/-- A call. -/
def ask (os : Os) (s : Sys) (h : Hist) : Nat × Hist := (os h s, (s, os h s) :: h)

/-- zt_threads_pthreads.c 12-26, 59-73 `zt_threads_pthreads_lock_alloc`, `zt_threads_pthreads_cond_alloc` -/
def allocInit (os : Os) (size : Nat) (init : Nat → Sys) (h : Hist) : Outcome (Int × Hist) :=
  let a := ask os (.calloc size) h
  if a.1 = 0 then .ok (0, a.2) else
    let b := ask os (init a.1) a.2
    if b.1 ≠ 0 then .ok (0, (ask os (.free a.1) b.2).2) else .ok (a.1, b.2)

/-- zt_threads_pthreads.c 28-36, 75-82 `zt_threads_pthreads_lock_free`, `zt_threads_pthreads_cond_free`: the result of destroy is not looked at. -/
def destroyFree (os : Os) (destroy : Nat → Sys) (p : Nat) (h : Hist) : Outcome (Int × Hist) :=
  if p = 0 then .ub else .ok (0, (ask os (.free p) (ask os (destroy p) h).2).2)

/-- A call whose status is returned; the pointer must not be NULL. -/
def raw (os : Os) (p : Nat) (s : Sys) (h : Hist) : Outcome (Int × Hist) :=
  if p = 0 then .ub else .ok ((ask os s h).1, (ask os s h).2)

/-- `return status ? -1 : 0;` -/
def mapped (os : Os) (p : Nat) (s : Sys) (h : Hist) : Outcome (Int × Hist) :=
  if p = 0 then .ub else .ok (if (ask os s h).1 ≠ 0 then -1 else 0, (ask os s h).2)

/-- zt_threads_pthreads.c 102-139 `zt_threads_pthreads_cond_wait`; ETIMEDOUT is 110. -/
def condWaitP (os : Os) (c m tv : Nat) (h : Hist) : Outcome (Int × Hist) :=
  if c = 0 ∨ m = 0 then .ub
  else if tv ≠ 0 then
    let a := ask os (.timedwait c m tv) h
    if a.1 = 110 then .ok (1, a.2) else if a.1 ≠ 0 then .ok (-1, a.2) else .ok (0, a.2)
  else
    let a := ask os (.wait c m) h
    .ok (if a.1 ≠ 0 then -1 else 0, a.2)

/-- zt_threads_pthreads.c 12-188: the functions by the numbers of `pthreadsLock`, `pthreadsCond` and `pthreadsCntrl`. pthread_exit does not return; the 0 is nobody's. -/
def posix (os : Os) (i : Inv) (h : Hist) : Outcome (Int × Hist) :=
  match i.fn, i.args with
  | 1, [_] => allocInit os 40 .mutexInit h
  | 2, [m, _] => destroyFree os .mutexDestroy m.toNat h
  | 3, [mode, m] => raw os m.toNat (if nonblocking mode then .trylock m.toNat else .lock m.toNat) h
  | 4, [_, m] => raw os m.toNat (.unlock m.toNat) h
  | 5, [_] => allocInit os 48 .condInit h
  | 6, [c] => destroyFree os .condDestroy c.toNat h
  | 7, [c, b] => mapped os c.toNat (if b ≠ 0 then .broadcast c.toNat else .signal c.toNat) h
  | 8, [c, m, tv] => condWaitP os c.toNat m.toNat tv.toNat h
  | 9, [th, attr, cb, arg] => mapped os th.toNat (.create th.toNat attr.toNat cb.toNat arg.toNat) h
  | 10, [arg] => .ok (0, (ask os (.exit arg.toNat) h).2)
  | 11, [th] => raw os th.toNat (.cancel th.toNat) h
  | 12, [] => .ok ((ask os .self h).1, (ask os .self h).2)
  | 13, [th, data] => raw os th.toNat (.join th.toNat data.toNat) h
  | 14, [th] => raw os th.toNat (.detach th.toNat) h
  | _, _ => .ub

/-- zt_threads.c 88-206 over zt_threads_pthreads.c: a function of zt_threads with the tables `t`. -/
def perform (os : Os) (t : Cbs) (c : Call) (h : Hist) : Outcome (Int × Hist) :=
  match (invoke t (fun _ => 0) c).2 with
  | [i] => posix os i h
  | _ => .ok ((invoke t (fun _ => 0) c).1, h)

/-- The tables after zt_threads_use_pthreads (zt_threads_pthreads.c 190-222). -/
def usePthreadsIn (t : Cbs) : Cbs := usePthreads.foldl (fun t r => (register t r).1) t

/-! ## Specification -/

/-- What a function does: its result and the POSIX calls with their answers, newest first, given the calls before. -/
inductive Does (os : Os) (h : Hist) : Call → Int → Hist → Prop
  | lockNew {ty p} : p ≠ 0 → os h (.calloc 40) = p → os ((.calloc 40, p) :: h) (.mutexInit p) = 0 → Does os h (.allocLock ty) p [(.mutexInit p, 0), (.calloc 40, p)]
  | lockNoMem {ty} : os h (.calloc 40) = 0 → Does os h (.allocLock ty) 0 [(.calloc 40, 0)]
  | lockNoInit {ty p e r} : p ≠ 0 → e ≠ 0 → os h (.calloc 40) = p → os ((.calloc 40, p) :: h) (.mutexInit p) = e → os ((.mutexInit p, e) :: (.calloc 40, p) :: h) (.free p) = r →
      Does os h (.allocLock ty) 0 [(.free p, r), (.mutexInit p, e), (.calloc 40, p)]
  | lockFree {m ty e r} : os h (.mutexDestroy m) = e → os ((.mutexDestroy m, e) :: h) (.free m) = r → Does os h (.freeLock m ty) 0 [(.free m, r), (.mutexDestroy m, e)]
  | lock {mode : Int} {m e} : mode % 2 = 0 → os h (.lock m) = e → Does os h (.lock mode m) e [(.lock m, e)]
  | trylock {mode : Int} {m e} : mode % 2 = 1 → os h (.trylock m) = e → Does os h (.lock mode m) e [(.trylock m, e)]
  | unlock {mode m e} : os h (.unlock m) = e → Does os h (.unlock mode m) e [(.unlock m, e)]
  | condNew {ty p} : p ≠ 0 → os h (.calloc 48) = p → os ((.calloc 48, p) :: h) (.condInit p) = 0 → Does os h (.condAlloc ty) p [(.condInit p, 0), (.calloc 48, p)]
  | condNoMem {ty} : os h (.calloc 48) = 0 → Does os h (.condAlloc ty) 0 [(.calloc 48, 0)]
  | condNoInit {ty p e r} : p ≠ 0 → e ≠ 0 → os h (.calloc 48) = p → os ((.calloc 48, p) :: h) (.condInit p) = e → os ((.condInit p, e) :: (.calloc 48, p) :: h) (.free p) = r →
      Does os h (.condAlloc ty) 0 [(.free p, r), (.condInit p, e), (.calloc 48, p)]
  | condFree {c e r} : os h (.condDestroy c) = e → os ((.condDestroy c, e) :: h) (.free c) = r → Does os h (.condFree c) 0 [(.free c, r), (.condDestroy c, e)]
  | signal {c e} : os h (.signal c) = e → Does os h (.signal c 0) (if e = 0 then 0 else -1) [(.signal c, e)]
  | broadcast {c b e} : b ≠ 0 → os h (.broadcast c) = e → Does os h (.signal c b) (if e = 0 then 0 else -1) [(.broadcast c, e)]
  | wait {c m e} : os h (.wait c m) = e → Does os h (.wait c m 0) (if e = 0 then 0 else -1) [(.wait c m, e)]
  | timedwait {c m tv e} : tv ≠ 0 → os h (.timedwait c m tv) = e → Does os h (.wait c m tv) (report e) [(.timedwait c m tv, e)]
  | start {th attr cb arg e} : os h (.create th attr cb arg) = e → Does os h (.start th attr cb arg) (if e = 0 then 0 else -1) [(.create th attr cb arg, e)]
  | fin {arg r} : os h (.exit arg) = r → Does os h (.fin arg) 0 [(.exit arg, r)]
  | kill {th e} : os h (.cancel th) = e → Does os h (.kill th) e [(.cancel th, e)]
  | id {r} : os h .self = r → Does os h .id r [(.self, r)]
  | join {th data e} : os h (.join th data) = e → Does os h (.join th data) e [(.join th data, e)]
  | detach {th e} : os h (.detach th) = e → Does os h (.detach th) e [(.detach th, e)]

/-- What the caller holds: locks and conditions returned and not given back. -/
structure Held where
  locks : List Nat
  conds : List Nat

/-- No pointer is NULL; what is used or given back is held. -/
def Legal (s : Held) : Call → Prop
  | .freeLock m _ => m ∈ s.locks
  | .lock _ m => m ∈ s.locks
  | .unlock _ m => m ∈ s.locks
  | .condFree c => c ∈ s.conds
  | .signal c _ => c ∈ s.conds
  | .wait c m _ => c ∈ s.conds ∧ m ∈ s.locks
  | .start th _ _ _ => th ≠ 0
  | .kill th => th ≠ 0
  | .join th _ => th ≠ 0
  | .detach th => th ≠ 0
  | _ => True

/-- The caller's view after a call that returned `r`. -/
def Held.after (s : Held) (r : Nat) : Call → Held
  | .allocLock _ => if r = 0 then s else { s with locks := r :: s.locks }
  | .condAlloc _ => if r = 0 then s else { s with conds := r :: s.conds }
  | .freeLock m _ => { s with locks := s.locks.erase m }
  | .condFree c => { s with conds := s.conds.erase c }
  | _ => s

/-- Blocks in use after the calls of a history. -/
def blocks : Hist → List Nat
  | [] => []
  | (.calloc _, p) :: h => if p = 0 then blocks h else p :: blocks h
  | (.free p, _) :: h => (blocks h).erase p
  | _ :: h => blocks h

/-- Initialised mutexes. -/
def mutexes : Hist → List Nat
  | [] => []
  | (.mutexInit p, e) :: h => if e = 0 then p :: mutexes h else mutexes h
  | (.mutexDestroy p, _) :: h => (mutexes h).erase p
  | _ :: h => mutexes h

/-- Initialised condition variables. -/
def condvars : Hist → List Nat
  | [] => []
  | (.condInit p, e) :: h => if e = 0 then p :: condvars h else condvars h
  | (.condDestroy p, _) :: h => (condvars h).erase p
  | _ :: h => condvars h

/-- POSIX allows the call: what is used is initialised, what is initialised or freed is a block in use that is not initialised. -/
def Allowed (h : Hist) : Sys → Prop
  | .free p => p ∈ blocks h ∧ p ∉ mutexes h ∧ p ∉ condvars h
  | .mutexInit p => p ∈ blocks h ∧ p ∉ mutexes h ∧ p ∉ condvars h
  | .condInit p => p ∈ blocks h ∧ p ∉ mutexes h ∧ p ∉ condvars h
  | .mutexDestroy p => p ∈ mutexes h
  | .trylock p => p ∈ mutexes h
  | .lock p => p ∈ mutexes h
  | .unlock p => p ∈ mutexes h
  | .condDestroy p => p ∈ condvars h
  | .signal p => p ∈ condvars h
  | .broadcast p => p ∈ condvars h
  | .wait c m => c ∈ condvars h ∧ m ∈ mutexes h
  | .timedwait c m _ => c ∈ condvars h ∧ m ∈ mutexes h
  | .create th _ _ _ => th ≠ 0
  | .cancel th => th ≠ 0
  | .join th _ => th ≠ 0
  | .detach th => th ≠ 0
  | _ => True

/-- All calls of a history were allowed when they were made. -/
def AllAllowed : Hist → Prop
  | [] => True
  | (s, _) :: h => Allowed h s ∧ AllAllowed h

/-- calloc returns NULL or a block that is not in use. -/
def Sane (os : Os) : Prop := ∀ h n, os h (.calloc n) ∉ blocks h

/-- A program: after zt_threads_use_pthreads, any number of calls, each allowed by what the caller holds. -/
inductive Runs (os : Os) (t : Cbs) : Held → Hist → Prop
  | start : Runs os t ⟨[], []⟩ []
  | call {s h c r h'} : Runs os t s h → Legal s c → perform os t c h = .ok (r, h') → Runs os t (s.after r.toNat c) h'

/-! ## Proofs -/

/-- The tables do not depend on what was registered before. -/
theorem use_eq (t : Cbs) : usePthreadsIn t = ⟨pthreadsLock, pthreadsCond, pthreadsCntrl⟩ := rfl

/-- The pointers a call must not be given as NULL. -/
def Given : Call → Prop
  | .freeLock m _ => m ≠ 0
  | .lock _ m => m ≠ 0
  | .unlock _ m => m ≠ 0
  | .condFree c => c ≠ 0
  | .signal c _ => c ≠ 0
  | .wait c m _ => c ≠ 0 ∧ m ≠ 0
  | .start th _ _ _ => th ≠ 0
  | .kill th => th ≠ 0
  | .join th _ => th ≠ 0
  | .detach th => th ≠ 0
  | _ => True

/-- **C120 (exactness).** After zt_threads_use_pthreads, whatever was registered before, every function of zt_threads makes exactly the POSIX calls of the specification, in this order, and returns what it says, whatever the system answers. Partial: for
pointers that are not NULL (see the violation). -/
theorem c120_exact_partial (os : Os) (t : Cbs) (c : Call) (h : Hist) (hg : Given c) : ∃ r l, perform os (usePthreadsIn t) c h = .ok (r, l ++ h) ∧ Does os h c r l := by
  rw [use_eq]
  cases c with
  | allocLock ty =>
      by_cases h1 : os h (.calloc 40) = 0
      · (refine ⟨_, _, ?_, .lockNoMem h1⟩; simp [perform, invoke, via, pthreadsLock, posix, allocInit, ask, h1])
      · by_cases h2 : os ((.calloc 40, os h (.calloc 40)) :: h) (.mutexInit (os h (.calloc 40))) = 0
        · (refine ⟨_, _, ?_, .lockNew h1 rfl h2⟩; simp [perform, invoke, via, pthreadsLock, posix, allocInit, ask, h1, h2])
        · (refine ⟨_, _, ?_, .lockNoInit h1 h2 rfl rfl rfl⟩; simp [perform, invoke, via, pthreadsLock, posix, allocInit, ask, h1, h2])
  | condAlloc ty =>
      by_cases h1 : os h (.calloc 48) = 0
      · (refine ⟨_, _, ?_, .condNoMem h1⟩; simp [perform, invoke, via, pthreadsCond, posix, allocInit, ask, h1])
      · by_cases h2 : os ((.calloc 48, os h (.calloc 48)) :: h) (.condInit (os h (.calloc 48))) = 0
        · (refine ⟨_, _, ?_, .condNew h1 rfl h2⟩; simp [perform, invoke, via, pthreadsCond, posix, allocInit, ask, h1, h2])
        · (refine ⟨_, _, ?_, .condNoInit h1 h2 rfl rfl rfl⟩; simp [perform, invoke, via, pthreadsCond, posix, allocInit, ask, h1, h2])
  | freeLock m ty =>
      have hm : m ≠ 0 := hg
      (refine ⟨_, _, ?_, .lockFree rfl rfl⟩; simp [perform, invoke, via, pthreadsLock, posix, destroyFree, ask, hm])
  | condFree m =>
      have hm : m ≠ 0 := hg
      (refine ⟨_, _, ?_, .condFree rfl rfl⟩; simp [perform, invoke, via, pthreadsCond, posix, destroyFree, ask, hm])
  | lock mode m =>
      have hm : m ≠ 0 := hg
      by_cases hn : mode % 2 = 0
      · (refine ⟨_, _, ?_, .lock hn rfl⟩; simp [perform, invoke, via, pthreadsLock, posix, raw, ask, hm, nonblocking, hn])
      · (refine ⟨_, _, ?_, .trylock (by omega) rfl⟩; simp [perform, invoke, via, pthreadsLock, posix, raw, ask, hm, nonblocking, hn])
  | unlock mode m =>
      have hm : m ≠ 0 := hg
      (refine ⟨_, _, ?_, .unlock rfl⟩; simp [perform, invoke, via, pthreadsLock, posix, raw, ask, hm])
  | signal c b =>
      have hm : c ≠ 0 := hg
      by_cases hb : b = 0
      · subst hb
        (refine ⟨_, _, ?_, .signal rfl⟩; simp [perform, invoke, via, pthreadsCond, posix, mapped, ask, hm])
      · (refine ⟨_, _, ?_, .broadcast hb rfl⟩; simp [perform, invoke, via, pthreadsCond, posix, mapped, ask, hm, hb])
  | wait c m tv =>
      obtain ⟨h1, h2⟩ : c ≠ 0 ∧ m ≠ 0 := hg
      by_cases hb : tv = 0
      · subst hb
        (refine ⟨_, _, ?_, .wait rfl⟩; by_cases e : os h (.wait c m) = 0 <;> simp [perform, invoke, via, pthreadsCond, posix, condWaitP, ask, h1, h2, e])
      · refine ⟨report (os h (.timedwait c m tv)), [(.timedwait c m tv, os h (.timedwait c m tv))], ?_, .timedwait hb rfl⟩
        simp only [perform, invoke, via, pthreadsCond, posix, condWaitP, ask, Int.toNat_natCast, h1, h2, or_self, if_false, hb, ne_eq, not_false_eq_true, if_true, report]
        by_cases e1 : os h (.timedwait c m tv) = 110
        · simp [e1]
        · by_cases e2 : os h (.timedwait c m tv) = 0
          · simp [e2]
          · have : ¬ ((os h (.timedwait c m tv) : Nat) : Int) = 110 := by omega
            have : ¬ ((os h (.timedwait c m tv) : Nat) : Int) = 0 := by omega
            simp [*]
  | start th attr cb arg =>
      have hm : th ≠ 0 := hg
      (refine ⟨_, _, ?_, .start rfl⟩; by_cases e : os h (.create th attr cb arg) = 0 <;> simp [perform, invoke, via, pthreadsCntrl, posix, mapped, ask, hm, e])
  | fin arg => (refine ⟨_, _, ?_, .fin rfl⟩; simp [perform, invoke, via, pthreadsCntrl, posix, ask])
  | kill th =>
      have hm : th ≠ 0 := hg
      (refine ⟨_, _, ?_, .kill rfl⟩; simp [perform, invoke, via, pthreadsCntrl, posix, raw, ask, hm])
  | id => (refine ⟨_, _, ?_, .id rfl⟩; simp [perform, invoke, via, pthreadsCntrl, posix, ask])
  | join th data =>
      have hm : th ≠ 0 := hg
      (refine ⟨_, _, ?_, .join rfl⟩; simp [perform, invoke, via, pthreadsCntrl, posix, raw, ask, hm])
  | detach th =>
      have hm : th ≠ 0 := hg
      (refine ⟨_, _, ?_, .detach rfl⟩; simp [perform, invoke, via, pthreadsCntrl, posix, raw, ask, hm])

/-! ### Memory -/

structure Good (s : Held) (h : Hist) : Prop where
  blocks : (blocks h).Perm (s.locks ++ s.conds)
  mutexes : (mutexes h).Perm s.locks
  condvars : (condvars h).Perm s.conds
  nodup : (s.locks ++ s.conds).Nodup
  nonzero : 0 ∉ s.locks ++ s.conds
  allowed : AllAllowed h

/-- A legal call is given no NULL. -/
theorem Good.given {s : Held} {h : Hist} (G : Good s h) {c : Call} (L : Legal s c) : Given c := by
  have h1 : ∀ m, m ∈ s.locks → m ≠ 0 := fun m hm e => G.nonzero (by rw [← e]; exact List.mem_append_left _ hm)
  have h2 : ∀ m, m ∈ s.conds → m ≠ 0 := fun m hm e => G.nonzero (by rw [← e]; exact List.mem_append_right _ hm)
  cases c <;> first | trivial | exact h1 _ L | exact h2 _ L | exact ⟨h2 _ L.1, h1 _ L.2⟩ | exact L

/-- A call that leaves memory and objects as they are. -/
theorem Good.plain {s : Held} {h : Hist} (G : Good s h) {x : Sys} {e : Nat} (ha : Allowed h x) (hb : Posix.blocks ((x, e) :: h) = Posix.blocks h)
    (hm : Posix.mutexes ((x, e) :: h) = Posix.mutexes h) (hc : Posix.condvars ((x, e) :: h) = Posix.condvars h) : Good s ((x, e) :: h) :=
  ⟨hb ▸ G.blocks, hm ▸ G.mutexes, hc ▸ G.condvars, G.nodup, G.nonzero, ha, G.allowed⟩

theorem good_step {os : Os} (hs : Sane os) {s : Held} {h : Hist} (G : Good s h) {c : Call} (L : Legal s c) {r : Int} {l : Hist} (D : Does os h c r l) : Good (s.after r.toNat c) (l ++ h) := by
  have inM : ∀ m, m ∈ mutexes h ↔ m ∈ s.locks := fun m => G.mutexes.mem_iff
  have inC : ∀ m, m ∈ condvars h ↔ m ∈ s.conds := fun m => G.condvars.mem_iff
  have inB : ∀ m, m ∈ blocks h ↔ m ∈ s.locks ∨ m ∈ s.conds := fun m => by rw [G.blocks.mem_iff, List.mem_append]
  have nd := G.nodup
  have nz := G.nonzero
  rw [List.nodup_append] at nd
  obtain ⟨n1, n2, n3⟩ := nd
  have fresh : ∀ n p, os h (.calloc n) = p → p ∉ s.locks ∧ p ∉ s.conds := fun n p e => by
    have := hs h n
    rw [e, inB] at this
    exact ⟨fun x => this (.inl x), fun x => this (.inr x)⟩
  cases D with
  | lockNew h0 h1 h2 =>
      rename_i ty p
      obtain ⟨f1, f2⟩ := fresh _ _ h1
      have ha : (s.after ((p : Int)).toNat (.allocLock ty)) = ⟨p :: s.locks, s.conds⟩ := by simp [Held.after, h0]
      rw [ha]
      refine ⟨?_, ?_, G.condvars, ?_, ?_, ?_⟩
      · simp [blocks, h0]; exact G.blocks
      · simp [mutexes]; exact G.mutexes
      · rw [List.cons_append, List.nodup_cons]
        exact ⟨by simp [f1, f2], G.nodup⟩
      · simp at nz ⊢; exact ⟨fun e => h0 e.symm, nz⟩
      · refine ⟨⟨?_, ?_, ?_⟩, trivial, G.allowed⟩
        · simp [blocks, h0]
        · show p ∉ mutexes h; rw [inM]; exact f1
        · show p ∉ condvars h; rw [inC]; exact f2
  | condNew h0 h1 h2 =>
      rename_i ty p
      obtain ⟨f1, f2⟩ := fresh _ _ h1
      have ha : (s.after ((p : Int)).toNat (.condAlloc ty)) = ⟨s.locks, p :: s.conds⟩ := by simp [Held.after, h0]
      rw [ha]
      refine ⟨?_, G.mutexes, ?_, ?_, ?_, ?_⟩
      · simp [blocks, h0]; exact (List.Perm.cons p G.blocks).trans List.perm_middle.symm
      · simp [condvars]; exact G.condvars
      · refine (List.Perm.nodup_iff List.perm_middle).2 ?_
        rw [List.nodup_cons]
        exact ⟨by simp [f1, f2], G.nodup⟩
      · simp at nz ⊢; exact ⟨nz.1, fun e => h0 e.symm, nz.2⟩
      · refine ⟨⟨?_, ?_, ?_⟩, trivial, G.allowed⟩
        · simp [blocks, h0]
        · show p ∉ mutexes h; rw [inM]; exact f1
        · show p ∉ condvars h; rw [inC]; exact f2
  | lockNoMem h1 => exact G.plain trivial rfl rfl rfl
  | condNoMem h1 => exact G.plain trivial rfl rfl rfl
  | lockNoInit h0 h1 h2 h3 h4 =>
      rename_i ty p e r
      obtain ⟨f1, f2⟩ := fresh _ _ h2
      refine ⟨?_, ?_, G.condvars, G.nodup, G.nonzero, ⟨?_, ?_, ?_⟩, ⟨?_, ?_, ?_⟩, trivial, G.allowed⟩
      · simp [blocks, h0]; exact G.blocks
      · simp [mutexes, h1]; exact G.mutexes
      · simp [blocks, h0]
      · simp [mutexes, h1]; rw [inM]; exact f1
      · show p ∉ condvars h; rw [inC]; exact f2
      · simp [blocks, h0]
      · show p ∉ mutexes h; rw [inM]; exact f1
      · show p ∉ condvars h; rw [inC]; exact f2
  | condNoInit h0 h1 h2 h3 h4 =>
      rename_i ty p e r
      obtain ⟨f1, f2⟩ := fresh _ _ h2
      refine ⟨?_, G.mutexes, ?_, G.nodup, G.nonzero, ⟨?_, ?_, ?_⟩, ⟨?_, ?_, ?_⟩, trivial, G.allowed⟩
      · simp [blocks, h0]; exact G.blocks
      · simp [condvars, h1]; exact G.condvars
      · simp [blocks, h0]
      · show p ∉ mutexes h; rw [inM]; exact f1
      · simp [condvars, h1]; rw [inC]; exact f2
      · simp [blocks, h0]
      · show p ∉ mutexes h; rw [inM]; exact f1
      · show p ∉ condvars h; rw [inC]; exact f2
  | lockFree h1 h2 =>
      rename_i m ty e r
      have hm : m ∈ s.locks := L
      have nm : (mutexes h).Nodup := G.mutexes.nodup_iff.2 n1
      have hp : ((s.locks ++ s.conds).erase m) = s.locks.erase m ++ s.conds := List.erase_append_left _ hm
      refine ⟨?_, ?_, G.condvars, ?_, ?_, ⟨?_, ?_, ?_⟩, ?_, G.allowed⟩
      · show ((blocks h).erase m).Perm (s.locks.erase m ++ s.conds)
        rw [← hp]; exact G.blocks.erase m
      · exact G.mutexes.erase m
      · show (s.locks.erase m ++ s.conds).Nodup
        rw [← hp]; exact G.nodup.erase m
      · show 0 ∉ s.locks.erase m ++ s.conds
        rw [← hp]; exact fun x => nz (List.mem_of_mem_erase x)
      · show m ∈ blocks h; rw [inB]; exact .inl hm
      · show m ∉ (mutexes h).erase m; exact nm.not_mem_erase
      · show m ∉ condvars h; rw [inC]; exact fun x => n3 m hm m x rfl
      · show m ∈ mutexes h; rw [inM]; exact hm
  | condFree h1 h2 =>
      rename_i m e r
      have hm : m ∈ s.conds := L
      have nm : (condvars h).Nodup := G.condvars.nodup_iff.2 n2
      have hno : m ∉ s.locks := fun x => n3 m x m hm rfl
      have hp : ((s.locks ++ s.conds).erase m) = s.locks ++ s.conds.erase m := List.erase_append_right _ hno
      refine ⟨?_, G.mutexes, ?_, ?_, ?_, ⟨?_, ?_, ?_⟩, ?_, G.allowed⟩
      · show ((blocks h).erase m).Perm (s.locks ++ s.conds.erase m)
        rw [← hp]; exact G.blocks.erase m
      · exact G.condvars.erase m
      · show (s.locks ++ s.conds.erase m).Nodup
        rw [← hp]; exact G.nodup.erase m
      · show 0 ∉ s.locks ++ s.conds.erase m
        rw [← hp]; exact fun x => nz (List.mem_of_mem_erase x)
      · show m ∈ blocks h; rw [inB]; exact .inr hm
      · show m ∉ mutexes h; rw [inM]; exact hno
      · show m ∉ (condvars h).erase m; exact nm.not_mem_erase
      · show m ∈ condvars h; rw [inC]; exact hm
  | lock h1 h2 => exact G.plain ((inM _).2 L) rfl rfl rfl
  | trylock h1 h2 => exact G.plain ((inM _).2 L) rfl rfl rfl
  | unlock h1 => exact G.plain ((inM _).2 L) rfl rfl rfl
  | signal h1 => exact G.plain ((inC _).2 L) rfl rfl rfl
  | broadcast h1 h2 => exact G.plain ((inC _).2 L) rfl rfl rfl
  | wait h1 => exact G.plain (x := .wait _ _) ⟨(inC _).2 L.1, (inM _).2 L.2⟩ rfl rfl rfl
  | timedwait h1 h2 => exact G.plain (x := .timedwait _ _ _) ⟨(inC _).2 L.1, (inM _).2 L.2⟩ rfl rfl rfl
  | start h1 => exact G.plain (x := .create _ _ _ _) L rfl rfl rfl
  | fin h1 => exact G.plain (x := .exit _) trivial rfl rfl rfl
  | kill h1 => exact G.plain (x := .cancel _) L rfl rfl rfl
  | id h1 => exact G.plain (x := .self) trivial rfl rfl rfl
  | join h1 => exact G.plain (x := .join _ _) L rfl rfl rfl
  | detach h1 => exact G.plain (x := .detach _) L rfl rfl rfl

theorem runs_good {os : Os} (hs : Sane os) {t : Cbs} {s : Held} {h : Hist} (R : Runs os (usePthreadsIn t) s h) : Good s h := by
  induction R with
  | start => exact ⟨.refl _, .refl _, .refl _, List.nodup_nil, by simp, trivial⟩
  | call R L e ih =>
      obtain ⟨r', l, e', D⟩ := c120_exact_partial os t _ _ (ih.given L)
      rw [e'] at e
      cases e
      exact good_step hs ih L D

/-- **C120 (memory).** In every program that uses only locks and conditions it has been given and not given back, whatever the system answers: every call is defined; every POSIX call made is one that POSIX allows at that point — a mutex or condition variable
is used while it is initialised, initialised in a block just allocated, and its block is freed after it was destroyed; the blocks in use are exactly the locks and conditions held, all different and initialised, so that a failed initialisation leaves nothing behind
and giving everything back leaves nothing. -/
theorem c120_memory (os : Os) (hs : Sane os) (t : Cbs) {s : Held} {h : Hist} (R : Runs os (usePthreadsIn t) s h) :
    (∀ c, Legal s c → ∃ r h', perform os (usePthreadsIn t) c h = .ok (r, h')) ∧ AllAllowed h ∧ (blocks h).Perm (s.locks ++ s.conds) ∧ (mutexes h).Perm s.locks ∧ (condvars h).Perm s.conds ∧
      (s.locks ++ s.conds).Nodup ∧ (s.locks = [] → s.conds = [] → blocks h = [] ∧ mutexes h = [] ∧ condvars h = []) := by
  have G := runs_good hs R
  refine ⟨fun c L => ?_, G.allowed, G.blocks, G.mutexes, G.condvars, G.nodup, fun e1 e2 => ?_⟩
  · obtain ⟨r, l, e, _⟩ := c120_exact_partial os t c h (G.given L)
    exact ⟨r, _, e⟩
  · have a := G.blocks
    have b := G.mutexes
    have c := G.condvars
    rw [e1, e2] at a
    rw [e1] at b
    rw [e2] at c
    exact ⟨a.eq_nil, b.eq_nil, c.eq_nil⟩

/-- **C120 is violated: NULL.** Unlike free(3), zt_threads_free_lock and zt_threads_cond_free of NULL (what a failed allocation returned) are undefined. -/
theorem c120_null_violation (os : Os) (t : Cbs) (h : Hist) (ty : Int) : perform os (usePthreadsIn t) (.freeLock 0 ty) h = .ub ∧ perform os (usePthreadsIn t) (.condFree 0) h = .ub := ⟨rfl, rfl⟩

/-- **C120 is violated: a lock that cannot be destroyed.** If pthread_mutex_destroy refuses (EBUSY, 16: another thread holds the mutex), its memory is freed all the same, and the caller is not told. -/
theorem c120_busy_violation (os : Os) (t : Cbs) (h : Hist) (m : Nat) (ty : Int) (hm : m ≠ 0) (hb : os h (.mutexDestroy m) = 16) :
    ∃ e, perform os (usePthreadsIn t) (.freeLock m ty) h = .ok (0, (.free m, e) :: (.mutexDestroy m, 16) :: h) := by
  obtain ⟨r, l, e, D⟩ := c120_exact_partial os t (.freeLock m ty) h hm
  cases D with
  | lockFree h1 h2 =>
      rw [hb] at h1
      subst h1
      exact ⟨_, e⟩

/-! ### The hypotheses are met -/

/-- A system that allocates upwards and refuses the second initialisation. -/
def demoOs : Os := fun h s => match s with
  | .calloc _ => (blocks h).foldr max 0 + 1
  | .condInit _ => if h.any (fun x => x.1 matches .condInit _) then 12 else 0
  | _ => 0

theorem le_max (l : List Nat) : ∀ x ∈ l, x ≤ l.foldr max 0 := by
  induction l with
  | nil => intro x h; cases h
  | cons a l ih =>
      intro x h
      simp only [List.foldr_cons]
      rcases List.mem_cons.1 h with e | e
      · omega
      · have := ih x e; omega

example : Sane demoOs := fun h n hm => by
  have := le_max _ _ hm
  simp only [demoOs] at this
  omega

example : ∃ h, Runs demoOs (usePthreadsIn Cbs.zero) ⟨[1], []⟩ h ∧ h.length = 11 := by
  have h1 : Runs demoOs (usePthreadsIn Cbs.zero) ⟨[1], []⟩ _ := .call (c := .allocLock 0) (r := 1) .start trivial rfl
  have h2 : Runs demoOs (usePthreadsIn Cbs.zero) ⟨[1], [2]⟩ _ := .call (c := .condAlloc 0) (r := 2) h1 trivial rfl
  have h3 : Runs demoOs (usePthreadsIn Cbs.zero) ⟨[1], [2]⟩ _ := .call (c := .lock 1 1) (r := 0) h2 (List.mem_singleton.2 rfl) rfl
  have h4 : Runs demoOs (usePthreadsIn Cbs.zero) ⟨[1], [2]⟩ _ := .call (c := .wait 2 1 0) (r := 0) h3 ⟨List.mem_singleton.2 rfl, List.mem_singleton.2 rfl⟩ rfl
  have h5 : Runs demoOs (usePthreadsIn Cbs.zero) ⟨[1], [2]⟩ _ := .call (c := .condAlloc 0) (r := 0) h4 trivial rfl
  have h6 : Runs demoOs (usePthreadsIn Cbs.zero) ⟨[1], []⟩ _ := .call (c := .condFree 2) (r := 0) h5 (List.mem_singleton.2 rfl) rfl
  exact ⟨_, h6, rfl⟩

/-- **C120 is violated: NULL.** The other functions do not check the pointer they are given either: a missing condition, mutex or lock is passed on to POSIX. -/
theorem c120_null_args_violation (os : Os) (t : Cbs) (h : Hist) (n : Nat) (i : Int) : perform os (usePthreadsIn t) (.wait 0 n n) h = .ub ∧ perform os (usePthreadsIn t) (.wait n 0 n) h = .ub ∧ perform os (usePthreadsIn t) (.lock i 0) h = .ub ∧ perform os (usePthreadsIn t) (.unlock i 0) h = .ub ∧ perform os (usePthreadsIn t) (.signal 0 i) h = .ub := by
  rw [use_eq]
  refine ⟨?_, ?_, ?_, ?_, ?_⟩ <;> simp [perform, invoke, via, pthreadsLock, pthreadsCond, posix, condWaitP, raw, mapped]

end ZT.Pool.Posix
