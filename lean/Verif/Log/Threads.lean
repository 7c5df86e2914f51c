import Verif.Common

/-!
# The default logger with threads (C109)

zt_log.c 90-149 and 300-313, step by step: a step is one access to `log_default_ptr` or one operation on `log_mutex`, and the steps of any number of threads interleave in any order (sequential consistency; the unlocked
reads of `log_default_ptr` are plain reads in C). What a logger contains is left out (`Verif.Log.Model`); the call of zt_log_stderr is assumed to succeed, otherwise the process exits.
-/

namespace ZT.Log.Threads

/-- A logger made by zt_log_get_logger, or one the program made. -/
inductive Lg where
  | lib (n : Nat)
  | usr (n : Nat)
  deriving DecidableEq

/-- A call of a thread: any function given a NULL logger (zt_log_get_logger), zt_log_logger, zt_log_close. -/
inductive Req where
  | get
  | logger (log : Option Lg)
  | close (log : Lg)
  deriving DecidableEq

/-- Where a thread is. The parameter of `lockS` and `swap` is the argument of zt_log_set_logger and, when zt_log_close is the caller, the logger it closes; that of `unlockS` has `last` in addition. -/
inductive Pc where
  | idle
  | first                                              -- line 92, the unlocked check
  | lockG                                              -- line 94
  | check                                              -- line 99
  | create                                             -- line 100
  | register                                           -- line 105
  | unlockG                                            -- line 108
  | result                                             -- line 112, `return log_default_ptr`
  | logger1 (log : Option Lg)                          -- line 144
  | lockS (log : Option Lg) (closing : Option Lg)      -- line 120
  | swap (log : Option Lg) (closing : Option Lg)       -- lines 123-124
  | unlockS (log last : Option Lg) (closing : Option Lg) -- line 127
  | close1 (log : Lg)                                  -- line 306
  deriving DecidableEq

/-- What a call has returned: the logger zt_log_get_logger returned; the logger zt_log_logger was given and the one it returned; the logger zt_log_close has destroyed and, if it went through zt_log_set_logger, what was
the default logger there. -/
inductive Ev where
  | got (t : Nat) (log : Option Lg)
  | swapped (t : Nat) (log last : Option Lg)
  | closed (t : Nat) (log : Lg) (last : Option Lg)
  deriving DecidableEq

/-- `log_default_ptr`, the thread that holds `log_mutex`, how many loggers zt_log_get_logger has made, the arguments of log_atexit (the latest first), the threads, what the calls returned (the latest first). -/
structure W where
  dflt : Option Lg
  owner : Option Nat
  made : Nat
  atexit : List (Option Lg)
  pc : Nat → Pc
  out : List Ev

def start : W := ⟨none, none, 0, [], fun _ => .idle, []⟩

def goto (w : W) (t : Nat) (p : Pc) : W := { w with pc := fun x => if x = t then p else w.pc x }

/-- zt_log.c 91, 132, 301: thread `t` makes a call (it must not be in one). -/
def begin_ (w : W) (t : Nat) (r : Req) : Option W :=
  match w.pc t with
  | .idle => some (goto w t (match r with
      | .get => .first
      | .logger log => .logger1 log
      | .close log => .close1 log))
  | _ => none

/-- zt_log.c 94, 120, pthread_mutex_lock: not possible while another thread holds the mutex. -/
def acquire (w : W) (t : Nat) (p : Pc) : Option W :=
  match w.owner with
  | none => some (goto { w with owner := some t } t p)
  | some _ => none

/-- zt_log.c 90-149, 300-313: the next step of thread `t`, if it can make one. The comments of `Pc` give the lines. -/
def next (w : W) (t : Nat) : Option W :=
  match w.pc t with
  | .idle => none
  | .first => some (goto w t (if w.dflt.isSome then .result else .lockG))
  | .lockG => acquire w t .check
  | .check => some (goto w t (if w.dflt.isSome then .unlockG else .create))
  | .create => some (goto { w with dflt := some (.lib w.made), made := w.made + 1 } t .register)
  | .register => some (goto { w with atexit := w.dflt :: w.atexit } t .unlockG)
  | .unlockG => some (goto { w with owner := none } t .result)
  | .result => some (goto { w with out := .got t w.dflt :: w.out } t .idle)
  | .logger1 log => some (goto w t (if log.isNone && w.dflt.isNone then .first else .lockS log none))
  | .lockS log cl => acquire w t (.swap log cl)
  | .swap log cl => some (goto { w with dflt := log } t (.unlockS log w.dflt cl))
  | .unlockS log last none => some (goto { w with owner := none, out := .swapped t log last :: w.out } t .idle)
  | .unlockS _ last (some l) => some (goto { w with owner := none, out := .closed t l last :: w.out } t .idle)
  | .close1 l => some (if w.dflt = some l then goto w t (.lockS none (some l)) else goto { w with out := .closed t l none :: w.out } t .idle)

/-- A schedule: threads making calls and making steps. -/
inductive Op where
  | call (t : Nat) (r : Req)
  | go (t : Nat)
  deriving DecidableEq

def step (w : W) : Op → Option W
  | .call t r => begin_ w t r
  | .go t => next w t

def runs : List Op → W → Option W
  | [], w => some w
  | o :: os, w => (step w o).bind (runs os)

/-! ## Specification -/

/-- The loggers that zt_log_get_logger or the calls of zt_log_logger that have returned made the default logger. -/
def installed (w : W) : List Lg := (List.range w.made).map .lib ++ w.out.filterMap fun e => match e with | .swapped _ log _ => log | _ => none

/-- The loggers that calls of zt_log_logger have returned, or zt_log_close has taken out. -/
def handedBack (w : W) : List Lg := w.out.filterMap fun e => match e with | .swapped _ _ last => last | .closed _ _ last => last | _ => none

/-- No thread is in a call. -/
def Quiet (w : W) : Prop := ∀ t, w.pc t = .idle

/-- The calls in a schedule. -/
def reqs (os : List Op) : List Req := os.filterMap fun o => match o with | .call _ r => some r | .go _ => none

/-- How many steps the schedule has that are not calls. -/
def steps (os : List Op) : Nat := os.countP fun o => match o with | .go _ => true | .call _ _ => false

/-! ## Proofs -/

def inLock : Pc → Bool
  | .check | .create | .register | .unlockG | .swap _ _ | .unlockS _ _ _ => true
  | _ => false

/-- The pc of the thread that holds the mutex. -/
def held (w : W) : Pc := match w.owner with | some t => w.pc t | none => .idle

/-- What the thread in the mutex has made but not registered, installed but not returned, taken but not returned. -/
def pendReg (p : Pc) (d : Option Lg) : List (Option Lg) := match p with | .register => [d] | _ => []
def pendIn (p : Pc) : List Lg := match p with | .unlockS log _ none => log.toList | _ => []
def pendOut (p : Pc) : List Lg := match p with | .unlockS _ last _ => last.toList | _ => []

def Lock (w : W) : Prop := ∀ t, inLock (w.pc t) = true ↔ w.owner = some t

/-- The argument of zt_log_set_logger when zt_log_close calls it. -/
def clearing : Pc → Prop
  | .lockS log (some _) => log = none
  | .swap log (some _) => log = none
  | .unlockS log _ (some _) => log = none
  | _ => True

structure Inv (w : W) : Prop where
  lock : Lock w
  create : held w = .create → w.dflt = none
  closing : ∀ t, clearing (w.pc t)
  reg : pendReg (held w) w.dflt ++ w.atexit = (List.range w.made).reverse.map fun k => some (.lib k)
  cons : ∀ l, (installed w).count l + (pendIn (held w)).count l = (handedBack w).count l + (pendOut (held w)).count l + w.dflt.toList.count l

theorem held_in {w : W} {t : Nat} {p : Pc} (h : w.owner = some t) : held (goto w t p) = p := by
  simp [held, goto, h]

theorem held_out {w : W} {t : Nat} {p : Pc} (h : w.owner ≠ some t) : held (goto w t p) = held w := by
  unfold held goto
  cases e : w.owner with
  | none => simp
  | some u =>
      have : u ≠ t := by rintro rfl; exact h e
      simp [this]

theorem held_none {w : W} (h : w.owner = none) : held w = .idle := by simp [held, h]

theorem held_eq {w : W} {t : Nat} (h : w.owner = some t) : held w = w.pc t := by simp [held, h]

theorem lock_same {w : W} {t : Nat} {p : Pc} (h : Lock w) (hp : inLock p = inLock (w.pc t)) : Lock (goto w t p) := by
  intro x
  by_cases hx : x = t
  · subst hx; simp [goto, hp]; exact h x
  · simp [goto, hx]; exact h x

theorem lock_acquire {w : W} {t : Nat} {p : Pc} (h : Lock w) (ho : w.owner = none) (hp : inLock p = true) : Lock (goto { w with owner := some t } t p) := by
  intro x
  by_cases hx : x = t
  · subst hx; simp [goto, hp]
  · have := h x
    rw [ho] at this
    have hx' : ¬ t = x := fun e => hx e.symm
    simp [goto, hx, hx'] at this ⊢
    exact this

theorem lock_release {w : W} {t : Nat} {p : Pc} (h : Lock w) (ho : w.owner = some t) (hp : inLock p = false) : Lock (goto { w with owner := none } t p) := by
  intro x
  by_cases hx : x = t
  · subst hx; simp [goto, hp]
  · have := h x
    rw [ho] at this
    have hx' : ¬ t = x := fun e => hx e.symm
    simp [goto, hx, hx'] at this ⊢
    exact this

theorem closing_goto {w : W} {t : Nat} {p : Pc} (h : ∀ x, clearing (w.pc x)) (hp : clearing p) : ∀ x, clearing ((goto w t p).pc x) := by
  intro x
  by_cases hx : x = t
  · simpa [goto, hx] using hp
  · simpa [goto, hx] using h x

theorem inv_start : Inv start := ⟨fun t => by simp [start, inLock], fun _ => rfl, fun _ => trivial, rfl, fun _ => rfl⟩

/-- A step outside the mutex that changes nothing but the place of the thread. -/
theorem inv_goto {w : W} {t : Nat} {p : Pc} (I : Inv w) (h : inLock (w.pc t) = false) (hp : inLock p = false) (hc : clearing p) : Inv (goto w t p) := by
  have ho : w.owner ≠ some t := fun e => by rw [(I.lock t).2 e] at h; cases h
  have hh := held_out (p := p) ho
  exact ⟨lock_same I.lock (by rw [h, hp]), by rw [hh]; exact I.create, closing_goto I.closing hc, by rw [hh]; exact I.reg, by rw [hh]; exact I.cons⟩

theorem inv_begin {w w' : W} {t : Nat} {r : Req} (I : Inv w) (h : begin_ w t r = some w') : Inv w' := by
  unfold begin_ at h
  split at h
  · rename_i hp
    cases h
    cases r <;> exact inv_goto I (by rw [hp]; rfl) rfl trivial
  · cases h

theorem inv_acquire {w w' : W} {t : Nat} {p : Pc} (I : Inv w) (hp : inLock p = true) (hc : clearing p) (h1 : p ≠ .create) (h2 : pendReg p w.dflt = []) (h3 : pendIn p = []) (h4 : pendOut p = []) (h : acquire w t p = some w') : Inv w' := by
  unfold acquire at h
  split at h
  · rename_i ho
    cases h
    have hh : held (goto { w with owner := some t } t p) = p := held_in rfl
    have h0 := held_none ho
    refine ⟨lock_acquire I.lock ho hp, fun e => absurd (hh.symm.trans e) h1, closing_goto (w := { w with owner := some t }) I.closing hc, ?_, ?_⟩
    · have := I.reg
      rw [h0] at this
      rw [hh]
      show pendReg p w.dflt ++ w.atexit = _
      rw [h2]
      exact this
    · intro l
      have := I.cons l
      rw [h0] at this
      rw [hh, h3, h4]
      exact this
  · cases h

theorem inv_next {w w' : W} {t : Nat} (I : Inv w) (h : next w t = some w') : Inv w' := by
  unfold next at h
  split at h
  case h_1 => cases h
  case h_2 hp =>
      cases h
      split <;> exact inv_goto I (by rw [hp]; rfl) rfl trivial
  case h_3 hp => exact inv_acquire (p := .check) I rfl trivial (by simp) rfl rfl rfl h
  case h_4 hp =>
      cases h
      have ho : w.owner = some t := (I.lock t).1 (by rw [hp]; rfl)
      have h0 := (held_eq ho).trans hp
      have h1 := I.reg
      have h2 := I.cons
      rw [h0] at h1 h2
      split
      · have hh : held (goto w t .unlockG) = .unlockG := held_in ho
        exact ⟨lock_same I.lock (by rw [hp]; rfl), (fun e => by rw [hh] at e; cases e), closing_goto I.closing True.intro, by rw [hh]; exact h1, by rw [hh]; exact h2⟩
      · rename_i hd
        have hh : held (goto w t .create) = .create := held_in ho
        exact ⟨lock_same I.lock (by rw [hp]; rfl), fun _ => by cases e : w.dflt <;> simp_all [goto], closing_goto I.closing True.intro, by rw [hh]; exact h1, by rw [hh]; exact h2⟩
  case h_5 hp =>
      cases h
      have ho : w.owner = some t := (I.lock t).1 (by rw [hp]; rfl)
      have h0 := (held_eq ho).trans hp
      have h1 := I.reg
      have h2 := I.cons
      have h3 := I.create h0
      rw [h0] at h1 h2
      have hh : held (goto { w with dflt := some (.lib w.made), made := w.made + 1 } t .register) = .register := held_in ho
      refine ⟨lock_same (w := { w with dflt := some (.lib w.made), made := w.made + 1 }) I.lock (by rw [show W.pc _ t = _ from hp]; rfl), (fun e => by rw [hh] at e; cases e), closing_goto (w := { w with dflt := some (.lib w.made), made := w.made + 1 }) I.closing True.intro, ?_, ?_⟩
      · rw [hh]
        show some (Lg.lib w.made) :: w.atexit = _
        rw [show w.atexit = _ from h1]
        show _ = (List.range (w.made + 1)).reverse.map _
        simp [List.range_succ]
      · intro l
        rw [hh]
        have := h2 l
        show (((List.range (w.made + 1)).map Lg.lib) ++ _).count l + 0 = (handedBack w).count l + 0 + [Lg.lib w.made].count l
        simp only [installed, handedBack, goto, h3, pendIn, pendOut, List.count_append, List.range_succ, List.map_append, List.map_cons, List.map_nil, Option.toList, List.count_nil] at this ⊢
        omega
  case h_6 hp =>
      cases h
      have ho : w.owner = some t := (I.lock t).1 (by rw [hp]; rfl)
      have h0 := (held_eq ho).trans hp
      have h1 := I.reg
      have h2 := I.cons
      rw [h0] at h1 h2
      have hh : held (goto { w with atexit := w.dflt :: w.atexit } t .unlockG) = .unlockG := held_in ho
      exact ⟨lock_same (w := { w with atexit := w.dflt :: w.atexit }) I.lock (by rw [show W.pc _ t = _ from hp]; rfl), (fun e => by rw [hh] at e; cases e), closing_goto (w := { w with atexit := w.dflt :: w.atexit }) I.closing True.intro, by rw [hh]; exact h1, by rw [hh]; exact h2⟩
  case h_7 hp =>
      cases h
      have ho : w.owner = some t := (I.lock t).1 (by rw [hp]; rfl)
      have h0 := (held_eq ho).trans hp
      have h1 := I.reg
      have h2 := I.cons
      rw [h0] at h1 h2
      have hh : held (goto { w with owner := none } t .result) = .idle := held_none rfl
      exact ⟨lock_release I.lock ho rfl, (fun e => by rw [hh] at e; cases e), closing_goto (w := { w with owner := none }) I.closing True.intro, by rw [hh]; exact h1, by rw [hh]; exact h2⟩
  case h_8 hp =>
      cases h
      have I' : Inv { w with out := .got t w.dflt :: w.out } := by
        refine ⟨I.lock, I.create, I.closing, I.reg, fun l => ?_⟩
        have := I.cons l
        simpa [installed, handedBack, held] using this
      exact inv_goto I' (by rw [show W.pc _ t = _ from hp]; rfl) rfl trivial
  case h_9 log hp =>
      cases h
      split <;> exact inv_goto I (by rw [hp]; rfl) rfl trivial
  case h_10 log cl hp =>
      have hc := I.closing t
      rw [hp] at hc
      exact inv_acquire (p := .swap log cl) I rfl (by cases cl <;> exact hc) (by simp) rfl rfl rfl h
  case h_11 log cl hp =>
      cases h
      have ho : w.owner = some t := (I.lock t).1 (by rw [hp]; rfl)
      have hc := I.closing t
      rw [hp] at hc
      have h0 := (held_eq ho).trans hp
      have h1 := I.reg
      have h2 := I.cons
      rw [h0] at h1 h2
      have hh : held (goto { w with dflt := log } t (.unlockS log w.dflt cl)) = .unlockS log w.dflt cl := held_in ho
      refine ⟨lock_same (w := { w with dflt := log }) I.lock (by rw [show W.pc _ t = _ from hp]; rfl), (fun e => by rw [hh] at e; cases e), closing_goto (w := { w with dflt := log }) (p := .unlockS log w.dflt cl) I.closing (by cases cl <;> exact hc), by rw [hh]; exact h1, ?_⟩
      intro l
      rw [hh]
      have := h2 l
      cases cl with
      | none =>
          show (installed w).count l + log.toList.count l = (handedBack w).count l + w.dflt.toList.count l + log.toList.count l
          simp only [pendIn, pendOut, List.count_nil] at this
          omega
      | some c =>
          cases hc
          show (installed w).count l + 0 = (handedBack w).count l + w.dflt.toList.count l + 0
          simp only [pendIn, pendOut, List.count_nil] at this
          omega
  case h_12 log last hp =>
      cases h
      have ho : w.owner = some t := (I.lock t).1 (by rw [hp]; rfl)
      have h0 := (held_eq ho).trans hp
      have h1 := I.reg
      have h2 := I.cons
      rw [h0] at h1 h2
      have hh : held (goto { w with owner := none, out := .swapped t log last :: w.out } t .idle) = .idle := held_none rfl
      refine ⟨lock_release (w := { w with out := .swapped t log last :: w.out }) I.lock ho rfl, (fun e => by rw [hh] at e; cases e), closing_goto (w := { w with owner := none, out := .swapped t log last :: w.out }) I.closing True.intro, by rw [hh]; exact h1, ?_⟩
      intro l
      rw [hh]
      have := h2 l
      cases log <;> cases last <;> simp [installed, handedBack, goto, pendIn, pendOut] at this ⊢ <;> grind
  case h_13 log last c hp =>
      cases h
      have ho : w.owner = some t := (I.lock t).1 (by rw [hp]; rfl)
      have h0 := (held_eq ho).trans hp
      have h1 := I.reg
      have h2 := I.cons
      rw [h0] at h1 h2
      have hh : held (goto { w with owner := none, out := .closed t c last :: w.out } t .idle) = .idle := held_none rfl
      refine ⟨lock_release (w := { w with out := .closed t c last :: w.out }) I.lock ho rfl, (fun e => by rw [hh] at e; cases e), closing_goto (w := { w with owner := none, out := .closed t c last :: w.out }) I.closing True.intro, by rw [hh]; exact h1, ?_⟩
      intro l
      rw [hh]
      have := h2 l
      cases last <;> simp [installed, handedBack, goto, pendIn, pendOut] at this ⊢ <;> grind
  case h_14 l hp =>
      cases h
      split
      · exact inv_goto I (by rw [hp]; rfl) rfl rfl
      · have I' : Inv { w with out := .closed t l none :: w.out } := by
          refine ⟨I.lock, I.create, I.closing, I.reg, fun x => ?_⟩
          have := I.cons x
          simpa [installed, handedBack, held] using this
        exact inv_goto I' (by rw [show W.pc _ t = _ from hp]; rfl) rfl trivial

theorem inv_step {w w' : W} {o : Op} (I : Inv w) (h : step w o = some w') : Inv w' := by
  cases o with
  | call t r => exact inv_begin I h
  | go t => exact inv_next I h

theorem inv_runs {os : List Op} {w w' : W} (I : Inv w) (h : runs os w = some w') : Inv w' := by
  induction os generalizing w with
  | nil => cases h; exact I
  | cons o os ih =>
      simp only [runs, Option.bind_eq_some_iff] at h
      obtain ⟨w1, h1, h2⟩ := h
      exact ih (inv_step I h1) h2

/-! ## C109 -/

theorem quiet_held {w : W} (h : Quiet w) : held w = .idle := by
  unfold held
  split
  · exact h _
  · rfl

/-- **C109 (no logger is lost).** In any schedule of any number of threads that use, replace and close the default logger: whenever no thread is inside a call, each logger that was made the default logger has been handed back by
exactly one later call, except the one that is the default logger now. -/
theorem c109_conserved {os : List Op} {w : W} (h : runs os start = some w) (hq : Quiet w) : (installed w).Perm (handedBack w ++ w.dflt.toList) := by
  have I := inv_runs inv_start h
  refine List.perm_iff_count.2 fun l => ?_
  have := I.cons l
  rw [quiet_held hq] at this
  rw [List.count_append]
  simpa [pendIn, pendOut] using this

/-- **C109 (closed at exit once).** Whatever the threads do, whenever no thread is inside a call, every logger that the library has made by itself is registered for being closed at exit, exactly once, and no other logger is. -/
theorem c109_registered {os : List Op} {w : W} (h : runs os start = some w) (hq : Quiet w) : w.atexit = (List.range w.made).reverse.map fun k => some (.lib k) := by
  have I := inv_runs inv_start h
  have := I.reg
  rw [quiet_held hq] at this
  exact this

/-- What is true while nobody takes the default logger away. -/
structure Keep (w : W) : Prop where
  made : w.made ≤ 1
  dflt : w.made = 0 ∨ w.dflt.isSome
  out : ∀ t, .got t none ∉ w.out
  pc : ∀ t, match w.pc t with
    | .register | .unlockG | .result => w.dflt.isSome = true
    | .logger1 log => log.isSome = true
    | .lockS log cl => log.isSome = true ∧ cl = none
    | .swap log cl => log.isSome = true ∧ cl = none
    | .unlockS _ _ cl => cl = none
    | .close1 _ => False
    | _ => True

/-- Neither zt_log_logger(NULL) nor zt_log_close. -/
def Req.keeps : Req → Prop
  | .get => True
  | .logger log => log.isSome = true
  | .close _ => False

def place (d : Option Lg) (p : Pc) : Prop := match p with
    | .register | .unlockG | .result => d.isSome = true
    | .logger1 log => log.isSome = true
    | .lockS log cl => log.isSome = true ∧ cl = none
    | .swap log cl => log.isSome = true ∧ cl = none
    | .unlockS _ _ cl => cl = none
    | .close1 _ => False
    | _ => True

theorem place_mono {d d' : Option Lg} {p : Pc} (h : place d p) (hd : d.isSome = true → d'.isSome = true) : place d' p := by
  unfold place at *
  split at h <;> first | exact hd h | exact h

theorem keep_goto {w w1 : W} {t : Nat} {p : Pc} (K : Keep w) (hm : w1.made ≤ 1) (hd : w1.made = 0 ∨ w1.dflt.isSome) (ho : ∀ t, .got t none ∉ w1.out) (hpc : w1.pc = w.pc) (hs : w.dflt.isSome = true → w1.dflt.isSome = true)
    (hp : place w1.dflt p) : Keep (goto w1 t p) := by
  refine ⟨hm, hd, ho, fun x => ?_⟩
  show place w1.dflt ((goto w1 t p).pc x)
  by_cases hx : x = t
  · simpa [goto, hx] using hp
  · have := K.pc x
    simpa [goto, hx, hpc] using place_mono (show place w.dflt (w.pc x) from this) hs

theorem keep_begin {w w' : W} {t : Nat} {r : Req} (K : Keep w) (hr : r.keeps) (h : begin_ w t r = some w') : Keep w' := by
  unfold begin_ at h
  split at h
  · cases h
    refine keep_goto K K.made K.dflt K.out rfl id ?_
    cases r with
    | get => exact True.intro
    | logger log => exact hr
    | close l => exact hr.elim
  · cases h

theorem keep_acquire {w w' : W} {t : Nat} {p : Pc} (K : Keep w) (hp : place w.dflt p) (h : acquire w t p = some w') : Keep w' := by
  unfold acquire at h
  split at h
  · cases h
    exact keep_goto K K.made K.dflt K.out rfl id hp
  · cases h

theorem keep_next {w w' : W} {t : Nat} (I : Inv w) (K : Keep w) (h : next w t = some w') : Keep w' := by
  have hk : place w.dflt (w.pc t) := K.pc t
  unfold next at h
  split at h
  case h_1 => cases h
  case h_2 hp =>
      cases h
      refine keep_goto K K.made K.dflt K.out rfl id ?_
      split
      · assumption
      · exact True.intro
  case h_3 hp => exact keep_acquire (p := .check) K True.intro h
  case h_4 hp =>
      cases h
      refine keep_goto K K.made K.dflt K.out rfl id ?_
      split
      · assumption
      · exact True.intro
  case h_5 hp =>
      cases h
      have ho : w.owner = some t := (I.lock t).1 (by rw [hp]; rfl)
      have hd := I.create ((held_eq ho).trans hp)
      have hm : w.made = 0 := by
        rcases K.dflt with h | h
        · exact h
        · rw [hd] at h; cases h
      exact keep_goto (w1 := { w with dflt := some (.lib w.made), made := w.made + 1 }) K (by show w.made + 1 ≤ 1; omega) (.inr rfl) K.out rfl (fun _ => rfl) rfl
  case h_6 hp =>
      cases h
      rw [hp] at hk
      exact keep_goto (w1 := { w with atexit := w.dflt :: w.atexit }) K K.made K.dflt K.out rfl id hk
  case h_7 hp =>
      cases h
      rw [hp] at hk
      exact keep_goto (w1 := { w with owner := none }) K K.made K.dflt K.out rfl id hk
  case h_8 hp =>
      cases h
      rw [hp] at hk
      have hs : w.dflt.isSome = true := hk
      refine keep_goto (w1 := { w with out := .got t w.dflt :: w.out }) K K.made K.dflt ?_ rfl id True.intro
      intro x hx
      rcases List.mem_cons.1 hx with hx | hx
      · cases e : w.dflt with
        | none => rw [e] at hs; cases hs
        | some l => rw [e] at hx; cases hx
      · exact K.out x hx
  case h_9 log hp =>
      cases h
      rw [hp] at hk
      have hs : log.isSome = true := hk
      refine keep_goto K K.made K.dflt K.out rfl id ?_
      split
      · exact True.intro
      · exact ⟨hs, rfl⟩
  case h_10 log cl hp =>
      rw [hp] at hk
      exact keep_acquire (p := .swap log cl) K hk h
  case h_11 log cl hp =>
      cases h
      rw [hp] at hk
      obtain ⟨hs, rfl⟩ := hk
      exact keep_goto (w1 := { w with dflt := log }) K K.made (.inr hs) K.out rfl (fun _ => hs) rfl
  case h_12 log last hp =>
      cases h
      refine keep_goto (w1 := { w with owner := none, out := .swapped t log last :: w.out }) K K.made K.dflt ?_ rfl id True.intro
      intro x hx
      rcases List.mem_cons.1 hx with hx | hx
      · cases hx
      · exact K.out x hx
  case h_13 log last c hp =>
      rw [hp] at hk
      cases hk
  case h_14 l hp =>
      rw [hp] at hk
      exact hk.elim

theorem keep_start : Keep start := ⟨by decide, .inl rfl, by simp [start], fun _ => True.intro⟩

theorem keep_runs {os : List Op} {w w' : W} (I : Inv w) (K : Keep w) (hr : ∀ r ∈ reqs os, r.keeps) (h : runs os w = some w') : Keep w' := by
  induction os generalizing w with
  | nil => cases h; exact K
  | cons o os ih =>
      simp only [runs, Option.bind_eq_some_iff] at h
      obtain ⟨w1, h1, h2⟩ := h
      cases o with
      | call t r => exact ih (inv_step I h1) (keep_begin K (hr r (by simp [reqs])) h1) (fun r hr' => hr r (by simpa [reqs] using .inr (by simpa [reqs] using hr'))) h2
      | go t => exact ih (inv_step I h1) (keep_next I K h1) (fun r hr' => hr r (by simpa [reqs] using hr')) h2

/-- **C109 (never without a logger, partial).** As long as no thread takes the default logger away (by zt_log_logger(NULL) or zt_log_close), the library makes at most one logger, however many threads need it first at the same moment, and no
call finds itself without a logger. Missing for the full claim: schedules in which a thread takes it away (`c109_null_violation`). -/
theorem c109_keep_partial {os : List Op} {w : W} (h : runs os start = some w) (hr : ∀ r ∈ reqs os, r.keeps) : w.made ≤ 1 ∧ ∀ t, .got t none ∉ w.out := by
  have K := keep_runs inv_start keep_start hr h
  exact ⟨K.made, K.out⟩

/-- Threads that only log. -/
structure Only (w : W) : Prop where
  dflt : w.dflt = none ∨ w.dflt = some (.lib 0)
  out : ∀ e ∈ w.out, ∃ t, e = .got t (some (.lib 0))

theorem only_next {w w' : W} {t : Nat} (I : Inv w) (K : Keep w) (O : Only w) (hg : ∀ t, match w.pc t with | .logger1 _ | .lockS _ _ | .swap _ _ | .unlockS _ _ _ | .close1 _ => False | _ => True) (h : next w t = some w') :
    Only w' ∧ ∀ t, match w'.pc t with | .logger1 _ | .lockS _ _ | .swap _ _ | .unlockS _ _ _ | .close1 _ => False | _ => True := by
  have hk : place w.dflt (w.pc t) := K.pc t
  have hgt := hg t
  have aux : ∀ (w1 : W) (p : Pc), w1.pc = w.pc → (match p with | .logger1 _ | .lockS _ _ | .swap _ _ | .unlockS _ _ _ | .close1 _ => False | _ => True) →
      ∀ x, match (goto w1 t p).pc x with | .logger1 _ | .lockS _ _ | .swap _ _ | .unlockS _ _ _ | .close1 _ => False | _ => True := by
    intro w1 p e hp x
    by_cases hx : x = t
    · simpa [goto, hx] using hp
    · simpa [goto, hx, e] using hg x
  unfold next at h
  split at h
  case h_1 => cases h
  case h_2 hp => cases h; exact ⟨⟨O.dflt, O.out⟩, aux _ _ rfl (by cases w.dflt.isSome <;> exact True.intro)⟩
  case h_3 hp =>
      unfold acquire at h
      split at h
      · cases h; exact ⟨⟨O.dflt, O.out⟩, aux _ _ rfl True.intro⟩
      · cases h
  case h_4 hp => cases h; exact ⟨⟨O.dflt, O.out⟩, aux _ _ rfl (by cases w.dflt.isSome <;> exact True.intro)⟩
  case h_5 hp =>
      cases h
      have ho : w.owner = some t := (I.lock t).1 (by rw [hp]; rfl)
      have hd := I.create ((held_eq ho).trans hp)
      have hm : w.made = 0 := by
        rcases K.dflt with h | h
        · exact h
        · rw [hd] at h; cases h
      exact ⟨⟨.inr (by show some (Lg.lib w.made) = _; rw [hm]), O.out⟩, aux _ _ rfl True.intro⟩
  case h_6 hp => cases h; exact ⟨⟨O.dflt, O.out⟩, aux _ _ rfl True.intro⟩
  case h_7 hp => cases h; exact ⟨⟨O.dflt, O.out⟩, aux _ _ rfl True.intro⟩
  case h_8 hp =>
      cases h
      rw [hp] at hk
      have hs : w.dflt.isSome = true := hk
      refine ⟨⟨O.dflt, ?_⟩, aux _ _ rfl True.intro⟩
      intro e he
      rcases List.mem_cons.1 he with rfl | he
      · rcases O.dflt with h | h
        · rw [h] at hs; cases hs
        · exact ⟨t, by rw [h]⟩
      · exact O.out e he
  all_goals rename_i hp; rw [hp] at hgt; exact hgt.elim

theorem only_runs {os : List Op} {w w' : W} (I : Inv w) (K : Keep w) (O : Only w) (hg : ∀ t, match w.pc t with | .logger1 _ | .lockS _ _ | .swap _ _ | .unlockS _ _ _ | .close1 _ => False | _ => True) (hr : ∀ r ∈ reqs os, r = .get) (h : runs os w = some w') : Only w' := by
  induction os generalizing w with
  | nil => cases h; exact O
  | cons o os ih =>
      simp only [runs, Option.bind_eq_some_iff] at h
      obtain ⟨w1, h1, h2⟩ := h
      cases o with
      | call t r =>
          have hrg := hr r (by simp [reqs])
          subst hrg
          have hg1 : ∀ t, match w1.pc t with | .logger1 _ | .lockS _ _ | .swap _ _ | .unlockS _ _ _ | .close1 _ => False | _ => True := by
            simp only [step, begin_] at h1
            split at h1
            · cases h1
              intro x
              by_cases hx : x = t
              · simp [goto, hx]
              · simpa [goto, hx] using hg x
            · cases h1
          have O1 : Only w1 := by
            simp only [step, begin_] at h1
            split at h1
            · cases h1; exact ⟨O.dflt, O.out⟩
            · cases h1
          exact ih (inv_step I h1) (keep_begin (r := .get) K True.intro h1) O1 hg1 (fun r hr' => hr r (by simpa [reqs] using .inr (by simpa [reqs] using hr'))) h2
      | go t =>
          obtain ⟨O1, hg1⟩ := only_next I K O hg h1
          exact ih (inv_step I h1) (keep_next I K h1) O1 hg1 (fun r hr' => hr r (by simpa [reqs] using hr')) h2

/-- **C109 (made once).** When threads only use the default logger, all of them get the same one, in every schedule. -/
theorem c109_same {os : List Op} {w : W} (h : runs os start = some w) (hr : ∀ r ∈ reqs os, r = .get) : ∀ e ∈ w.out, ∃ t, e = .got t (some (.lib 0)) :=
  (only_runs inv_start keep_start ⟨.inl rfl, by simp [start]⟩ (fun _ => True.intro) hr h).out

/-- **C109 (no deadlock).** In every state that is reached, if a thread is in a call then that thread, or the one that holds the mutex, can make a step. -/
theorem c109_progress {os : List Op} {w : W} (h : runs os start = some w) {t : Nat} (ht : w.pc t ≠ .idle) : ∃ u, (u = t ∨ w.owner = some u) ∧ next w u ≠ none := by
  have I := inv_runs inv_start h
  cases ho : w.owner with
  | none =>
      refine ⟨t, .inl rfl, ?_⟩
      unfold next acquire
      rw [ho]
      split <;> simp_all
  | some u =>
      refine ⟨u, .inr rfl, ?_⟩
      have := (I.lock u).2 ho
      unfold next
      split <;> simp_all [inLock]

/-! ### What each call answers -/

/-- The thread an event belongs to. -/
def Ev.thread : Ev → Nat
  | .got t _ => t
  | .swapped t _ _ => t
  | .closed t _ _ => t

/-- `e` is an answer to the call `r`: a logger given to zt_log_logger is installed, zt_log_logger(NULL) takes the default logger out or makes one, zt_log_close closes what it is given. -/
def Answers : Req → Ev → Prop
  | .get, .got _ _ => True
  | .logger given, .swapped _ log _ => log = given
  | .logger none, .got _ _ => True
  | .close l, .closed _ l' _ => l' = l
  | _, _ => False

/-- The calls have been answered, one after the other (the latest answer first). -/
inductive Served : List Req → List Ev → Prop
  | nil : Served [] []
  | snoc (rs es r e) : Served rs es → Answers r e → Served (rs ++ [r]) (e :: es)

/-- The calls of thread `t` in a schedule. -/
def callsOf (t : Nat) (os : List Op) : List Req := os.filterMap fun o => match o with | .call u r => if u = t then some r else none | .go _ => none

/-- The answers thread `t` has got, the latest first. -/
def answersTo (t : Nat) (w : W) : List Ev := w.out.filter fun e => e.thread = t

/-- A thread that has made the call `r` may be at this place. -/
def At : Req → Pc → Prop
  | _, .idle => False
  | .get, .logger1 _ => False
  | .get, .lockS _ _ => False
  | .get, .swap _ _ => False
  | .get, .unlockS _ _ _ => False
  | .get, .close1 _ => False
  | .logger a, .logger1 b => b = a
  | .logger a, .lockS b cl => b = a ∧ cl = none
  | .logger a, .swap b cl => b = a ∧ cl = none
  | .logger a, .unlockS b _ cl => b = a ∧ cl = none
  | .logger _, .close1 _ => False
  | .logger a, _ => a = none
  | .close l, .close1 b => b = l
  | .close l, .lockS _ cl => cl = some l
  | .close l, .swap _ cl => cl = some l
  | .close l, .unlockS _ _ cl => cl = some l
  | .close _, _ => False
  | .get, _ => True

/-- Thread `t` has made the calls `rs`, all answered or all but the last. -/
def Sv (t : Nat) (rs : List Req) (w : W) : Prop :=
  (w.pc t = .idle ∧ Served rs (answersTo t w)) ∨ ∃ rs' r, rs = rs' ++ [r] ∧ Served rs' (answersTo t w) ∧ At r (w.pc t)

theorem at_next {w w' : W} {t : Nat} {r : Req} (h : next w t = some w') (ha : At r (w.pc t)) :
    (w'.out = w.out ∧ At r (w'.pc t)) ∨ ∃ e, w'.out = e :: w.out ∧ e.thread = t ∧ Answers r e ∧ w'.pc t = .idle := by
  unfold next acquire at h
  split at h <;> (try split at h) <;> (try cases h) <;> rename_i hp <;> (try rw [hp] at ha)
  all_goals cases r <;> simp_all [At, Answers, goto, Ev.thread]
  all_goals (repeat' split) <;> simp_all [At, Answers, Ev.thread]
  all_goals grind [At, Answers]

theorem next_other {w w' : W} {t u : Nat} (hu : u ≠ t) (h : next w u = some w') : w'.pc t = w.pc t ∧ answersTo t w' = answersTo t w := by
  have hu' : ¬ t = u := fun e => hu e.symm
  unfold next acquire at h
  split at h <;> (try split at h) <;> (try cases h) <;> simp [goto, hu', answersTo, Ev.thread, hu]
  all_goals split <;> simp [hu', hu, Ev.thread]

theorem sv_next {w w' : W} {t u : Nat} {rs : List Req} (S : Sv t rs w) (h : next w u = some w') : Sv t rs w' := by
  by_cases hu : u = t
  · subst hu
    rcases S with ⟨hi, _⟩ | ⟨rs', r, e1, hs, ha⟩
    · simp [next, hi] at h
    · rcases at_next h ha with ⟨e2, ha'⟩ | ⟨e, e2, e3, e4, e5⟩
      · exact .inr ⟨rs', r, e1, by unfold answersTo at hs ⊢; rw [e2]; exact hs, ha'⟩
      · refine .inl ⟨e5, ?_⟩
        rw [e1]
        unfold answersTo at hs ⊢
        rw [e2, List.filter_cons_of_pos (by simp [e3])]
        exact .snoc _ _ _ _ hs e4
  · obtain ⟨e1, e2⟩ := next_other hu h
    unfold Sv
    rw [e1, e2]
    exact S

theorem sv_begin {w w' : W} {t u : Nat} {r : Req} {rs : List Req} (S : Sv t rs w) (h : begin_ w u r = some w') : Sv t (rs ++ if u = t then [r] else []) w' := by
  unfold begin_ at h
  split at h
  · rename_i hp
    cases h
    by_cases hu : u = t
    · subst hu
      rcases S with ⟨_, hs⟩ | ⟨rs', r', e1, hs, ha⟩
      · refine .inr ⟨rs, r, by simp, hs, ?_⟩
        cases r <;> simp [goto, At]
      · rw [hp] at ha
        exact absurd ha (by cases r' <;> simp [At])
    · have hu' : ¬ t = u := fun e => hu e.symm
      simp only [if_neg hu, List.append_nil]
      unfold Sv at S ⊢
      simpa [goto, hu', answersTo] using S
  · cases h

theorem sv_runs {os : List Op} {t : Nat} {w w' : W} {rs : List Req} (S : Sv t rs w) (h : runs os w = some w') : Sv t (rs ++ callsOf t os) w' := by
  induction os generalizing w rs with
  | nil => cases h; simpa [callsOf] using S
  | cons o os ih =>
      simp only [runs, Option.bind_eq_some_iff] at h
      obtain ⟨w1, h1, h2⟩ := h
      cases o with
      | call u r =>
          have h3 := ih (sv_begin S h1) h2
          by_cases hu : u = t
          · simpa [callsOf, hu] using h3
          · simpa [callsOf, hu] using h3
      | go u => simpa [callsOf] using ih (sv_next S h1) h2

/-- **C109 (every call does what it was called for).** In every schedule and for every thread: its calls are answered in order, each by an answer of its kind (a logger given to zt_log_logger becomes the default logger at one moment,
zt_log_close closes the logger it was given), and when the thread is in no call, all of them have been answered. -/
theorem c109_answers {os : List Op} {w : W} (h : runs os start = some w) (t : Nat) : (w.pc t = .idle → Served (callsOf t os) (answersTo t w)) ∧
    (w.pc t ≠ .idle → Served (callsOf t os).dropLast (answersTo t w)) := by
  have S := sv_runs (t := t) (rs := []) (w := start) (.inl ⟨rfl, .nil⟩) h
  rw [List.nil_append] at S
  rcases S with ⟨hi, hs⟩ | ⟨rs, r, e, hs, ha⟩
  · exact ⟨fun _ => hs, fun hn => absurd hi hn⟩
  · refine ⟨fun hi => ?_, fun _ => ?_⟩
    · rw [hi] at ha
      exact absurd ha (by cases r <;> simp [At])
    · rw [e, List.dropLast_concat]; exact hs

/-- The thread is about to make `l` the default logger. -/
def installs (l : Lg) : Pc → Prop
  | .logger1 log => log = some l
  | .lockS log _ => log = some l
  | .swap log _ => log = some l
  | _ => False

/-- Thread `t` is closing `l` and has not taken it out yet. -/
def removing (l : Lg) (p : Pc) : Prop := p = .close1 l ∨ p = .lockS none (some l) ∨ p = .swap none (some l)

theorem closed_next {w w' : W} {t u n : Nat} (h1 : ∀ x, ¬ installs (.usr n) (w.pc x)) (h2 : w.dflt = some (.usr n) → removing (.usr n) (w.pc t)) (h : next w u = some w') :
    (∀ x, ¬ installs (.usr n) (w'.pc x)) ∧ (w'.dflt = some (.usr n) → removing (.usr n) (w'.pc t)) := by
  have hu := h1 u
  constructor
  · intro x
    have hx := h1 x
    by_cases hxu : x = u
    · subst hxu
      unfold next acquire at h
      split at h <;> (try split at h) <;> (try cases h) <;> simp_all [goto, installs] <;> (repeat' split) <;> simp_all [installs]
    · unfold next acquire at h
      split at h <;> (try split at h) <;> (try cases h) <;> simp_all [goto] <;> (repeat' split) <;> simp_all
  · by_cases htu : t = u
    · subst htu
      unfold next acquire at h
      unfold removing at *
      split at h <;> (try split at h) <;> (try cases h) <;> simp_all [goto, installs] <;> grind
    · unfold next acquire at h
      unfold removing at *
      split at h <;> (try split at h) <;> (try cases h) <;> simp_all [goto, installs] <;> grind

theorem closed_begin {w w' : W} {t u n : Nat} {r : Req} (hr : r ≠ .logger (some (.usr n))) (h1 : ∀ x, ¬ installs (.usr n) (w.pc x)) (h2 : w.dflt = some (.usr n) → removing (.usr n) (w.pc t)) (h : begin_ w u r = some w') :
    (∀ x, ¬ installs (.usr n) (w'.pc x)) ∧ (w'.dflt = some (.usr n) → removing (.usr n) (w'.pc t)) := by
  unfold begin_ at h
  split at h
  · rename_i hp
    cases h
    constructor
    · intro x
      by_cases hxu : x = u
      · subst hxu
        cases r <;> simp_all [goto, installs]
      · simp only [goto, if_neg hxu]; exact h1 x
    · intro hd
      have := h2 hd
      by_cases htu : t = u
      · subst htu
        rw [hp] at this
        simp [removing] at this
      · simp only [goto, if_neg htu]; exact this
  · cases h

/-- **C109 (a closed logger is not the default logger).** If a thread calls zt_log_close on a logger of the program, which no thread is about to install and none installs later, then that logger is not the default logger once the call has
returned, whatever else happens. -/
theorem c109_closed {w w1 w2 : W} {t n : Nat} {os : List Op} (hw : ∀ u, ¬ installs (.usr n) (w.pc u)) (h1 : begin_ w t (.close (.usr n)) = some w1) (h2 : runs os w1 = some w2) (hr : .logger (some (.usr n)) ∉ reqs os)
    (hd : w2.pc t = .idle) : w2.dflt ≠ some (.usr n) := by
  have key : ∀ (os : List Op) (w1 : W), (∀ x, ¬ installs (.usr n) (w1.pc x)) → (w1.dflt = some (.usr n) → removing (.usr n) (w1.pc t)) → runs os w1 = some w2 → .logger (some (.usr n)) ∉ reqs os →
      (w2.dflt = some (.usr n) → removing (.usr n) (w2.pc t)) := by
    intro os
    induction os with
    | nil => intro w1 _ b h _; cases h; exact b
    | cons o os ih =>
        intro w1 a b h hr
        simp only [runs, Option.bind_eq_some_iff] at h
        obtain ⟨w3, h3, h4⟩ := h
        cases o with
        | call u r =>
            have hr1 : r ≠ .logger (some (.usr n)) := by
              rintro rfl
              exact hr (by simp [reqs])
            obtain ⟨a', b'⟩ := closed_begin hr1 a b h3
            exact ih w3 a' b' h4 (fun hm => hr (by unfold reqs at hm ⊢; rw [List.filterMap_cons]; exact List.mem_cons_of_mem _ hm))
        | go u =>
            obtain ⟨a', b'⟩ := closed_next a b h3
            exact ih w3 a' b' h4 (fun hm => hr (by unfold reqs at hm ⊢; rw [List.filterMap_cons]; exact hm))
  have h0 : (∀ x, ¬ installs (.usr n) (w1.pc x)) ∧ removing (.usr n) (w1.pc t) := by
    unfold begin_ at h1
    split at h1
    · cases h1
      constructor
      · intro x
        by_cases hx : x = t
        · simp [goto, hx, installs]
        · simp only [goto, if_neg hx]; exact hw x
      · simp [goto, removing]
    · cases h1
  intro he
  have := key os w1 h0.1 (fun _ => h0.2) h2 hr he
  rw [hd] at this
  simp [removing] at this

/-- The steps a thread still has to make. -/
def rank : Pc → Nat
  | .idle => 0
  | .result => 1
  | .unlockG => 2
  | .register => 3
  | .create => 4
  | .check => 5
  | .lockG => 6
  | .first => 7
  | .logger1 _ => 8
  | .lockS _ _ => 3
  | .swap _ _ => 2
  | .unlockS _ _ _ => 1
  | .close1 _ => 4

theorem rank_next {w w' : W} {t x : Nat} (h : next w t = some w') : (if x = t then 1 else 0) + rank (w'.pc x) ≤ rank (w.pc x) := by
  by_cases hx : x = t
  · subst hx
    unfold next acquire at h
    split at h <;> (try split at h) <;> (try cases h) <;> simp_all [rank, goto] <;> (repeat' split) <;> simp_all [rank]
  · unfold next acquire at h
    split at h <;> (try split at h) <;> (try cases h) <;> simp [goto, hx] <;> (repeat' split) <;> simp [hx]

/-- **C109 (a call ends).** A thread makes at most eight steps in a call, however the others run; waiting for the mutex is not a step. -/
theorem c109_bounded {os : List Op} {w w' : W} (h : runs os w = some w') (t : Nat) : os.count (.go t) + rank (w'.pc t) ≤ 8 * os.countP (fun o => match o with | .call u _ => u = t | .go _ => false) + rank (w.pc t) := by
  induction os generalizing w with
  | nil => cases h; simp
  | cons o os ih =>
      simp only [runs, Option.bind_eq_some_iff] at h
      obtain ⟨w1, h1, h2⟩ := h
      have := ih h2
      cases o with
      | call u r =>
          have hw : rank (w1.pc t) ≤ (if u = t then 8 else 0) + rank (w.pc t) := by
            simp only [step, begin_] at h1
            split at h1
            · cases h1
              by_cases hx : t = u
              · subst hx; cases r <;> simp [goto, rank] <;> omega
              · have hx' : ¬ u = t := fun e => hx e.symm
                simp [goto, hx, hx']
            · cases h1
          by_cases hx : u = t <;> simp [hx] at hw ⊢ <;> omega
      | go u =>
          have hw := rank_next (x := t) h1
          by_cases hx : t = u
          · subst hx
            simp at hw ⊢
            omega
          · have hx' : ¬ u = t := fun e => hx e.symm
            simp [hx, hx'] at hw ⊢
            omega

/-- Steps of a thread. -/
def go (t n : Nat) : List Op := List.replicate n (.go t)

/-- Two threads need the default logger first at the same moment: both find none, one makes it. -/
example : (runs ([.call 1 .get, .call 2 .get, .go 1, .go 2, .go 1] ++ go 1 5 ++ go 2 4) start).map (fun w => (w.out, w.made)) = some ([.got 2 (some (.lib 0)), .got 1 (some (.lib 0))], 1) := by decide

/-- Violation of C109: a thread that logs while another takes the default logger away (zt_log_logger(NULL)) may find itself without a logger, so that its message is dropped: between the two calls there is one, before and after. -/
theorem c109_null_violation : (runs ([.call 2 (.logger (some (.usr 5)))] ++ go 2 4 ++ [.call 1 .get, .go 1] ++ [.call 2 (.logger none)] ++ go 2 4 ++ [.go 1]) start).map (·.out) =
    some [.got 1 none, .swapped 2 none (some (.usr 5)), .swapped 2 (some (.usr 5)) none] := by decide

/-- Violation of C109: while a thread closes its logger (number 1), which is the default logger, another makes number 2 the default logger. It is handed number 1, which is being destroyed, and number 2 is taken out instead, although
nobody asked for that. -/
theorem c109_close_violation : (runs ([.call 1 (.logger (some (.usr 1)))] ++ go 1 4 ++ [.call 1 (.close (.usr 1)), .go 1] ++ [.call 2 (.logger (some (.usr 2)))] ++ go 2 4 ++ go 1 3) start).map (fun w => (w.out, w.dflt)) =
    some ([.closed 1 (.usr 1) (some (.usr 2)), .swapped 2 (some (.usr 2)) (some (.usr 1)), .swapped 1 (some (.usr 1)) none], none) := by decide

/-- The hypotheses of `c109_closed` are met: thread 1 installs its logger, thread 2 uses it while thread 1 closes it, and there is no default logger afterwards. -/
example : (runs ([.call 1 (.logger (some (.usr 1)))] ++ go 1 4 ++ [.call 2 .get, .call 1 (.close (.usr 1)), .go 2, .go 1, .go 1, .go 1, .go 1]) start).map (fun w => (w.pc 1, w.dflt)) = some (.idle, none) := by decide

end ZT.Log.Threads
