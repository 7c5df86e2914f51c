import Verif.Log.Model

/-!
# C76-C78: levels, debug information, ownership
-/

namespace ZT.Log

variable {M : Type}

/-! ## Invariant -/

/-- Loggers are numbered below `next`; the default logger and those to be closed at exit exist, the latter once each. -/
structure Inv (σ : State M) : Prop where
  next : ∀ l x, σ.loggers l = some x → l < σ.next
  dflt : ∀ l, σ.dflt = some l → ∃ x, σ.loggers l = some x
  exits : ∀ l ∈ σ.atexit, ∃ x, σ.loggers l = some x
  nodup : σ.atexit.Nodup

theorem Inv.init : Inv (State.init : State M) := ⟨by simp [State.init], by simp [State.init], by simp [State.init], by simp [State.init]⟩

/-- The loggers a call is given, and whether it closes it: they must exist, and only a logger that the program opened itself may be closed ("if you allocated it free it, if you didn't leave it alone"). -/
def Legal (σ : State M) : Call M → Prop
  | .logger (some l) | .setLevel (some l) _ | .getLevel (some l) | .setOpts (some l) _ | .getOpts (some l) | .print _ (some l) _ _ | .vprint _ (some l) _ _ => ∃ x, σ.loggers l = some x
  | .close (some l) => (∃ x, σ.loggers l = some x) ∧ l ∉ σ.atexit
  | _ => True

theorem new_inv {σ : State M} (h : Inv σ) (opts : Nat) : Inv (new σ opts).1 := by
  obtain ⟨h1, h2, h3, h4⟩ := h
  constructor <;> simp only [new, setLogger] <;> grind

theorem getLogger_inv {σ : State M} (h : Inv σ) : Inv (getLogger σ).1 ∧ ∃ x, (getLogger σ).1.loggers (getLogger σ).2 = some x := by
  have hn := new_inv h WITH_LEVEL
  obtain ⟨h1, h2, h3, h4⟩ := h
  unfold getLogger
  cases hd : σ.dflt with
  | some l => exact ⟨⟨h1, h2, h3, h4⟩, h2 l hd⟩
  | none =>
      obtain ⟨n1, n2, n3, n4⟩ := hn
      refine ⟨⟨n1, ?_, ?_, ?_⟩, ?_⟩
      · intro l e
        simp only [Option.some.injEq] at e
        subst e
        exact ⟨{ level := MAX, opts := WITH_LEVEL }, by simp [new, setLogger]⟩
      · intro l hl
        simp only [List.mem_cons] at hl
        rcases hl with rfl | hl
        · exact ⟨{ level := MAX, opts := WITH_LEVEL }, by simp [new, setLogger]⟩
        · exact n3 l hl
      · simp only [List.nodup_cons]
        refine ⟨?_, n4⟩
        intro hm
        obtain ⟨x, hx⟩ := h3 _ hm
        have := h1 _ _ hx
        simp [new] at this
      · exact ⟨{ level := MAX, opts := WITH_LEVEL }, by simp [new, setLogger]⟩

theorem resolve_inv {σ : State M} (h : Inv σ) (log : Option Nat) (hl : ∀ l, log = some l → ∃ x, σ.loggers l = some x) : Inv (resolve σ log).1 ∧ ∃ x, (resolve σ log).1.loggers (resolve σ log).2 = some x := by
  cases log with
  | none => exact getLogger_inv h
  | some l => exact ⟨h, hl l rfl⟩

theorem deref_some {σ : State M} {l : Nat} {x : Logger} (h : σ.loggers l = some x) : deref σ l = .ok x := by unfold deref; rw [h]

theorem setLogger_inv {σ : State M} (h : Inv σ) {l : Nat} {x : Logger} (hl : σ.loggers l = some x) (y : Logger) : Inv (setLogger σ l (some y)) := by
  obtain ⟨h1, h2, h3, h4⟩ := h
  constructor <;> simp only [setLogger] <;> grind

theorem setCtx_inv {σ : State M} (h : Inv σ) (t : Nat) (c : Ctx) : Inv (setCtx σ t c) := ⟨h.1, h.2, h.3, h.4⟩

theorem lvprintf_inv {σ : State M} (h : Inv σ) (t : Nat) (log : Option Nat) (hl : ∀ l, log = some l → ∃ x, σ.loggers l = some x) (level : Nat) (msg : M) : ∃ σ', lvprintf σ t log level msg = .ok σ' ∧ Inv σ' := by
  obtain ⟨hi, x, hx⟩ := resolve_inv h log hl
  unfold lvprintf
  generalize resolve σ log = r at *
  simp only [deref_some hx, Outcome.ok_bind]
  split
  · exact ⟨_, rfl, setCtx_inv hi _ _⟩
  · exact ⟨_, rfl, ⟨hi.1, hi.2, hi.3, hi.4⟩⟩

theorem lprintf_inv {σ : State M} (h : Inv σ) (t : Nat) (log : Option Nat) (hl : ∀ l, log = some l → ∃ x, σ.loggers l = some x) (level : Nat) (msg : M) : ∃ σ', lprintf σ t log level msg = .ok σ' ∧ Inv σ' := by
  obtain ⟨hi, x, hx⟩ := resolve_inv h log hl
  unfold lprintf
  generalize resolve σ log = r at *
  simp only [deref_some hx, Outcome.ok_bind]
  split
  · exact ⟨_, rfl, setCtx_inv hi _ _⟩
  · exact lvprintf_inv hi t _ (fun l e => by cases e; exact ⟨x, hx⟩) level msg

theorem close_inv {σ : State M} (h : Inv σ) {l : Nat} {x : Logger} (hl : σ.loggers l = some x) (hn : l ∉ σ.atexit) : ∃ σ', close σ (some l) = .ok σ' ∧ Inv σ' := by
  unfold close
  simp only
  by_cases hd : σ.dflt = some l
  · rw [if_pos hd]
    simp only [deref, hl, Outcome.ok_bind]
    refine ⟨_, rfl, ?_⟩
    obtain ⟨h1, h2, h3, h4⟩ := h
    constructor <;> simp only [setLogger] <;> grind
  · rw [if_neg hd]
    simp only [deref, hl, Outcome.ok_bind]
    refine ⟨_, rfl, ?_⟩
    obtain ⟨h1, h2, h3, h4⟩ := h
    constructor <;> simp only [setLogger] <;> grind

theorem logger_inv {σ : State M} (h : Inv σ) (log : Option Nat) (hl : ∀ l, log = some l → ∃ x, σ.loggers l = some x) : Inv (logger σ log).1 ∧ ∀ l, (logger σ log).2 = some l → ∃ x, (logger σ log).1.loggers l = some x := by
  unfold logger
  cases log with
  | none =>
      cases hd : σ.dflt with
      | none =>
          obtain ⟨a, b⟩ := getLogger_inv h
          refine ⟨a, ?_⟩
          intro l e
          cases e
          exact b
      | some d => exact ⟨⟨h.1, (by intro l e; cases e), h.3, h.4⟩, by intro l e; cases e; exact h.2 d hd⟩
  | some l => exact ⟨⟨h.1, (by intro k e; cases e; exact hl l rfl), h.3, h.4⟩, by intro k e; exact h.2 k e⟩

/-- Every legal call completes. -/
theorem call_inv {σ : State M} (h : Inv σ) (c : Call M) (hc : Legal σ c) : ∃ σ' r, call σ c = .ok (σ', r) ∧ Inv σ' := by
  cases c with
  | new opts => exact ⟨_, _, rfl, new_inv h opts⟩
  | logger log => exact ⟨_, _, rfl, (logger_inv h log (by intro l e; subst e; exact hc)).1⟩
  | setLevel log level =>
      obtain ⟨hi, x, hx⟩ := resolve_inv h log (by intro l e; subst e; exact hc)
      simp only [call, wrap, setLevel]
      generalize resolve σ log = r at *
      simp only [deref_some hx, Outcome.ok_bind, Outcome.pure_eq]
      exact ⟨_, _, rfl, setLogger_inv hi hx _⟩
  | getLevel log =>
      obtain ⟨hi, x, hx⟩ := resolve_inv h log (by intro l e; subst e; exact hc)
      simp only [call, wrap, getLevel]
      generalize resolve σ log = r at *
      simp only [deref_some hx, Outcome.ok_bind, Outcome.pure_eq]
      exact ⟨_, _, rfl, hi⟩
  | setOpts log opts =>
      obtain ⟨hi, x, hx⟩ := resolve_inv h log (by intro l e; subst e; exact hc)
      simp only [call, wrap, setOpts]
      generalize resolve σ log = r at *
      simp only [deref_some hx, Outcome.ok_bind, Outcome.pure_eq]
      exact ⟨_, _, rfl, setLogger_inv hi hx _⟩
  | getOpts log =>
      obtain ⟨hi, x, hx⟩ := resolve_inv h log (by intro l e; subst e; exact hc)
      simp only [call, wrap, getOpts]
      generalize resolve σ log = r at *
      simp only [deref_some hx, Outcome.ok_bind, Outcome.pure_eq]
      exact ⟨_, _, rfl, hi⟩
  | setDebug t c => exact ⟨_, _, rfl, setCtx_inv h _ _⟩
  | print t log level msg =>
      obtain ⟨σ', e, hi⟩ := lprintf_inv h t log (by intro l e; subst e; exact hc) level msg
      exact ⟨σ', .none, by simp [call, wrapU, e], hi⟩
  | vprint t log level msg =>
      obtain ⟨σ', e, hi⟩ := lvprintf_inv h t log (by intro l e; subst e; exact hc) level msg
      exact ⟨σ', .none, by simp [call, wrapU, e], hi⟩
  | close log =>
      cases log with
      | none => exact ⟨σ, .none, rfl, h⟩
      | some l =>
          obtain ⟨⟨x, hx⟩, hn⟩ := hc
          obtain ⟨σ', e, hi⟩ := close_inv h hx hn
          exact ⟨σ', .none, by simp [call, wrapU, e], hi⟩

/-- The states a program can reach by legal calls. -/
inductive Reach : State M → Prop
  | init : Reach State.init
  | step (σ : State M) (c : Call M) (σ' : State M) (r : Ret) : Reach σ → Legal σ c → call σ c = .ok (σ', r) → Reach σ'

theorem Reach.inv {σ : State M} (h : Reach σ) : Inv σ := by
  induction h with
  | init => exact Inv.init
  | step σ c σ' r _ hl e ih =>
      obtain ⟨σ'', r', e', hi⟩ := call_inv ih c hl
      rw [e] at e'
      cases e'
      exact hi

theorem close_all {σ : State M} (ls : List Nat) (hn : ls.Nodup) (hl : ∀ l ∈ ls, ∃ x, σ.loggers l = some x) (hi : ∀ l, σ.dflt = some l → ∃ x, σ.loggers l = some x) :
    ∃ σ', ls.foldlM (fun σ l => close σ (some l)) σ = .ok σ' ∧ σ'.loggers = (fun l => if l ∈ ls then none else σ.loggers l) ∧ (∀ l, σ'.dflt = some l → σ.dflt = some l ∧ l ∉ ls) ∧ σ'.out = σ.out := by
  induction ls generalizing σ with
  | nil => exact ⟨σ, rfl, by simp, by simp, rfl⟩
  | cons l ls ih =>
      obtain ⟨x, hx⟩ := hl l (by simp)
      simp only [List.nodup_cons] at hn
      have hc : close σ (some l) = .ok (setLogger (if σ.dflt = some l then { σ with dflt := none } else σ) l none) := by
        unfold close
        simp only
        split <;> simp only [deref, hx, Outcome.ok_bind, Outcome.pure_eq]
      have hll : (setLogger (if σ.dflt = some l then { σ with dflt := none } else σ) l none).loggers = fun k => if k = l then none else σ.loggers k := by
        unfold setLogger; split <;> rfl
      have hd : ∀ k, (setLogger (if σ.dflt = some l then { σ with dflt := none } else σ) l none).dflt = some k → σ.dflt = some k ∧ k ≠ l := by
        intro k; unfold setLogger; split
        · intro e; cases e
        · rename_i hne; intro e; exact ⟨e, fun h => hne (h ▸ e)⟩
      have ho : (setLogger (if σ.dflt = some l then { σ with dflt := none } else σ) l none).out = σ.out := by
        unfold setLogger; split <;> rfl
      generalize setLogger (if σ.dflt = some l then { σ with dflt := none } else σ) l none = σ1 at *
      obtain ⟨σ', e, h1, h2, h3⟩ := ih (σ := σ1) hn.2 (by
        intro k hk
        obtain ⟨y, hy⟩ := hl k (by simp [hk])
        refine ⟨y, ?_⟩
        rw [hll]
        have : k ≠ l := by intro e; subst e; exact hn.1 hk
        simp [this, hy]) (by
        intro k hk
        obtain ⟨h1, h2⟩ := hd k hk
        obtain ⟨y, hy⟩ := hi k h1
        exact ⟨y, by rw [hll]; simp [h2, hy]⟩)
      refine ⟨σ', ?_, ?_, ?_, by rw [h3, ho]⟩
      · rw [List.foldlM_cons]
        exact Outcome.bind_eq_ok.2 ⟨σ1, hc, e⟩
      · rw [h1, hll]
        funext k
        by_cases hk : k = l <;> by_cases hm : k ∈ ls <;> simp [hk, hm]
      · intro k hk
        obtain ⟨a, b⟩ := h2 k hk
        obtain ⟨c, d⟩ := hd k a
        exact ⟨c, by simp [d, b]⟩

/-- C78. Whatever the program does with loggers it may use, no closed logger is touched, also when messages go to the default logger; every call completes. -/
theorem c78_safe {σ : State M} (h : Reach σ) (c : Call M) (hc : Legal σ c) : ∃ σ' r, call σ c = .ok (σ', r) := by
  obtain ⟨σ', r, e, -⟩ := call_inv h.inv c hc
  exact ⟨σ', r, e⟩

/-- C78. At exit the loggers that the library created are closed, each once, and no other. -/
theorem c78_exit {σ : State M} (h : Reach σ) : ∃ σ', exit_ σ = .ok σ' ∧ ∀ l, σ'.loggers l = if l ∈ σ.atexit then none else σ.loggers l := by
  obtain ⟨σ', e, h1, -⟩ := close_all σ.atexit h.inv.nodup h.inv.exits h.inv.dflt
  exact ⟨σ', e, fun l => by rw [h1]⟩

/-- C78. A logger returned by a call exists: it may be used from then on. -/
theorem c78_returned {σ : State M} (h : Reach σ) (c : Call M) (hc : Legal σ c) {σ' : State M} {l : Nat} (e : call σ c = .ok (σ', .logger (some l))) : ∃ x, σ'.loggers l = some x := by
  cases c with
  | new opts => simp only [call] at e; cases e; exact ⟨{ level := MAX, opts := opts }, by simp [new, setLogger]⟩
  | logger log =>
      have k := (logger_inv h.inv log (by intro l e; subst e; exact hc)).2
      simp only [call, Outcome.ok.injEq, Prod.mk.injEq, Ret.logger.injEq] at e
      obtain ⟨rfl, e2⟩ := e
      exact k l e2
  | setLevel log level => simp only [call, wrap] at e; obtain ⟨x, -, e⟩ := Outcome.bind_eq_ok.1 e; cases e
  | getLevel log => simp only [call, wrap] at e; obtain ⟨x, -, e⟩ := Outcome.bind_eq_ok.1 e; cases e
  | setOpts log level => simp only [call, wrap] at e; obtain ⟨x, -, e⟩ := Outcome.bind_eq_ok.1 e; cases e
  | getOpts log => simp only [call, wrap] at e; obtain ⟨x, -, e⟩ := Outcome.bind_eq_ok.1 e; cases e
  | setDebug t c => cases e
  | print t log level msg => simp only [call, wrapU] at e; obtain ⟨x, -, e⟩ := Outcome.bind_eq_ok.1 e; cases e
  | vprint t log level msg => simp only [call, wrapU] at e; obtain ⟨x, -, e⟩ := Outcome.bind_eq_ok.1 e; cases e
  | close log => simp only [call, wrapU] at e; obtain ⟨x, -, e⟩ := Outcome.bind_eq_ok.1 e; cases e

/-- C78 (what the rule is for). Closing the logger the library created is a use after free at exit. -/
theorem c78_close_forced : ∃ σ' rs, calls (State.init : State Nat) [.logger none, .close (some 0)] = .ok (σ', rs) ∧ exit_ σ' = .ub := ⟨_, _, rfl, rfl⟩

/-- A history of legal calls. -/
inductive Run : State M → List (Call M) → State M → Prop
  | nil (σ : State M) : Run σ [] σ
  | cons (σ : State M) (c : Call M) (τ : State M) (r : Ret) (cs : List (Call M)) (σ' : State M) : Legal σ c → call σ c = .ok (τ, r) → Run τ cs σ' → Run σ (c :: cs) σ'

theorem Run.reach {σ σ' : State M} {cs : List (Call M)} (h : Run σ cs σ') (hr : Reach σ) : Reach σ' := by
  induction h with
  | nil => exact hr
  | cons σ c τ r cs σ' hl e _ ih => exact ih (Reach.step σ c τ r hr hl e)

/-- The calls since `σ` have created loggers from `σ.next` on; only those were added to the loggers that are closed at exit. -/
def Later (σ σ' : State M) : Prop := σ.next ≤ σ'.next ∧ ∀ l ∈ σ'.atexit, l ∈ σ.atexit ∨ σ.next ≤ l

theorem Later.of_eq {σ σ' σ'' : State M} (h : Later σ σ') (h1 : σ''.next = σ'.next) (h2 : σ''.atexit = σ'.atexit) : Later σ σ'' := by
  unfold Later; rw [h1, h2]; exact h

theorem Later.refl (σ : State M) : Later σ σ := ⟨Nat.le_refl _, fun _ h => Or.inl h⟩

theorem getLogger_later (σ : State M) : Later σ (getLogger σ).1 := by
  unfold getLogger
  split
  · exact Later.refl σ
  · refine ⟨?_, ?_⟩
    · simp only [new, setLogger]; omega
    · intro l hl
      simp only [new, setLogger, List.mem_cons] at hl
      rcases hl with rfl | hl
      · exact Or.inr (Nat.le_refl _)
      · exact Or.inl hl

theorem resolve_later (σ : State M) (log : Option Nat) : Later σ (resolve σ log).1 := by
  cases log with
  | none => exact getLogger_later σ
  | some k => exact Later.refl σ

theorem call_later {σ : State M} (c : Call M) {σ' : State M} {r : Ret} (e : call σ c = .ok (σ', r)) : Later σ σ' := by
  cases c with
  | new opts => cases e; exact ⟨by simp only [new, setLogger]; omega, fun l hl => Or.inl hl⟩
  | logger log =>
      obtain rfl : (logger σ log).1 = σ' := by cases e; rfl
      unfold logger
      cases log with
      | none =>
          cases hd : σ.dflt with
          | none => exact getLogger_later σ
          | some d => exact Later.refl σ
      | some k => exact Later.refl σ
  | setLevel log level =>
      simp only [call, wrap, setLevel] at e
      obtain ⟨⟨τ, n⟩, e1, e⟩ := Outcome.bind_eq_ok.1 e
      cases e
      obtain ⟨y, -, e1⟩ := Outcome.bind_eq_ok.1 e1
      cases e1
      exact (resolve_later σ log).of_eq rfl rfl
  | getLevel log =>
      simp only [call, wrap, getLevel] at e
      obtain ⟨⟨τ, n⟩, e1, e⟩ := Outcome.bind_eq_ok.1 e
      cases e
      obtain ⟨y, -, e1⟩ := Outcome.bind_eq_ok.1 e1
      cases e1
      exact (resolve_later σ log).of_eq rfl rfl
  | setOpts log opts =>
      simp only [call, wrap, setOpts] at e
      obtain ⟨⟨τ, n⟩, e1, e⟩ := Outcome.bind_eq_ok.1 e
      cases e
      obtain ⟨y, -, e1⟩ := Outcome.bind_eq_ok.1 e1
      cases e1
      exact (resolve_later σ log).of_eq rfl rfl
  | getOpts log =>
      simp only [call, wrap, getOpts] at e
      obtain ⟨⟨τ, n⟩, e1, e⟩ := Outcome.bind_eq_ok.1 e
      cases e
      obtain ⟨y, -, e1⟩ := Outcome.bind_eq_ok.1 e1
      cases e1
      exact (resolve_later σ log).of_eq rfl rfl
  | setDebug t c => cases e; exact (Later.refl σ).of_eq rfl rfl
  | print t log level msg =>
      simp only [call, wrapU, lprintf] at e
      obtain ⟨τ, e1, e⟩ := Outcome.bind_eq_ok.1 e
      cases e
      obtain ⟨y, hy, e1⟩ := Outcome.bind_eq_ok.1 e1
      have hl := resolve_later σ log
      generalize resolve σ log = q at *
      split at e1
      · cases e1; exact hl.of_eq rfl rfl
      · simp only [lvprintf, resolve] at e1
        obtain ⟨z, hz, e1⟩ := Outcome.bind_eq_ok.1 e1
        split at e1 <;> cases e1 <;> exact hl.of_eq rfl rfl
  | vprint t log level msg =>
      simp only [call, wrapU, lvprintf] at e
      obtain ⟨τ, e1, e⟩ := Outcome.bind_eq_ok.1 e
      cases e
      obtain ⟨y, hy, e1⟩ := Outcome.bind_eq_ok.1 e1
      have hl := resolve_later σ log
      generalize resolve σ log = q at *
      split at e1 <;> cases e1 <;> exact hl.of_eq rfl rfl
  | close log =>
      cases log with
      | none => cases e; exact Later.refl σ
      | some k =>
          simp only [call, wrapU, close] at e
          obtain ⟨τ, e1, e⟩ := Outcome.bind_eq_ok.1 e
          cases e
          by_cases hk : σ.dflt = some k
          · simp only [if_pos hk] at e1
            obtain ⟨z, hz, e1⟩ := Outcome.bind_eq_ok.1 e1
            cases e1; exact (Later.refl σ).of_eq rfl rfl
          · simp only [if_neg hk] at e1
            obtain ⟨z, hz, e1⟩ := Outcome.bind_eq_ok.1 e1
            cases e1; exact (Later.refl σ).of_eq rfl rfl

theorem run_later {σ : State M} {cs : List (Call M)} {σ' : State M} (h : Run σ cs σ') : Later σ σ' := by
  induction h with
  | nil => exact Later.refl _
  | cons σ c τ r cs σ' hc e _ ih =>
      obtain ⟨a, b⟩ := call_later c e
      refine ⟨Nat.le_trans a ih.1, fun l hl => ?_⟩
      rcases ih.2 l hl with h | h
      · exact b l h
      · exact Or.inr (Nat.le_trans a h)

/-- C78. A logger that the program opened is never closed by the library: it may close it whenever it wants, and if it does not, the logger is still there after the exit callbacks. -/
theorem c78_own {σ τ σ' : State M} (h : Reach σ) {o l : Nat} (e : call σ (.new o) = .ok (τ, .logger (some l))) {cs : List (Call M)} (hrun : Run τ cs σ') :
    l ∉ σ'.atexit ∧ (∀ x, σ'.loggers l = some x → Legal σ' (.close (some l)) ∧ ∃ σ'', exit_ σ' = .ok σ'' ∧ σ''.loggers l = some x) := by
  have hτ : Reach τ := Reach.step _ _ _ _ h (by trivial) e
  have hn : l ∉ σ'.atexit := by
    intro hm
    have hl : l = σ.next ∧ τ.next = σ.next + 1 ∧ τ.atexit = σ.atexit := by simp only [call] at e; cases e; exact ⟨rfl, rfl, rfl⟩
    rcases (run_later hrun).2 l hm with k | k
    · rw [hl.2.2] at k
      obtain ⟨x, hx⟩ := h.inv.exits l k
      have := h.inv.next l x hx
      omega
    · omega
  refine ⟨hn, fun x hx => ⟨⟨⟨x, hx⟩, hn⟩, ?_⟩⟩
  obtain ⟨σ'', e1, e2⟩ := c78_exit (hrun.reach hτ)
  exact ⟨σ'', e1, by rw [e2, if_neg hn]; exact hx⟩

/-! ## C76: levels -/

/-- The calls that change the level of `l`: setting it, directly or as the default logger, and closing it. -/
def TouchesLevel (l : Nat) : Call M → Prop
  | .setLevel (some k) _ => k = l
  | .setLevel none _ => True
  | .close (some k) => k = l
  | _ => False

theorem getLogger_old {σ : State M} (h : Inv σ) {l : Nat} {x : Logger} (hl : σ.loggers l = some x) : (getLogger σ).1.loggers l = some x := by
  unfold getLogger
  split
  · exact hl
  · have := h.next l x hl
    simp only [new, setLogger]
    rw [if_neg (by omega)]; exact hl

theorem resolve_old {σ : State M} (h : Inv σ) (log : Option Nat) {l : Nat} {x : Logger} (hl : σ.loggers l = some x) : (resolve σ log).1.loggers l = some x := by
  cases log with
  | none => exact getLogger_old h hl
  | some k => exact hl

/-- Calls keep the level of a logger unless they touch it. -/
theorem call_level {σ : State M} (h : Inv σ) (c : Call M) {l : Nat} (ht : ¬ TouchesLevel l c) {x : Logger} (hl : σ.loggers l = some x) {σ' : State M} {r : Ret} (e : call σ c = .ok (σ', r)) :
    ∃ y, σ'.loggers l = some y ∧ y.level = x.level := by
  cases c with
  | new opts =>
      cases e
      have := h.next l x hl
      refine ⟨x, ?_, rfl⟩
      simp only [setLogger]
      rw [if_neg (by omega)]; exact hl
  | logger log =>
      refine ⟨x, ?_, rfl⟩
      obtain rfl : (logger σ log).1 = σ' := by cases e; rfl
      unfold logger
      cases log with
      | none =>
          cases hd : σ.dflt with
          | none => exact getLogger_old h hl
          | some d => exact hl
      | some k => exact hl
  | setLevel log level =>
      cases log with
      | none => exact absurd trivial ht
      | some k =>
          simp only [call, wrap, setLevel, resolve] at e
          obtain ⟨⟨τ, n⟩, e1, e⟩ := Outcome.bind_eq_ok.1 e
          cases e
          obtain ⟨y, -, e1⟩ := Outcome.bind_eq_ok.1 e1
          cases e1
          refine ⟨x, ?_, rfl⟩
          have hk : ¬ l = k := fun h => ht h.symm
          simp only [setLogger, if_neg hk]
          exact hl
  | getLevel log =>
      simp only [call, wrap, getLevel] at e
      obtain ⟨⟨τ, n⟩, e1, e⟩ := Outcome.bind_eq_ok.1 e
      cases e
      obtain ⟨y, -, e1⟩ := Outcome.bind_eq_ok.1 e1
      cases e1
      exact ⟨x, resolve_old h log hl, rfl⟩
  | setOpts log opts =>
      have ho := resolve_old h log hl
      simp only [call, wrap, setOpts] at e
      obtain ⟨⟨τ, n⟩, e1, e⟩ := Outcome.bind_eq_ok.1 e
      cases e
      obtain ⟨y, hy, e1⟩ := Outcome.bind_eq_ok.1 e1
      cases e1
      by_cases hk : l = (resolve σ log).2
      · refine ⟨{ y with opts := opts }, by simp [setLogger, hk], ?_⟩
        unfold deref at hy
        rw [← hk, ho] at hy
        cases hy; rfl
      · exact ⟨x, by simp [setLogger, hk, ho], rfl⟩
  | getOpts log =>
      simp only [call, wrap, getOpts] at e
      obtain ⟨⟨τ, n⟩, e1, e⟩ := Outcome.bind_eq_ok.1 e
      cases e
      obtain ⟨y, -, e1⟩ := Outcome.bind_eq_ok.1 e1
      cases e1
      exact ⟨x, resolve_old h log hl, rfl⟩
  | setDebug t c => cases e; exact ⟨x, hl, rfl⟩
  | print t log level msg =>
      have ho := resolve_old h log hl
      simp only [call, wrapU, lprintf] at e
      obtain ⟨τ, e1, e⟩ := Outcome.bind_eq_ok.1 e
      cases e
      obtain ⟨y, hy, e1⟩ := Outcome.bind_eq_ok.1 e1
      split at e1
      · cases e1; exact ⟨x, ho, rfl⟩
      · simp only [lvprintf, resolve] at e1
        obtain ⟨z, hz, e1⟩ := Outcome.bind_eq_ok.1 e1
        split at e1 <;> cases e1 <;> exact ⟨x, ho, rfl⟩
  | vprint t log level msg =>
      have ho := resolve_old h log hl
      simp only [call, wrapU, lvprintf] at e
      obtain ⟨τ, e1, e⟩ := Outcome.bind_eq_ok.1 e
      cases e
      obtain ⟨y, hy, e1⟩ := Outcome.bind_eq_ok.1 e1
      split at e1 <;> cases e1 <;> exact ⟨x, ho, rfl⟩
  | close log =>
      cases log with
      | none => cases e; exact ⟨x, hl, rfl⟩
      | some k =>
          simp only [call, wrapU, close] at e
          obtain ⟨τ, e1, e⟩ := Outcome.bind_eq_ok.1 e
          cases e
          obtain ⟨z, hz, e1⟩ := Outcome.bind_eq_ok.1 e1
          cases e1
          have hk : ¬ l = k := fun h => ht h.symm
          refine ⟨x, ?_, rfl⟩
          simp only [setLogger, if_neg hk]
          split <;> exact hl

theorem run_level {σ σ' : State M} {cs : List (Call M)} (h : Run σ cs σ') (hr : Reach σ) {l : Nat} {x : Logger} (hl : σ.loggers l = some x) (ht : ∀ c ∈ cs, ¬ TouchesLevel l c) : ∃ y, σ'.loggers l = some y ∧ y.level = x.level := by
  induction h generalizing x with
  | nil => exact ⟨x, hl, rfl⟩
  | cons σ c τ r cs σ' hc e _ ih =>
      obtain ⟨y, hy, hy2⟩ := call_level hr.inv c (ht c (by simp)) hl e
      obtain ⟨z, hz, hz2⟩ := ih (Reach.step σ c τ r hr hc e) hy (fun c hc => ht c (by simp [hc]))
      exact ⟨z, hz, hz2.trans hy2⟩

theorem print_spec {σ : State M} {l : Nat} {x : Logger} (hl : σ.loggers l = some x) (t level : Nat) (msg : M) :
    ∃ σ', call σ (.print t (some l) level msg) = .ok (σ', .none) ∧ call σ (.vprint t (some l) level msg) = .ok (σ', .none) ∧
      σ'.out = σ.out ++ (if level ≤ x.level then [{ logger := l, level := level, opts := x.opts, ctx := σ.ctx t, msg := msg }] else []) ∧
      σ'.ctx = fun k => if k = t then ⟨none, -1, none⟩ else σ.ctx k := by
  simp only [call, wrapU, lprintf, lvprintf, resolve, deref_some hl, Outcome.ok_bind]
  by_cases hgt : level > x.level
  · simp only [if_pos hgt, Outcome.pure_eq, Outcome.ok_bind]
    refine ⟨_, rfl, rfl, ?_, rfl⟩
    rw [if_neg (by omega)]; simp [resetDebug, setDebug, setCtx]
  · simp only [if_neg hgt, Outcome.pure_eq, Outcome.ok_bind]
    refine ⟨_, rfl, rfl, ?_, rfl⟩
    rw [if_pos (by omega)]; rfl

/-- C76. After zt_log_set_level(l, v), and any calls that neither set the level of l again nor close it, a message for l is printed, once, exactly if its level is at most v; it goes to l and to no other logger. -/
theorem c76_level {σ τ σ' : State M} (hr : Reach σ) {l v : Nat} {r : Ret} (hset : Legal σ (.setLevel (some l) v)) (e : call σ (.setLevel (some l) v) = .ok (τ, r)) {cs : List (Call M)} (hrun : Run τ cs σ')
    (ht : ∀ c ∈ cs, ¬ TouchesLevel l c) (t level : Nat) (msg : M) :
    ∃ σ'' o, call σ' (.print t (some l) level msg) = .ok (σ'', .none) ∧ call σ' (.vprint t (some l) level msg) = .ok (σ'', .none) ∧
      σ''.out = σ'.out ++ (if level ≤ v then [{ logger := l, level := level, opts := o, ctx := σ'.ctx t, msg := msg }] else []) ∧ getLevel σ' (some l) = .ok (σ', v) := by
  have hτ : ∃ x, τ.loggers l = some x ∧ x.level = v := by
    simp only [call, wrap, setLevel, resolve] at e
    obtain ⟨⟨τ', n⟩, e1, e⟩ := Outcome.bind_eq_ok.1 e
    cases e
    obtain ⟨y, -, e1⟩ := Outcome.bind_eq_ok.1 e1
    cases e1
    exact ⟨{ y with level := v }, by simp [setLogger], rfl⟩
  obtain ⟨x, hx, hv⟩ := hτ
  obtain ⟨y, hy, hy2⟩ := run_level hrun (Reach.step _ _ _ _ hr hset e) hx ht
  obtain ⟨σ'', e1, e2, ho, -⟩ := print_spec hy t level msg
  rw [hy2, hv] at ho
  refine ⟨σ'', y.opts, e1, e2, ho, ?_⟩
  simp only [getLevel, resolve, deref_some hy, Outcome.ok_bind, Outcome.pure_eq, hy2, hv]

/-- C76. A new logger prints every level. -/
theorem c76_new {σ τ σ' : State M} (hr : Reach σ) {o l : Nat} (e : call σ (.new o) = .ok (τ, .logger (some l))) {cs : List (Call M)} (hrun : Run τ cs σ') (ht : ∀ c ∈ cs, ¬ TouchesLevel l c) (t level : Nat) (hl : level ≤ 8) (msg : M) :
    ∃ σ'' o', call σ' (.print t (some l) level msg) = .ok (σ'', .none) ∧ σ''.out = σ'.out ++ [{ logger := l, level := level, opts := o', ctx := σ'.ctx t, msg := msg }] := by
  have hx : τ.loggers l = some { level := MAX, opts := o } := by
    simp only [call] at e
    cases e
    simp [new, setLogger]
  obtain ⟨y, hy, hy2⟩ := run_level hrun (Reach.step _ _ _ _ hr (by trivial) e) hx ht
  obtain ⟨σ'', e1, -, ho, -⟩ := print_spec hy t level msg
  rw [hy2, if_pos (show level ≤ MAX from hl)] at ho
  exact ⟨σ'', y.opts, e1, ho⟩

/-- The calls that change the default logger. -/
def TouchesDefault (l : Nat) : Call M → Prop
  | .logger _ => True
  | .close (some k) => k = l
  | _ => False

theorem getLogger_dflt {σ : State M} {l : Nat} (h : σ.dflt = some l) : getLogger σ = (σ, l) := by unfold getLogger; rw [h]

theorem resolve_dflt {σ : State M} {l : Nat} (h : σ.dflt = some l) (log : Option Nat) : (resolve σ log).1 = σ := by
  cases log with
  | none => simp [resolve, getLogger_dflt h]
  | some k => rfl

theorem call_dflt {σ : State M} (c : Call M) {l : Nat} (ht : ¬ TouchesDefault l c) (hl : σ.dflt = some l) {σ' : State M} {r : Ret} (e : call σ c = .ok (σ', r)) : σ'.dflt = some l := by
  cases c with
  | new opts => cases e; exact hl
  | logger log => exact absurd trivial ht
  | setLevel log level =>
      have hres := resolve_dflt hl log
      simp only [call, wrap, setLevel] at e
      obtain ⟨⟨τ, n⟩, e1, e⟩ := Outcome.bind_eq_ok.1 e
      cases e
      obtain ⟨y, -, e1⟩ := Outcome.bind_eq_ok.1 e1
      cases e1
      simp only [setLogger, hres, hl]
  | getLevel log =>
      have hres := resolve_dflt hl log
      simp only [call, wrap, getLevel] at e
      obtain ⟨⟨τ, n⟩, e1, e⟩ := Outcome.bind_eq_ok.1 e
      cases e
      obtain ⟨y, -, e1⟩ := Outcome.bind_eq_ok.1 e1
      cases e1
      simp only [hres, hl]
  | setOpts log opts =>
      have hres := resolve_dflt hl log
      simp only [call, wrap, setOpts] at e
      obtain ⟨⟨τ, n⟩, e1, e⟩ := Outcome.bind_eq_ok.1 e
      cases e
      obtain ⟨y, -, e1⟩ := Outcome.bind_eq_ok.1 e1
      cases e1
      simp only [setLogger, hres, hl]
  | getOpts log =>
      have hres := resolve_dflt hl log
      simp only [call, wrap, getOpts] at e
      obtain ⟨⟨τ, n⟩, e1, e⟩ := Outcome.bind_eq_ok.1 e
      cases e
      obtain ⟨y, -, e1⟩ := Outcome.bind_eq_ok.1 e1
      cases e1
      simp only [hres, hl]
  | setDebug t c => cases e; exact hl
  | print t log level msg =>
      have hres := resolve_dflt hl log
      simp only [call, wrapU, lprintf] at e
      obtain ⟨τ, e1, e⟩ := Outcome.bind_eq_ok.1 e
      cases e
      obtain ⟨y, hy, e1⟩ := Outcome.bind_eq_ok.1 e1
      split at e1
      · cases e1; simp only [resetDebug, setDebug, setCtx, hres, hl]
      · simp only [lvprintf, resolve] at e1
        obtain ⟨z, hz, e1⟩ := Outcome.bind_eq_ok.1 e1
        split at e1 <;> cases e1 <;> simp only [resetDebug, setDebug, setCtx] <;> exact (congrArg State.dflt hres).trans hl
  | vprint t log level msg =>
      have hres := resolve_dflt hl log
      simp only [call, wrapU, lvprintf] at e
      obtain ⟨τ, e1, e⟩ := Outcome.bind_eq_ok.1 e
      cases e
      obtain ⟨y, hy, e1⟩ := Outcome.bind_eq_ok.1 e1
      split at e1 <;> cases e1 <;> simp only [resetDebug, setDebug, setCtx] <;> exact (congrArg State.dflt hres).trans hl
  | close log =>
      cases log with
      | none => cases e; exact hl
      | some k =>
          simp only [call, wrapU, close] at e
          obtain ⟨τ, e1, e⟩ := Outcome.bind_eq_ok.1 e
          cases e
          obtain ⟨z, hz, e1⟩ := Outcome.bind_eq_ok.1 e1
          have hk : ¬ σ.dflt = some k := by rw [hl]; intro h; cases h; exact ht rfl
          simp only [if_neg hk] at e1
          cases e1
          exact hl

/-- C76. After zt_log_logger(l), and any calls but zt_log_logger and closing l, calls without a logger are calls with l. -/
theorem c76_default {σ τ σ' : State M} {l : Nat} {r : Ret} (e : call σ (.logger (some l)) = .ok (τ, r)) {cs : List (Call M)} (hrun : Run τ cs σ') (ht : ∀ c ∈ cs, ¬ TouchesDefault l c) :
    (∀ t level msg, call σ' (.print t none level msg) = call σ' (.print t (some l) level msg)) ∧ (∀ t level msg, call σ' (.vprint t none level msg) = call σ' (.vprint t (some l) level msg)) ∧
      (∀ v, call σ' (.setLevel none v) = call σ' (.setLevel (some l) v)) ∧ call σ' (.getLevel none) = call σ' (.getLevel (some l)) ∧
      (∀ o, call σ' (.setOpts none o) = call σ' (.setOpts (some l) o)) ∧ call σ' (.getOpts none) = call σ' (.getOpts (some l)) := by
  have hd : σ'.dflt = some l := by
    have h0 : τ.dflt = some l := by
      simp only [call, logger] at e
      cases e; rfl
    clear e
    induction hrun with
    | nil => exact h0
    | cons σ c τ r cs σ' hc e _ ih => exact ih (fun c hc => ht c (by simp [hc])) (call_dflt c (ht c (by simp)) h0 e)
  have hg := getLogger_dflt hd
  simp [call, lprintf, lvprintf, setLevel, getLevel, setOpts, getOpts, resolve, hg]

/-! ## C77: debug information -/

/-- The calls of thread `t` that concern its debug information: setting it and printing. -/
def TouchesDebug (t : Nat) : Call M → Prop
  | .setDebug k _ => k = t
  | .print k _ _ _ => k = t
  | .vprint k _ _ _ => k = t
  | _ => False

theorem getLogger_ctx (σ : State M) : (getLogger σ).1.ctx = σ.ctx := by unfold getLogger; split <;> rfl
theorem resolve_ctx (σ : State M) (log : Option Nat) : (resolve σ log).1.ctx = σ.ctx := by
  cases log with
  | none => exact getLogger_ctx σ
  | some k => rfl

theorem call_ctx {σ : State M} (c : Call M) {t : Nat} (ht : ¬ TouchesDebug t c) {σ' : State M} {r : Ret} (e : call σ c = .ok (σ', r)) : σ'.ctx t = σ.ctx t := by
  cases c with
  | new opts => cases e; rfl
  | logger log =>
      obtain rfl : (logger σ log).1 = σ' := by cases e; rfl
      unfold logger
      cases log with
      | none =>
          cases hd : σ.dflt with
          | none => exact congrFun (getLogger_ctx σ) t
          | some d => rfl
      | some k => rfl
  | setLevel log level =>
      have hres := resolve_ctx σ log
      simp only [call, wrap, setLevel] at e
      obtain ⟨⟨τ, n⟩, e1, e⟩ := Outcome.bind_eq_ok.1 e
      cases e
      obtain ⟨y, -, e1⟩ := Outcome.bind_eq_ok.1 e1
      cases e1
      simp only [setLogger, hres]
  | getLevel log =>
      have hres := resolve_ctx σ log
      simp only [call, wrap, getLevel] at e
      obtain ⟨⟨τ, n⟩, e1, e⟩ := Outcome.bind_eq_ok.1 e
      cases e
      obtain ⟨y, -, e1⟩ := Outcome.bind_eq_ok.1 e1
      cases e1
      simp only [hres]
  | setOpts log opts =>
      have hres := resolve_ctx σ log
      simp only [call, wrap, setOpts] at e
      obtain ⟨⟨τ, n⟩, e1, e⟩ := Outcome.bind_eq_ok.1 e
      cases e
      obtain ⟨y, -, e1⟩ := Outcome.bind_eq_ok.1 e1
      cases e1
      simp only [setLogger, hres]
  | getOpts log =>
      have hres := resolve_ctx σ log
      simp only [call, wrap, getOpts] at e
      obtain ⟨⟨τ, n⟩, e1, e⟩ := Outcome.bind_eq_ok.1 e
      cases e
      obtain ⟨y, -, e1⟩ := Outcome.bind_eq_ok.1 e1
      cases e1
      simp only [hres]
  | setDebug k c =>
      cases e
      have : ¬ t = k := fun h => ht h.symm
      simp [setDebug, setCtx, this]
  | print k log level msg =>
      have hres := resolve_ctx σ log
      have hk : ¬ t = k := fun h => ht h.symm
      simp only [call, wrapU, lprintf] at e
      obtain ⟨τ, e1, e⟩ := Outcome.bind_eq_ok.1 e
      cases e
      obtain ⟨y, hy, e1⟩ := Outcome.bind_eq_ok.1 e1
      split at e1
      · cases e1; simp only [resetDebug, setDebug, setCtx, if_neg hk, hres]
      · simp only [lvprintf, resolve] at e1
        obtain ⟨z, hz, e1⟩ := Outcome.bind_eq_ok.1 e1
        split at e1 <;> cases e1 <;> simp only [resetDebug, setDebug, setCtx, if_neg hk] <;> exact congrFun hres t
  | vprint k log level msg =>
      have hres := resolve_ctx σ log
      have hk : ¬ t = k := fun h => ht h.symm
      simp only [call, wrapU, lvprintf] at e
      obtain ⟨τ, e1, e⟩ := Outcome.bind_eq_ok.1 e
      cases e
      obtain ⟨y, hy, e1⟩ := Outcome.bind_eq_ok.1 e1
      split at e1 <;> cases e1 <;> simp only [resetDebug, setDebug, setCtx, if_neg hk] <;> exact congrFun hres t
  | close log =>
      cases log with
      | none => cases e; rfl
      | some k =>
          simp only [call, wrapU, close] at e
          obtain ⟨τ, e1, e⟩ := Outcome.bind_eq_ok.1 e
          cases e
          obtain ⟨z, hz, e1⟩ := Outcome.bind_eq_ok.1 e1
          cases e1
          simp only [setLogger]
          split <;> rfl

theorem run_ctx {σ σ' : State M} {cs : List (Call M)} (h : Run σ cs σ') {t : Nat} (ht : ∀ c ∈ cs, ¬ TouchesDebug t c) : σ'.ctx t = σ.ctx t := by
  induction h with
  | nil => rfl
  | cons σ c τ r cs σ' hc e _ ih =>
      rw [ih fun c hc => ht c (by simp [hc])]
      exact call_ctx c (ht c (by simp)) e

/-- C77. Debug information set by a thread is passed on with the next message of this thread, whatever happens in between in other threads or with loggers. -/
theorem c77_next {σ τ σ' : State M} {t : Nat} {c : Ctx} {r : Ret} (e : call σ (.setDebug t c) = .ok (τ, r)) {cs : List (Call M)} (hrun : Run τ cs σ') (ht : ∀ k ∈ cs, ¬ TouchesDebug t k) {l : Nat} {x : Logger}
    (hl : σ'.loggers l = some x) (level : Nat) (hlev : level ≤ x.level) (msg : M) :
    ∃ σ'', call σ' (.print t (some l) level msg) = .ok (σ'', .none) ∧ σ''.out = σ'.out ++ [{ logger := l, level := level, opts := x.opts, ctx := c, msg := msg }] := by
  obtain ⟨σ'', e1, -, ho, -⟩ := print_spec hl t level msg
  refine ⟨σ'', e1, ?_⟩
  have h0 : τ.ctx t = c := by cases e; simp [setDebug, setCtx]
  rw [ho, if_pos hlev, run_ctx hrun ht, h0]

/-- C77. It is valid for one message only, printed or suppressed: later messages of the thread have none until it is set again. -/
theorem c77_once {σ τ σ' : State M} {t : Nat} {log : Option Nat} {level0 : Nat} {msg0 : M} {r : Ret} (hl0 : ∀ l, log = some l → ∃ x, σ.loggers l = some x) (hi : Reach σ) (e : call σ (.print t log level0 msg0) = .ok (τ, r))
    {cs : List (Call M)} (hrun : Run τ cs σ') (ht : ∀ k ∈ cs, ¬ TouchesDebug t k) {l : Nat} {x : Logger} (hl : σ'.loggers l = some x) (level : Nat) (hlev : level ≤ x.level) (msg : M) :
    ∃ σ'', call σ' (.print t (some l) level msg) = .ok (σ'', .none) ∧ σ''.out = σ'.out ++ [{ logger := l, level := level, opts := x.opts, ctx := ⟨none, -1, none⟩, msg := msg }] := by
  obtain ⟨σ'', e1, -, ho, -⟩ := print_spec hl t level msg
  refine ⟨σ'', e1, ?_⟩
  have h0 : τ.ctx t = ⟨none, -1, none⟩ := by
    obtain ⟨_, y, hy⟩ := resolve_inv hi.inv log hl0
    obtain ⟨τ', k1, -, -, k4⟩ := print_spec hy t level0 msg0
    have : call σ (.print t log level0 msg0) = call (resolve σ log).1 (.print t (some (resolve σ log).2) level0 msg0) := by simp [call, lprintf, resolve]
    rw [this, k1] at e
    cases e
    rw [k4]; simp
  rw [ho, if_pos hlev, run_ctx hrun ht, h0]

/-! ## Examples -/

/-- A logger with level 3 gets messages 3 and 4: the first is printed with the debug information. -/
example : ∃ σ rs, calls (State.init : State Nat) [.new 2, .setLevel (some 0) 3, .setDebug 0 ⟨some [97], 7, some [98]⟩, .print 0 (some 0) 3 100, .print 0 (some 0) 4 101, .print 0 (some 0) 3 102, .print 0 none 8 103] = .ok (σ, rs) ∧
    σ.out = [⟨0, 3, 2, ⟨some [97], 7, some [98]⟩, 100⟩, ⟨0, 3, 2, ⟨none, -1, none⟩, 102⟩, ⟨1, 8, 2, ⟨none, -1, none⟩, 103⟩] ∧ σ.atexit = [1] := ⟨_, _, rfl, rfl, rfl⟩

end ZT.Log
