import Verif.Pool.Life

/-!
# C95: the callbacks of the thread pools after any calls
-/

namespace ZT.Pool.Life

/-! ## Specification -/

/-- The six callbacks. -/
inductive Slot where
  | iputLoop | oputLoop | init | iputWorker | oputWorker | finalize
  deriving DecidableEq

/-- A callback of a set. -/
def Slot.of : Slot → Cbs → Option Nat
  | .iputLoop, c => c.iputLoop
  | .oputLoop, c => c.oputLoop
  | .init, c => c.init
  | .iputWorker, c => c.iputWorker
  | .oputWorker, c => c.oputWorker
  | .finalize, c => c.finalize

/-- What the library has of itself: its loop functions (0 and 1), and nothing else. -/
def Slot.builtin : Slot → Option Nat
  | .iputLoop => some 0
  | .oputLoop => some 1
  | _ => none

/-- Does a call decide a callback, and how: zt_threadpool_set_callbacks decides those that are not NULL; with NULL it restores all but `finalize`; the disabling functions take their loop away. -/
def decides (s : Slot) : Op → Option (Option Nat)
  | .setCallbacks none => if s = .finalize then none else some s.builtin
  | .setCallbacks (some c) => (s.of c).map some
  | .disableIput => if s = .iputLoop then some none else none
  | .disableOput => if s = .oputLoop then some none else none
  | _ => none

/-! ## Proofs -/

theorem startLoop_cbs (create : Nat → Bool) (k : Nat) (r : Role) : ∀ (n i : Nat) (a : List (Option Nat)) (g : G) {a' g'}, startLoop create k r n i a g = .ok (a', g') → g'.cbs = g.cbs := by
  intro n
  induction n with
  | zero => intro i a g a' g' e; cases e; rfl
  | succ n ih =>
      intro i a g a' g' e
      rw [startLoop] at e
      by_cases hr : g.ready = true
      · rw [if_pos hr] at e
        obtain ⟨b, _, e⟩ := Outcome.bind_eq_ok.1 e
        have h1 := ih _ _ _ e
        exact h1
      · rw [if_neg hr] at e; cases e

theorem start_cbs {create : Nat → Bool} {k : Nat} {g g' : G} (e : start create k g = .ok g') : g'.cbs = g.cbs := by
  unfold start at e
  obtain ⟨p, _, e⟩ := Outcome.bind_eq_ok.1 e
  obtain ⟨⟨ith, g1⟩, e1, e⟩ := Outcome.bind_eq_ok.1 e
  obtain ⟨⟨oth, g2⟩, e2, e⟩ := Outcome.bind_eq_ok.1 e
  cases e
  have h1 : g1.cbs = g.cbs := by
    unfold startI at e1
    split at e1
    · exact startLoop_cbs _ _ _ _ _ _ _ e1
    · cases e1; rfl
  have h2 : g2.cbs = g1.cbs := by
    unfold startO at e2
    split at e2
    · split at e2
      · obtain ⟨⟨a, g3⟩, e3, e2⟩ := Outcome.bind_eq_ok.1 e2
        cases e2
        exact startLoop_cbs _ _ _ _ _ _ _ e3
      · split at e2
        · cases e2; rfl
        · cases e2
    · cases e2; rfl
  exact h2.trans h1

theorem joinAt_cbs {b : Bool} {arr : Option (List (Option Nat))} {i : Nat} {g g' : G} (e : joinAt b arr i g = .ok g') : g'.cbs = g.cbs := by
  unfold joinAt at e
  split at e
  · split at e
    · cases e
    · obtain ⟨h, _, e⟩ := Outcome.bind_eq_ok.1 e
      unfold joinHandle at e
      split at e
      · cases e
      · split at e
        · cases e; rfl
        · cases e
  · cases e; rfl

theorem killLoop_cbs (p : P) : ∀ (n i : Nat) (g : G) {g'}, killLoop p n i g = .ok g' → g'.cbs = g.cbs := by
  intro n
  induction n with
  | zero => intro i g g' e; cases e; rfl
  | succ n ih =>
      intro i g g' e
      rw [killLoop] at e
      obtain ⟨g1, e1, e⟩ := Outcome.bind_eq_ok.1 e
      obtain ⟨g2, e2, e⟩ := Outcome.bind_eq_ok.1 e
      exact (ih _ _ e).trans ((joinAt_cbs e2).trans (joinAt_cbs e1))

theorem step_cbs {create : Nat → Bool} {o : Op} {g g' : G} (e : step create o g = .ok g') (s : Slot) : s.of g'.cbs = (decides s o).getD (s.of g.cbs) := by
  cases o with
  | setCallbacks c =>
      cases e
      cases c with
      | none => cases s <;> rfl
      | some c =>
          obtain ⟨a1, a2, a3, a4, a5, a6⟩ := c
          cases s <;> simp only [Slot.of, setCallbacks, decides]
          · cases a1 <;> rfl
          · cases a2 <;> rfl
          · cases a3 <;> rfl
          · cases a4 <;> rfl
          · cases a5 <;> rfl
          · cases a6 <;> rfl
  | disableIput => cases e; cases s <;> rfl
  | disableOput => cases e; cases s <;> rfl
  | usePthreads => cases e; rfl
  | init min => cases e; rfl
  | start k => exact congrArg s.of (start_cbs e)
  | kill k =>
      have e' : kill k g = .ok g' := e
      unfold kill at e'
      obtain ⟨p, _, e'⟩ := Outcome.bind_eq_ok.1 e'
      exact congrArg s.of (killLoop_cbs _ _ _ _ e')

/-- C95 (callbacks): after any calls, each callback is what the last call that decides it says, and what the library has of itself before. -/
theorem c95_callbacks {create : Nat → Bool} : ∀ (ops : List Op) {g : G}, runs create ops G.zero = .ok g → ∀ s : Slot, s.of g.cbs = (ops.reverse.findSome? (decides s)).getD s.builtin := by
  have gen : ∀ (ops : List Op) (g0 : G) {g : G}, runs create ops g0 = .ok g → ∀ s : Slot, s.of g.cbs = (ops.reverse.findSome? (decides s)).getD (s.of g0.cbs) := by
    intro ops
    induction ops with
    | nil => intro g0 g e s; cases e; rfl
    | cons o ops ih =>
        intro g0 g e s
        obtain ⟨g1, e1, e2⟩ := Outcome.bind_eq_ok.1 e
        rw [ih g1 e2 s, step_cbs e1 s, List.reverse_cons, List.findSome?_append]
        cases ops.reverse.findSome? (decides s) with
        | some v => rfl
        | none =>
            simp only [Option.getD_none, Option.none_or, List.findSome?_cons, List.findSome?_nil]
            cases decides s o <;> rfl
  intro ops g e s
  rw [gen ops _ e s]
  congr 1
  cases s <;> rfl

/-- Violation of C95: restoring the defaults keeps the callback `finalize`, whichever it was. -/
theorem c95_finalize_violation (create : Nat → Bool) (f : Nat) : ∃ g, runs create [.setCallbacks (some ⟨none, none, none, none, none, some f⟩), .setCallbacks none] G.zero = .ok g ∧ g.cbs.finalize = some f ∧ g.cbs.finalize ≠ defaults.finalize :=
  ⟨_, rfl, rfl, by simp [G.zero, setCallbacks, defaults]⟩

/-- A history with two sets, a disabled loop, and a pool. -/
example : ∃ g, runs (fun _ => true) [.usePthreads, .setCallbacks (some ⟨none, none, some 7, some 8, none, none⟩), .disableOput, .init 2, .start 0, .setCallbacks (some ⟨none, none, none, some 9, none, none⟩), .kill 0] G.zero = .ok g ∧
    g.cbs = ⟨some 0, none, some 7, some 9, none, none⟩ := ⟨_, rfl, rfl⟩

end ZT.Pool.Life
