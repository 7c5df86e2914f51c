import Verif.Pool.Spec
import Verif.Pool.Inv

/-!
# Conservation of data
-/

namespace ZT.Pool

variable {D : Type} [DecidableEq D] {c : Cfg D}

/-! The log functions on an appended event. -/

theorem puts_snoc (q : Q) (log : List (Event c)) (e : Event c) : puts q (log ++ [e]) = puts q log ++ puts q [e] := by simp [puts]
theorem takes_snoc (q : Q) (log : List (Event c)) (e : Event c) : takes q (log ++ [e]) = takes q log ++ takes q [e] := by simp [takes]
theorem takesBy_snoc (t : Tid c) (log : List (Event c)) (e : Event c) : takesBy t (log ++ [e]) = takesBy t log ++ takesBy t [e] := by simp [takesBy]
theorem callsBy_snoc (t : Tid c) (log : List (Event c)) (e : Event c) : callsBy t (log ++ [e]) = callsBy t log ++ callsBy t [e] := by simp [callsBy]
theorem resultsBy_snoc (t : Tid c) (log : List (Event c)) (e : Event c) : resultsBy t (log ++ [e]) = resultsBy t log ++ resultsBy t [e] := by simp [resultsBy]
theorem putsBy_snoc (t : Tid c) (log : List (Event c)) (e : Event c) : putsBy t (log ++ [e]) = putsBy t log ++ putsBy t [e] := by simp [putsBy]
theorem finalsBy_snoc (t : Tid c) (log : List (Event c)) (e : Event c) : finalsBy t (log ++ [e]) = finalsBy t log ++ finalsBy t [e] := by simp [finalsBy]
theorem gaveBy_snoc (t : Tid c) (log : List (Event c)) (e : Event c) : gaveBy t (log ++ [e]) = gaveBy t log ++ gaveBy t [e] := by simp [gaveBy]

/-! ## First in, first out, exactly once -/

def Fifo (s : St c) : Prop := ∀ q, puts q s.log = takes q s.log ++ s.queue q

theorem Fifo.step {s s' : St c} {t : Tid c} (h : Fifo s) (k : Step t s s') : Fifo s' := by
  intro q
  have hq := h q
  cases k <;> simp only [St.goto, St.own, St.setq, St.ev, puts_snoc, takes_snoc] <;> try exact hq
  case take q' d ds h1 h2 =>
      simp only [puts, takes] at hq ⊢
      by_cases e : q' = q
      · subst e; simp [upd_same, hq, h2]
      · simp [upd_ne _ _ (Ne.symm e), hq, e]
  case call => simpa [puts, takes] using hq
  case fin => simpa [puts, takes] using hq
  case insert q' d h1 =>
      simp only [puts, takes] at hq ⊢
      by_cases e : q' = q
      · subst e; simp [upd_same, hq]
      · simp [upd_ne _ _ (Ne.symm e), hq, e]
  case getFirst d ds h1 h2 =>
      simp only [puts, takes] at hq ⊢
      by_cases e : Q.o = q
      · subst e; simp [upd_same, hq, h2]
      · simp [upd_ne _ _ (Ne.symm e), hq, e]
  case getUnlock => simpa [puts, takes] using hq
  case joined => simpa [puts, takes] using hq

theorem Fifo.call {s s' : St c} {t : Tid c} (h : Fifo s) (k : Call t s s') : Fifo s' := by cases k <;> exact h
theorem Fifo.wake {s s' : St c} {t : Tid c} (h : Fifo s) (k : Wake t s s') : Fifo s' := by cases k; exact h

theorem Reachable.fifo {s : St c} (h : Reachable s) : Fifo s := by
  induction h with
  | init => intro q; rfl
  | step _ k ih =>
      obtain ⟨t, k | k | k⟩ := k
      · exact ih.step k
      · exact ih.call k
      · exact ih.wake k

/-! ## Each thread: what it takes, calls, puts -/

/-- The entry taken and not yet given to the worker. -/
def inHand : PC c → List D
  | .got _ d => [d]
  | .work _ d => [d]
  | _ => []

/-- The result not yet put into the output queue. -/
def inFlight : PC c → List D
  | .ins _ d => [d]
  | .insHeld _ d => [d]
  | _ => []

/-- The result not yet given to `finalize`. -/
def toFinal : PC c → List D
  | .fin d => [d]
  | _ => []

/-- The data taken and not yet returned by zt_threadpool_get_oput. -/
def toGive : PC c → List D
  | .getUnlock (some d) => [d]
  | _ => []

structure Local (s : St c) : Prop where
  calls : ∀ t q, serves t = some q → c.worker q = true → takesBy t s.log = callsBy t s.log ++ inHand (s.pc t)
  results : ∀ t, serves t = some .i → resultsBy t s.log = putsBy t s.log ++ inFlight (s.pc t)
  finals : c.finalize = true → ∀ t, serves t = some .o → resultsBy t s.log = finalsBy t s.log ++ toFinal (s.pc t)
  gets : ∀ t, serves t = none → takesBy t s.log = gaveBy t s.log ++ toGive (s.pc t)

theorem inHand_home (t : Tid c) : inHand (home t) = [] := by cases t <;> rfl
theorem inFlight_home (t : Tid c) : inFlight (home t) = [] := by cases t <;> rfl
theorem toFinal_home (t : Tid c) : toFinal (home t) = [] := by cases t <;> rfl
theorem toGive_home (t : Tid c) : toGive (home t) = [] := by cases t <;> rfl
theorem inHand_wakeAll (q : Q) (p : PC c) : inHand (wakeAll q p) = inHand p := by
  cases p <;> simp only [wakeAll]
  split <;> rfl
theorem inFlight_wakeAll (q : Q) (p : PC c) : inFlight (wakeAll q p) = inFlight p := by
  cases p <;> simp only [wakeAll]
  split <;> rfl
theorem toFinal_wakeAll (q : Q) (p : PC c) : toFinal (wakeAll q p) = toFinal p := by
  cases p <;> simp only [wakeAll]
  split <;> rfl
theorem toGive_wakeAll (q : Q) (p : PC c) : toGive (wakeAll q p) = toGive p := by
  cases p <;> simp only [wakeAll]
  split <;> rfl
theorem inHand_after (q : Q) (r : D) : inHand (after c q r) = [] := by
  unfold after; split
  · rfl
  · split
    · rfl
    · split <;> rfl
theorem toGive_after (q : Q) (r : D) : toGive (after c q r) = [] := by
  unfold after; split
  · rfl
  · split
    · rfl
    · split <;> rfl

theorem Local.step {s s' : St c} {t : Tid c} (hs : Shape s) (h : Local s) (k : Step t s s') : Local s' := by
  have ht := hs t
  obtain ⟨h1, h2, h3, h4⟩ := h
  constructor
  · intro u q hu hw
    have := h1 u q hu hw
    clear h1 h2 h3 h4 hs
    cases k <;> simp only [St.goto, St.own, St.setq, St.ev, takesBy_snoc, callsBy_snoc] <;> generalize takesBy u s.log = A at this ⊢ <;> generalize callsBy u s.log = B at this ⊢ <;>
      simp only [takesBy, callsBy, List.filterMap_cons, List.filterMap_nil, List.append_nil, upd] <;>
      grind [inHand, inHand_home, inHand_after, inHand_wakeAll, shape, serves]
  · intro u hu
    have := h2 u hu
    clear h1 h2 h3 h4 hs
    cases k <;> simp only [St.goto, St.own, St.setq, St.ev, resultsBy_snoc, putsBy_snoc] <;> generalize resultsBy u s.log = A at this ⊢ <;> generalize putsBy u s.log = B at this ⊢ <;>
      simp only [resultsBy, putsBy, List.filterMap_cons, List.filterMap_nil, List.append_nil, upd] <;>
      grind [inFlight, inFlight_home, after, inFlight_wakeAll, shape, serves]
  · intro hf u hu
    have := h3 hf u hu
    clear h1 h2 h3 h4 hs
    cases k <;> simp only [St.goto, St.own, St.setq, St.ev, resultsBy_snoc, finalsBy_snoc] <;> generalize resultsBy u s.log = A at this ⊢ <;> generalize finalsBy u s.log = B at this ⊢ <;>
      simp only [resultsBy, finalsBy, List.filterMap_cons, List.filterMap_nil, List.append_nil, upd] <;>
      grind [toFinal, toFinal_home, after, toFinal_wakeAll, shape, serves]
  · intro u hu
    have := h4 u hu
    clear h1 h2 h3 h4 hs
    cases k
    case getUnlock r hh =>
      simp only [St.goto, St.own, St.ev, takesBy_snoc, gaveBy_snoc]
      generalize takesBy u s.log = A at this ⊢
      generalize gaveBy u s.log = B at this ⊢
      cases r <;> simp only [takesBy, gaveBy, List.filterMap_cons, List.filterMap_nil, List.append_nil, upd] <;> grind [toGive]
    all_goals simp only [St.goto, St.own, St.setq, St.ev, takesBy_snoc, gaveBy_snoc] <;> generalize takesBy u s.log = A at this ⊢ <;> generalize gaveBy u s.log = B at this ⊢ <;>
      simp only [takesBy, gaveBy, List.filterMap_cons, List.filterMap_nil, List.append_nil, upd] <;>
      grind [toGive, toGive_home, toGive_after, toGive_wakeAll, shape, serves]

theorem Local.call {s s' : St c} {t : Tid c} (hs : Shape s) (h : Local s) (k : Call t s s') : Local s' := by
  have ht := hs t
  obtain ⟨h1, h2, h3, h4⟩ := h
  cases k <;> simp only [St.goto] <;> constructor <;> grind [upd, inHand, inFlight, toFinal, toGive, shape]

theorem Local.wake {s s' : St c} {t : Tid c} (hs : Shape s) (h : Local s) (k : Wake t s s') : Local s' := by
  have ht := hs t
  obtain ⟨h1, h2, h3, h4⟩ := h
  cases k <;> simp only [St.goto] <;> constructor <;> grind [upd, inHand, inFlight, toFinal, toGive, shape]

theorem Reachable.localInv {s : St c} (h : Reachable s) : Local s := by
  induction h with
  | init =>
      constructor
      · intro t q _ _; simp [St.init, takesBy, callsBy, inHand_home]
      · intro t _; simp [St.init, resultsBy, putsBy, inFlight_home]
      · intro _ t _; simp [St.init, resultsBy, finalsBy, toFinal_home]
      · intro t _; simp [St.init, takesBy, gaveBy, toGive_home]
  | step hr k ih =>
      obtain ⟨t, k | k | k⟩ := k
      · exact ih.step hr.shape k
      · exact ih.call hr.shape k
      · exact ih.wake hr.shape k

end ZT.Pool
