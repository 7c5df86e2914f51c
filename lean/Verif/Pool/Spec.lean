import Verif.Pool.Model

/-!
# What users of the pool observe

Functions of the log only.
-/

namespace ZT.Pool

variable {D : Type} [DecidableEq D] {c : Cfg D}

/-- The data put into queue `q`, in order. -/
def puts (q : Q) (log : List (Event c)) : List D := log.filterMap fun
  | .put _ q' d => if q' = q then some d else none
  | _ => none

/-- The data taken from queue `q`, in order. -/
def takes (q : Q) (log : List (Event c)) : List D := log.filterMap fun
  | .take _ q' d => if q' = q then some d else none
  | _ => none

/-- The data thread `t` has taken from a queue, in order. -/
def takesBy (t : Tid c) (log : List (Event c)) : List D := log.filterMap fun
  | .take t' _ d => if t' = t then some d else none
  | _ => none

/-- The data the worker callback was called with in thread `t`. -/
def callsBy (t : Tid c) (log : List (Event c)) : List D := log.filterMap fun
  | .call t' _ d _ => if t' = t then some d else none
  | _ => none

/-- The results, other than NULL, of those calls. -/
def resultsBy (t : Tid c) (log : List (Event c)) : List D := log.filterMap fun
  | .call t' _ _ r => if t' = t ∧ r ≠ c.null then some r else none
  | _ => none

/-- The data thread `t` has put into a queue. -/
def putsBy (t : Tid c) (log : List (Event c)) : List D := log.filterMap fun
  | .put t' _ d => if t' = t then some d else none
  | _ => none

/-- The data given to `finalize` in thread `t`. -/
def finalsBy (t : Tid c) (log : List (Event c)) : List D := log.filterMap fun
  | .final t' d => if t' = t then some d else none
  | _ => none

/-- The data zt_threadpool_get_oput has returned in thread `t` (calls that found the queue empty not counted). -/
def gaveBy (t : Tid c) (log : List (Event c)) : List D := log.filterMap fun
  | .gave t' (some d) => if t' = t then some d else none
  | _ => none

/-- `l` is `m` and at most one element more, still being processed. -/
def UpToOne (l m : List D) : Prop := ∃ p, l = m ++ p ∧ p.length ≤ 1

end ZT.Pool
