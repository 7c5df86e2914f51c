import Verif.IntTime.Props

/-!
# C142: time arithmetic on variables

zt_add_time, zt_sub_time and zt_diff_time with pointers: the structures are cells of a memory, the destination may be one or both of the arguments, and a program is
any sequence of such calls. The functions are modelled assignment by assignment.
-/

namespace ZT.Time
open CInt

/-! ## Model -/

/-- A memory of time structures. -/
abbrev Vars := Nat → Timeval

/-- The assignment `p->tv_sec = v` (zt_time.c 25, 29, 40, 44, 55, 60). -/
def setSec (m : Vars) (p : Nat) (v : Int) : Vars := fun x => if x = p then { m p with sec := v } else m x
/-- The assignment `p->tv_usec = v` (zt_time.c 26, 30, 41, 45, 56, 59). -/
def setUsec (m : Vars) (p : Nat) (v : Int) : Vars := fun x => if x = p then { m p with usec := v } else m x

theorem setUsec_self (m : Vars) (p : Nat) (v : Int) : (setUsec m p v p).usec = v := by simp [setUsec]
theorem setSec_self (m : Vars) (p : Nat) (v : Int) : (setSec m p v p).sec = v := by simp [setSec]
theorem setSec_usec (m : Vars) (p q : Nat) (v : Int) : (setSec m p v q).usec = (m q).usec := by unfold setSec; split <;> simp_all
theorem setUsec_sec (m : Vars) (p q : Nat) (v : Int) : (setUsec m p v q).sec = (m q).sec := by unfold setUsec; split <;> simp_all

/-- The loop of `zt_add_time`, zt_time.c 28-31 (the second assignment cannot overflow under the loop's condition). -/
def carryVars (m : Vars) (p : Nat) : Outcome Vars :=
  if (m p).usec ≥ 1000000 then do
    let s ← arith 64 ((m p).sec + 1)
    let u := (m p).usec - 1000000
    carryVars (setUsec (setSec m p s) p u) p
  else .ok m
termination_by (m p).usec.toNat
decreasing_by
  rw [setUsec_self]; omega

/-- zt_time.c 22-34 `zt_add_time(at, t1, t2)`. -/
def addVars (m : Vars) (p t1 t2 : Nat) : Outcome Vars := do
  let s ← arith 64 ((m t1).sec + (m t2).sec)
  let m := setSec m p s
  let u ← arith 64 ((m t1).usec + (m t2).usec)
  carryVars (setUsec m p u) p

/-- The loop of `zt_sub_time`, zt_time.c 43-46 (the second assignment cannot overflow under the loop's condition). -/
def borrowVars (m : Vars) (p : Nat) : Outcome Vars :=
  if (m p).usec < 0 then do
    let s ← arith 64 ((m p).sec - 1)
    let u := (m p).usec + 1000000
    borrowVars (setUsec (setSec m p s) p u) p
  else .ok m
termination_by (-(m p).usec).toNat
decreasing_by
  rw [setUsec_self]; omega

/-- zt_time.c 37-49 `zt_sub_time(st, t1, t2)`. -/
def subVars (m : Vars) (p t1 t2 : Nat) : Outcome Vars := do
  let s ← arith 64 ((m t1).sec - (m t2).sec)
  let m := setSec m p s
  let u ← arith 64 ((m t1).usec - (m t2).usec)
  borrowVars (setUsec m p u) p

/-- The loop of `zt_diff_time`, zt_time.c 58-61: the microseconds first. -/
def borrowVars' (m : Vars) (p : Nat) : Outcome Vars :=
  if (m p).usec < 0 then do
    let m' := setUsec m p ((m p).usec + 1000000)
    let s ← arith 64 ((m' p).sec - 1)
    borrowVars' (setUsec (setSec m' p s) p ((m p).usec + 1000000)) p
  else .ok m
termination_by (-(m p).usec).toNat
decreasing_by
  rw [setUsec_self]; omega

/-- zt_time.c 52-63 `zt_diff_time(dt, t1, t2)`. -/
def diffVars (m : Vars) (p t1 t2 : Nat) : Outcome Vars := do
  let s ← arith 64 ((m t2).sec - (m t1).sec)
  let m := setSec m p s
  let u ← arith 64 ((m t2).usec - (m t1).usec)
  borrowVars' (setUsec m p u) p

/-- The calls of a program. -/
inductive Call where
  | add (p t1 t2 : Nat)
  | sub (p t1 t2 : Nat)
  | diff (p t1 t2 : Nat)

/-- zt_time.c 22-63: one call. -/
def Call.run (m : Vars) : Call → Outcome Vars
  | .add p a b => addVars m p a b
  | .sub p a b => subVars m p a b
  | .diff p a b => diffVars m p a b

/-- zt_time.c 22-63: a program. -/
def runAll : List Call → Vars → Outcome Vars
  | [], m => .ok m
  | c :: cs, m => c.run m >>= runAll cs

/-! ## Specification: exact arithmetic on instants -/

/-- The structure for an instant of `x` microseconds: whole seconds (rounded down) and the rest. -/
def ofMicros (x : Int) : Timeval := ⟨x / 1000000, x % 1000000⟩

/-- What a call means for instants that are integers. -/
def Call.exact (v : Nat → Int) : Call → Nat → Int
  | .add p a b => fun x => if x = p then v a + v b else v x
  | .sub p a b => fun x => if x = p then v a - v b else v x
  | .diff p a b => fun x => if x = p then v b - v a else v x

def exactAll : List Call → (Nat → Int) → Nat → Int
  | [], v => v
  | c :: cs, v => exactAll cs (c.exact v)

/-- The instants are within 2^61 seconds (73 billion years) of zero. -/
def Within (v : Nat → Int) : Prop := ∀ x, -(2 ^ 61) * 1000000 < v x ∧ v x < 2 ^ 61 * 1000000

/-- So they are at every point of the program. -/
def Throughout : List Call → (Nat → Int) → Prop
  | [], v => Within v
  | c :: cs, v => Within v ∧ Throughout cs (c.exact v)

/-! ## Proof -/

def put1 (m : Vars) (p : Nat) (t : Timeval) : Vars := fun x => if x = p then t else m x

theorem setBoth (m : Vars) (p : Nat) (s u : Int) : setUsec (setSec m p s) p u = put1 m p ⟨s, u⟩ := by
  funext x; simp only [setUsec, setSec, put1]; split <;> simp_all

theorem put1_put1 (m : Vars) (p : Nat) (t t' : Timeval) : put1 (put1 m p t) p t' = put1 m p t' := by
  funext x; simp only [put1]; split <;> simp_all

theorem put1_self (m : Vars) (p : Nat) (t : Timeval) : put1 m p t p = t := by simp [put1]

theorem carryVars_eq (m : Vars) (p : Nat) (s u : Int) : carryVars (put1 m p ⟨s, u⟩) p = (carryLoop s u >>= fun t => .ok (put1 m p t)) := by
  induction hk : u.toNat using Nat.strongRecOn generalizing s u with
  | _ k ih =>
      rw [carryVars, carryLoop, put1_self]
      by_cases h : u ≥ 1000000
      · rw [if_pos h, if_pos h]
        cases arith 64 (s + 1) with
        | ub => rfl
        | abort => rfl
        | ok s' =>
            simp only [Outcome.ok_bind]
            rw [setBoth, put1_put1]
            exact ih _ (by omega) s' _ rfl
      · rw [if_neg h, if_neg h]; rfl

theorem borrowVars_eq (m : Vars) (p : Nat) (s u : Int) : borrowVars (put1 m p ⟨s, u⟩) p = (borrowLoop s u >>= fun t => .ok (put1 m p t)) := by
  induction hk : (-u).toNat using Nat.strongRecOn generalizing s u with
  | _ k ih =>
      rw [borrowVars, borrowLoop, put1_self]
      by_cases h : u < 0
      · rw [if_pos h, if_pos h]
        cases arith 64 (s - 1) with
        | ub => rfl
        | abort => rfl
        | ok s' =>
            simp only [Outcome.ok_bind]
            rw [setBoth, put1_put1]
            exact ih _ (by omega) s' _ rfl
      · rw [if_neg h, if_neg h]; rfl

theorem setTwice (m : Vars) (p : Nat) (s u : Int) : setUsec (setSec (setUsec m p u) p s) p u = put1 m p ⟨s, u⟩ := by
  funext x; simp only [setUsec, setSec, put1]; split <;> simp_all

theorem borrowVars'_eq (m : Vars) (p : Nat) (s u : Int) : borrowVars' (put1 m p ⟨s, u⟩) p = (borrowLoop s u >>= fun t => .ok (put1 m p t)) := by
  induction hk : (-u).toNat using Nat.strongRecOn generalizing s u with
  | _ k ih =>
      rw [borrowVars', borrowLoop, put1_self]
      by_cases h : u < 0
      · simp only [h, if_true]
        rw [setUsec_sec, put1_self]
        cases arith 64 (s - 1) with
        | ub => rfl
        | abort => rfl
        | ok s' =>
            simp only [Outcome.ok_bind]
            rw [setTwice, put1_put1]
            exact ih _ (by omega) s' _ rfl
      · rw [if_neg h, if_neg h]; rfl

/-- **C142 (destination and arguments may be the same).** Whatever cells the destination and the two arguments are, equal or not: the destination receives what
the call with three different structures gives it, and no other cell changes; also when the arguments are not normalized or the call overflows. -/
theorem c142_alias (m : Vars) (p a b : Nat) :
    addVars m p a b = (add (m a) (m b) >>= fun t => .ok (fun x => if x = p then t else m x)) ∧
    subVars m p a b = (sub (m a) (m b) >>= fun t => .ok (fun x => if x = p then t else m x)) ∧
    diffVars m p a b = (diff (m a) (m b) >>= fun t => .ok (fun x => if x = p then t else m x)) := by
  refine ⟨?_, ?_, ?_⟩
  · rw [addVars, add]
    cases arith 64 ((m a).sec + (m b).sec) with
    | ub => rfl
    | abort => rfl
    | ok s =>
        simp only [Outcome.ok_bind, setSec_usec]
        cases arith 64 ((m a).usec + (m b).usec) with
        | ub => rfl
        | abort => rfl
        | ok u => simp only [Outcome.ok_bind]; rw [setBoth, carryVars_eq]; rfl
  · rw [subVars, sub]
    cases arith 64 ((m a).sec - (m b).sec) with
    | ub => rfl
    | abort => rfl
    | ok s =>
        simp only [Outcome.ok_bind, setSec_usec]
        cases arith 64 ((m a).usec - (m b).usec) with
        | ub => rfl
        | abort => rfl
        | ok u => simp only [Outcome.ok_bind]; rw [setBoth, borrowVars_eq]; rfl
  · rw [diffVars, diff]
    cases arith 64 ((m b).sec - (m a).sec) with
    | ub => rfl
    | abort => rfl
    | ok s =>
        simp only [Outcome.ok_bind, setSec_usec]
        cases arith 64 ((m b).usec - (m a).usec) with
        | ub => rfl
        | abort => rfl
        | ok u => simp only [Outcome.ok_bind]; rw [setBoth, borrowVars'_eq]; rfl

theorem ofMicros_micros {t : Timeval} (h : Norm t) : ofMicros (micros t) = t := by
  obtain ⟨s, u⟩ := t
  simp only [Norm, ofMicros, micros, Timeval.mk.injEq] at *
  omega

theorem norm_ofMicros (x : Int) : Norm (ofMicros x) := by simp only [Norm, ofMicros]; omega
theorem micros_ofMicros (x : Int) : micros (ofMicros x) = x := by simp only [micros, ofMicros]; omega

theorem small_ofMicros {x : Int} (h : -(2 ^ 61) * 1000000 < x ∧ x < 2 ^ 61 * 1000000) : Small (ofMicros x) := by
  simp only [ofMicros, Small]; omega

theorem ofMicros_of {t : Timeval} {x : Int} (h : Norm t) (e : micros t = x) : t = ofMicros x := by rw [← e, ofMicros_micros h]

theorem run_exact (v : Nat → Int) (hv : Within v) (c : Call) : c.run (fun x => ofMicros (v x)) = .ok (fun x => ofMicros (c.exact v x)) := by
  cases c with
  | add p a b =>
      obtain ⟨r, h1, h2, h3⟩ := add_exact _ _ (norm_ofMicros (v a)) (norm_ofMicros (v b)) (small_ofMicros (hv a)) (small_ofMicros (hv b))
      simp only [micros_ofMicros] at h3
      rw [Call.run, (c142_alias _ p a b).1, h1, ofMicros_of h2 h3]
      simp only [Outcome.ok_bind, Outcome.ok.injEq]
      funext x; simp only [Call.exact]; split <;> rfl
  | sub p a b =>
      obtain ⟨r, h1, h2, h3⟩ := sub_exact _ _ (norm_ofMicros (v a)) (norm_ofMicros (v b)) (small_ofMicros (hv a)) (small_ofMicros (hv b))
      simp only [micros_ofMicros] at h3
      rw [Call.run, (c142_alias _ p a b).2.1, h1, ofMicros_of h2 h3]
      simp only [Outcome.ok_bind, Outcome.ok.injEq]
      funext x; simp only [Call.exact]; split <;> rfl
  | diff p a b =>
      obtain ⟨r, h1, h2, h3⟩ := diff_exact _ _ (norm_ofMicros (v a)) (norm_ofMicros (v b)) (small_ofMicros (hv a)) (small_ofMicros (hv b))
      simp only [micros_ofMicros] at h3
      rw [Call.run, (c142_alias _ p a b).2.2, h1, ofMicros_of h2 h3]
      simp only [Outcome.ok_bind, Outcome.ok.injEq]
      funext x; simp only [Call.exact]; split <;> rfl

/-- **C142 (programs).** Any program of these calls, on any number of variables and with any of them equal, that starts with normalized times and whose exact
instants stay within the bound: every variable ends as the normalized structure of its exact instant. -/
theorem c142_program (cs : List Call) (m : Vars) (hn : ∀ x, Norm (m x)) (hb : Throughout cs (fun x => micros (m x))) :
    runAll cs m = .ok (fun x => ofMicros (exactAll cs (fun x => micros (m x)) x)) := by
  have hm : m = fun x => ofMicros ((fun x => micros (m x)) x) := by funext x; exact (ofMicros_micros (hn x)).symm
  generalize (fun x => micros (m x)) = v at *
  subst hm
  clear hn
  induction cs generalizing v with
  | nil => rfl
  | cons c cs ih =>
      rw [runAll, run_exact v hb.1 c]
      simp only [Outcome.ok_bind]
      exact ih _ hb.2

/-- The sum of what is added to variable 0. -/
theorem exactAll_total (as : List Nat) (h : 0 ∉ as) : ∀ v : Nat → Int, exactAll (as.map fun a => .add 0 0 a) v = fun x => if x = 0 then v 0 + (as.map v).sum else v x := by
  induction as with
  | nil => intro v; funext x; simp [exactAll]; intro h; rw [h]
  | cons a as ih =>
      intro v
      simp only [List.mem_cons, not_or] at h
      rw [List.map_cons, exactAll, ih h.2]
      funext x
      have : (as.map ((Call.add 0 0 a).exact v)) = as.map v := by
        apply List.map_congr_left
        intro y hy
        have : y ≠ 0 := fun e => h.2 (e ▸ hy)
        simp [Call.exact, this]
      rw [this]
      simp only [Call.exact, List.map_cons, List.sum_cons, if_true]
      split <;> simp_all
      omega

/-- **C142 (accumulation).** Adding any number of non-negative times to a running total in place, as `zt_add_time(&total, &total, &t)`: the total is the exact sum,
if that sum is within the bound. -/
theorem c142_total (as : List Nat) (m : Vars) (h0 : 0 ∉ as) (hn : ∀ x, Norm (m x)) (hp : ∀ x, 0 ≤ micros (m x) ∧ micros (m x) < 2 ^ 61 * 1000000)
    (hb : micros (m 0) + (as.map fun a => micros (m a)).sum < 2 ^ 61 * 1000000) :
    runAll (as.map fun a => .add 0 0 a) m = .ok (fun x => if x = 0 then ofMicros (micros (m 0) + (as.map fun a => micros (m a)).sum) else m x) := by
  rw [c142_program _ m hn, exactAll_total as h0]
  · congr 1; funext x
    by_cases hx : x = 0
    · simp [hx]
    · simp [hx, ofMicros_micros (hn x)]
  · have hv : ∀ x, 0 ≤ (fun x => micros (m x)) x ∧ (fun x => micros (m x)) x < 2 ^ 61 * 1000000 := hp
    have hb' : (fun x => micros (m x)) 0 + (as.map (fun x => micros (m x))).sum < 2 ^ 61 * 1000000 := hb
    clear hn hp hb
    generalize (fun x => micros (m x)) = v at *
    induction as generalizing v with
    | nil => intro x; have := hv x; omega
    | cons a as ih =>
        simp only [List.mem_cons, not_or] at h0
        have hsum : ∀ l : List Nat, 0 ≤ (l.map v).sum := by
          intro l; induction l with
          | nil => simp
          | cons y l ih => have := hv y; simp only [List.map_cons, List.sum_cons]; omega
        have hs := hsum as
        simp only [List.map_cons, List.sum_cons] at hb'
        refine ⟨fun x => by have := hv x; omega, ?_⟩
        have he : (as.map ((Call.add 0 0 a).exact v)) = as.map v := by
          apply List.map_congr_left
          intro y hy
          have : y ≠ 0 := fun e => h0.2 (e ▸ hy)
          simp [Call.exact, this]
        refine ih h0.2 _ (fun x => ?_) ?_
        · have h1 := hv a; have h2 := hv 0; have h3 := hv x
          simp only [Call.exact]; split <;> omega
        · rw [he]; simp only [Call.exact, if_true]; omega

/-- The hypotheses are met: three times added up in place, then the total doubled in place. -/
example : Throughout [.add 0 0 1, .add 0 0 2, .add 0 0 0, .sub 3 0 3] (fun x => if x < 4 then 1500000 else 0) := by
  refine ⟨?_, ?_, ?_, ?_, ?_⟩ <;> intro x <;> simp only [Call.exact] <;> (repeat' split) <;> omega

end ZT.Time
