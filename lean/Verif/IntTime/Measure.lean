import Verif.IntTime.Props

/-!
# zt_time.c: timing a function (C51, C106), and the waiting macro of zt_time.h (C107)

The rest of the process (the timed function, the clock of the kernel) is a state `σ` about which nothing is assumed. The structures the results are written
to are cells of a memory, because zt_time_calibrate passes the address of the calibration itself: cell 0 is the static `_calibration_time`.
-/

namespace ZT.Time

open CInt

/-- zt_time.h 26-29 `struct time_result`. -/
structure Result where
  sys : Timeval
  usr : Timeval
  deriving Repr, DecidableEq

/-- Memory: the structures results are written to. -/
abbrev Cells := Nat → Result

/-- zt_time.c 101: the address of the static `_calibration_time`. -/
def cal : Nat := 0

/-- zt_time.c 101: before the first call the calibration is zero. -/
def loaded (m : Cells) : Cells := fun a => if a = cal then ⟨⟨0, 0⟩, ⟨0, 0⟩⟩ else m a

def setUsr (m : Cells) (a : Nat) (t : Timeval) : Cells := fun x => if x = a then { m a with usr := t } else m x
def setSys (m : Cells) (a : Nat) (t : Timeval) : Cells := fun x => if x = a then { m a with sys := t } else m x

/-- getrusage(RUSAGE_SELF, ..): the times used so far by the process (the reading itself may take time). -/
abbrev Clock (σ : Type) := σ → Result × σ

/-- The function timed, with its argument: what it returns and what it does. -/
abbrev Test (σ : Type) := σ → Nat × σ

/-- zt_time.c 130-132: the loop `for (i = 0; i <= n; i++) ret = test(data);`, `i` and `n` being of type int. -/
def callLoop {σ : Type} (test : Test σ) (n i : Int) (ret : Nat) (s : σ) : Outcome (Nat × σ) :=
  if i ≤ n then
    if i + 1 ≤ 2 ^ 31 - 1 then callLoop test n (i + 1) (test s).1 (test s).2 else .ub
  else .ok (ret, s)
termination_by (n + 1 - i).toNat
decreasing_by omega

/-- zt_time.c 129-133 `if (test && n) { .. }`; 0 is NULL. -/
def calls {σ : Type} (test : Option (Test σ)) (n : Int) (s : σ) : Outcome (Nat × σ) :=
  match test with
  | none => .ok (0, s)
  | some f => if n = 0 then .ok (0, s) else callLoop f n 0 0 s

/-- zt_time.c 116-146 `zt_time`, `tv` being the address of a structure (not NULL). The arguments of zt_diff_time and zt_sub_time are addresses: what the second call
reads is what the first has written, and when `tv` is the calibration that is also what is subtracted. -/
def time {σ : Type} (rusage : Clock σ) (n : Int) (tv : Nat) (test : Option (Test σ)) (m : Cells) (s : σ) : Outcome (Nat × Cells × σ) := do
  let (ret, s1) ← calls test n (rusage s).2
  let du ← diff (rusage s).1.usr (rusage s1).1.usr
  let m := setUsr m tv du
  let ds ← diff (rusage s).1.sys (rusage s1).1.sys
  let m := setSys m tv ds
  let u ← sub (m tv).usr (m cal).usr
  let m := setUsr m tv u
  let t ← sub (m tv).sys (m cal).sys
  .ok (ret, setSys m tv t, (rusage s1).2)

/-- zt_time.c 103-107 `zt_time_calibrate`. -/
def calibrate {σ : Type} (rusage : Clock σ) (m : Cells) (s : σ) : Outcome (Cells × σ) := do
  let (_, m, s) ← time rusage 0 cal none m s
  .ok (m, s)

/-! ## Specification -/

/-- The process after `k` calls of the function. -/
def after {σ : Type} (f : Test σ) : Nat → σ → σ
  | 0, s => s
  | k + 1, s => after f k (f s).2

/-- What the `k`-th of `k` calls returns; NULL when there is none. -/
def lastResult {σ : Type} (f : Test σ) : Nat → σ → Nat
  | 0, _ => 0
  | k + 1, s => (f (after f k s)).1

/-- A clock gives normalized times of a possible size. -/
def Reads {σ : Type} (rusage : Clock σ) : Prop := ∀ s, Norm (rusage s).1.usr ∧ Norm (rusage s).1.sys ∧ (0 ≤ (rusage s).1.usr.sec ∧ (rusage s).1.usr.sec < 2 ^ 61) ∧ 0 ≤ (rusage s).1.sys.sec ∧ (rusage s).1.sys.sec < 2 ^ 61

/-- The histories of a program: calibrations, timings into structures of its own, and anything else it does with them and with itself. -/
inductive Hist {σ : Type} (rusage : Clock σ) : Cells → σ → Prop
  | start {m s} : Hist rusage (loaded m) s
  | calibrate {m s m' s'} : Hist rusage m s → calibrate rusage m s = .ok (m', s') → Hist rusage m' s'
  | time {m s n tv test r m' s'} : Hist rusage m s → tv ≠ cal → time rusage n tv test m s = .ok (r, m', s') → Hist rusage m' s'
  | other {m s m' s'} : Hist rusage m s → (m' cal = m cal) → Hist rusage m' s'

/-! ## Proofs -/

theorem after_succ {σ : Type} (f : Test σ) (k : Nat) (s : σ) : after f (k + 1) s = (f (after f k s)).2 := by
  induction k generalizing s with
  | zero => rfl
  | succ k ih => rw [after, ih, after]

theorem callLoop_eq {σ : Type} (f : Test σ) (n i : Int) (hn : n < 2 ^ 31 - 1) (k : Nat) (s0 : σ) (hi : i ≤ n + 1) :
    callLoop f n i (lastResult f k s0) (after f k s0) = .ok (lastResult f (k + (n + 1 - i).toNat) s0, after f (k + (n + 1 - i).toNat) s0) := by
  rw [callLoop]
  by_cases h : i ≤ n
  · rw [if_pos h, if_pos (by omega)]
    have := callLoop_eq f n (i + 1) hn (k + 1) s0 (by omega)
    rw [lastResult, after_succ] at this
    rw [this, show k + 1 + (n + 1 - (i + 1)).toNat = k + (n + 1 - i).toNat by omega]
  · rw [if_neg h, show (n + 1 - i).toNat = 0 by omega]; rfl
termination_by (n + 1 - i).toNat
decreasing_by omega

theorem callLoop_max {σ : Type} (f : Test σ) (i : Int) (hi : i ≤ 2 ^ 31 - 1) (r : Nat) (s : σ) : callLoop f (2 ^ 31 - 1) i r s = .ub := by
  rw [callLoop, if_pos hi]
  by_cases h : i + 1 ≤ 2 ^ 31 - 1
  · rw [if_pos h]; exact callLoop_max f (i + 1) h _ _
  · rw [if_neg h]
termination_by (2 ^ 31 - i).toNat
decreasing_by omega

theorem callLoop_neg {σ : Type} (f : Test σ) (n : Int) (hn : n < 0) (r : Nat) (s : σ) : callLoop f n 0 r s = .ok (r, s) := by
  rw [callLoop, if_neg (by omega)]

/-- How often zt_time calls a function it is given. -/
def made (n : Int) : Nat := if n ≤ 0 then 0 else n.toNat + 1

theorem calls_eq {σ : Type} (f : Test σ) (n : Int) (hn : n < 2 ^ 31 - 1) (s : σ) : calls (some f) n s = .ok (lastResult f (made n) s, after f (made n) s) := by
  simp only [calls]
  by_cases h0 : n = 0
  · rw [if_pos h0, h0]; rfl
  · rw [if_neg h0]
    by_cases h : n < 0
    · rw [callLoop_neg f n h, made, if_pos (by omega)]; rfl
    · have := callLoop_eq f n 0 hn 0 s (by omega)
      rw [show 0 + (n + 1 - 0).toNat = made n by rw [made, if_neg (by omega)]; omega] at this
      exact this

theorem calls_none {σ : Type} (n : Int) (s : σ) : calls (none : Option (Test σ)) n s = .ok (0, s) := rfl

theorem small_of {t : Timeval} (h : 0 ≤ t.sec ∧ t.sec < 2 ^ 61) : Small t := by simp only [Small]; omega

/-- Cells: the structure at `tv` gets `r`, nothing else changes. -/
def put (m : Cells) (tv : Nat) (r : Result) : Cells := fun x => if x = tv then r else m x

theorem time_calls {σ : Type} {rusage : Clock σ} (hr : Reads rusage) {n : Int} {tv : Nat} {test : Option (Test σ)} {m : Cells} {s s1 : σ} {ret : Nat} (hc : calls test n (rusage s).2 = .ok (ret, s1)) (htv : tv ≠ cal)
    (hcal : m cal = ⟨⟨0, 0⟩, ⟨0, 0⟩⟩) :
    ∃ u t, time rusage n tv test m s = .ok (ret, put m tv ⟨t, u⟩, (rusage s1).2) ∧ Norm u ∧ Norm t ∧ micros u = micros (rusage s1).1.usr - micros (rusage s).1.usr ∧
      micros t = micros (rusage s1).1.sys - micros (rusage s).1.sys := by
  obtain ⟨a1, a2, a3, a4⟩ := hr s
  obtain ⟨b1, b2, b3, b4⟩ := hr s1
  obtain ⟨du, e1, n1, v1⟩ := diff_exact _ _ a1 b1 (small_of a3) (small_of b3)
  obtain ⟨ds, e2, n2, v2⟩ := diff_exact _ _ a2 b2 (small_of a4) (small_of b4)
  have z : Norm ⟨0, 0⟩ ∧ Small ⟨0, 0⟩ := by decide
  have k1 : Small du := by simp only [Small, Norm, micros] at *; omega
  have k2 : Small ds := by simp only [Small, Norm, micros] at *; omega
  obtain ⟨u, e3, n3, v3⟩ := sub_exact du ⟨0, 0⟩ n1 z.1 k1 z.2
  obtain ⟨t, e4, n4, v4⟩ := sub_exact ds ⟨0, 0⟩ n2 z.1 k2 z.2
  refine ⟨u, t, ?_, n3, n4, ?_, ?_⟩
  · unfold time
    rw [hc, Outcome.ok_bind]
    simp only
    rw [e1, Outcome.ok_bind, e2, Outcome.ok_bind]
    have c1 : (setSys (setUsr m tv du) tv ds) cal = ⟨⟨0, 0⟩, ⟨0, 0⟩⟩ := by simp [setSys, setUsr, Ne.symm htv, hcal]
    have c2 : (setSys (setUsr m tv du) tv ds) tv = ⟨ds, du⟩ := by simp [setSys, setUsr]
    rw [c1, c2]
    simp only
    rw [e3, Outcome.ok_bind]
    have c3 : (setUsr (setSys (setUsr m tv du) tv ds) tv u) cal = ⟨⟨0, 0⟩, ⟨0, 0⟩⟩ := by simp [setSys, setUsr, Ne.symm htv, hcal]
    have c4 : (setUsr (setSys (setUsr m tv du) tv ds) tv u) tv = ⟨ds, u⟩ := by simp [setSys, setUsr]
    rw [c3, c4]
    simp only
    rw [e4, Outcome.ok_bind]
    congr 3
    funext x
    by_cases hx : x = tv
    · subst hx; simp [setSys, setUsr, put]
    · simp [setSys, setUsr, put, hx]
  · rw [v3, v1]; simp [micros]
  · rw [v4, v2]; simp [micros]

theorem sub_self (t : Timeval) : sub t t = .ok ⟨0, 0⟩ := by
  simp only [sub, Int.sub_self]
  have h : arith 64 0 = .ok 0 := by rw [arith, if_pos (by decide)]
  rw [h, Outcome.ok_bind, Outcome.ok_bind, borrowLoop, if_neg (by decide)]

theorem calibrate_eq {σ : Type} {rusage : Clock σ} (hr : Reads rusage) (m : Cells) (s : σ) : ∃ s', calibrate rusage m s = .ok (put m cal ⟨⟨0, 0⟩, ⟨0, 0⟩⟩, s') := by
  have hs := hr s
  have hs1 := hr (rusage s).2
  obtain ⟨du, e1, n1, v1⟩ := diff_exact _ _ hs.1 hs1.1 (small_of hs.2.2.1) (small_of hs1.2.2.1)
  obtain ⟨ds, e2, n2, v2⟩ := diff_exact _ _ hs.2.1 hs1.2.1 (small_of hs.2.2.2) (small_of hs1.2.2.2)
  refine ⟨(rusage (rusage s).2).2, ?_⟩
  unfold calibrate time
  rw [calls_none, Outcome.ok_bind]
  simp only
  rw [e1, Outcome.ok_bind, e2, Outcome.ok_bind, sub_self, Outcome.ok_bind, sub_self, Outcome.ok_bind, Outcome.ok_bind]
  congr 2
  funext x
  by_cases hx : x = cal
  · subst hx; simp [setSys, setUsr, put]
  · simp [setSys, setUsr, put, hx]

theorem time_cal {σ : Type} {rusage : Clock σ} {n : Int} {tv : Nat} {test : Option (Test σ)} {m m' : Cells} {s s' : σ} {r : Nat} (htv : tv ≠ cal) (h : time rusage n tv test m s = .ok (r, m', s')) : m' cal = m cal := by
  unfold time at h
  obtain ⟨⟨ret, s1⟩, _, h⟩ := Outcome.bind_eq_ok.1 h
  simp only at h
  obtain ⟨du, _, h⟩ := Outcome.bind_eq_ok.1 h
  obtain ⟨ds, _, h⟩ := Outcome.bind_eq_ok.1 h
  obtain ⟨u, _, h⟩ := Outcome.bind_eq_ok.1 h
  obtain ⟨t, _, h⟩ := Outcome.bind_eq_ok.1 h
  cases h
  simp [setSys, setUsr, Ne.symm htv]

theorem hist_cal {σ : Type} {rusage : Clock σ} (hr : Reads rusage) {m : Cells} {s : σ} (h : Hist rusage m s) : m cal = ⟨⟨0, 0⟩, ⟨0, 0⟩⟩ := by
  induction h with
  | start => simp [loaded]
  | @calibrate m s m' s' _ e ih =>
      obtain ⟨s2, e2⟩ := calibrate_eq hr m s
      rw [e2] at e; cases e; simp [put]
  | time _ htv e ih => rw [time_cal htv e, ih]
  | other _ e ih => rw [e, ih]

/-! ## C51 -/

/-- **C51 (no calls).** For n of 0 or less the function is not called, and NULL is returned. Missing for the full claim: n above 0, see `c51_count_violation`. -/
theorem c51_none_partial {σ : Type} (f : Test σ) (n : Int) (h : n ≤ 0) (s : σ) : calls (some f) n s = .ok (0, s) := by
  rw [calls_eq f n (by omega), made, if_pos h]; rfl

/-- Violation of C51: for n above 0 the function is called n + 1 times; what zt_time returns is the result of the last call. -/
theorem c51_count_violation {σ : Type} (f : Test σ) (n : Int) (h : 0 < n) (hn : n < 2 ^ 31 - 1) (s : σ) :
    calls (some f) n s = .ok (lastResult f (n.toNat + 1) s, after f (n.toNat + 1) s) := by
  rw [calls_eq f n hn, made, if_neg (by omega)]

/-- Violation of C51: for the largest int the counter overflows. -/
theorem c51_overflow_violation {σ : Type} (f : Test σ) (s : σ) : calls (some f) (2 ^ 31 - 1) s = .ub := by
  simp only [calls]
  rw [if_neg (by decide)]
  exact callLoop_max f 0 (by decide) _ _

/-- The counting function: three calls were asked for, four are made. -/
example : calls (some fun s : Nat => (s, s + 1)) 3 10 = .ok (13, 14) := c51_count_violation _ 3 (by decide) (by decide) 10

/-! ## C106 -/

/-- **C106 (what is measured).** In every history of the program, zt_time leaves in the structure it is given the user and the system time that passed between the reading of the clock before the first call of the function and
the reading after the last, as normalized times, returns the result of the last call and changes nothing else. For n below 2^31-1; `made n` is how often the function is called (C51). Missing for the full claim: the overhead
found by zt_time_calibrate is not subtracted, see `c106_calibration_violation`. -/
theorem c106_elapsed_partial {σ : Type} {rusage : Clock σ} (hr : Reads rusage) {m : Cells} {s : σ} (h : Hist rusage m s) (f : Test σ) (n : Int) (hn : n < 2 ^ 31 - 1) (tv : Nat) (htv : tv ≠ cal) :
    let before := rusage s
    let last := rusage (after f (made n) before.2)
    ∃ u t, time rusage n tv (some f) m s = .ok (lastResult f (made n) before.2, put m tv ⟨t, u⟩, last.2) ∧ Norm u ∧ Norm t ∧ micros u = micros last.1.usr - micros before.1.usr ∧
      micros t = micros last.1.sys - micros before.1.sys :=
  time_calls hr (calls_eq f n hn _) htv (hist_cal hr h)

/-- **C106 (nothing to call).** The same without a function. -/
theorem c106_empty_partial {σ : Type} {rusage : Clock σ} (hr : Reads rusage) {m : Cells} {s : σ} (h : Hist rusage m s) (n : Int) (tv : Nat) (htv : tv ≠ cal) :
    ∃ u t, time rusage n tv none m s = .ok (0, put m tv ⟨t, u⟩, (rusage (rusage s).2).2) ∧ Norm u ∧ Norm t ∧ micros u = micros (rusage (rusage s).2).1.usr - micros (rusage s).1.usr ∧
      micros t = micros (rusage (rusage s).2).1.sys - micros (rusage s).1.sys :=
  time_calls hr (calls_none n _) htv (hist_cal hr h)

/-- Violation of C106: in every history zt_time_calibrate records an overhead of zero, however long its empty measurement took, because it subtracts the calibration it has just overwritten from itself. -/
theorem c106_calibration_violation {σ : Type} {rusage : Clock σ} (hr : Reads rusage) {m : Cells} {s : σ} (h : Hist rusage m s) :
    ∃ m' s', calibrate rusage m s = .ok (m', s') ∧ m' = m ∧ m' cal = ⟨⟨0, 0⟩, ⟨0, 0⟩⟩ := by
  obtain ⟨s', e⟩ := calibrate_eq hr m s
  have hc := hist_cal hr h
  refine ⟨_, s', e, ?_, by simp [put]⟩
  funext x
  by_cases hx : x = cal
  · subst hx; simp [put, hc]
  · simp [put, hx]

/-- A clock that counts microseconds in the state, a second apart at each reading. -/
def ticking : Clock Nat := fun s => (⟨⟨0, 0⟩, ⟨(s % 1000 : Nat), 5⟩⟩, s + 1)

theorem ticking_reads : Reads ticking := by
  intro s
  refine ⟨?_, ?_, ?_, ?_⟩ <;> simp only [ticking, Norm] <;> omega

/-- An empty measurement takes a second by that clock; after the calibration one still takes a second. -/
example : ∃ m s r m' s', calibrate ticking (loaded fun _ => ⟨⟨7, 7⟩, ⟨7, 7⟩⟩) 1 = .ok (m, s) ∧ time ticking 0 9 none m s = .ok (r, m', s') ∧ micros (m' 9).usr = 1000000 := by
  obtain ⟨m', s', e, _, _⟩ := c106_calibration_violation ticking_reads (Hist.start (m := fun _ => ⟨⟨7, 7⟩, ⟨7, 7⟩⟩) (s := 1))
  have h : Hist ticking m' s' := .calibrate .start e
  have hs : s' = 3 := by
    have e2 := e
    unfold calibrate time at e2
    obtain ⟨⟨_, _, _⟩, e3, e2⟩ := Outcome.bind_eq_ok.1 e2
    cases e2
    obtain ⟨⟨_, _⟩, e4, e3⟩ := Outcome.bind_eq_ok.1 e3
    cases e4
    obtain ⟨_, _, e3⟩ := Outcome.bind_eq_ok.1 e3
    obtain ⟨_, _, e3⟩ := Outcome.bind_eq_ok.1 e3
    obtain ⟨_, _, e3⟩ := Outcome.bind_eq_ok.1 e3
    obtain ⟨_, _, e3⟩ := Outcome.bind_eq_ok.1 e3
    cases e3; rfl
  subst hs
  obtain ⟨u, t, e1, _, _, hu, _⟩ := c106_empty_partial ticking_reads h 0 9 (by decide)
  refine ⟨m', 3, _, _, _, e, e1, ?_⟩
  simp only [put, if_true, hu]
  decide

/-! ## C107 -/

/-- zt_time.h 59-67, the variant of `usleep` that is compiled (line 43 compares `defined _POSIX_C_SOURCE`, which is 0 or 1, with 199309): the time given to select for an argument that is a single operand of type long. -/
def usleep (msec : Int) : Outcome Timeval := do
  let s ← arith 64 (msec.tdiv 1000000)
  .ok ⟨s, msec.tmod 1000000⟩

/-- zt_time.h 59-67 for an argument that is a sum `a + b`: it is not put in parentheses. -/
def usleepSum (a b : Int) : Outcome Timeval := do
  let usec ← arith 64 (a + b)
  let s ← arith 64 (a + b.tdiv 1000000)
  .ok ⟨s, usec.tmod 1000000⟩

/-- **C107**: the time waited for is the number of microseconds asked for, as a normalized time. For an argument that is a single operand. Missing for the full claim: other expressions, see `c107_parentheses_violation`. -/
theorem c107_usleep_partial (us : Int) (h : 0 ≤ us) (h2 : us < 2 ^ 63) : ∃ t, usleep us = .ok t ∧ Norm t ∧ 0 ≤ t.sec ∧ micros t = us := by
  have e1 : us.tdiv 1000000 = us / 1000000 := Int.tdiv_eq_ediv_of_nonneg h
  have e2 : us.tmod 1000000 = us % 1000000 := Int.tmod_eq_emod_of_nonneg h
  refine ⟨⟨us / 1000000, us % 1000000⟩, ?_, ?_, ?_, ?_⟩
  · unfold usleep
    rw [e1, e2, arith, if_pos]
    · rfl
    · simp only [InS, smin, smax]; omega
  · simp only [Norm]; omega
  · simp only; omega
  · simp only [micros]; omega

/-- Violation of C107: with `usleep(a + b)` the first summand counts as seconds, so the time is longer than asked for by `a` seconds less what it should contribute. -/
theorem c107_parentheses_violation (a b : Int) (ha : 0 ≤ a) (hb : 0 ≤ b) (hb1 : a % 1000000 + b % 1000000 < 1000000) (h : a + b < 2 ^ 63) :
    ∃ t, usleepSum a b = .ok t ∧ micros t = a + b + (a - a / 1000000) * 1000000 := by
  have e1 : b.tdiv 1000000 = b / 1000000 := Int.tdiv_eq_ediv_of_nonneg hb
  have e2 : (a + b).tmod 1000000 = (a + b) % 1000000 := Int.tmod_eq_emod_of_nonneg (by omega)
  refine ⟨⟨a + b / 1000000, (a + b) % 1000000⟩, ?_, ?_⟩
  · unfold usleepSum
    rw [e1]
    have k1 : arith 64 (a + b) = .ok (a + b) := by
      rw [arith, if_pos]; simp only [InS, smin, smax]; omega
    have k2 : arith 64 (a + b / 1000000) = .ok (a + b / 1000000) := by
      rw [arith, if_pos]; simp only [InS, smin, smax]; omega
    rw [k1, k2, Outcome.ok_bind, Outcome.ok_bind, e2]
  · simp only [micros]; omega

/-- Twice 40 milliseconds: 11 hours. -/
example : ∃ t, usleepSum 40000 40000 = .ok t ∧ micros t = 40000080000 := by
  obtain ⟨t, e, h⟩ := c107_parentheses_violation 40000 40000 (by decide) (by decide) (by decide) (by decide)
  exact ⟨t, e, by rw [h]; decide⟩

end ZT.Time
