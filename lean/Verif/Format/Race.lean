import Verif.Format.Clib

/-!
# C93: floating conversions in several threads

cvt_f builds the format for sprintf in a static array (zt_format.c 512), which all threads share. The model interleaves the four accesses of every call; each access is taken as atomic.
-/

namespace ZT.Format.Race

/-- One call of cvt_f per thread: conversion, precision in effect, value. -/
structure Call where
  code : Byte
  prec : Nat
  x : Dbl
  deriving Repr, DecidableEq

/-- How far a thread is: before line 523, 524, 525, 528, or done with the text in its buffer. -/
inductive Pc where
  | l523 | l524 | l525 | l528
  | done (t : List Byte)
  deriving Repr, DecidableEq

/-- `fmt[4]`, `fmt[3]`, `fmt[2]` of the static array (the others never change) and the threads. -/
structure State where
  f4 : Byte
  f3 : Byte
  f2 : Byte
  pc : Nat → Pc

def State.at (s : State) (i : Nat) (p : Pc) : State := { s with pc := fun j => if j = i then p else s.pc j }

/-- zt_format.c 523-528: one access of thread `i`. sprintf reads the precision from the two digits. -/
def step (calls : Nat → Call) (s : State) (i : Nat) : State :=
  match s.pc i with
  | .l523 => { s with f4 := (calls i).code }.at i .l524
  | .l524 => { s with f3 := UInt8.ofNat ((calls i).prec % 10) + 48 }.at i .l525
  | .l525 => { s with f2 := UInt8.ofNat ((calls i).prec / 10 % 10) + 48 }.at i .l528
  | .l528 => s.at i (.done (Clib.text s.f4 ((s.f2.toNat - 48) * 10 + (s.f3.toNat - 48)) (calls i).x))
  | .done t => s.at i (.done t)

/-- zt_format.c 512: the array before the first call holds "%.dd?". -/
def init : State := ⟨63, 100, 100, fun _ => .l523⟩

/-- The threads move in the given order. -/
def run (calls : Nat → Call) (sched : List Nat) (s : State) : State := sched.foldl (step calls) s

/-- A call alone, in any state of the array. -/
theorem c93_alone (calls : Nat → Call) (i : Nat) (s : State) (h : s.pc i = .l523) (hp : (calls i).prec ≤ 99) :
    (run calls [i, i, i, i] s).pc i = .done (Clib.text (calls i).code (calls i).prec (calls i).x) := by
  have e1 : (UInt8.ofNat ((calls i).prec / 10 % 10) + 48).toNat - 48 = (calls i).prec / 10 := by simp only [UInt8.toNat_add, UInt8.toNat_ofNat']; simp; omega
  have e2 : (UInt8.ofNat ((calls i).prec % 10) + 48).toNat - 48 = (calls i).prec % 10 := by simp only [UInt8.toNat_add, UInt8.toNat_ofNat']; simp; omega
  simp only [run, List.foldl_cons, List.foldl_nil, step, h, State.at, if_true]
  rw [e1, e2, show (calls i).prec / 10 * 10 + (calls i).prec % 10 = (calls i).prec by omega]

/-- What each thread has written is in the array, when all threads write the same. -/
structure Inv (c : Byte) (p : Nat) (calls : Nat → Call) (s : State) : Prop where
  w4 : ∀ i, s.pc i ≠ .l523 → s.f4 = c
  w3 : ∀ i, s.pc i ≠ .l523 → s.pc i ≠ .l524 → s.f3 = UInt8.ofNat (p % 10) + 48
  w2 : ∀ i, s.pc i ≠ .l523 → s.pc i ≠ .l524 → s.pc i ≠ .l525 → s.f2 = UInt8.ofNat (p / 10 % 10) + 48
  res : ∀ i t, s.pc i = .done t → t = Clib.text c p (calls i).x

theorem step_inv {c : Byte} {p : Nat} (hp : p ≤ 99) {calls : Nat → Call} (hc : ∀ i, (calls i).code = c ∧ (calls i).prec = p) {s : State} (h : Inv c p calls s) (i : Nat) : Inv c p calls (step calls s i) := by
  have e1 : (UInt8.ofNat (p / 10 % 10) + 48).toNat - 48 = p / 10 := by simp only [UInt8.toNat_add, UInt8.toNat_ofNat']; simp; omega
  have e2 : (UInt8.ofNat (p % 10) + 48).toNat - 48 = p % 10 := by simp only [UInt8.toNat_add, UInt8.toNat_ofNat']; simp; omega
  have e3 : p / 10 * 10 + p % 10 = p := by omega
  obtain ⟨w4, w3, w2, res⟩ := h
  have hci := hc i
  unfold step
  cases hpc : s.pc i with
  | l523 => constructor <;> simp only [State.at] <;> grind
  | l524 => constructor <;> simp only [State.at] <;> grind
  | l525 => constructor <;> simp only [State.at] <;> grind
  | l528 =>
      have g4 := w4 i (by rw [hpc]; simp)
      have g3 := w3 i (by rw [hpc]; simp) (by rw [hpc]; simp)
      have g2 := w2 i (by rw [hpc]; simp) (by rw [hpc]; simp) (by rw [hpc]; simp)
      have hr : Clib.text s.f4 ((s.f2.toNat - 48) * 10 + (s.f3.toNat - 48)) (calls i).x = Clib.text c p (calls i).x := by rw [g4, g3, g2, e1, e2, e3]
      rw [hr]
      constructor <;> simp only [State.at] <;> grind
  | done t => constructor <;> simp only [State.at] <;> grind

/-- **C93** (partial): under every schedule of any number of threads, if all use the same conversion and precision then each prints its own number. Not proved, since false: threads with different conversions
(c93_race_violation). -/
theorem c93_threads_partial {c : Byte} {p : Nat} (hp : p ≤ 99) {calls : Nat → Call} (hc : ∀ i, (calls i).code = c ∧ (calls i).prec = p) (sched : List Nat) (i : Nat) (t : List Byte)
    (h : (run calls sched init).pc i = .done t) : t = Clib.text c p (calls i).x := by
  have key : ∀ (l : List Nat) (s : State), Inv c p calls s → Inv c p calls (run calls l s) := by
    intro l
    induction l with
    | nil => intro s hs; exact hs
    | cons j l ih => intro s hs; exact ih _ (step_inv hp hc hs j)
  exact (key sched init ⟨fun i h => absurd rfl h, fun i h => absurd rfl h, fun i h => absurd rfl h, fun i t h => by cases h⟩).res i t h

/-- Two threads print 1.5 with "%.1e" and "%.3f" at the same time: the first prints "1.500". -/
theorem c93_race_violation : ∃ (calls : Nat → Call) (sched : List Nat), (calls 0) = ⟨101, 1, .fin false 3 (-1)⟩ ∧ (run calls sched init).pc 0 = .done [49, 46, 53, 48, 48] ∧ Clib.text 101 1 (.fin false 3 (-1)) = [49, 46, 53, 101, 43, 48, 48] :=
  ⟨fun i => if i = 0 then ⟨101, 1, .fin false 3 (-1)⟩ else ⟨102, 3, .fin false 3 (-1)⟩, [0, 0, 0, 1, 1, 1, 0], rfl, by decide +kernel, by decide +kernel⟩

end ZT.Format.Race
