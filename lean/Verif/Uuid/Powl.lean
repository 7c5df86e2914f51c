import Verif.Ieee
import Verif.Uuid.Props

/-!
# The powers of 62

base62_decode_int64 multiplies with `(uint64_t) powl(62, k)` (zt_uuid.c 528): a floating point number, truncated. `Uuid/Model.lean` has the integer `62 ^ k` there.
Here `powl` is a parameter; all the specification says is that its result is a nearest number of the format of long double, whatever that is: 53 bits (Microsoft,
ARM 32), 64 bits (x86) or 113 bits (ARM 64, s390x).
-/

namespace ZT.Uuid

open Ieee

/-- The loop of zt_uuid.c 513-529 with the powers as `pw` gives them. -/
def decLoopWith (pw : Nat → Rat) (tlen : Nat) : (inp : List Byte) → (i left v : Nat) → Outcome (Option Nat)
  | _, _, 0, v => .ok (some v)
  | [], _, _ + 1, _ => .ub
  | c :: cs, i, left + 1, v =>
      match val62 c with
      | none => .ok none
      | some n => decLoopWith pw tlen cs (i + 1) left ((v + n * (pw (tlen - i - 1)).floor.toNat) % 2 ^ 64)

/-- zt_uuid.c 503-533 `base62_decode_int64(in, ilen, out)` with the powers as `pw` gives them; `none` is -1. -/
def decWith (pw : Nat → Rat) (inp : List Byte) (ilen : Nat) : Outcome (Option Nat) :=
  let tlen := if ilen > 11 then 11 else ilen
  decLoopWith pw tlen inp 0 tlen 0

/-- A format in which long double may be kept: at least that of double. -/
structure Long (F : Format) : Prop where
  bits : 53 ≤ F.p
  lo : F.lo ≤ 0
  hi : 10 ≤ F.hi

/-- The three formats in use. -/
theorem long_formats : Long double ∧ Long ⟨64, -16445, 16320⟩ ∧ Long ⟨113, -16494, 16271⟩ :=
  ⟨⟨by decide, by decide, by decide⟩, ⟨by decide, by decide, by decide⟩, ⟨by decide, by decide, by decide⟩⟩

theorem num_62 {F : Format} (h : Long F) {k : Nat} (hk : k ≤ 10) : Num F ((62 ^ k : Nat) : Rat) := by
  refine ⟨31 ^ k, k, ?_, ?_, by have := h.lo; omega, by have := h.hi; omega, ?_⟩
  · have : (0 : Int) < 31 ^ k := Int.pow_pos (by decide)
    have : (0 : Int) < 2 ^ F.p := Int.pow_pos (by decide)
    omega
  · have a : (31 : Nat) ^ k ≤ 31 ^ 10 := Nat.pow_le_pow_right (by decide) hk
    have b : (2 : Nat) ^ 53 ≤ 2 ^ F.p := Nat.pow_le_pow_right (by decide) h.bits
    have c : (31 : Nat) ^ 10 < 2 ^ 53 := by decide
    have d : ((31 ^ k : Nat) : Int) < ((2 ^ F.p : Nat) : Int) := Int.ofNat_lt.2 (by omega)
    simpa using d
  · rw [two_nat, ← Rat.intCast_mul, ← Int.mul_pow]
    have : ((62 ^ k : Nat) : Rat) = (((62 ^ k : Nat) : Int) : Rat) := by rw [Rat.intCast_natCast]
    rw [this]; rfl

/-- **C06 (the powers).** With a long double of any of these formats the powers of 62 that occur are exact, and decoding is that of the model. -/
theorem decode62_exact {F : Format} (h : Long F) {pw : Nat → Rat} (hp : ∀ k, k ≤ 10 → Near F ((62 ^ k : Nat) : Rat) (pw k)) (inp : List Byte) (ilen : Nat) :
    decWith pw inp ilen = dec62 inp ilen := by
  have e : ∀ k, k ≤ 10 → (pw k).floor.toNat = 62 ^ k := by
    intro k hk
    rw [(hp k hk).exact (num_62 h hk)]
    rw [← Rat.intCast_natCast, Rat.floor_intCast, Int.toNat_natCast]
  unfold decWith dec62
  dsimp only
  have ht : (if ilen > 11 then 11 else ilen) ≤ 11 := by split <;> omega
  generalize (if ilen > 11 then 11 else ilen) = tlen at *
  have key : ∀ (left : Nat) (inp : List Byte) (i v : Nat), decLoopWith pw tlen inp i left v = dec62Loop tlen inp i left v := by
    intro left
    induction left with
    | zero => intro inp i v; cases inp <;> rfl
    | succ left ih =>
        intro inp i v
        cases inp with
        | nil => rfl
        | cons c cs =>
            unfold decLoopWith dec62Loop
            cases val62 c with
            | none => rfl
            | some n => dsimp only; rw [e _ (by omega)]; exact ih _ _ _
  exact key _ _ _ _

/-- With a float (24 bits) it would be wrong: 62^5 is not a number of that format. -/
theorem decode62_single_violation : ¬ Num single ((62 ^ 5 : Nat) : Rat) := by
  intro h
  obtain ⟨n, hn⟩ := h.multiple (j := 6) (by decide +kernel)
  have : (62 ^ 5 : Nat) = n * 64 := by
    have c : (2 : Rat) ^ (6 : Int) = ((64 : Int) : Rat) := by decide +kernel
    rw [c, ← Rat.intCast_mul, ← Rat.intCast_natCast] at hn
    exact Rat.intCast_inj.1 hn
  omega

end ZT.Uuid
