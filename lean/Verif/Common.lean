/-!
# Common vocabulary of the libzt model

`Outcome` separates normal results, aborts (failed assertions) and undefined behaviour.
-/

namespace ZT

/-- Result of running a piece of C code.
* `ok a`   : normal completion with result `a`
* `abort`  : a failed `zt_assert` (zt_assert.h 20-60: reports and calls abort)
* `ub`     : undefined behaviour (out-of-bounds access, NULL dereference, ...) -/
inductive Outcome (α : Type) where
  | ok (a : α)
  | abort
  | ub
  deriving Repr, DecidableEq

namespace Outcome

/-- Sequencing of C statements. -/
def bind {α β : Type} (x : Outcome α) (f : α → Outcome β) : Outcome β :=
  match x with
  | ok a => f a
  | abort => abort
  | ub => ub

instance : Monad Outcome where
  pure := ok
  bind := bind

@[simp] theorem pure_eq {α : Type} (a : α) : (pure a : Outcome α) = ok a := rfl
@[simp] theorem ok_bind {α β : Type} (a : α) (f : α → Outcome β) : (ok a >>= f) = f a := rfl
@[simp] theorem abort_bind {α β : Type} (f : α → Outcome β) : ((abort : Outcome α) >>= f) = abort := rfl
@[simp] theorem ub_bind {α β : Type} (f : α → Outcome β) : ((ub : Outcome α) >>= f) = ub := rfl

theorem bind_eq_ok {α β : Type} {x : Outcome α} {f : α → Outcome β} {b : β} :
    (x >>= f) = ok b ↔ ∃ a, x = ok a ∧ f a = ok b := by
  cases x <;> simp

theorem bind_assoc {α β γ : Type} (x : Outcome α) (f : α → Outcome β) (g : β → Outcome γ) :
    ((x >>= f) >>= g) = (x >>= fun a => f a >>= g) := by
  cases x <;> rfl

/-- The run did not exhibit undefined behaviour. -/
def safe {α : Type} (x : Outcome α) : Prop := x ≠ ub

end Outcome

/-- An unsigned C byte. -/
abbrev Byte := UInt8

end ZT
