import Verif.Common

/-!
# Bounds-checked memory blocks

A block is a list of cells. Loads and stores outside the block are undefined behaviour.
-/

namespace ZT

/-- Load `m[i]`. -/
def rd {α : Type} (m : List α) (i : Nat) : Outcome α :=
  match m[i]? with
  | some a => .ok a
  | none => .ub

/-- Store `m[i] = a`. -/
def wr {α : Type} (m : List α) (i : Nat) (a : α) : Outcome (List α) :=
  if i < m.length then .ok (m.set i a) else .ub

theorem rd_lt {α : Type} {m : List α} {i : Nat} (h : i < m.length) : rd m i = .ok m[i] := by
  simp [rd, h]

theorem rd_ge {α : Type} {m : List α} {i : Nat} (h : m.length ≤ i) : rd m i = .ub := by
  simp [rd, h]

theorem rd_append_right {α : Type} {l r : List α} {a : α} : rd (l ++ a :: r) l.length = .ok a := by
  simp [rd]

theorem wr_lt {α : Type} {m : List α} {i : Nat} {a : α} (h : i < m.length) : wr m i a = .ok (m.set i a) := by
  simp [wr, h]

theorem wr_ge {α : Type} {m : List α} {i : Nat} {a : α} (h : m.length ≤ i) : wr m i a = .ub := by
  simp [wr]; omega

theorem rd_eq_ok {α : Type} {m : List α} {i : Nat} {a : α} : rd m i = .ok a ↔ m[i]? = some a := by
  unfold rd; split <;> simp [*]

/-- `strlen`: a block without NUL is read past its end. -/
def strlen : List Byte → Outcome Nat
  | [] => .ub
  | b :: bs => if b = 0 then .ok 0 else do
      let n ← strlen bs
      pure (n + 1)

theorem strlen_eq (s rest : List Byte) (h : ∀ b ∈ s, b ≠ 0) : strlen (s ++ 0 :: rest) = .ok s.length := by
  induction s with
  | nil => simp [strlen]
  | cons x xs ih =>
      have hx : x ≠ 0 := h x (by simp)
      rw [List.cons_append, strlen, if_neg hx, ih fun b hb => h b (by simp [hb])]
      rfl

end ZT
