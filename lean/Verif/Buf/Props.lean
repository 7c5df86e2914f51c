import Verif.Buf.Model

/-!
# C26: the buffer as a byte FIFO

The specification: a queue of bytes `q`, together with two numbers that decide whether the code can honour an addition: `cap`, the size of the
allocation, and `moved`, how many bytes partial removals have skipped since the buffer was created (the code never reclaims them).
-/

namespace ZT.Buf

open ZT.Arr (sz slice blit sz_lt slice_ok slice_ub blit_ok)

namespace Spec

/-- The queue, the allocation and the skipped bytes. -/
structure Q where
  q : List Byte
  cap : Nat
  moved : Nat
  deriving Repr, DecidableEq

/-- An empty queue. -/
def empty : Q := ⟨[], 0, 0⟩

/-- Appending (or reserving room for) `n` bytes is possible: nothing has been skipped, or the bytes fit behind the skipped ones. -/
def Fits (s : Q) (n : Nat) : Prop := s.moved = 0 ∨ s.moved + s.q.length + n ≤ s.cap

instance (s : Q) (n : Nat) : Decidable (Fits s n) := by unfold Fits; infer_instance

/-- Room for `n` more bytes: at least 1024 bytes are added when the block is too small. -/
def room (s : Q) (n : Nat) : Q := if s.moved = 0 ∧ s.cap < s.q.length + n then { s with cap := s.q.length + max n 1024 } else s

/-- Append at the end. -/
def push (s : Q) (d : List Byte) : Q := { room s d.length with q := s.q ++ d }

/-- Remove the first `n` bytes (all if there are fewer). -/
def pop (s : Q) (n : Nat) : Q := { s with q := s.q.drop n, moved := if n < s.q.length then s.moved + n else s.moved }

end Spec

open Spec (Q Fits room push pop)

/-- The bytes of the block. -/
def mem (b : Buf) : List Byte := b.blk.getD []

/-- A buffer represents a queue. -/
structure Rep (b : Buf) (s : Q) : Prop where
  len : b.len = s.q.length
  off : b.off = s.moved
  size : (mem b).length = s.cap
  data : ((mem b).drop s.moved).take s.q.length = s.q
  inside : s.moved + s.q.length ≤ s.cap
  max0 : s.moved = 0 → b.max = s.cap
  maxge : s.cap ≤ b.max
  maxle : b.max ≤ s.cap * (1 + s.moved)
  small : s.cap < 2 ^ 31
  null : b.blk = none → s.cap = 0

theorem Rep.max_small {b : Buf} {s : Q} (r : Rep b s) : b.max < 2 ^ 63 := by
  have h1 := r.maxle
  have h2 := r.small
  have h3 := r.inside
  have h4 : s.cap * (1 + s.moved) ≤ 2 ^ 31 * 2 ^ 31 := Nat.mul_le_mul (by omega) (by omega)
  omega

theorem Rep.unused {b : Buf} {s : Q} (r : Rep b s) : unusedSz b = b.max - s.q.length := by
  have h1 := r.max_small
  have h2 := r.inside
  have h3 := r.maxge
  have h4 := r.small
  simp only [unusedSz, sz, r.len]
  omega

theorem rep_new : Rep new Spec.empty := ⟨rfl, rfl, rfl, rfl, by simp [Spec.empty], fun _ => rfl, by simp [Spec.empty], by simp [new, Spec.empty], by simp [Spec.empty], fun _ => rfl⟩

/-- zt_buf_get and zt_buf_length show the queue. -/
theorem get_spec {b : Buf} {s : Q} (r : Rep b s) : get b = .ok (if s.q = [] then none else some s.q) ∧ length b = s.q.length := by
  refine ⟨?_, r.len⟩
  rw [get]
  by_cases h : s.q = []
  · rw [if_pos (by rw [r.len, h]; rfl), if_pos h]
  · have hl : s.q.length ≠ 0 := by simpa using h
    rw [if_neg (by rw [r.len]; exact hl), if_neg h]
    have hin := r.inside
    cases hb : b.blk with
    | none => have := r.null hb; omega
    | some m =>
        have hm : mem b = m := by simp [mem, hb]
        have hs := r.size
        rw [hm] at hs
        simp only
        rw [r.off, r.len, slice_ok (by omega)]
        simp only [Outcome.ok_bind, Outcome.pure_eq]
        have := r.data
        rw [hm] at this
        rw [this]

theorem realloc_length (junk : Nat → Byte) (m : List Byte) (n : Nat) : (realloc junk m n).length = n := by
  simp [realloc]; omega

theorem realloc_take (junk : Nat → Byte) (m : List Byte) {n k : Nat} (h1 : k ≤ n) (h2 : k ≤ m.length) : (realloc junk m n).take k = m.take k := by
  rw [realloc, List.take_append_of_le_length (by rw [List.length_take]; omega), List.take_take, Nat.min_eq_left h1]

/-- Growing, with nothing skipped. -/
theorem expand_spec {b : Buf} {s : Q} (r : Rep b s) (junk : Nat → Byte) {n : Nat} (h : s.moved = 0) (hs : s.q.length + n < 2 ^ 30) :
    ∃ b', expand junk b n = .ok b' ∧ Rep b' { s with cap := s.q.length + max n 1024 } := by
  have hr : (if n < 1024 then 1024 else n) = max n 1024 := by split <;> omega
  have ho : b.off = 0 := by rw [r.off, h]
  refine ⟨_, by rw [expand, if_pos ho, hr], ?_⟩
  have hin := r.inside
  rw [sz_lt (by rw [r.len]; omega), r.len]
  refine ⟨rfl, h.symm, realloc_length _ _ _, ?_, by simp only; omega, fun _ => rfl, by simp, by simp only [h]; omega, by simp only; omega, fun h => by cases h⟩
  simp only [mem, Option.getD_some, h, List.drop_zero]
  have hd := r.data
  rw [h, List.drop_zero] at hd
  rw [realloc_take _ _ (by omega) (by have := r.size; simp only [mem] at this; omega)]
  exact hd

/-- zt_buf_reserve. -/
theorem reserve_spec {b : Buf} {s : Q} (r : Rep b s) (junk : Nat → Byte) {n : Nat} (h : Fits s n) (hs : s.q.length + n < 2 ^ 30) :
    ∃ b', reserve junk b n = .ok b' ∧ Rep b' (room s n) := by
  rw [reserve, r.unused]
  have hin := r.inside
  have hge := r.maxge
  by_cases hg : n > b.max - s.q.length
  · have h0 : s.moved = 0 := by
      cases h with
      | inl h => exact h
      | inr h => omega
    have := r.max0 h0
    rw [if_pos hg, room, if_pos ⟨h0, by omega⟩]
    exact expand_spec r junk h0 hs
  · rw [if_neg hg]
    refine ⟨b, rfl, ?_⟩
    rw [room, if_neg]
    · exact r
    · rintro ⟨h0, h1⟩
      have := r.max0 h0
      omega

theorem room_room (s : Q) (n : Nat) : (room s n).q = s.q ∧ (room s n).moved = s.moved ∧ (Fits s n → s.moved + s.q.length + n ≤ (room s n).cap) := by
  unfold room
  split
  · refine ⟨rfl, rfl, fun _ => ?_⟩
    simp only; omega
  · rename_i h
    refine ⟨rfl, rfl, fun hf => ?_⟩
    cases hf with
    | inl h0 => simp only [h0, true_and] at h; omega
    | inr h0 => exact h0

/-- zt_buf_add. -/
theorem add_spec {b : Buf} {s : Q} (r : Rep b s) (junk : Nat → Byte) {d : List Byte} (h : Fits s d.length) (hs : s.q.length + d.length < 2 ^ 30) :
    ∃ b', add junk b d = .ok b' ∧ Rep b' (push s d) := by
  obtain ⟨b1, e1, r1⟩ := reserve_spec r junk h hs
  obtain ⟨hq, hm, hc⟩ := room_room s d.length
  have hroom := hc h
  have hin := r1.inside
  have hlen := r1.len
  have hoff := r1.off
  have hsize := r1.size
  have hdata := r1.data
  have hgrow : (if d.length > unusedSz b then expand junk b d.length else pure b) = .ok b1 := e1
  -- the store
  have hst : ∃ m, store b1 d = .ok m ∧ m.getD [] = (mem b1).take (s.moved + s.q.length) ++ d ++ (mem b1).drop (s.moved + s.q.length + d.length) ∧ (m = none → d = [] ∧ b1.blk = none) := by
    by_cases hd : d = []
    · refine ⟨b1.blk, by rw [store, if_pos hd], ?_, fun h => ⟨hd, h⟩⟩
      simp [hd, mem]
    · have hdl : 0 < d.length := List.length_pos_iff.2 hd
      cases hb : b1.blk with
      | none => have := r1.null hb; omega
      | some m =>
          have hmm : mem b1 = m := by simp [mem, hb]
          rw [hmm] at hsize
          refine ⟨_, by
            rw [store, if_neg hd, hb]
            simp only
            rw [blit_ok (by rw [hoff, hlen, hm, hq, hsize]; omega)]; rfl, ?_, by simp⟩
          simp only [Option.getD_some]
          rw [hmm, hoff, hlen, hm, hq]
  obtain ⟨m, hst, hmd, hnull⟩ := hst
  have hsm := r1.small
  rw [hq, hm] at hin hdata
  rw [hq] at hlen
  rw [hm] at hoff
  have hL : (List.take (s.moved + s.q.length) (mem b1)).length = s.moved + s.q.length := by rw [List.length_take]; omega
  refine ⟨{ b1 with blk := m, len := sz (b1.len + d.length) }, ?_, ?_⟩
  · by_cases hg : d.length > unusedSz b
    · rw [if_pos hg] at hgrow
      simp only [add, if_pos hg, hgrow, Outcome.ok_bind, hst, Outcome.pure_eq]
    · rw [if_neg hg] at hgrow
      simp only [add, if_neg hg, hgrow, Outcome.ok_bind, hst, Outcome.pure_eq]
  · rw [sz_lt (by rw [hlen]; omega)]
    have hmm : mem { b1 with blk := m, len := b1.len + d.length } = (mem b1).take (s.moved + s.q.length) ++ d ++ (mem b1).drop (s.moved + s.q.length + d.length) := hmd
    constructor
    · simp [push, hlen]
    · simp only [push, hm]; exact hoff
    · rw [hmm]; simp only [push, List.length_append, hL, List.length_drop, hsize]; omega
    · rw [hmm]; simp only [push, hm, List.length_append]
      rw [List.append_assoc, List.drop_append_of_le_length (by omega), ← List.append_assoc, List.take_append_of_le_length (by simp only [List.length_append, List.length_drop]; omega)]
      rw [List.take_of_length_le (by simp only [List.length_append, List.length_drop]; omega), List.drop_take]
      rw [show s.moved + s.q.length - s.moved = s.q.length by omega, hdata]
    · simp only [push, List.length_append, hm]; omega
    · simp only [push]; exact fun h => r1.max0 h
    · exact r1.maxge
    · exact r1.maxle
    · exact r1.small
    · intro h; exact r1.null (hnull h).2

/-- zt_buf_drain. -/
theorem drain_spec {b : Buf} {s : Q} (r : Rep b s) (n : Nat) : Rep (drain b n).1 (pop s n) ∧ (drain b n).2 = if n = 0 then 0 else s.q.length - n := by
  have hin := r.inside
  have hmx := r.max_small
  by_cases h0 : n = 0
  · subst h0
    refine ⟨?_, by simp [drain]⟩
    simp only [drain, if_true, pop, List.drop_zero, Nat.add_zero, ite_self]
    exact r
  · rw [drain, if_neg h0, if_neg h0]
    by_cases hl : n < b.len
    · rw [if_pos hl]
      have hl2 : n < s.q.length := by rw [← r.len]; exact hl
      refine ⟨?_, by simp only [r.len]⟩
      have hoff := r.off
      have hsmall := r.small
      have hmm : mem { b with len := b.len - n, max := sz (b.max + b.off), off := b.off + n } = mem b := rfl
      constructor
      · simp only [pop, List.length_drop, r.len]
      · simp only [pop, if_pos hl2, r.off]
      · rw [hmm]; exact r.size
      · rw [hmm]; simp only [pop, if_pos hl2, List.length_drop]
        rw [← List.drop_drop]
        have := congrArg (List.drop n) r.data
        rw [List.drop_take] at this
        exact this
      · simp only [pop, if_pos hl2, List.length_drop]; omega
      · simp only [pop, if_pos hl2]; omega
      · have := r.maxge
        simp only [pop]; rw [sz_lt (by omega)]; omega
      · have := r.maxle
        simp only [pop, if_pos hl2]
        rw [sz_lt (by omega), hoff]
        have h1 : s.cap * (1 + s.moved) + s.moved ≤ s.cap * (1 + (s.moved + n)) := by
          have : s.cap * (1 + (s.moved + n)) = s.cap * (1 + s.moved) + s.cap * n := by rw [← Nat.mul_add]; congr 1; omega
          have h2 : s.cap * 1 ≤ s.cap * n := Nat.mul_le_mul_left _ (by omega)
          omega
        omega
      · exact r.small
      · exact r.null
    · rw [if_neg hl]
      have hl2 : ¬ n < s.q.length := by rw [← r.len]; exact hl
      refine ⟨?_, by simp only; omega⟩
      have hq : s.q.drop n = [] := List.drop_eq_nil_of_le (by omega)
      constructor
      · simp only [pop, hq, List.length_nil]
      · simp only [pop, if_neg hl2]; exact r.off
      · exact r.size
      · simp [pop, hq]
      · simp only [pop, hq, if_neg hl2, List.length_nil]; omega
      · simp only [pop, if_neg hl2]; exact r.max0
      · exact r.maxge
      · simp only [pop, if_neg hl2]; exact r.maxle
      · exact r.small
      · exact r.null

theorem load_spec {b : Buf} {s : Q} (r : Rep b s) {n : Nat} (h : n ≤ s.q.length) : load b n = .ok (s.q.take n) := by
  rw [load]
  split
  · subst_vars; simp
  · have hin := r.inside
    cases hb : b.blk with
    | none => have := r.null hb; omega
    | some m =>
        have hm : mem b = m := by simp [mem, hb]
        have hs := r.size
        have hd := r.data
        rw [hm] at hs hd
        simp only
        rw [r.off, slice_ok (by omega)]
        conv => rhs; rw [← hd, List.take_take]
        rw [Nat.min_eq_left h]

/-- zt_buf_remove. -/
theorem remove_spec {b : Buf} {s : Q} (r : Rep b s) (n : Nat) : ∃ b', remove b n = .ok (b', s.q.take n) ∧ Rep b' (pop s n) := by
  rw [remove]
  have hn : (if n > b.len then b.len else n) = min n s.q.length := by rw [r.len]; split <;> omega
  simp only [hn]
  rw [load_spec r (by omega)]
  refine ⟨(drain b (min n s.q.length)).1, ?_, ?_⟩
  · have ht : s.q.take (min n s.q.length) = s.q.take n := List.take_eq_take_min.symm
    rw [ht]; rfl
  · have := (drain_spec r (min n s.q.length)).1
    have he : pop s (min n s.q.length) = pop s n := by
      simp only [pop]
      by_cases h : n < s.q.length
      · rw [Nat.min_eq_left (by omega)]
      · rw [Nat.min_eq_right (by omega), if_neg h, if_neg (by omega), List.drop_eq_nil_of_le (Nat.le_refl _), List.drop_eq_nil_of_le (by omega)]
    rw [← he]; exact this

/-- **C26 (exactness of zt_buf_add).** Adding at least one byte is undefined behaviour as soon as some bytes were skipped by an earlier partial
removal and the new bytes do not fit behind them in the block. Together with `add_spec`: an addition is carried out correctly if it fits, and
is undefined otherwise. -/
theorem c26_add_ub {b : Buf} {s : Q} (r : Rep b s) (junk : Nat → Byte) {d : List Byte} (h : ¬ Fits s d.length) (hs : s.q.length + d.length < 2 ^ 30) : add junk b d = .ub := by
  simp only [Fits, not_or] at h
  have hin := r.inside
  have ho : b.off ≠ 0 := by rw [r.off]; exact h.1
  have hd : d ≠ [] := by rintro rfl; simp at h; omega
  rw [add]
  split
  · rw [expand, if_neg ho]; rfl
  · simp only [Outcome.pure_eq, Outcome.ok_bind]
    rw [store, if_neg hd]
    cases hb : b.blk with
    | none => rfl
    | some m =>
        have hm : mem b = m := by simp [mem, hb]
        have hsz := r.size
        rw [hm] at hsz
        simp only [blit]
        rw [if_neg (by rw [r.off, r.len]; omega)]; rfl

/-! ## Histories over many buffers -/

/-- An API call on numbered buffers. -/
inductive Op where
  | add (i : Nat) (d : List Byte)
  | remove (i n : Nat)
  | drain (i n : Nat)
  | reserve (i n : Nat)
  | addBuf (i j : Nat)
  | iovAdd (i : Nat) (vec : List (List Byte))
  | get (i : Nat)
  deriving Repr, DecidableEq

/-- Replace one entry. -/
def upd {α : Type} (f : Nat → α) (i : Nat) (a : α) : Nat → α := fun k => if k = i then a else f k

/-- The code's effect and the bytes shown to the caller. -/
def exec (junk : Nat → Byte) (st : Nat → Buf) : Op → Outcome ((Nat → Buf) × List Byte)
  | .add i d => do let b ← Buf.add junk (st i) d; pure (upd st i b, [])
  | .remove i n => do let (b, out) ← Buf.remove (st i) n; pure (upd st i b, out)
  | .drain i n => .ok (upd st i (Buf.drain (st i) n).1, [])
  | .reserve i n => do let b ← Buf.reserve junk (st i) n; pure (upd st i b, [])
  | .addBuf i j => do let (a, b) ← Buf.addBuf junk (st i) (st j); pure (upd (upd st i a) j b, [])
  | .iovAdd i vec => do let b ← Buf.iovAdd junk (st i) vec; pure (upd st i b, [])
  | .get i => do let o ← Buf.get (st i); pure (st, o.getD [])

/-- A run of a history: the bytes shown by each call. -/
def runs (junk : Nat → Byte) : (Nat → Buf) → List Op → Outcome ((Nat → Buf) × List (List Byte))
  | st, [] => .ok (st, [])
  | st, o :: os => do
      let (st, out) ← exec junk st o
      let (st, outs) ← runs junk st os
      pure (st, out :: outs)

namespace Spec

/-- The effect on the queues and what the caller must see. -/
def exec (st : Nat → Q) : Op → (Nat → Q) × List Byte
  | .add i d => (upd st i (push (st i) d), [])
  | .remove i n => (upd st i (pop (st i) n), (st i).q.take n)
  | .drain i n => (upd st i (pop (st i) n), [])
  | .reserve i n => (upd st i (room (st i) n), [])
  | .addBuf i j => (upd (upd st i (push (st i) (st j).q)) j (pop (st j) (st j).q.length), [])
  | .iovAdd i vec => (upd st i { room (st i) vec.flatten.length with q := (st i).q ++ vec.flatten }, [])
  | .get i => (st, (st i).q)

/-- The call is one the code can honour (see `Fits`). zt_buf_add_buf needs two different buffers. -/
def Allowed (st : Nat → Q) : Op → Prop
  | .add i d => Fits (st i) d.length
  | .reserve i n => Fits (st i) n
  | .addBuf i j => i ≠ j ∧ Fits (st i) (st j).q.length
  | .iovAdd i vec => Fits (st i) vec.flatten.length
  | _ => True

instance (st : Nat → Q) (o : Op) : Decidable (Allowed st o) := by cases o <;> (unfold Allowed; infer_instance)

/-- Bytes the call asks room for. -/
def need (st : Nat → Q) : Op → Nat
  | .add i d => (st i).q.length + d.length
  | .reserve i n => (st i).q.length + n
  | .addBuf i j => (st i).q.length + (st j).q.length
  | .iovAdd i vec => (st i).q.length + vec.flatten.length
  | _ => 0

/-- Every call of the history is allowed and asks for less than `2 ^ 30` bytes. -/
def AllAllowed : (Nat → Q) → List Op → Prop
  | _, [] => True
  | st, o :: os => Allowed st o ∧ need st o < 2 ^ 30 ∧ AllAllowed (exec st o).1 os

/-- What the calls must show. -/
def runs : (Nat → Q) → List Op → (Nat → Q) × List (List Byte)
  | st, [] => (st, [])
  | st, o :: os => let r := runs (exec st o).1 os; (r.1, (exec st o).2 :: r.2)

end Spec

theorem iovLen_eq (vec : List (List Byte)) (acc : Nat) (h : acc + vec.flatten.length < 2 ^ 64) : iovLen vec acc = acc + vec.flatten.length := by
  induction vec generalizing acc with
  | nil => simp [iovLen]
  | cons v vs ih =>
      simp only [List.flatten_cons, List.length_append] at h ⊢
      rw [iovLen, sz_lt (by omega), ih _ (by omega)]; omega

theorem push_fits {s : Q} {d : List Byte} {n : Nat} (h : s.moved + s.q.length + (d.length + n) ≤ s.cap) :
    push s d = { s with q := s.q ++ d } ∧ (push s d).moved + (push s d).q.length + n ≤ (push s d).cap := by
  have : room s d.length = s := by rw [room, if_neg]; rintro ⟨h1, h2⟩; omega
  have hp : push s d = { s with q := s.q ++ d } := by simp only [push, this]
  exact ⟨hp, by rw [hp]; simp only [List.length_append]; omega⟩

theorem iovLoop_spec (junk : Nat → Byte) (vec : List (List Byte)) : ∀ {b : Buf} {s : Q}, Rep b s → s.moved + s.q.length + vec.flatten.length ≤ s.cap → s.q.length + vec.flatten.length < 2 ^ 30 →
    ∃ b', iovLoop junk b vec = .ok b' ∧ Rep b' { s with q := s.q ++ vec.flatten } := by
  induction vec with
  | nil => intro b s r _ _; exact ⟨b, rfl, by simpa using r⟩
  | cons v vs ih =>
      intro b s r h hs
      simp only [List.flatten_cons, List.length_append] at h hs
      obtain ⟨hp, hf⟩ := push_fits (s := s) (d := v) (n := vs.flatten.length) (by omega)
      obtain ⟨b1, e1, r1⟩ := add_spec r junk (d := v) (Or.inr (by omega)) (by omega)
      rw [hp] at r1 hf
      obtain ⟨b2, e2, r2⟩ := ih r1 hf (by simp only [List.length_append]; omega)
      refine ⟨b2, by rw [iovLoop, e1]; exact e2, ?_⟩
      simpa using r2

/-- zt_buf_add_buf. -/
theorem addBuf_spec {a b : Buf} {s t : Q} (ra : Rep a s) (rb : Rep b t) (junk : Nat → Byte) (h : Fits s t.q.length) (hs : s.q.length + t.q.length < 2 ^ 30) :
    ∃ a' b', addBuf junk a b = .ok (a', b') ∧ Rep a' (push s t.q) ∧ Rep b' (pop t t.q.length) := by
  have hl : load b b.len = .ok t.q := by
    rw [rb.len, load_spec rb (Nat.le_refl _), List.take_of_length_le (Nat.le_refl _)]
  obtain ⟨a', e, r⟩ := add_spec ra junk (d := t.q) h hs
  refine ⟨a', (drain b b.len).1, ?_, r, ?_⟩
  · rw [addBuf]
    refine Outcome.bind_eq_ok.2 ⟨_, hl, ?_⟩
    exact Outcome.bind_eq_ok.2 ⟨_, e, rfl⟩
  · rw [rb.len]; exact (drain_spec rb _).1

/-- One allowed call: defined, shows what the specification says, keeps the representation. -/
theorem exec_spec (junk : Nat → Byte) {st : Nat → Buf} {sp : Nat → Q} (R : ∀ i, Rep (st i) (sp i)) {o : Op} (ha : Spec.Allowed sp o) (hn : Spec.need sp o < 2 ^ 30) :
    ∃ st', exec junk st o = .ok (st', (Spec.exec sp o).2) ∧ ∀ i, Rep (st' i) ((Spec.exec sp o).1 i) := by
  have hu : ∀ (i : Nat) (b : Buf) (s : Q), Rep b s → ∀ k, Rep (upd st i b k) (upd sp i s k) := by
    intro i b s r k; unfold upd; split
    · exact r
    · exact R k
  cases o with
  | add i d =>
      simp only [Spec.need] at hn
      obtain ⟨b, e, r⟩ := add_spec (R i) junk ha hn
      exact ⟨upd st i b, by simp only [exec, e]; rfl, hu i b _ r⟩
  | remove i n =>
      obtain ⟨b, e, r⟩ := remove_spec (R i) n
      exact ⟨upd st i b, by simp only [exec, e]; rfl, hu i b _ r⟩
  | drain i n => exact ⟨_, rfl, hu i _ _ (drain_spec (R i) n).1⟩
  | reserve i n =>
      simp only [Spec.need] at hn
      obtain ⟨b, e, r⟩ := reserve_spec (R i) junk ha hn
      exact ⟨upd st i b, by simp only [exec, e]; rfl, hu i b _ r⟩
  | addBuf i j =>
      simp only [Spec.need] at hn
      obtain ⟨a, b, e, r1, r2⟩ := addBuf_spec (R i) (R j) junk ha.2 hn
      refine ⟨upd (upd st i a) j b, ?_, ?_⟩
      · simp only [exec, e, Outcome.ok_bind, Outcome.pure_eq, Spec.exec]
      · intro k
        simp only [upd, Spec.exec]
        split
        · exact r2
        · split
          · exact r1
          · exact R k
  | iovAdd i vec =>
      simp only [Spec.need] at hn
      obtain ⟨b1, e1, r1⟩ := reserve_spec (R i) junk (n := vec.flatten.length) ha hn
      obtain ⟨hq, hm, hc⟩ := room_room (sp i) vec.flatten.length
      obtain ⟨b2, e2, r2⟩ := iovLoop_spec junk vec r1 (by rw [hm, hq]; exact hc ha) (by rw [hq]; exact hn)
      refine ⟨upd st i b2, ?_, hu i b2 _ (by rw [hq] at r2; exact r2)⟩
      simp only [exec, Buf.iovAdd]
      rw [iovLen_eq vec 0 (by omega), Nat.zero_add, e1]
      simp only [Outcome.ok_bind, e2]; rfl
  | get i =>
      refine ⟨st, ?_, R⟩
      simp only [exec, (get_spec (R i)).1, Outcome.ok_bind, Outcome.pure_eq, Spec.exec]
      split <;> simp [*]

/-- **C26 (partial).** Any history of calls over any number of buffers that start empty, each call being one the code can honour: no undefined
behaviour (no access outside a block), and every call shows exactly what byte queues show. Missing: calls that are not `Allowed`; for those the code
has undefined behaviour (`c26_add_ub`), so the property itself is violated there. -/
theorem c26_fifo_partial (junk : Nat → Byte) (os : List Op) (h : Spec.AllAllowed (fun _ => Spec.empty) os) :
    ∃ st', runs junk (fun _ => new) os = .ok (st', (Spec.runs (fun _ => Spec.empty) os).2) ∧ ∀ i, Rep (st' i) ((Spec.runs (fun _ => Spec.empty) os).1 i) := by
  have key : ∀ (os : List Op) (st : Nat → Buf) (sp : Nat → Q), (∀ i, Rep (st i) (sp i)) → Spec.AllAllowed sp os →
      ∃ st', runs junk st os = .ok (st', (Spec.runs sp os).2) ∧ ∀ i, Rep (st' i) ((Spec.runs sp os).1 i) := by
    intro os
    induction os with
    | nil => intro st sp R _; exact ⟨st, rfl, R⟩
    | cons o os ih =>
        intro st sp R ha
        obtain ⟨st1, e1, r1⟩ := exec_spec junk R ha.1 ha.2.1
        obtain ⟨st2, e2, r2⟩ := ih st1 _ r1 ha.2.2
        refine ⟨st2, ?_, r2⟩
        rw [runs, e1]
        simp only [Outcome.ok_bind, e2, Spec.runs]; rfl
  exact key os _ _ (fun _ => rep_new) h

/-! ## Consequences in terms of the calls only -/

/-- Additions and removals on one buffer. -/
inductive Call where
  | put (d : List Byte)
  | take (n : Nat)
  deriving Repr, DecidableEq

/-- As API calls on buffer 0. -/
def Call.op : Call → Op
  | .put d => .add 0 d
  | .take n => .remove 0 n

/-- All bytes added. -/
def added (cs : List Call) : List Byte := (cs.map fun | .put d => d | .take _ => []).flatten

/-- On queues: bytes shown, then bytes left, are the bytes added. -/
theorem spec_conservation (cs : List Call) : ∀ sp : Nat → Q, (Spec.runs sp (cs.map Call.op)).2.flatten ++ ((Spec.runs sp (cs.map Call.op)).1 0).q = (sp 0).q ++ added cs := by
  induction cs with
  | nil => intro sp; simp [Spec.runs, added]
  | cons c cs ih =>
      intro sp
      cases c with
      | put d =>
          have := ih (Spec.exec sp (.add 0 d)).1
          simp only [List.map_cons, Call.op, Spec.runs, List.flatten_cons, List.append_assoc]
          rw [this]
          simp [Spec.exec, upd, push, added]
      | take n =>
          have := ih (Spec.exec sp (.remove 0 n)).1
          simp only [List.map_cons, Call.op, Spec.runs, List.flatten_cons, List.append_assoc]
          rw [this]
          simp [Spec.exec, upd, pop, added, ← List.append_assoc]

/-- **C26 (partial, after a reservation).** Reserve `N` bytes on a new buffer, then make any sequence of additions and removals that adds at most
`max N 1024` bytes altogether: nothing is undefined, and the bytes removed followed by those still readable are the bytes added, in order. -/
theorem c26_reserved_partial (junk : Nat → Byte) (N : Nat) (cs : List Call) (hN : N < 2 ^ 29) (h0 : 0 < N) (h : (added cs).length ≤ max N 1024) :
    ∃ st outs, runs junk (fun _ => new) (.reserve 0 N :: cs.map Call.op) = .ok (st, outs) ∧
      ∃ left, get (st 0) = .ok (if left = [] then none else some left) ∧ length (st 0) = left.length ∧ outs.flatten ++ left = added cs := by
  -- every call is allowed
  have key : ∀ (cs : List Call) (sp : Nat → Q), (sp 0).moved + (sp 0).q.length + (added cs).length ≤ (sp 0).cap → (sp 0).cap < 2 ^ 30 → Spec.AllAllowed sp (cs.map Call.op) := by
    intro cs
    induction cs with
    | nil => intro sp _ _; exact trivial
    | cons c cs ih =>
        intro sp h hc
        cases c with
        | put d =>
            have hA : (added (.put d :: cs)).length = d.length + (added cs).length := by simp [added]
            rw [hA] at h
            obtain ⟨hp, hf⟩ := push_fits (s := sp 0) (d := d) (n := (added cs).length) h
            have he : (Spec.exec sp (.add 0 d)).1 0 = push (sp 0) d := by simp [Spec.exec, upd]
            refine ⟨Or.inr ?_, ?_, ih _ ?_ ?_⟩
            · show (sp 0).moved + (sp 0).q.length + d.length ≤ (sp 0).cap
              omega
            · simp only [Call.op, Spec.need]; omega
            · simp only [Call.op]; rw [he]; exact hf
            · simp only [Call.op]; rw [he, hp]; exact hc
        | take n =>
            have hA : (added (.take n :: cs)).length = (added cs).length := by simp [added]
            rw [hA] at h
            have he : (Spec.exec sp (.remove 0 n)).1 0 = pop (sp 0) n := by simp [Spec.exec, upd]
            refine ⟨trivial, by simp [Call.op, Spec.need], ih _ ?_ ?_⟩
            · simp only [Call.op]; rw [he]
              simp only [pop, List.length_drop]
              split <;> omega
            · simp only [Call.op]; rw [he]; exact hc
  have he : (Spec.exec (fun _ => Spec.empty) (.reserve 0 N)).1 0 = ⟨[], max N 1024, 0⟩ := by simp [Spec.exec, upd, room, Spec.empty, h0]
  have hall : Spec.AllAllowed (fun _ => Spec.empty) (.reserve 0 N :: cs.map Call.op) := by
    refine ⟨Or.inl rfl, by simp only [Spec.need, Spec.empty, List.length_nil]; omega, key cs _ ?_ ?_⟩
    · rw [he]; simp only [List.length_nil]; omega
    · rw [he]; simp only; omega
  obtain ⟨st, e, R⟩ := c26_fifo_partial junk _ hall
  refine ⟨st, _, e, _, (get_spec (R 0)).1, (get_spec (R 0)).2, ?_⟩
  have := spec_conservation cs (Spec.exec (fun _ => Spec.empty) (.reserve 0 N)).1
  rw [he] at this
  simp only [Spec.runs, List.flatten_cons, Spec.exec, List.nil_append] at this ⊢
  exact this

/-- **C26 (partial, fill then empty).** Any additions to a new buffer, then any removals: nothing is undefined, and the bytes removed followed by those
still readable are the bytes added, in order. -/
theorem c26_fill_drain_partial (junk : Nat → Byte) (ds : List (List Byte)) (ns : List Nat) (h : ds.flatten.length < 2 ^ 30) :
    ∃ st outs, runs junk (fun _ => new) (ds.map (Op.add 0) ++ ns.map (Op.remove 0)) = .ok (st, outs) ∧
      ∃ left, get (st 0) = .ok (if left = [] then none else some left) ∧ length (st 0) = left.length ∧ outs.flatten ++ left = ds.flatten := by
  have hcs : ds.map (Op.add 0) ++ ns.map (Op.remove 0) = (ds.map Call.put ++ ns.map Call.take).map Call.op := by simp [Call.op, Function.comp_def]
  have hadd : added (ds.map Call.put ++ ns.map Call.take) = ds.flatten := by
    simp only [added, List.map_append, List.map_map, List.flatten_append]
    have h1 : ((fun | .put d => d | .take _ => []) ∘ Call.put : List Byte → List Byte) = id := rfl
    have h2 : (List.map ((fun | .put d => d | .take _ => []) ∘ Call.take : Nat → List Byte) ns).flatten = [] := by
      simp
    rw [h1, h2]; simp
  have hrem : ∀ (ns : List Nat) (sp : Nat → Q), Spec.AllAllowed sp (ns.map (Op.remove 0)) := by
    intro ns
    induction ns with
    | nil => intro sp; exact trivial
    | cons n ns ih => intro sp; exact ⟨trivial, by simp [Spec.need], ih _⟩
  have hall : ∀ (ds : List (List Byte)) (sp : Nat → Q), (sp 0).moved = 0 → (sp 0).q.length + ds.flatten.length < 2 ^ 30 → Spec.AllAllowed sp (ds.map (Op.add 0) ++ ns.map (Op.remove 0)) := by
    intro ds
    induction ds with
    | nil => intro sp _ _; exact hrem ns sp
    | cons d ds ih =>
        intro sp hm hl
        simp only [List.flatten_cons, List.length_append] at hl
        have he : (Spec.exec sp (.add 0 d)).1 0 = push (sp 0) d := by simp [Spec.exec, upd]
        refine ⟨Or.inl hm, by simp only [Spec.need]; omega, ih _ ?_ ?_⟩
        · rw [he]; simp only [push]; rw [(room_room _ _).2.1]; exact hm
        · rw [he]; simp only [push, List.length_append]; omega
  obtain ⟨st, e, R⟩ := c26_fifo_partial junk _ (hall ds (fun _ => Spec.empty) rfl (by simpa [Spec.empty] using h))
  refine ⟨st, _, e, _, (get_spec (R 0)).1, (get_spec (R 0)).2, ?_⟩
  have := spec_conservation (ds.map Call.put ++ ns.map Call.take) (fun _ => Spec.empty)
  rw [← hcs, hadd] at this
  exact this

/-- Violation of C26: 1024 bytes added, 1000 removed, 500 added. Only 24 bytes are held, `zt_buf_unused_sz` claims 1000 bytes are free, and the
addition writes past the block. -/
theorem c26_overflow (junk : Nat → Byte) (a b : List Byte) (ha : a.length = 1024) (hb : b.length = 500) :
    ∃ b1 b2 out, add junk new a = .ok b1 ∧ remove b1 1000 = .ok (b2, out) ∧ length b2 = 24 ∧ unusedSz b2 = 1000 ∧ add junk b2 b = .ub := by
  obtain ⟨b1, e1, r1⟩ := add_spec rep_new junk (d := a) (Or.inl rfl) (by rw [ha]; simp [Spec.empty])
  obtain ⟨b2, e2, r2⟩ := remove_spec r1 1000
  have hs : pop (push Spec.empty a) 1000 = ⟨a.drop 1000, 1024, 1000⟩ := by simp [pop, push, room, Spec.empty, ha]
  rw [hs] at r2
  have hmx : b2.max = 1024 := by
    have hb2 : b2 = (drain b1 1000).1 := by
      have := e2
      simp only [remove, r1.len] at this
      rw [show (push Spec.empty a).q.length = 1024 by simp [push, Spec.empty, ha]] at this
      rw [Outcome.bind_eq_ok] at this
      obtain ⟨_, _, h⟩ := this
      simp only [Outcome.pure_eq, Outcome.ok.injEq, Prod.mk.injEq] at h
      simpa using h.1.symm
    have hl : b1.len = 1024 := by rw [r1.len]; simp [push, Spec.empty, ha]
    have ho : b1.off = 0 := by rw [r1.off]; simp [push, Spec.empty, room, ha]
    have hm : b1.max = 1024 := by rw [r1.max0 (by simp [push, Spec.empty, room, ha])]; simp [push, Spec.empty, room, ha]
    rw [hb2, drain, if_neg (by decide), if_pos (by rw [hl]; decide)]
    simp only [hm, ho]; rfl
  refine ⟨b1, b2, _, e1, e2, by rw [length, r2.len]; simp [ha], by rw [r2.unused, hmx]; simp [ha], c26_add_ub r2 junk ?_ (by simp [ha, hb])⟩
  simp [Fits, ha, hb]

/-- Violation of C26: 10 bytes added, 5 removed, 2000 added: `realloc` is called with a pointer into the middle of the block. -/
theorem c26_realloc_interior (junk : Nat → Byte) (a b : List Byte) (ha : a.length = 10) (hb : b.length = 2000) :
    ∃ b1 b2 out, add junk new a = .ok b1 ∧ remove b1 5 = .ok (b2, out) ∧ add junk b2 b = .ub := by
  obtain ⟨b1, e1, r1⟩ := add_spec rep_new junk (d := a) (Or.inl rfl) (by rw [ha]; simp [Spec.empty])
  obtain ⟨b2, e2, r2⟩ := remove_spec r1 5
  have hs : pop (push Spec.empty a) 5 = ⟨a.drop 5, 1024, 5⟩ := by simp [pop, push, room, Spec.empty, ha]
  rw [hs] at r2
  refine ⟨b1, b2, _, e1, e2, c26_add_ub r2 junk ?_ (by simp [ha, hb])⟩
  simp [Fits, ha, hb]

/-- A history that meets the hypotheses of `c26_fifo_partial`: interleaved additions and removals on two buffers, with a scatter addition and a
transfer. -/
example : Spec.AllAllowed (fun _ => Spec.empty) [.add 0 [1, 2, 3], .remove 0 1, .add 0 [4], .iovAdd 1 [[5], [6, 7]], .addBuf 1 0, .remove 1 9, .get 0] := by
  refine ⟨?_, ?_, ?_, ?_, ?_, ?_, ?_, ?_, ?_, ?_, ?_, ?_, ?_, ?_, ?_⟩ <;> first | exact trivial | decide +kernel

end ZT.Buf
