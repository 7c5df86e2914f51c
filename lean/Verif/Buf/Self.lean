import Verif.Buf.Props

/-!
# C138: adding a buffer's own bytes to it

zt_buf_add, zt_buf_iov_add and zt_buf_add_buf called with a pointer into the buffer they add to (or with the same buffer twice). A pointer obtained from
zt_buf_get stays usable while the block is not reallocated; `realloc` ends the life of the block it is given, whether or not it moves, so the memcpy of
zt_buf_add then reads a dead block.
-/

namespace ZT.Buf

open ZT.Arr (sz slice blit sz_lt slice_ok slice_ub blit_ok)
open Spec (Q Fits room push pop)

/-- zt_buf.c 91-101 `zt_buf_add(b, (char *)b->buf + i, n)`: the source lies in the buffer's own block. After `zt_buf_expand` (93-95) that block is
dead, so the memcpy (97) is undefined (`n` is not 0 then); memcpy's source and destination may not overlap. -/
def addOwn (junk : Nat → Byte) (b : Buf) (i n : Nat) : Outcome Buf :=
  if n > unusedSz b then do
    let _ ← expand junk b n
    .ub
  else if n = 0 then .ok { b with len := sz (b.len + n) }
  else do
    let m ← (match b.blk with | none => .ub | some m => .ok m : Outcome (List Byte))
    let s ← slice m (b.off + i) n
    if i + n ≤ b.len ∨ b.len + n ≤ i then do
      let m ← blit m (b.off + b.len) s
      pure { b with blk := some m, len := sz (b.len + n) }
    else .ub

/-- zt_buf.c 103-108 `zt_buf_add_buf(a, a)`: the length passed to zt_buf_drain (106) is read after the addition. -/
def addBufSelf (junk : Nat → Byte) (a : Buf) : Outcome Buf := do
  let a ← addOwn junk a 0 a.len
  pure (drain a a.len).1

/-- zt_buf.c 153-155: the loop of `zt_buf_iov_add` when `vec[k]` is `n` bytes at `(char *)b->buf + i`, for the pairs `(i, n)`. -/
def iovOwnLoop (junk : Nat → Byte) : Buf → List (Nat × Nat) → Outcome Buf
  | b, [] => .ok b
  | b, (i, n) :: ps => do
      let b ← addOwn junk b i n
      iovOwnLoop junk b ps

/-- zt_buf.c 131-143 `zt_buf_iov_len` of such a vector. -/
def iovOwnLen : List (Nat × Nat) → Nat → Nat
  | [], acc => acc
  | (_, n) :: ps, acc => iovOwnLen ps (sz (acc + n))

/-- zt_buf.c 145-158 `zt_buf_iov_add` of parts of the buffer itself: after a reallocation by zt_buf_reserve (151) every pointer is dead; the first
part that is not empty is then read (some part is not empty, since their sum exceeds the room). -/
def iovOwn (junk : Nat → Byte) (b : Buf) (ps : List (Nat × Nat)) : Outcome Buf :=
  let t := iovOwnLen ps 0
  if t > unusedSz b then do
    let _ ← expand junk b t
    .ub
  else iovOwnLoop junk b ps

/-! ## Specification -/

/-- `n` bytes of a queue from position `i`. -/
def part (q : List Byte) (i n : Nat) : List Byte := (q.drop i).take n

/-- When the part lies in the contents and nothing is reallocated, the addition is the addition of a separate copy of the part. -/
theorem addOwn_eq_add {b : Buf} {s : Q} (r : Rep b s) (junk : Nat → Byte) {i n : Nat} (hi : i + n ≤ s.q.length) (hu : n ≤ unusedSz b) :
    addOwn junk b i n = add junk b (part s.q i n) := by
  have hin := r.inside
  have hpl : (part s.q i n).length = n := by simp [part]; omega
  have hng : ¬ n > unusedSz b := by omega
  unfold addOwn add
  simp only [hpl, if_neg hng, Outcome.pure_eq, Outcome.ok_bind]
  by_cases h0 : n = 0
  · have hp : part s.q i n = [] := List.length_eq_zero_iff.1 (by omega)
    rw [if_pos h0, store, if_pos hp]; rfl
  · have hp : part s.q i n ≠ [] := by intro h; rw [h] at hpl; simp at hpl; omega
    rw [if_neg h0, store, if_neg hp]
    cases hb : b.blk with
    | none => have := r.null hb; omega
    | some m =>
        have hm : mem b = m := by simp [mem, hb]
        have hs := r.size
        have hd := r.data
        rw [hm] at hs hd
        have hsl : (m.drop (s.moved + i)).take n = part s.q i n := by
          unfold part
          conv => rhs; rw [← hd]
          rw [List.drop_take, List.drop_drop, List.take_take, Nat.min_eq_left (by omega)]
        simp only [Outcome.ok_bind, r.off, r.len]
        rw [slice_ok (by omega), hsl]
        simp only [Outcome.ok_bind]
        rw [if_pos (Or.inl hi)]
        cases blit m (s.moved + s.q.length) (part s.q i n) <;> rfl

/-- **C138 (a part of the buffer, room left).** -/
theorem c138_room {b : Buf} {s : Q} (r : Rep b s) (junk : Nat → Byte) {i n : Nat} (hi : i + n ≤ s.q.length) (hu : n ≤ unusedSz b) (hf : Fits s n) (hs : s.q.length + n < 2 ^ 30) :
    ∃ b', addOwn junk b i n = .ok b' ∧ get b' = .ok (if s.q = [] then none else some (s.q ++ part s.q i n)) ∧ length b' = s.q.length + n ∧ Rep b' (push s (part s.q i n)) := by
  have hpl : (part s.q i n).length = n := by simp [part]; omega
  obtain ⟨b', e, r'⟩ := add_spec r junk (d := part s.q i n) (by rw [hpl]; exact hf) (by rw [hpl]; exact hs)
  obtain ⟨g1, g2⟩ := get_spec r'
  refine ⟨b', by rw [addOwn_eq_add r junk hi hu]; exact e, ?_, by rw [g2]; simp [push, hpl], r'⟩
  rw [g1]
  by_cases hq : s.q = []
  · simp [push, hq, part]
  · simp [push, hq]

/-- **C138 (a part of the buffer, no room left).** -/
theorem c138_no_room (b : Buf) (junk : Nat → Byte) {i n : Nat} (hu : unusedSz b < n) : addOwn junk b i n = .ub := by
  rw [addOwn, if_pos hu]
  unfold expand; dsimp only; split <;> first | rfl | (split <;> rfl)

/-- Not enough room behind bytes skipped earlier (C26): undefined, too. -/
theorem c138_no_fit {b : Buf} {s : Q} (r : Rep b s) (junk : Nat → Byte) {i n : Nat} (hi : i + n ≤ s.q.length) (hf : ¬ Fits s n) (hs : s.q.length + n < 2 ^ 30) : addOwn junk b i n = .ub := by
  by_cases hu : n ≤ unusedSz b
  · have hpl : (part s.q i n).length = n := by simp [part]; omega
    rw [addOwn_eq_add r junk hi hu]
    exact c26_add_ub r junk (by rw [hpl]; exact hf) (by rw [hpl]; exact hs)
  · exact c138_no_room b junk (by omega)

/-- **C138 (the same buffer twice).** zt_buf_add_buf(a, a) never doubles the contents: it empties the buffer, or is undefined. -/
theorem c138_add_buf_self {b : Buf} {s : Q} (r : Rep b s) (junk : Nat → Byte) (hs : s.q.length < 2 ^ 29) :
    (∃ b', addBufSelf junk b = .ok b' ∧ length b' = 0 ∧ get b' = .ok none) ∨ addBufSelf junk b = .ub := by
  by_cases hu : s.q.length ≤ unusedSz b ∧ Fits s s.q.length
  · obtain ⟨b', e, -, -, r'⟩ := c138_room r junk (i := 0) (n := s.q.length) (by omega) hu.1 hu.2 (by omega)
    refine Or.inl ⟨(drain b' b'.len).1, ?_, ?_, ?_⟩
    · rw [addBufSelf, r.len, e]; rfl
    all_goals
      have hd := (drain_spec r' b'.len).1
      have hq : (pop (push s (part s.q 0 s.q.length)) b'.len).q = [] := by simp [pop, r'.len]
      obtain ⟨g1, g2⟩ := get_spec hd
    · rw [g2, hq]; rfl
    · rw [g1, hq]; rfl
  · refine Or.inr ?_
    rw [addBufSelf, r.len]
    by_cases h1 : s.q.length ≤ unusedSz b
    · rw [c138_no_fit r junk (by omega) (fun h => hu ⟨h1, h⟩) (by omega)]; rfl
    · rw [c138_no_room b junk (by omega)]; rfl

theorem iovOwnLen_eq (ps : List (Nat × Nat)) : ∀ acc, acc + (ps.map (·.2)).sum < 2 ^ 64 → iovOwnLen ps acc = acc + (ps.map (·.2)).sum := by
  induction ps with
  | nil => intro acc _; simp [iovOwnLen]
  | cons p ps ih =>
      obtain ⟨i, n⟩ := p
      intro acc h
      simp only [List.map_cons, List.sum_cons] at h ⊢
      rw [iovOwnLen, sz_lt (by omega), ih _ (by omega)]
      omega

theorem addOwn_max {junk : Nat → Byte} {b b' : Buf} {i n : Nat} (e : addOwn junk b i n = .ok b') : b'.max = b.max := by
  unfold addOwn at e
  split at e
  · cases h : expand junk b n <;> simp [h] at e
  · split at e
    · cases e; rfl
    · simp only [Outcome.bind_eq_ok] at e
      obtain ⟨m, -, x, -, e⟩ := e
      split at e
      · simp only [Outcome.bind_eq_ok] at e
        obtain ⟨y, -, e⟩ := e
        cases e; rfl
      · cases e

/-- **C138 (several parts of the buffer in one call, room left).** -/
theorem c138_iov_room {b : Buf} {s : Q} (r : Rep b s) (junk : Nat → Byte) (ps : List (Nat × Nat)) (hi : ∀ p ∈ ps, p.1 + p.2 ≤ s.q.length)
    (hu : (ps.map (·.2)).sum ≤ unusedSz b) (hf : Fits s (ps.map (·.2)).sum) (hs : s.q.length + (ps.map (·.2)).sum < 2 ^ 30) :
    ∃ b', iovOwn junk b ps = .ok b' ∧ get b' = .ok (if s.q = [] then none else some (s.q ++ (ps.map fun p => part s.q p.1 p.2).flatten)) ∧ length b' = s.q.length + (ps.map (·.2)).sum := by
  have key : ∀ (ps : List (Nat × Nat)) (b : Buf) (t : Q) (d : List Byte), Rep b t → t.q = s.q ++ d → (∀ p ∈ ps, p.1 + p.2 ≤ s.q.length) → (ps.map (·.2)).sum ≤ unusedSz b →
      Fits t (ps.map (·.2)).sum → t.q.length + (ps.map (·.2)).sum < 2 ^ 30 →
      ∃ b' t', iovOwnLoop junk b ps = .ok b' ∧ Rep b' t' ∧ t'.q = s.q ++ d ++ (ps.map fun p => part s.q p.1 p.2).flatten := by
    intro ps
    induction ps with
    | nil => intro b t d r hq _ _ _ _; exact ⟨b, t, rfl, r, by simp [hq]⟩
    | cons p ps ih =>
        obtain ⟨i, n⟩ := p
        intro b t d r hq hi hu hf hs
        simp only [List.map_cons, List.sum_cons] at hu hf hs
        have hin := hi (i, n) (by simp)
        simp only at hin
        have hpt : part t.q i n = part s.q i n := by
          unfold part
          rw [hq, List.drop_append_of_le_length (by omega), List.take_append_of_le_length (by rw [List.length_drop]; omega)]
        have hpl : (part s.q i n).length = n := by simp [part]; omega
        obtain ⟨b1, e, -, -, r1⟩ := c138_room r junk (i := i) (n := n) (by rw [hq, List.length_append]; omega) (by omega)
          (by unfold Fits at hf ⊢; omega) (by omega)
        have hmx := addOwn_max e
        have hq1 : (push t (part t.q i n)).q = s.q ++ (d ++ part s.q i n) := by rw [hpt]; simp [push, hq]
        have hl1 : (push t (part t.q i n)).q.length = t.q.length + n := by rw [hq1, hq]; simp [hpl]; omega
        have hmv : (push t (part t.q i n)).moved = t.moved := by simp only [push]; exact (room_room _ _).2.1
        have hcap : t.cap ≤ (push t (part t.q i n)).cap := by
          have := r.inside
          simp only [push, room]; grind
        have hun := r.unused
        obtain ⟨b2, t2, e2, r2, hq2⟩ := ih b1 _ (d ++ part s.q i n) r1 hq1 (fun p h => hi p (by simp [h])) (by rw [r1.unused, hl1, hmx]; omega)
          (by unfold Fits at hf ⊢; rw [hl1, hmv]; omega) (by rw [hl1]; omega)
        refine ⟨b2, t2, ?_, r2, by rw [hq2]; simp⟩
        rw [iovOwnLoop, e]; exact e2
  obtain ⟨b', t', e, r', hq⟩ := key ps b s [] r (by simp) hi hu hf hs
  obtain ⟨g1, g2⟩ := get_spec r'
  have hsum : ∀ ps : List (Nat × Nat), (∀ p ∈ ps, p.1 + p.2 ≤ s.q.length) → ((ps.map fun p => part s.q p.1 p.2).flatten).length = (ps.map (·.2)).sum := by
    intro ps
    induction ps with
    | nil => intro _; rfl
    | cons p ps ih =>
        intro h
        have h1 := h p (by simp)
        have := ih (fun p hp => h p (by simp [hp]))
        simp only [List.map_cons, List.flatten_cons, List.length_append, List.sum_cons, this]
        simp [part]; omega
  have hl := hsum ps hi
  refine ⟨b', ?_, ?_, ?_⟩
  · unfold iovOwn
    dsimp only
    rw [iovOwnLen_eq ps 0 (by omega), Nat.zero_add, if_neg (by omega)]
    exact e
  · rw [g1, hq]
    by_cases hz : s.q = []
    · have : (ps.map fun p => part s.q p.1 p.2).flatten = [] := by simp [hz, part]
      rw [this, hz]; rfl
    · simp [hz]
  · rw [g2, hq]; simp [hl]

/-- **C138 (several parts of the buffer in one call, no room left).** -/
theorem c138_iov_no_room (b : Buf) (junk : Nat → Byte) (ps : List (Nat × Nat)) (h64 : (ps.map (·.2)).sum < 2 ^ 64) (hu : unusedSz b < (ps.map (·.2)).sum) : iovOwn junk b ps = .ub := by
  unfold iovOwn
  dsimp only
  rw [iovOwnLen_eq ps 0 (by omega), Nat.zero_add, if_pos hu]
  unfold expand; dsimp only; split <;> first | rfl | (split <;> rfl)

/-- **C138 (from an empty buffer).** Add `d` to a new buffer and then the part of it from `i`, `n` bytes long: the contents are `d` followed by that part
exactly when `n` bytes are left of the at least 1024 allocated; otherwise the second call is undefined. -/
theorem c138_second_add (junk : Nat → Byte) (d : List Byte) (i n : Nat) (hd : d ≠ []) (hl : d.length < 2 ^ 29) (hi : i + n ≤ d.length) :
    ∃ b, add junk new d = .ok b ∧
      if d.length + n ≤ max d.length 1024 then ∃ b', addOwn junk b i n = .ok b' ∧ get b' = .ok (some (d ++ part d i n)) else addOwn junk b i n = .ub := by
  obtain ⟨b, e, r⟩ := add_spec rep_new junk (d := d) (Or.inl rfl) (by simp [Spec.empty]; omega)
  have hp : 0 < d.length := List.length_pos_iff.2 hd
  have hs : push Spec.empty d = ⟨d, max d.length 1024, 0⟩ := by simp [push, room, Spec.empty, hp]
  rw [hs] at r
  have hun : unusedSz b = max d.length 1024 - d.length := by rw [r.unused, r.max0 rfl]
  refine ⟨b, e, ?_⟩
  split
  · obtain ⟨b', e', g, -, -⟩ := c138_room r junk (i := i) (n := n) hi (by omega) (Or.inl rfl) (by simp only; omega)
    refine ⟨b', e', ?_⟩
    rw [g, if_neg hd]
  · exact c138_no_room b junk (by omega)

/-- The hypotheses are met: three bytes, two of them added again; and the same buffer twice. -/
example : (do let b ← add (fun _ => 0) new [1, 2, 3]; let b ← addOwn (fun _ => 0) b 1 2; get b) = .ok (some [1, 2, 3, 2, 3]) := by decide +kernel

example : (do let b ← add (fun _ => 0) new [1, 2, 3]; let b ← iovOwn (fun _ => 0) b [(1, 2), (0, 1)]; get b) = .ok (some [1, 2, 3, 2, 3, 1]) := by decide +kernel

example : (do let b ← add (fun _ => 0) new [1, 2, 3]; let b ← addBufSelf (fun _ => 0) b; get b) = .ok none := by decide +kernel

end ZT.Buf
