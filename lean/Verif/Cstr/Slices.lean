import Verif.Cstr.Lemmas

/-!
# C38: slices
-/

namespace ZT.Cstr

theorem slice_bounds {s : List Byte} {i j : Int} {t : List Byte} (hs : s ≠ []) (h : slice s i j = some t) : ∃ a b, bounds s.length i j = some (a, b) ∧ a ≤ b ∧ b < s.length ∧ t = chars s a b ∧ t.length = b + 1 - a := by
  simp only [slice, Option.map_eq_some_iff] at h
  obtain ⟨⟨a, b⟩, hb, rfl⟩ := h
  have := bounds_some (List.length_pos_iff.2 hs) hb
  exact ⟨a, b, hb, this.1, this.2, rfl, length_chars this.1 this.2⟩

theorem slice_none {s : List Byte} {i j : Int} (h : slice s i j = none) : bounds s.length i j = none := by simpa [slice] using h

theorem chars_nz {s : List Byte} (h : ∀ b ∈ s, b ≠ 0) (a b : Nat) : ∀ c ∈ chars s a b, c ≠ 0 := fun c hc => h c (List.mem_of_mem_take (List.mem_of_mem_drop hc))

/-- **C38**: zt_cstr_sub returns exactly the slice. -/
theorem c38_sub (junk : Byte) {m s : List Byte} (h : IsStr m s) (hs : s ≠ []) (i j : Int) : sub junk m i j = orAbort ((slice s i j).map (· ++ [0])) := by
  cases ht : slice s i j with
  | none => rw [sub, convert_abort h hs (slice_none ht)]; rfl
  | some t =>
      obtain ⟨a, b, hb, hab, hbn, rfl, hl⟩ := slice_bounds hs ht
      rw [sub, convert_ok h hs hb]
      simp only [Outcome.ok_bind]
      rw [idxlen_eq hab]
      simp only [Outcome.ok_bind]
      have := copy_ok h hab hbn [] (List.replicate (b + 1 - a + 1) junk) (by simp)
      simp only [List.nil_append, List.length_nil, Nat.zero_add, List.drop_replicate] at this
      rw [this]
      simp only [Outcome.ok_bind]
      rw [show b + 1 - a + 1 - (b + 1 - a) = 1 by omega, ← hl]
      exact wr_last _ _ _ _

theorem dupLoop_spec {m s : List Byte} (h : IsStr m s) {a b : Nat} (hab : a ≤ b) (hb : b < s.length) : ∀ (n : Nat) (done tail : List Byte), n * (b + 1 - a) ≤ tail.length →
    dupLoop m a b n (done ++ tail) done.length = .ok (done ++ (List.replicate n (chars s a b)).flatten ++ tail.drop (n * (b + 1 - a)), done.length + n * (b + 1 - a)) := by
  intro n
  induction n with
  | zero => intro done tail _; simp [dupLoop]
  | succ n ih =>
      intro done tail ht
      rw [Nat.succ_mul] at ht
      rw [dupLoop, copy_ok h hab hb done tail (by omega)]
      simp only [Outcome.ok_bind]
      have hl := length_chars hab hb
      have e : done.length + (b + 1 - a) = (done ++ chars s a b).length := by rw [List.length_append, hl]
      rw [e, ih _ _ (by simp; omega), List.replicate_succ, List.flatten_cons, List.drop_drop, List.length_append, hl, Nat.succ_mul]
      simp only [List.append_assoc]
      rw [show b + 1 - a + n * (b + 1 - a) = n * (b + 1 - a) + (b + 1 - a) by omega, show done.length + (b + 1 - a) + n * (b + 1 - a) = done.length + (n * (b + 1 - a) + (b + 1 - a)) by omega]

/-- **C38** (partial): zt_cstr_dup returns `n` copies of the slice. Not proved, since false: sizes of 2^64 and more (`c38_dup_wrap_violation`). -/
theorem c38_dup_partial (junk : Byte) {m s : List Byte} (h : IsStr m s) (hs : s ≠ []) (i j : Int) {t : List Byte} (ht : slice s i j = some t) (n : Nat) (hn : n * t.length + 1 < 2 ^ 64) :
    dup junk (some m) i j n = .ok (some ((List.replicate n t).flatten ++ [0])) := by
  obtain ⟨a, b, hb, hab, hbn, rfl, hl⟩ := slice_bounds hs ht
  rw [hl] at hn
  rw [dup, if_pos (by omega)]
  simp only
  rw [convert_ok h hs hb]
  simp only [Outcome.ok_bind]
  rw [idxlen_eq hab]
  simp only [Outcome.ok_bind, Int.toNat_natCast]
  rw [Nat.mod_eq_of_lt hn]
  have := dupLoop_spec h hab hbn n [] (List.replicate (n * (b + 1 - a) + 1) junk) (by simp)
  simp only [List.nil_append, List.length_nil, Nat.zero_add, List.drop_replicate] at this
  rw [this]
  simp only [Outcome.ok_bind]
  have hfl : ((List.replicate n (chars s a b)).flatten).length = n * (b + 1 - a) := by simp [hl]
  rw [show n * (b + 1 - a) + 1 - n * (b + 1 - a) = 1 by omega, ← hfl]
  rw [show List.replicate 1 junk = junk :: [] from rfl, wr_last]
  rfl

/-- **C38**: zt_cstr_cat returns the first slice followed by the second. -/
theorem c38_cat (junk : Byte) {m1 s1 m2 s2 : List Byte} (h1 : IsStr m1 s1) (h2 : IsStr m2 s2) (hs1 : s1 ≠ []) (hs2 : s2 ≠ []) (i1 j1 i2 j2 : Int) {t1 t2 : List Byte}
    (ht1 : slice s1 i1 j1 = some t1) (ht2 : slice s2 i2 j2 = some t2) : cat junk m1 i1 j1 m2 i2 j2 = .ok (t1 ++ t2 ++ [0]) := by
  obtain ⟨a, b, hb, hab, hbn, rfl, hl⟩ := slice_bounds hs1 ht1
  obtain ⟨c, d, hd, hcd, hdn, rfl, hl2⟩ := slice_bounds hs2 ht2
  rw [cat, convert_ok h1 hs1 hb]
  simp only [Outcome.ok_bind]
  rw [convert_ok h2 hs2 hd]
  simp only [Outcome.ok_bind]
  rw [idxlen_eq hab, idxlen_eq hcd]
  simp only [Outcome.ok_bind]
  have e1 := copy_ok h1 hab hbn [] (List.replicate (b + 1 - a + (d + 1 - c) + 1) junk) (by simp; omega)
  simp only [List.nil_append, List.length_nil, Nat.zero_add, List.drop_replicate] at e1
  rw [e1]
  simp only [Outcome.ok_bind]
  rw [← hl]
  have e2 := copy_ok h2 hcd hdn (chars s1 a b) (List.replicate ((chars s1 a b).length + (d + 1 - c) + 1 - (chars s1 a b).length) junk) (by simp; omega)
  rw [e2]
  simp only [Outcome.ok_bind]
  rw [List.drop_replicate, show (chars s1 a b).length + (d + 1 - c) + 1 - (chars s1 a b).length - (d + 1 - c) = 1 by omega, ← hl2, ← List.length_append]
  exact wr_last _ _ _ _

/-- **C38**: zt_cstr_reverse returns the slice backwards. -/
theorem c38_reverse (junk : Byte) {m s : List Byte} (h : IsStr m s) (hs : s ≠ []) (i j : Int) : reverse junk m i j = orAbort ((slice s i j).map (fun t => t.reverse ++ [0])) := by
  cases ht : slice s i j with
  | none => rw [reverse, convert_abort h hs (slice_none ht)]; rfl
  | some t =>
      obtain ⟨a, b, hb, hab, hbn, rfl, hl⟩ := slice_bounds hs ht
      rw [reverse, convert_ok h hs hb]
      simp only [Outcome.ok_bind]
      rw [idxlen_eq hab]
      simp only [Outcome.ok_bind]
      have hml := h.length
      have := copyDown_spec (m := m) (a := a) (b + 1 - a) b [] (List.replicate (b + 1 - a + 1) junk) (rounds a b) (by omega) (by omega) (by simp) (by rw [rounds_eq]; omega)
      simp only [List.nil_append, List.length_nil, Nat.zero_add, List.drop_replicate] at this
      rw [this]
      simp only [Outcome.ok_bind]
      rw [h.chars hbn, show b + 1 - a + 1 - (b + 1 - a) = 1 by omega, ← hl, ← List.length_reverse]
      exact wr_last _ _ _ _

theorem catvLen_spec (txt : Piece → List Byte) : ∀ (xs : List Piece), (∀ x ∈ xs, ∃ s, IsStr x.s s ∧ s ≠ [] ∧ slice s x.i x.j = some (txt x)) → ∀ n, catvLen xs n = .ok (n + (xs.flatMap txt).length + xs.length) := by
  intro xs
  induction xs with
  | nil => intro _ n; rfl
  | cons x xs ih =>
      intro h n
      obtain ⟨s, hx, hs, ht⟩ := h x (by simp)
      obtain ⟨a, b, hb, hab, hbn, e, hl⟩ := slice_bounds hs ht
      rw [catvLen, convert_ok hx hs hb]
      simp only [Outcome.ok_bind]
      rw [idxlen_eq hab]
      simp only [Outcome.ok_bind]
      rw [ih (fun y hy => h y (by simp [hy])), ← hl, List.flatMap_cons, List.length_append, List.length_cons]
      exact congrArg _ (by omega)

theorem catvCopy_spec (txt : Piece → List Byte) : ∀ (xs : List Piece), (∀ x ∈ xs, ∃ s, IsStr x.s s ∧ s ≠ [] ∧ slice s x.i x.j = some (txt x)) → ∀ (done tail : List Byte), (xs.flatMap txt).length ≤ tail.length →
    catvCopy xs (done ++ tail) done.length = .ok (done ++ xs.flatMap txt ++ tail.drop (xs.flatMap txt).length, done.length + (xs.flatMap txt).length) := by
  intro xs
  induction xs with
  | nil => intro _ done tail _; simp [catvCopy]
  | cons x xs ih =>
      intro h done tail htl
      obtain ⟨s, hx, hs, ht⟩ := h x (by simp)
      obtain ⟨a, b, hb, hab, hbn, e, hl⟩ := slice_bounds hs ht
      rw [List.flatMap_cons, List.length_append] at htl
      rw [catvCopy, convert_ok hx hs hb]
      simp only [Outcome.ok_bind]
      rw [copy_ok hx hab hbn done tail (by omega), ← e, ← hl]
      simp only [Outcome.ok_bind]
      rw [← List.length_append, ih (fun y hy => h y (by simp [hy])) _ _ (by rw [List.length_drop]; omega), List.flatMap_cons, List.drop_drop]
      simp only [List.append_assoc, List.length_append]
      rw [Nat.add_assoc]

/-- **C38**: zt_cstr_catv returns all slices one after the other. -/
theorem c38_catv (junk : Byte) (txt : Piece → List Byte) (xs : List Piece) (h : ∀ x ∈ xs, ∃ s, IsStr x.s s ∧ s ≠ [] ∧ slice s x.i x.j = some (txt x)) :
    ∃ r, catv junk xs = .ok r ∧ IsStr r (xs.flatMap txt) := by
  rw [catv, catvLen_spec txt xs h 0]
  simp only [Outcome.ok_bind, Nat.zero_add]
  have := catvCopy_spec txt xs h [] (List.replicate ((xs.flatMap txt).length + xs.length + 1) junk) (by simp; omega)
  simp only [List.nil_append, List.length_nil, Nat.zero_add, List.drop_replicate] at this
  rw [this]
  simp only [Outcome.ok_bind]
  rw [show (xs.flatMap txt).length + xs.length + 1 - (xs.flatMap txt).length = xs.length + 1 by omega, List.replicate_succ, wr_last]
  refine ⟨_, rfl, ?_, _, rfl⟩
  intro b hb
  rw [List.mem_flatMap] at hb
  obtain ⟨x, hx, hbx⟩ := hb
  obtain ⟨s, hxs, hs, ht⟩ := h x hx
  obtain ⟨p, q, _, _, _, e, _⟩ := slice_bounds hs ht
  rw [e] at hbx
  exact chars_nz hxs.1 _ _ b hbx

/-- **C38**: zt_cstr_len is the length of the slice, zt_cstr_pos the position, zt_cstr_copy copies as much of the slice as fits. -/
theorem c38_len {m s : List Byte} (h : IsStr m s) (hs : s ≠ []) (i j : Int) : len m i j = orAbort ((slice s i j).map List.length) := by
  cases ht : slice s i j with
  | none => rw [len, convert_abort h hs (slice_none ht)]; rfl
  | some t =>
      obtain ⟨a, b, hb, hab, hbn, rfl, hl⟩ := slice_bounds hs ht
      rw [len, convert_ok h hs hb]
      simp only [Outcome.ok_bind]
      rw [idxlen_eq hab, ← hl]
      rfl

theorem c38_pos {m s : List Byte} (h : IsStr m s) (hs : s ≠ []) (i : Int) : pos m i = orAbort (position s.length i) := by
  have hn : 0 < s.length := List.length_pos_iff.2 hs
  have hp := idx_position hn i
  rw [pos, h.strlen]
  simp only [Outcome.ok_bind]
  cases e : position s.length i with
  | none => rw [if_neg (by have := hp.2 e; omega)]; rfl
  | some p =>
      have := hp.1 p e
      rw [this.1, if_pos (by omega)]
      rfl

theorem c38_copy {m s : List Byte} (h : IsStr m s) (hs : s ≠ []) (i j : Int) {t : List Byte} (ht : slice s i j = some t) (dst : List Byte) (n : Nat) (hn : n ≤ dst.length) :
    copy m i j dst n = .ok (min t.length n, t.take n ++ dst.drop (min t.length n)) := by
  obtain ⟨a, b, hb, hab, hbn, rfl, hl⟩ := slice_bounds hs ht
  have hml := h.length
  rw [copy, convert_ok h hs hb]
  simp only [Outcome.ok_bind]
  rw [idxlen_eq hab]
  simp only [Outcome.ok_bind]
  rw [ptr_nat (by omega)]
  simp only [Outcome.ok_bind]
  have hmin : (if b + 1 - a < n then b + 1 - a else n) = min (chars s a b).length n := by rw [hl]; split <;> omega
  rw [hmin, memcpy, if_pos (by simp; omega)]
  simp only [Outcome.ok_bind]
  have e : (m.drop a).take (min (chars s a b).length n) = (chars s a b).take n := by
    rw [← h.chars hbn, List.take_take]
    refine congrArg (fun k => List.take k (m.drop a)) ?_
    have : (List.take (b + 1 - a) (List.drop a m)).length = b + 1 - a := by simp; omega
    rw [this]; omega
  rw [e]
  rfl

/-- **C38**: a slice reaching before the start of the string ends the program, in all functions. -/
theorem c38_outside (junk : Byte) {m s : List Byte} (h : IsStr m s) (hs : s ≠ []) (i j : Int) (ht : slice s i j = none) (n : Nat) (m2 : List Byte) (i2 j2 : Int) (dst : List Byte) (k : Nat) :
    dup junk (some m) i j n = .abort ∧ cat junk m i j m2 i2 j2 = .abort ∧ copy m i j dst k = .abort := by
  have hc := convert_abort h hs (slice_none ht)
  refine ⟨?_, ?_, ?_⟩
  · rw [dup, if_pos (by omega)]
    simp only
    rw [hc]; rfl
  · rw [cat, hc]; rfl
  · rw [copy, hc]; rfl

/-! ## The empty string: its slice holds the terminator -/

/-- Violation: the result of concatenating "" and "abc" reads as "". -/
theorem c38_cat_empty_violation : cat 7 [0] 0 (-1) [97, 98, 99, 0] 0 (-1) = .ok [0, 97, 98, 99, 0] ∧ cstr [0, 97, 98, 99, 0] = [] := by decide +kernel

/-- Violation: the length of the slice of "" is 1. -/
theorem c38_len_empty_violation {m : List Byte} (h : IsStr m []) (i j : Int) : len m i j = .ok 1 := by
  rw [len, convert_empty h]
  rfl

/-- Copies of "" read as "". -/
theorem c38_sub_empty (junk : Byte) {m : List Byte} (h : IsStr m []) (i j : Int) : ∃ r, sub junk m i j = .ok r ∧ IsStr r [] := by
  have hl := h.length
  obtain ⟨_, rest, rfl⟩ := h
  rw [sub, convert_empty ⟨by simp, rest, rfl⟩]
  simp only [Outcome.ok_bind]
  rw [show idxlen 0 0 = .ok 1 from rfl]
  refine ⟨[0, 0], ?_, by simp, [0], rfl⟩
  simp [copyUp, rounds, rdI, rd, wr]

/-- Violation: for 2^62 copies of 4 characters the size computed is 1, and the copies are stored past the block. -/
theorem c38_dup_wrap_violation (junk : Byte) : dup junk (some [97, 98, 99, 100, 0]) 0 (-1) (2 ^ 62) = .ub := by
  rw [dup, if_pos (by decide)]
  have e : convert [97, 98, 99, 100, 0] 0 (-1) = .ok (0, 3) := by decide +kernel
  have e2 : idxlen 0 3 = .ok 4 := by decide +kernel
  simp only [e, e2, Outcome.ok_bind]
  have e3 : ((2 ^ 62 : Int).toNat * 4 + 1) % 2 ^ 64 = 1 := by decide +kernel
  rw [e3]
  have e4 : (2 ^ 62 : Int).toNat = (2 ^ 62 - 1) + 1 := by decide +kernel
  rw [e4, dupLoop]
  have e5 : copyUp [97, 98, 99, 100, 0] .ok 3 (rounds 0 3) 0 (List.replicate 1 junk) 0 = .ub := by
    simp [copyUp, rounds, rdI, rd, wr]
  rw [e5]
  rfl

/-! ## Concrete cases -/

example : sub 7 (iface ++ [0]) (-4) (-2) = .ok [102, 97, 99, 0] := by decide +kernel
example : slice iface (-4) (-2) = some [102, 97, 99] := by decide
example : dup 7 (some (iface ++ [0])) 5 6 2 = .ok (some [102, 97, 102, 97, 0]) := by decide +kernel
example : reverse 7 (iface ++ [0]) 5 6 = .ok [97, 102, 0] := by decide +kernel
example : cat 7 (iface ++ [0]) 5 6 [32, 0] 0 0 = .ok [102, 97, 32, 0] := by decide +kernel
example : sub 7 (iface ++ [0]) (-20) (-2) = .abort := by decide +kernel

end ZT.Cstr
