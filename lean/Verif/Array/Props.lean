import Verif.Array.Model

/-! # C27: zt_array -/

namespace ZT.Arr

theorem sz_lt {n : Nat} (h : n < 2 ^ 64) : sz n = n := Nat.mod_eq_of_lt h

theorem slice_ok {m : List Byte} {off n : Nat} (h : off + n ≤ m.length) : slice m off n = .ok ((m.drop off).take n) := if_pos h
theorem slice_ub {m : List Byte} {off n : Nat} (h : m.length < off + n) : slice m off n = .ub := if_neg (by omega)
theorem blit_ok {m : List Byte} {off : Nat} {bs : List Byte} (h : off + bs.length ≤ m.length) :
    blit m off bs = .ok (m.take off ++ bs ++ m.drop (off + bs.length)) := if_pos h

/-- What the constructors produce: the block holds exactly `length` elements, and an empty array has no block. -/
structure WF (a : Arr) : Prop where
  size : 0 < a.size
  small : a.length * a.size < 2 ^ 64
  block : ∀ m, a.data = some m → m.length = a.length * a.size
  null : a.data = none ↔ a.length = 0

/-- Element `i` of the array, as bytes. -/
def elem (a : Arr) (i : Nat) : List Byte := ((a.data.getD []).drop (i * a.size)).take a.size

theorem WF.some {a : Arr} (w : WF a) (h : 0 < a.length) : ∃ m, a.data = some m ∧ m.length = a.length * a.size := by
  cases hd : a.data with
  | none => have := w.null.1 hd; omega
  | some m => exact ⟨m, rfl, w.block m hd⟩

theorem idx_le {i n s : Nat} (h : i < n) : i * s + s ≤ n * s := by
  have : (i + 1) * s ≤ n * s := Nat.mul_le_mul_right s h
  rw [Nat.add_mul] at this; omega

theorem elemCopy_eq {a : Arr} (w : WF a) {i : Nat} (h : i < a.length) : elemCopy a i = .ok (elem a i) := by
  obtain ⟨m, hm, hl⟩ := w.some (by omega)
  have := idx_le (s := a.size) h
  have h2 := w.small
  rw [elemCopy, if_pos h, hm]
  simp only
  rw [sz_lt (by omega), slice_ok (by omega), elem, hm]; rfl

theorem elem_length {a : Arr} (w : WF a) {i : Nat} (h : i < a.length) : (elem a i).length = a.size := by
  obtain ⟨m, hm, hl⟩ := w.some (by omega)
  have := idx_le (s := a.size) h
  simp only [elem, hm, Option.getD_some, List.length_take, List.length_drop]; omega

/-- **C27 (put and get).** Storing an element at a valid index: the element is read back, every other element and the shape are unchanged. -/
theorem c27_put {a : Arr} (w : WF a) {i : Nat} {e : List Byte} (hi : i < a.length) (he : e.length = a.size) :
    ∃ a', put a i e = .ok a' ∧ WF a' ∧ a'.length = a.length ∧ a'.size = a.size ∧ elemCopy a' i = .ok e ∧
      ∀ j, j < a.length → j ≠ i → elemCopy a' j = elemCopy a j := by
  obtain ⟨m, hm, hl⟩ := w.some (by omega)
  have h1 := idx_le (s := a.size) hi
  have h2 := w.small
  have hs := w.size
  let m' := m.take (i * a.size) ++ e ++ m.drop (i * a.size + e.length)
  have hput : put a i e = .ok { a with data := some m' } := by
    rw [put, if_pos hi, hm]
    simp only
    rw [slice_ok (by omega)]
    simp only [Outcome.ok_bind, List.drop_zero]
    rw [List.take_of_length_le (by omega), sz_lt (by omega), blit_ok (by omega)]; rfl
  have hm' : m'.length = a.length * a.size := by simp only [m', List.length_append, List.length_take, List.length_drop]; omega
  have w' : WF { a with data := some m' } := ⟨hs, h2, fun q hq => by cases hq; exact hm', by simp; omega⟩
  refine ⟨_, hput, w', rfl, rfl, ?_, ?_⟩
  · rw [elemCopy_eq w' hi]
    simp only [elem, Option.getD_some, m']
    congr 1
    have : (m.take (i * a.size)).length = i * a.size := by rw [List.length_take]; omega
    rw [List.append_assoc, List.drop_append, List.drop_of_length_le (by omega), this, Nat.sub_self]
    simp only [List.nil_append, List.drop_zero]
    rw [List.take_append_of_le_length (by omega), List.take_of_length_le (by omega)]
  · intro j hj hne
    rw [elemCopy_eq w' hj, elemCopy_eq w hj]
    congr 1
    have hj1 := idx_le (s := a.size) hj
    have hsep : j * a.size + a.size ≤ i * a.size ∨ i * a.size + a.size ≤ j * a.size := by
      rcases Nat.lt_or_gt_of_ne hne with h | h
      · exact .inl (idx_le h)
      · exact .inr (idx_le h)
    apply List.ext_getElem?
    intro k
    simp only [elem, Option.getD_some, hm, m', List.getElem?_take, List.getElem?_drop]
    split
    · have hlt : (m.take (i * a.size)).length = i * a.size := by rw [List.length_take]; omega
      rcases hsep with h | h
      · rw [List.append_assoc, List.getElem?_append_left (by omega), List.getElem?_take, if_pos (by omega)]
      · rw [List.getElem?_append_right (by simp only [List.length_append]; omega), List.getElem?_drop]
        congr 1; simp only [List.length_append]; omega
    · rfl

/-- **C27 (bounds).** Any index outside the length aborts in get, put and elem_copy. -/
theorem c27_out_of_range (a : Arr) (i : Nat) (e : List Byte) (h : a.length ≤ i) : put a i e = .abort ∧ get a i = .abort ∧ elemCopy a i = .abort :=
  ⟨if_neg (by omega), if_neg (by omega), if_neg (by omega)⟩

/-- **C27 (get).** The pointer returned for a valid index is the start of the element inside the block. -/
theorem c27_get {a : Arr} (w : WF a) {i : Nat} (hi : i < a.length) :
    ∃ m, a.data = some m ∧ get a i = .ok (i * a.size) ∧ i * a.size + a.size ≤ m.length ∧ (m.drop (i * a.size)).take a.size = elem a i := by
  obtain ⟨m, hm, hl⟩ := w.some (by omega)
  have h1 := idx_le (s := a.size) hi
  have h2 := w.small
  refine ⟨m, hm, ?_, by omega, by simp [elem, hm]⟩
  rw [get, if_pos hi, sz_lt (by have := w.size; omega)]

/-- **C27 (new).** A fresh array has the requested shape and zero elements. -/
theorem c27_new (len size : Nat) (hs : 0 < size) (hb : len * size < 2 ^ 64) :
    ∃ a, new len size = .ok a ∧ WF a ∧ a.length = len ∧ a.size = size ∧ ∀ i, i < len → elemCopy a i = .ok (List.replicate size 0) := by
  by_cases hl : len > 0
  · have w : WF ⟨len, size, some (calloc (len * size))⟩ :=
      ⟨hs, hb, fun m hm => by cases hm; simp [calloc], by simp; omega⟩
    refine ⟨⟨len, size, some (calloc (len * size))⟩, ?_, w, rfl, rfl, ?_⟩
    · rw [new, if_pos hl, sz_lt hb, repInit, if_pos (by simp [hl]), if_pos hs]
    · intro i hi
      rw [elemCopy_eq w hi]
      have := idx_le (s := size) hi
      congr 1
      simp only [elem, Option.getD_some, calloc, List.drop_replicate, List.take_replicate]
      congr 1; omega
  · have : len = 0 := by omega
    subst this
    refine ⟨⟨0, size, none⟩, ?_, ⟨hs, by simp, (fun m hm => by cases hm), by simp⟩, rfl, rfl, (fun i hi => by omega)⟩
    rw [new, if_neg (by omega), repInit, if_pos (by simp), if_pos hs]

theorem calloc_take (n k : Nat) : (calloc n).take k = List.replicate (min k n) 0 := by simp [calloc, List.take_replicate]

/-- **C27 (resize).** To any positive length that fits: the common prefix is kept, growth is zero-filled, whatever `realloc` leaves in fresh memory. -/
theorem c27_resize {a : Arr} (w : WF a) (junk : Nat → Byte) {len : Nat} (hl : 0 < len) (hb : len * a.size < 2 ^ 64) :
    ∃ a', resize junk a len = .ok a' ∧ WF a' ∧ a'.length = len ∧ a'.size = a.size ∧
      (∀ i, i < len → i < a.length → elemCopy a' i = elemCopy a i) ∧ ∀ i, i < len → a.length ≤ i → elemCopy a' i = .ok (List.replicate a.size 0) := by
  have hs := w.size
  rw [resize, if_pos hl]
  by_cases h0 : a.length = 0
  · have w' : WF { a with data := some (calloc (len * a.size)), length := len } :=
      ⟨hs, hb, fun m hm => by cases hm; simp [calloc], by simp; omega⟩
    refine ⟨{ a with data := some (calloc (len * a.size)), length := len }, by simp [h0, sz_lt hb], w', rfl, rfl, fun i _ h => by omega, ?_⟩
    intro i hi _
    rw [elemCopy_eq w' hi]
    have := idx_le (s := a.size) hi
    congr 1
    simp only [elem, Option.getD_some, calloc, List.drop_replicate, List.take_replicate]
    congr 1; omega
  · obtain ⟨m, hm, hml⟩ := w.some (by omega)
    have hsm := w.small
    rw [if_neg (by simpa using h0)]
    simp only [hm, Option.getD_some, sz_lt hb]
    have hrl : ∀ n, (realloc junk m n).length = n := by
      intro n; simp only [realloc, List.length_append, List.length_take, List.length_drop, List.length_map, List.length_range]; omega
    have hrp : ∀ n k, k < n → k < m.length → (realloc junk m n)[k]? = m[k]? := by
      intro n k h1 h2
      simp only [realloc]
      rw [List.getElem?_append_left (by simp only [List.length_take]; omega), List.getElem?_take, if_pos h1]
    by_cases hg : len > a.length
    · rw [if_pos hg]
      have hmul : len * a.size = a.length * a.size + (len - a.length) * a.size := by rw [← Nat.add_mul]; congr 1; omega
      have hlen64 : len - a.length < 2 ^ 64 := by
        have : len * 1 ≤ len * a.size := Nat.mul_le_mul_left len hs
        omega
      rw [sz_lt hsm, sz_lt hlen64, sz_lt (by omega : (len - a.length) * a.size < 2 ^ 64), blit_ok (by rw [hrl]; simp only [calloc, List.length_replicate]; omega)]
      simp only [Outcome.ok_bind, Outcome.pure_eq]
      let m' := (realloc junk m (len * a.size)).take (a.length * a.size) ++ calloc ((len - a.length) * a.size) ++
        (realloc junk m (len * a.size)).drop (a.length * a.size + (calloc ((len - a.length) * a.size)).length)
      have hm'l : m'.length = len * a.size := by
        simp only [m', List.length_append, List.length_take, List.length_drop, hrl, calloc, List.length_replicate]; omega
      have w' : WF { a with data := some m', length := len } := ⟨hs, hb, fun q hq => by cases hq; exact hm'l, by simp; omega⟩
      refine ⟨_, rfl, w', rfl, rfl, ?_, ?_⟩
      · intro i hi hi2
        rw [elemCopy_eq w' hi, elemCopy_eq w hi2]
        have h1 := idx_le (s := a.size) hi2
        congr 1
        apply List.ext_getElem?
        intro k
        simp only [elem, Option.getD_some, hm, m', List.getElem?_take, List.getElem?_drop]
        split
        · rw [List.append_assoc, List.getElem?_append_left (by simp only [List.length_take, hrl]; omega), List.getElem?_take, if_pos (by omega), hrp _ _ (by omega) (by omega)]
        · rfl
      · intro i hi hi2
        rw [elemCopy_eq w' hi]
        have h1 := idx_le (s := a.size) hi
        have h2 : a.length * a.size ≤ i * a.size := Nat.mul_le_mul_right _ hi2
        congr 1
        apply List.ext_getElem?
        intro k
        have htl : ((realloc junk m (len * a.size)).take (a.length * a.size)).length = a.length * a.size := by rw [List.length_take, hrl]; omega
        simp only [elem, Option.getD_some, m', List.getElem?_take, List.getElem?_drop]
        split
        · rw [List.append_assoc, List.getElem?_append_right (by omega), htl, List.getElem?_append_left (by simp only [calloc, List.length_replicate]; omega)]
          simp only [calloc]
          rw [List.getElem?_replicate, List.getElem?_replicate, if_pos (by omega), if_pos (by omega)]
        · rw [List.getElem?_replicate, if_neg (by omega)]
    · rw [if_neg hg]
      have hle : len * a.size ≤ a.length * a.size := Nat.mul_le_mul_right _ (by omega)
      have w' : WF { a with data := some (realloc junk m (len * a.size)), length := len } :=
        ⟨hs, hb, fun q hq => by cases hq; exact hrl _, by simp; omega⟩
      refine ⟨_, rfl, w', rfl, rfl, ?_, fun i hi hi2 => by omega⟩
      intro i hi hi2
      rw [elemCopy_eq w' hi, elemCopy_eq w hi2]
      have h1 := idx_le (s := a.size) hi
      congr 1
      apply List.ext_getElem?
      intro k
      simp only [elem, Option.getD_some, hm, List.getElem?_take, List.getElem?_drop]
      split
      · rw [hrp _ _ (by omega) (by omega)]
      · rfl

/-- **C27 (resize to 0)** aborts. -/
theorem c27_resize_zero (a : Arr) (junk : Nat → Byte) : resize junk a 0 = .abort := rfl

/-- **C27 (copy).** The copy has the requested length; elements of the common prefix are equal, the rest are zero. The copy has its own block (a value
here), so later changes of either do not affect the other. -/
theorem c27_copy {a : Arr} (w : WF a) {len : Nat} (hb : len * a.size < 2 ^ 64) :
    ∃ c, copy a len = .ok c ∧ WF c ∧ c.length = len ∧ c.size = a.size ∧ (∀ i, i < len → i < a.length → elemCopy c i = elemCopy a i) ∧
      ∀ i, i < len → a.length ≤ i → elemCopy c i = .ok (List.replicate a.size 0) := by
  obtain ⟨c, e1, wc, l1, s1, z1⟩ := c27_new len a.size w.size hb
  rw [copy, e1]
  simp only [Outcome.ok_bind]
  by_cases h : a.length > 0 ∧ c.length > 0
  · rw [if_pos (by simp [h])]
    obtain ⟨ma, ha, hal⟩ := w.some h.1
    obtain ⟨mc, hc, hcl⟩ := wc.some h.2
    have hsm := w.small
    have hmin : min a.length c.length * c.size ≤ a.length * a.size ∧ min a.length c.length * c.size ≤ c.length * c.size :=
      ⟨by rw [s1]; exact Nat.mul_le_mul_right _ (by omega), Nat.mul_le_mul_right _ (by omega)⟩
    rw [ha, hc]
    simp only
    generalize hn : min a.length c.length * c.size = n at hmin
    rw [sz_lt (by omega), slice_ok (by omega)]
    simp only [Outcome.ok_bind, List.drop_zero]
    have htl : (ma.take n).length = n := by rw [List.length_take]; omega
    rw [blit_ok (by omega)]
    simp only [Outcome.ok_bind, Outcome.pure_eq, List.take_zero, List.nil_append, htl, Nat.zero_add]
    have hl' : (ma.take n ++ mc.drop n).length = c.length * c.size := by simp only [List.length_append, List.length_drop, htl]; omega
    have w' : WF { c with data := some (ma.take n ++ mc.drop n) } := ⟨wc.size, wc.small, fun q hq => by cases hq; exact hl', by simp; omega⟩
    refine ⟨_, rfl, w', l1, s1, ?_, ?_⟩
    · intro i hi hi2
      have hic : i < c.length := by omega
      rw [elemCopy_eq w' hic, elemCopy_eq w hi2]
      have h1 : (i + 1) * c.size ≤ n := by rw [← hn]; exact Nat.mul_le_mul_right _ (by omega)
      rw [Nat.add_mul] at h1
      congr 1
      apply List.ext_getElem?
      intro k
      simp only [elem, Option.getD_some, ha, List.getElem?_take, List.getElem?_drop, s1] at h1 ⊢
      split
      · rw [List.getElem?_append_left (by omega), List.getElem?_take, if_pos (by omega)]
      · rfl
    · intro i hi hi2
      have hic : i < c.length := by omega
      have hz := z1 i hi
      rw [elemCopy_eq wc hic] at hz
      rw [elemCopy_eq w' hic, ← hz]
      have h1 : n ≤ i * c.size := by rw [← hn]; exact Nat.mul_le_mul_right _ (by omega)
      congr 1
      apply List.ext_getElem?
      intro k
      simp only [elem, Option.getD_some, hc, List.getElem?_take, List.getElem?_drop]
      split
      · rw [List.getElem?_append_right (by omega), htl, List.getElem?_drop]; congr 1; omega
      · rfl
  · rw [if_neg (by simpa using fun h1 => by have := fun h2 => h ⟨h1, h2⟩; omega)]
    refine ⟨c, rfl, wc, l1, s1, fun i hi hi2 => absurd ⟨by omega, by omega⟩ h, ?_⟩
    intro i hi _; exact z1 i hi

/-- **C27 (with).** An array made from a caller's block holds the block's elements. -/
theorem c27_with {d : List Byte} {len size : Nat} (hl : 0 < len) (hs : 0 < size) (hd : d.length = len * size) (hb : len * size < 2 ^ 64) (cp : Bool) :
    withData (some d) len size cp = .ok ⟨len, size, some d⟩ ∧ WF ⟨len, size, some d⟩ := by
  refine ⟨?_, ⟨hs, hb, fun q hq => by cases hq; exact hd, by simp; omega⟩⟩
  cases cp
  · simp [withData, setData, repInit, hl, hs]
  · simp only [withData, setData, if_true, repInit, Option.isSome_some, hl, decide_true, Bool.and_self, Bool.true_or, hs, Outcome.ok_bind]
    rw [sz_lt hb, slice_ok (by omega)]
    simp only [Outcome.ok_bind, List.drop_zero]
    rw [List.take_of_length_le (by omega), blit_ok (by simp [calloc]; omega)]
    simp [calloc, hd]

/-- **C27 (C strings).** The array of a C string has one byte elements, which are the characters of the string. -/
theorem c27_with_cstr {s rest : List Byte} (h0 : ∀ b ∈ s, b ≠ 0) (hne : s ≠ []) (hb : s.length < 2 ^ 64) :
    ∃ a, withCstr (s ++ 0 :: rest) = .ok a ∧ WF a ∧ a.length = s.length ∧ a.size = 1 ∧ a.data = some s ∧ ∀ i (hi : i < s.length), elemCopy a i = .ok [s[i]] := by
  have hl : 0 < s.length := List.length_pos_iff.2 hne
  have w : WF ⟨s.length, 1, some s⟩ := ⟨by simp, by simpa using hb, fun m hm => by cases hm; simp, by simp; omega⟩
  refine ⟨⟨s.length, 1, some s⟩, ?_, w, rfl, rfl, rfl, fun i hi => ?_⟩
  · rw [withCstr, strlen_eq s rest h0, Outcome.ok_bind]
    simp only [withData, setData, if_true, repInit, Option.isSome_some, hl, decide_true, Bool.and_self, Bool.true_or, Nat.one_pos, Outcome.ok_bind]
    rw [Nat.mul_one, sz_lt hb, slice_ok (by simp)]
    simp only [Outcome.ok_bind, List.drop_zero]
    rw [List.take_left' rfl, blit_ok (by simp [calloc])]
    simp [calloc]
  · rw [elemCopy_eq w hi, elem]
    simp only [Option.getD_some, Nat.mul_one]
    rw [List.drop_eq_getElem_cons hi, List.take_succ_cons, List.take_zero]

/-- Finding: the array of an empty C string (and any copying construction of length 0) aborts. -/
theorem with_cstr_empty_aborts (rest : List Byte) : withCstr (0 :: rest) = .abort := by simp [withCstr, strlen, withData, setData, repInit]

/-- Finding: `zt_array_new` does not check `len * size` for overflow; the array of `2^61 + 1` elements of 8 bytes has a block of 8 bytes, and storing
at the valid index 1 leaves it. -/
theorem new_overflow : ∃ a, new (2 ^ 61 + 1) 8 = .ok a ∧ 1 < a.length ∧ put a 1 (List.replicate 8 0) = .ub := by
  refine ⟨⟨2 ^ 61 + 1, 8, some (calloc 8)⟩, by decide +kernel, by decide, by decide +kernel⟩

/-- Finding: `zt_array_set_length` beyond the block makes valid-looking indices leave it. -/
theorem set_length_beyond {a : Arr} (w : WF a) (h : 0 < a.length) : elemCopy (setLength a (a.length + 1)).2 a.length = .ub := by
  obtain ⟨m, hm, hl⟩ := w.some h
  have hs := w.size
  have h2 := w.small
  simp only [setLength, elemCopy, hm]
  rw [if_pos (by simp), sz_lt h2, slice_ub (by omega)]

example : WF ⟨2, 3, some [1, 2, 3, 4, 5, 6]⟩ := ⟨by decide, by decide, fun m hm => by cases hm; rfl, by simp⟩

end ZT.Arr
