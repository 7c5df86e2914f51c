import Verif.Cstr.Paths

/-!
# C143: copying and naming within one block

zt_cstr_copy, zt_cstr_basename and zt_cstr_dirname with the string at offset `a` of a block `m` and the destination at offset `o` of the same block.
-/

namespace ZT.Cstr

/-! ## Model -/

/-- `memcpy(m + o, m + s, n)`: undefined if the two ranges overlap (C11 7.24.2.1). -/
def memcpyIn (m : List Byte) (o s n : Nat) : Outcome (List Byte) :=
  if o + n ≤ m.length ∧ s + n ≤ m.length ∧ (n = 0 ∨ o + n ≤ s ∨ s + n ≤ o) then .ok (m.take o ++ (m.drop s).take n ++ m.drop (o + n)) else .ub

/-- zt_cstr.c 885-896 `zt_cstr_copy(m + a, i, j, m + o, len)`. -/
def copyIn (m : List Byte) (a : Nat) (i j : Int) (o len : Nat) : Outcome (Nat × List Byte) := do
  let (i, j) ← convert (m.drop a) i j
  let flen ← idxlen i j
  let min := if flen < len then flen else len
  if i < 0 then .ub
  else do
    let m ← memcpyIn m o (a + i.toNat) min
    pure (min, m)

/-- `memset(m + o, 0, n)` -/
def memsetIn (m : List Byte) (o n : Nat) : Outcome (List Byte) := if o + n ≤ m.length then .ok (m.take o ++ List.replicate n 0 ++ m.drop (o + n)) else .ub

/-- zt_cstr.c 602-629 `zt_cstr_basename(m + o, len, m + a, suffix)`. -/
def basenameIn (m : List Byte) (o len a : Nat) (suffix : Option (List Byte)) : Outcome (List Byte) := do
  let m ← memsetIn m o len
  let start ← baseStart (m.drop a)
  let e ← baseEnd (m.drop a) start suffix
  let (_, m) ← copyIn m a start e o len
  pure m

/-- zt_cstr.c 632-658 `zt_cstr_dirname(m + o, len, m + a)`. -/
def dirnameIn (m : List Byte) (o len a : Nat) : Outcome (List Byte) := do
  let m ← memsetIn m o len
  let n ← strlen (m.drop a)
  let p ← ptr (m.drop a) ((n : Int) - 1)
  let r ← strcmp p SEP
  let e ← rfind (m.drop a) 0 (if r = 0 then -2 else -1) SEP
  if e = -1 then do
    let (_, d) ← copy [46, 0] 0 (-1) (m.drop o) len
    pure (m.take o ++ d)
  else do
    let (_, m) ← copyIn m a 0 (e - 1) o len
    pure m

/-! ## Specification -/

/-- The block with `t` at offset `o`. -/
def placed (m : List Byte) (o : Nat) (t : List Byte) : List Byte := m.take o ++ t ++ m.drop (o + t.length)

/-! ## Proof -/

/-- **C143 (zt_cstr_copy).** The characters of the slice (at most `len`) appear at the destination and nothing else changes, if they lie outside the bytes written;
otherwise the behaviour is undefined. -/
theorem c143_copy {m s : List Byte} {a o len x y : Nat} (h : IsStr (m.drop a) s) (hs : s ≠ []) {i j : Int} (hb : bounds s.length i j = some (x, y)) (hl : o + len ≤ m.length) :
    copyIn m a i j o len =
      if min (y + 1 - x) len = 0 ∨ o + min (y + 1 - x) len ≤ a + x ∨ a + x + min (y + 1 - x) len ≤ o then .ok (min (y + 1 - x) len, placed m o ((chars s x y).take len)) else .ub := by
  have hn : 0 < s.length := List.length_pos_iff.2 hs
  have hab := bounds_some hn hb
  have hml := h.length
  simp only [List.length_drop] at hml
  rw [copyIn, convert_ok h hs hb]
  simp only [Outcome.ok_bind]
  rw [idxlen_eq hab.1]
  simp only [Outcome.ok_bind]
  rw [if_neg (by omega)]
  have hmin : (if y + 1 - x < len then y + 1 - x else len) = min (y + 1 - x) len := by split <;> omega
  rw [hmin, Int.toNat_natCast, memcpyIn]
  have hch : (m.drop (a + x)).take (min (y + 1 - x) len) = (chars s x y).take len := by
    rw [← h.chars hab.2, List.drop_drop, List.take_take]
    exact congrArg (fun k => List.take k (m.drop (a + x))) (by omega)
  have hlen : ((chars s x y).take len).length = min (y + 1 - x) len := by
    rw [← hch]; simp; omega
  by_cases hd : min (y + 1 - x) len = 0 ∨ o + min (y + 1 - x) len ≤ a + x ∨ a + x + min (y + 1 - x) len ≤ o
  · rw [if_pos ⟨by omega, by omega, hd⟩, if_pos hd, hch, placed, hlen]; rfl
  · rw [if_neg (fun c => hd c.2.2), if_neg hd]; rfl

theorem memset_ok {m : List Byte} {o n : Nat} (h : o + n ≤ m.length) : memsetIn m o n = .ok (placed m o (List.replicate n 0)) := by
  rw [memsetIn, if_pos h, placed, List.length_replicate]

theorem rfind_nothing {m mt str : List Byte} (h : IsStr m []) (ht : IsStr mt str) (i j : Int) : rfind m i j mt = .ok (-1) := by
  obtain ⟨_, rest, hm⟩ := h
  have h' : IsStr m [] := ⟨by simp, rest, hm⟩
  obtain ⟨h0, rest', hmt⟩ := ht
  have ht' : IsStr mt str := ⟨h0, rest', hmt⟩
  rw [rfind, convert_empty h']
  simp only [Outcome.ok_bind]
  rw [ht'.strlen]
  simp only [Outcome.ok_bind]
  by_cases h1 : str.length = 0
  · rw [if_pos h1]
  · rw [if_neg h1]
    by_cases h2 : str.length = 1
    · rw [if_pos h2, ht'.get (k := 0) (by omega)]
      simp only [Outcome.ok_bind]
      have hc : str[0] ≠ 0 := h0 _ (List.getElem_mem _)
      have hr : rounds 0 0 = 2 := rfl
      rw [hr, scanDown, if_pos (by omega)]
      have hrd : rdI m 0 = .ok 0 := by rw [hm]; rfl
      rw [hrd]
      simp only [Outcome.ok_bind]
      have hne : ((0 : Byte) == str[0]) = false := by simp; exact fun e => hc e.symm
      rw [hne]
      simp only [Bool.false_eq_true, if_false]
      rw [scanDown, if_neg (by omega)]
      simp only [Outcome.ok_bind]
      rw [findDown, if_neg (by omega)]
    · rw [if_neg h2]
      have hr : rounds 0 0 = 2 := rfl
      rw [hr, findDown, if_neg (by omega)]

/-- The string at `a` has become empty when the bytes from `o` on, with `a` among them, are zero. -/
theorem erased {m : List Byte} {o len a : Nat} (h1 : o ≤ a) (h2 : a < o + len) (hl : o + len ≤ m.length) : IsStr ((placed m o (List.replicate len 0)).drop a) [] := by
  refine ⟨by simp, (placed m o (List.replicate len 0)).drop (a + 1), ?_⟩
  have hlt : a < (placed m o (List.replicate len 0)).length := by simp [placed]; omega
  rw [List.drop_eq_getElem_cons hlt]
  have : (placed m o (List.replicate len 0))[a] = 0 := by
    have : (placed m o (List.replicate len 0))[a]? = some 0 := by
      rw [placed, List.getElem?_append_left (by simp; omega), List.getElem?_append_right (by simp; omega)]
      rw [List.getElem?_replicate, if_pos (by simp; omega)]
    rw [List.getElem?_eq_getElem hlt] at this
    exact Option.some.inj this
  rw [this]; rfl

theorem baseEnd_nothing {m : List Byte} (h : IsStr m []) (i : Int) (suffix : Option (List Byte)) (hx : ∀ ms, suffix = some ms → ∃ x, IsStr ms x) : baseEnd m i suffix = .ok (-1) := by
  cases suffix with
  | none => rfl
  | some ms =>
      obtain ⟨x, hx⟩ := hx ms rfl
      rw [baseEnd, rfind_nothing h hx]
      rfl

/-- **C143 (zt_cstr_basename loses the name).** If the first character of the path is among the `len` bytes of the destination, the path is erased before it is read:
whatever it was and whatever suffix is given, the destination ends up empty; with the destination at the path itself the behaviour is undefined. -/
theorem c143_basename_violation (m : List Byte) (o len a : Nat) (suffix : Option (List Byte)) (hx : ∀ ms, suffix = some ms → ∃ x, IsStr ms x) (h1 : o ≤ a) (h2 : a < o + len) (hl : o + len ≤ m.length) :
    basenameIn m o len a suffix = if o = a then .ub else .ok (placed m o (List.replicate len 0)) := by
  have he := erased h1 h2 hl
  rw [basenameIn, memset_ok hl]
  simp only [Outcome.ok_bind]
  rw [baseStart, rfind_nothing he isStr_sep]
  simp only [Outcome.ok_bind, Outcome.pure_eq, ne_eq, not_true_eq_false, if_false]
  rw [baseEnd_nothing he _ _ hx]
  simp only [Outcome.ok_bind]
  rw [copyIn, convert_empty he]
  simp only [Outcome.ok_bind]
  have hi : idxlen 0 0 = .ok 1 := by decide
  rw [hi]
  simp only [Outcome.ok_bind]
  have hmin : (if 1 < len then 1 else len) = 1 := by split <;> omega
  rw [hmin, if_neg (by omega), memcpyIn]
  have hlen : (placed m o (List.replicate len 0)).length = m.length := by simp [placed]; omega
  obtain ⟨_, rest, hr⟩ := he
  by_cases hoa : o = a
  · rw [if_neg (by omega), if_pos hoa]; rfl
  · rw [if_pos (by rw [hlen]; simp; omega), if_neg hoa]
    simp only [Outcome.ok_bind]
    congr 1
    simp only [Int.toNat_zero, Nat.add_zero]
    rw [hr]
    simp only [List.nil_append, List.take_succ_cons, List.take_zero]
    obtain ⟨k, rfl⟩ : ∃ k, len = k + 1 := ⟨len - 1, by omega⟩
    have ho : (m.take o).length = o := by simp; omega
    have h3 : (placed m o (List.replicate (k + 1) 0)).take o = m.take o := by
      rw [placed, List.append_assoc, List.take_append_of_le_length (by omega), List.take_take, Nat.min_self]
    have h4 : (placed m o (List.replicate (k + 1) 0)).drop (o + 1) = List.replicate k 0 ++ m.drop (o + (k + 1)) := by
      rw [placed, List.append_assoc, List.drop_append, List.drop_of_length_le (by omega), ho, List.replicate_succ]
      simp
    rw [h3, h4, placed]
    simp [List.replicate_succ]

/-- **C143 (zt_cstr_dirname).** In the same situation zt_cstr_dirname reads before the (now empty) path. -/
theorem c143_dirname_violation (m : List Byte) (o len a : Nat) (h1 : o ≤ a) (h2 : a < o + len) (hl : o + len ≤ m.length) : dirnameIn m o len a = .ub := by
  have he := erased h1 h2 hl
  rw [dirnameIn, memset_ok hl]
  simp only [Outcome.ok_bind]
  rw [he.strlen]
  rfl

/-- A string is not changed by what happens before it or behind its terminator. -/
theorem IsStr.placed {m s t : List Byte} {a o : Nat} (h : IsStr (m.drop a) s) (hl : o + t.length ≤ m.length) (hd : o + t.length ≤ a ∨ a + s.length < o) : IsStr ((placed m o t).drop a) s := by
  obtain ⟨h0, rest, hr⟩ := h
  refine ⟨h0, ((ZT.Cstr.placed m o t).drop a).drop (s.length + 1), ?_⟩
  have key : ((ZT.Cstr.placed m o t).drop a).take (s.length + 1) = s ++ [0] := by
    have hs : (m.drop a).take (s.length + 1) = s ++ [0] := by rw [hr, show s ++ 0 :: rest = (s ++ [0]) ++ rest by simp, List.take_left' (by simp)]
    rw [← hs]
    apply List.ext_getElem?
    intro k
    simp only [List.getElem?_take, List.getElem?_drop]
    split
    · rename_i hk
      rw [ZT.Cstr.placed]
      rcases hd with hd | hd
      · rw [List.getElem?_append_right (by simp; omega), List.getElem?_drop]
        congr 1; simp; omega
      · rw [List.append_assoc, List.getElem?_append_left (by simp; omega), List.getElem?_take, if_pos (by omega)]
    · rfl
  have := List.take_append_drop (s.length + 1) ((ZT.Cstr.placed m o t).drop a)
  rw [key] at this
  rw [← this]; simp

/-- The destination as C42 describes it: the name, then zeros. -/
theorem placed_twice {m t : List Byte} {o len : Nat} (hl : o + len ≤ m.length) (ht : t.length ≤ len) :
    placed (placed m o (List.replicate len 0)) o t = placed m o (t ++ List.replicate (len - t.length) 0) := by
  have ho : (m.take o).length = o := by simp; omega
  unfold placed
  rw [List.append_assoc, List.append_assoc, List.take_append_of_le_length (by omega), List.take_take, Nat.min_self]
  rw [List.drop_append, ho, List.drop_of_length_le (by omega), show o + t.length - o = t.length by omega, List.nil_append]
  rw [List.drop_append, List.drop_replicate, List.length_replicate, show t.length - len = 0 by omega, List.drop_zero]
  simp [show t.length + (len - t.length) = len by omega]

/-- **C143 (zt_cstr_basename, separate parts of one block).** With the whole destination before the path or behind its terminator, zt_cstr_basename puts the last
component into the destination and fills up with zeros; the rest of the block, and so the path, is unchanged. -/
theorem c143_basename {m s d b : List Byte} {o len a : Nat} (h : IsStr (m.drop a) s) (hs : Splits s d b) (hl : o + len ≤ m.length) (hd : o + len ≤ a ∨ a + s.length < o) (hfit : b.length ≤ len) :
    basenameIn m o len a none = .ok (placed m o (b ++ List.replicate (len - b.length) 0)) := by
  have h' := h.placed (t := List.replicate len 0) (by simpa using hl) (by simpa using hd)
  have hs' := hs
  obtain ⟨hsd, _, _, hb⟩ := hs
  have hbl : 0 < b.length := List.length_pos_iff.2 hb
  have hsl : s.length = d.length + b.length := by rw [hsd]; simp
  have hne : s ≠ [] := fun e => by rw [e] at hsl; simp at hsl; omega
  rw [basenameIn, memset_ok hl]
  simp only [Outcome.ok_bind]
  rw [baseStart_ok h' hs']
  simp only [Outcome.ok_bind, baseEnd]
  have hbd : bounds s.length (d.length : Int) (-1) = some (d.length, s.length - 1) := bounds_all (by omega)
  have hlen : (placed m o (List.replicate len 0)).length = m.length := by simp [placed]; omega
  have hch : chars s d.length (s.length - 1) = b := by rw [chars_all hne, hsd]; simp
  rw [c143_copy h' hne hbd (by omega), hch, if_pos (by omega)]
  simp only [Outcome.ok_bind]
  rw [List.take_of_length_le hfit, placed_twice hl hfit]
  rfl

/-- **C143 (zt_cstr_dirname, separate parts of one block).** In the same situation zt_cstr_dirname puts what precedes the last component into the destination. -/
theorem c143_dirname {m s d b tail : List Byte} {o len a : Nat} (h : IsStr (m.drop a) s) (hs : s = d ++ 47 :: (b ++ tail)) (hd : d ≠ []) (hb : (47 : Byte) ∉ b) (ht : (b ≠ [] ∧ tail = []) ∨ tail = [47])
    (hl : o + len ≤ m.length) (hsep : o + len ≤ a ∨ a + s.length < o) (hfit : d.length ≤ len) :
    dirnameIn m o len a = .ok (placed m o (d ++ List.replicate (len - d.length) 0)) := by
  have h' := h.placed (t := List.replicate len 0) (by simpa using hl) (by simpa using hsep)
  have hdl : 0 < d.length := List.length_pos_iff.2 hd
  have hsl : s.length = d.length + (b.length + tail.length + 1) := by rw [hs]; simp
  have hne : s ≠ [] := fun e => by rw [e] at hsl; simp at hsl
  have hml := h'.length
  have hlen : (placed m o (List.replicate len 0)).length = m.length := by simp [placed]; omega
  obtain ⟨r, er, hr⟩ := endsSep h' hne
  have hbd : bounds s.length 0 ((d.length : Int) - 1) = some (0, d.length - 1) := by
    rw [show (d.length : Int) - 1 = ((d.length - 1 : Nat) : Int) by omega]
    exact bounds_of (i := 0) (position_nat (k := 0) (by omega)) (position_nat (k := d.length - 1) (by omega)) (by omega)
  have hch : chars s 0 (d.length - 1) = d := by rw [chars, hs, show d.length - 1 + 1 = d.length by omega, List.take_left]; rfl
  have hat : s[d.length]? = some 47 := by rw [hs, List.getElem?_append_right (by omega)]; simp
  have hlater : ∀ k', d.length < k' → k' ≤ d.length + b.length → s[k']? ≠ some 47 := by
    intro k' h1 h2 e
    rw [hs, List.getElem?_append_right (by omega), show k' - d.length = (k' - d.length - 1) + 1 by omega, List.getElem?_cons_succ, List.getElem?_append_left (by omega)] at e
    exact hb (List.mem_of_getElem? e)
  have hfind : rfind ((placed m o (List.replicate len 0)).drop a) 0 (if r = 0 then -2 else -1) SEP = .ok (d.length : Int) := by
    rcases ht with ⟨hbne, ht⟩ | ht
    · have hr0 : r ≠ 0 := by
        rw [Ne, hr, List.getLast?_eq_getElem?]
        subst ht
        have := List.length_pos_iff.2 hbne
        exact hlater _ (by simp at hsl; omega) (by simp at hsl; omega)
      rw [if_neg hr0]
      subst ht
      simp at hsl
      exact (rfind_sep h' hne (bounds_all (a := 0) (by omega))).1 d.length (by omega) hat (fun k' h1 h2 => hlater k' h1 (by omega))
    · have hr0 : r = 0 := by
        rw [hr, hs, ht, show d ++ 47 :: (b ++ [47]) = (d ++ 47 :: b) ++ [47] by simp]
        exact List.getLast?_concat
      rw [if_pos hr0]
      subst ht
      simp at hsl
      exact (rfind_sep h' hne (bounds_of (position_nat (k := 0) (by omega)) (position_neg (k := 2) (by omega) (by omega)) (by omega))).1 d.length (by omega) hat (fun k' h1 h2 => hlater k' h1 (by omega))
  rw [dirnameIn, memset_ok hl]
  simp only [Outcome.ok_bind]
  rw [h'.strlen]
  simp only [Outcome.ok_bind]
  rw [show ((s.length : Int) - 1) = ((s.length - 1 : Nat) : Int) by omega, ptr_nat (by omega)]
  simp only [Outcome.ok_bind]
  rw [er]
  simp only [Outcome.ok_bind]
  rw [hfind]
  simp only [Outcome.ok_bind]
  rw [if_neg (by omega), c143_copy h' hne hbd (by omega), hch, if_pos (by omega)]
  simp only [Outcome.ok_bind]
  rw [List.take_of_length_le hfit, placed_twice hl hfit]
  rfl

/-- The hypotheses are met: the path "a/b" at offset 4 with the destination before it, and onto itself. -/
example : basenameIn [7, 7, 7, 7, 97, 47, 98, 0] 0 4 4 none = .ok [98, 0, 0, 0, 97, 47, 98, 0] ∧ basenameIn [97, 47, 98, 0] 0 4 0 none = .ub ∧
    basenameIn [7, 97, 47, 98, 0] 0 4 1 none = .ok [0, 0, 0, 0, 0] := by decide +kernel

end ZT.Cstr
