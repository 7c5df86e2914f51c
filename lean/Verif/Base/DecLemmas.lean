import Verif.Base.TableLemmas

/-! # Helper lemmas for the decoder -/

namespace ZT.Base

open Spec

theorem dictAt_eq (k : Kind) (c : Byte) :
    dictAt k.toDef c = .ok (dictVal k c) := by
  have h := dict_table k ⟨c.toNat, toNat_lt c⟩
  simp only [UInt8.ofNat_toNat] at h
  simp [dictAt, h]

theorem idxOf?_lt (l : List Byte) (c : Byte) (i : Nat) (h : l.idxOf? c = some i) : i < l.length := by
  have := List.of_findIdx?_eq_some (by simpa [List.idxOf?] using h)
  by_cases hl : i < l.length
  · exact hl
  · simp [List.getElem?_eq_none (Nat.le_of_not_lt hl)] at this

theorem digitOf_lt (k : Kind) (c : Byte) (i : Nat) (h : digitOf k c = some i) : i < 2 ^ bits k := by
  rw [← alphabet_len]; exact idxOf?_lt _ _ _ h

theorem digitsOf_lt (k : Kind) (t : List Byte) : ∀ d ∈ digitsOf k t, d < 2 ^ bits k := by
  intro d hd
  simp only [digitsOf, List.mem_filterMap] at hd
  obtain ⟨c, _, hc⟩ := hd
  exact digitOf_lt k c d hc

/-- Bytes emitted and left-over digits when digits `ds` arrive with `buf` pending. -/
def emitted (size : Nat) (full : List Nat → List Byte) : List Nat → List Nat → List Byte × List Nat
  | buf, [] => ([], buf)
  | buf, x :: ds =>
    if (buf ++ [x]).length = size then
      let r := emitted size full [] ds
      (full (buf ++ [x]) ++ r.1, r.2)
    else emitted size full (buf ++ [x]) ds

/-- Characters accepted by the decoder. -/
def okChar (k : Kind) (c : Byte) : Bool := (digitOf k c).isSome || ignorable c

theorem decodeLoop_eq (k : Kind) (size : Nat) (full : List Nat → List Byte) (t : List Byte) (s : DState)
    (hcap : s.o.data.length + (emitted size full s.buf (digitsOf k (t.takeWhile (okChar k)))).1.length ≤ s.o.cap) :
    decodeLoop k.toDef size full t s =
      .ok (⟨(emitted size full s.buf (digitsOf k (t.takeWhile (okChar k)))).2,
            { s.o with data := s.o.data ++ (emitted size full s.buf (digitsOf k (t.takeWhile (okChar k)))).1 },
            s.obytes + (emitted size full s.buf (digitsOf k (t.takeWhile (okChar k)))).1.length⟩, clean k t) := by
  induction t generalizing s with
  | nil => simp [decodeLoop, digitsOf, emitted, clean]
  | cons c cs ih =>
    rw [decodeLoop, dictAt_eq]
    simp only [Outcome.ok_bind, dictVal]
    cases hd : digitOf k c with
    | some i =>
      have hok : okChar k c = true := by simp [okChar, hd]
      have hcl : clean k (c :: cs) = clean k cs := by simp [clean, hd]
      have hds : digitsOf k ((c :: cs).takeWhile (okChar k)) = i :: digitsOf k (cs.takeWhile (okChar k)) := by
        simp [digitsOf, List.takeWhile_cons, hok, hd]
      rw [hds] at hcap ⊢
      simp only [emitted] at hcap ⊢
      simp only [ge_iff_le, Int.natCast_nonneg, if_true, Int.toNat_natCast]
      by_cases hsz : (s.buf ++ [i]).length = size
      · simp only [hsz, if_true] at hcap ⊢
        simp only [List.length_append] at hcap
        rw [stores_ok _ _ (by omega)]
        simp only [Outcome.ok_bind]
        rw [ih _ (by simp; omega), hcl]
        simp [Nat.add_assoc]
      · simp only [hsz, if_false] at hcap ⊢
        rw [ih _ (by simpa using hcap), hcl]
    | none =>
      by_cases hig : ignorable c = true
      · have hok : okChar k c = true := by simp [okChar, hig]
        have hcl : clean k (c :: cs) = clean k cs := by simp [clean, hig]
        have hds : digitsOf k ((c :: cs).takeWhile (okChar k)) = digitsOf k (cs.takeWhile (okChar k)) := by
          simp [digitsOf, List.takeWhile_cons, hok, hd]
        rw [hds] at hcap ⊢
        simp only [hig, if_true]
        rw [if_neg (by decide), if_neg (by decide), ih _ hcap, hcl]
      · have hok : okChar k c = false := by simp [okChar, hd, hig]
        have hcl : clean k (c :: cs) = false := by simp [clean, hd, hig]
        simp [hig, List.takeWhile_cons, hok, digitsOf, emitted, hcl]

theorem emitted_short (size : Nat) (full : List Nat → List Byte) (buf ds : List Nat)
    (h : buf.length + ds.length < size) : emitted size full buf ds = ([], buf ++ ds) := by
  induction ds generalizing buf with
  | nil => simp [emitted]
  | cons x ds ih =>
    simp only [List.length_cons] at h
    have : ¬ (buf ++ [x]).length = size := by simp; omega
    simp only [emitted, this, if_false]
    rw [ih _ (by simp; omega)]
    simp

theorem emitted_long (size : Nat) (full : List Nat → List Byte) (buf ds : List Nat)
    (hb : buf.length < size) (h : size ≤ buf.length + ds.length) :
    emitted size full buf ds =
      (full ((buf ++ ds).take size) ++ (emitted size full [] ((buf ++ ds).drop size)).1,
       (emitted size full [] ((buf ++ ds).drop size)).2) := by
  induction ds generalizing buf with
  | nil => simp at h; omega
  | cons x ds ih =>
    simp only [List.length_cons] at h
    by_cases hs : (buf ++ [x]).length = size
    · simp only [emitted, hs, if_true]
      have e : buf ++ x :: ds = (buf ++ [x]) ++ ds := by simp
      rw [e, List.take_append_of_le_length (by omega), List.take_of_length_le (by omega),
        List.drop_append_of_le_length (by omega), List.drop_eq_nil_of_le (by omega), List.nil_append]
    · simp only [emitted, hs, if_false]
      rw [ih _ (by simp at hs ⊢; omega) (by simp; omega)]
      simp

theorem emitted_step (size : Nat) (full : List Nat → List Byte) (ds : List Nat) (hs : 0 < size)
    (h : size ≤ ds.length) :
    emitted size full [] ds = (full (ds.take size) ++ (emitted size full [] (ds.drop size)).1,
       (emitted size full [] (ds.drop size)).2) := by
  have := emitted_long size full [] ds (by simpa using hs) (by simpa using h)
  simpa using this

theorem decDigits_nil (k : Kind) : decDigits k [] = [] := by rw [decDigits]; simp

theorem decDigits_step (k : Kind) (ds : List Nat) (h : ds ≠ []) :
    decDigits k ds = decGroup k (ds.take (og k)) ++ decDigits k (ds.drop (og k)) := by
  rw [decDigits]; simp [h]

/-- The group-complete statements of each decoder. -/
def fullOf (k : Kind) : List Nat → List Byte :=
  match bits k with
  | 6 => full64
  | 5 => full32
  | _ => full16

theorem ofNat_mod (a b : Nat) (h : a % 256 = b % 256) : UInt8.ofNat a = UInt8.ofNat b := by
  apply UInt8.toNat_inj.mp; simpa using h

theorem full64_eq (k : Kind) (hk : is64 k) (b0 b1 b2 b3 : Nat) (h0 : b0 < 64) (h1 : b1 < 64) (h2 : b2 < 64)
    (h3 : b3 < 64) : full64 [b0, b1, b2, b3] = decGroup k [b0, b1, b2, b3] := by
  have ⟨hi, ho⟩ := is64_ig hk
  have hb : bits k = 6 := hk
  have hc : carried k 4 = 3 := by simp [carried, hb]
  simp only [full64, decGroup, hi, ho, hb, hc, List.length_cons, List.length_nil, Nat.sub_self,
    List.replicate_zero, List.append_nil, digits, num, List.foldl, List.nil_append, List.cons_append,
    List.map_cons, List.map_nil, List.take_succ_cons, List.take_zero, List.cons.injEq, and_true]
  rw [and15, and3, shl, shr, shl, shr, shl, or_add _ _ 2 (by omega), or_add _ _ 4 (by omega),
    or_add _ _ 6 (by omega)]
  refine ⟨?_, ?_, ?_⟩ <;> apply ofNat_mod <;> omega

theorem full32_eq (k : Kind) (hk : is32 k) (b0 b1 b2 b3 b4 b5 b6 b7 : Nat) (h0 : b0 < 32) (h1 : b1 < 32)
    (h2 : b2 < 32) (h3 : b3 < 32) (h4 : b4 < 32) (h5 : b5 < 32) (h6 : b6 < 32) (h7 : b7 < 32) :
    full32 [b0, b1, b2, b3, b4, b5, b6, b7] = decGroup k [b0, b1, b2, b3, b4, b5, b6, b7] := by
  have ⟨hi, ho⟩ := is32_ig hk
  have hb : bits k = 5 := hk
  have hc : carried k 8 = 5 := by simp [carried, hb]
  simp only [full32, decGroup, hi, ho, hb, hc, List.length_cons, List.length_nil, Nat.sub_self,
    List.replicate_zero, List.append_nil, digits, num, List.foldl, List.nil_append, List.cons_append,
    List.map_cons, List.map_nil, List.take_succ_cons, List.take_zero, List.cons.injEq, and_true]
  simp only [shl, shr]
  rw [or_add b0 _ 3 (by omega), or_add b1 _ 6 (by omega), or_add b3 _ 4 (by omega), or_add b4 _ 7 (by omega),
    or_add b6 _ 5 (by omega),
    show b1 * 2 ^ 6 + b2 * 2 ^ 1 = (b1 * 32 + b2) * 2 ^ 1 by omega,
    show b4 * 2 ^ 7 + b5 * 2 ^ 2 = (b4 * 32 + b5) * 2 ^ 2 by omega,
    or_add _ _ 1 (by omega), or_add _ _ 2 (by omega)]
  refine ⟨?_, ?_, ?_, ?_, ?_⟩ <;> apply ofNat_mod <;> omega

theorem full16_eq (k : Kind) (hk : is16 k) (b0 b1 : Nat) (h0 : b0 < 16) (h1 : b1 < 16) :
    full16 [b0, b1] = decGroup k [b0, b1] := by
  have ⟨hi, ho⟩ := is16_ig hk
  have hb : bits k = 4 := hk
  have hc : carried k 2 = 1 := by simp [carried, hb]
  simp only [full16, decGroup, hi, ho, hb, hc, List.length_cons, List.length_nil, Nat.sub_self,
    List.replicate_zero, List.append_nil, digits, num, List.foldl, List.nil_append, List.cons_append,
    List.map_cons, List.map_nil, List.take_succ_cons, List.take_zero, List.cons.injEq, and_true]
  rw [shl, or_add _ _ 4 (by omega)]
  apply ofNat_mod; omega

theorem fullOf_eq (k : Kind) (g : List Nat) (hl : g.length = og k) (hd : ∀ d ∈ g, d < 2 ^ bits k) :
    fullOf k g = decGroup k g := by
  rcases kind_cases k with hk | hk | hk
  · have hb : bits k = 6 := hk
    rw [(is64_ig hk).2] at hl
    rw [hb] at hd
    match g, hl with
    | [b0, b1, b2, b3], _ =>
      simp only [fullOf, hb]
      exact full64_eq k hk _ _ _ _ (hd _ (by simp)) (hd _ (by simp)) (hd _ (by simp)) (hd _ (by simp))
  · have hb : bits k = 5 := hk
    rw [(is32_ig hk).2] at hl
    rw [hb] at hd
    match g, hl with
    | [b0, b1, b2, b3, b4, b5, b6, b7], _ =>
      simp only [fullOf, hb]
      exact full32_eq k hk _ _ _ _ _ _ _ _ (hd _ (by simp)) (hd _ (by simp)) (hd _ (by simp)) (hd _ (by simp))
        (hd _ (by simp)) (hd _ (by simp)) (hd _ (by simp)) (hd _ (by simp))
  · have hb : bits k = 4 := hk
    rw [(is16_ig hk).2] at hl
    rw [hb] at hd
    match g, hl with
    | [b0, b1], _ =>
      simp only [fullOf, hb]
      exact full16_eq k hk _ _ (hd _ (by simp)) (hd _ (by simp))

theorem emitted_eq (k : Kind) (ds : List Nat) (hd : ∀ d ∈ ds, d < 2 ^ bits k) :
    emitted (og k) (fullOf k) [] ds =
      (decDigits k (ds.take (ds.length / og k * og k)), ds.drop (ds.length / og k * og k)) := by
  have hop := og_pos k
  by_cases hs : ds.length < og k
  · rw [emitted_short _ _ _ _ (by simpa using hs), Nat.div_eq_of_lt hs]
    simp [decDigits_nil]
  · have hle : og k ≤ ds.length := by omega
    have hq : ds.length / og k = (ds.length - og k) / og k + 1 := by
      rw [Nat.div_eq_sub_div hop hle]
    have hne : ds.take (ds.length / og k * og k) ≠ [] := by
      intro h
      have := congrArg List.length h
      rw [List.length_take, List.length_nil] at this
      have h2 : og k ≤ ds.length / og k * og k := by rw [hq, Nat.add_mul]; omega
      omega
    rw [emitted_step _ _ _ hop hle,
      emitted_eq k (ds.drop (og k)) (fun d h => hd d (List.mem_of_mem_drop h)),
      fullOf_eq k _ (by simp; omega) (fun d h => hd d (List.mem_of_mem_take h)),
      decDigits_step k _ hne]
    simp only [List.length_drop, List.take_take, List.drop_take, List.drop_drop]
    rw [hq, Nat.add_mul, Nat.one_mul, Nat.min_eq_left (by omega), Nat.add_sub_cancel, Nat.add_comm]
termination_by ds.length
decreasing_by simp; omega

theorem decDigits_append (k : Kind) (as bs : List Nat) (h : ∃ q, as.length = q * og k) :
    decDigits k (as ++ bs) = decDigits k as ++ decDigits k bs := by
  obtain ⟨q, hq⟩ := h
  induction q generalizing as with
  | zero =>
    have : as = [] := List.eq_nil_of_length_eq_zero (by simpa using hq)
    subst this; simp [decDigits_nil]
  | succ q ih =>
    have hop := og_pos k
    have hl : og k ≤ as.length := by rw [hq, Nat.add_mul]; omega
    have hne : as ≠ [] := by intro h; rw [h] at hl; simp at hl; omega
    rw [decDigits_step k (as ++ bs) (by simp [hne]), decDigits_step k as hne,
      List.take_append_of_le_length hl, List.drop_append_of_le_length hl, ih]
    · simp
    · rw [List.length_drop, hq, Nat.add_mul]; omega

theorem decGroup_length (k : Kind) (ds : List Nat) (h : ds.length ≤ og k) :
    (decGroup k ds).length = carried k ds.length := by
  simp only [decGroup, List.length_map, List.length_take, digits_length]
  have : carried k ds.length ≤ ig k := by
    cases k <;> simp only [carried, bits, og, ig] at * <;> omega
  omega

theorem decDigits_full_length (k : Kind) (q : Nat) (ds : List Nat) (h : ds.length = q * og k) :
    (decDigits k ds).length = q * ig k := by
  induction q generalizing ds with
  | zero =>
    have : ds = [] := List.eq_nil_of_length_eq_zero (by simpa using h)
    subst this; simp [decDigits_nil]
  | succ q ih =>
    have hop := og_pos k
    have hl : og k ≤ ds.length := by rw [h, Nat.add_mul]; omega
    have hne : ds ≠ [] := by intro h; rw [h] at hl; simp at hl; omega
    have hc : carried k (og k) = ig k := by cases k <;> decide
    rw [decDigits_step k ds hne, List.length_append, ih _ (by rw [List.length_drop, h, Nat.add_mul]; omega),
      decGroup_length k _ (by simp; omega), List.length_take, Nat.min_eq_left hl, hc, Nat.add_mul]
    omega

theorem decDigits_small (k : Kind) (ds : List Nat) (h : ds.length < og k) : decDigits k ds = decGroup k ds := by
  by_cases hz : ds = []
  · subst hz
    rw [decDigits_nil]
    apply List.eq_nil_of_length_eq_zero _ |>.symm
    rw [decGroup_length k _ (by simp)]; simp [carried]
  · rw [decDigits_step k ds hz, List.take_of_length_le (by omega), List.drop_eq_nil_of_le (by omega),
      decDigits_nil, List.append_nil]

/-- A digit string = whole groups followed by the left-over digits. -/
theorem decDigits_split (k : Kind) (ds : List Nat) :
    decDigits k ds = decDigits k (ds.take (ds.length / og k * og k)) ++
      decGroup k (ds.drop (ds.length / og k * og k)) := by
  have hop := og_pos k
  have hle : ds.length / og k * og k ≤ ds.length := Nat.div_mul_le_self _ _
  conv => lhs; rw [← List.take_append_drop (ds.length / og k * og k) ds]
  rw [decDigits_append k _ _ ⟨ds.length / og k, by simp; omega⟩, ← decDigits_small]
  rw [List.length_drop]
  have := Nat.mod_lt ds.length hop
  have := Nat.div_add_mod' ds.length (og k)
  omega

theorem decDigits_length (k : Kind) (ds : List Nat) :
    (decDigits k ds).length = ds.length / og k * ig k + carried k (ds.length % og k) := by
  have hop := og_pos k
  have hle : ds.length / og k * og k ≤ ds.length := Nat.div_mul_le_self _ _
  have hm := Nat.mod_lt ds.length hop
  have hdm := Nat.div_add_mod' ds.length (og k)
  rw [decDigits_split, List.length_append, decDigits_full_length k (ds.length / og k) _ (by simp; omega),
    decGroup_length k _ (by simp; omega), List.length_drop]
  congr 2
  omega

/-! ## The size estimate of the decoder -/

theorem stripLoop_le (pad : Byte) (l : List Byte) (n : Nat) :
    stripLoop pad l n ≤ n + l.countP (· == pad) := by
  induction l generalizing n with
  | nil => simp [stripLoop]
  | cons c cs ih =>
    cases cs with
    | nil => simp [stripLoop]
    | cons c' cs =>
      rw [stripLoop]
      case x_2 => simp
      split
      · omega
      · rename_i hc
        have := ih (n + 1)
        rw [List.countP_cons]
        simp at hc
        simp [hc] at this ⊢
        omega

theorem digitOf_pad (k : Kind) : digitOf k 61 = none := by cases k <;> decide +kernel

theorem digitsOf_count (k : Kind) (t : List Byte) :
    (digitsOf k t).length + t.countP (· == 61) ≤ t.length := by
  induction t with
  | nil => simp [digitsOf]
  | cons c cs ih =>
    simp only [digitsOf] at ih ⊢
    rw [List.filterMap_cons, List.countP_cons, List.length_cons]
    by_cases hc : c = 61
    · subst hc
      rw [digitOf_pad]
      simp; omega
    · have : (c == 61) = false := by simpa using hc
      rw [this]
      cases digitOf k c <;> simp <;> omega

theorem sizes_mono (k : Kind) (n N : Nat) (h : n ≤ N) :
    n / og k * ig k + carried k (n % og k) ≤ N / og k * ig k + N % og k := by
  cases k <;> simp only [carried, og, ig, bits] <;> omega

/-- Every text's digits fit in the decoder's estimate. -/
theorem decodedCount_ge (k : Kind) (t : List Byte) (u : List Byte) (hu : (digitsOf k u).length ≤ (digitsOf k t).length) :
    (decDigits k (digitsOf k u)).length ≤ decodedCount k.toDef t := by
  have h1 := stripLoop_le k.toDef.pad t.reverse 0
  rw [pad_eq', List.countP_reverse] at h1
  have h2 := digitsOf_count k t
  rw [decDigits_length]
  simp only [decodedCount, ogroups_eq, igroups_eq, pad_eq']
  exact sizes_mono k _ _ (by omega)

theorem takeWhile_digits_le (k : Kind) (t : List Byte) :
    (digitsOf k (t.takeWhile (okChar k))).length ≤ (digitsOf k t).length := by
  have h : t = t.takeWhile (okChar k) ++ t.dropWhile (okChar k) := by simp
  have h2 := congrArg (fun l => (digitsOf k l).length) h
  simp only [digitsOf, List.filterMap_append, List.length_append] at h2 ⊢
  omega

theorem clean_takeWhile (k : Kind) (t : List Byte) (h : clean k t = true) : t.takeWhile (okChar k) = t := by
  induction t with
  | nil => rfl
  | cons c cs ih =>
    simp only [clean, List.all_cons, Bool.and_eq_true] at h
    rw [List.takeWhile_cons, if_pos (by simpa [okChar] using h.1), ih (by simpa [clean] using h.2)]

end ZT.Base
