import Verif.Table.Props2
import Verif.Hash.Props

/-!
# The shipped hash and comparison callbacks (C59) and tables with duplicate keys (C60)

`mem p` is the block of bytes at address `p`.
-/

namespace ZT.Table

/-- The object representation of a pointer variable (64-bit little endian). -/
def ptrBytes (p : Nat) : List Byte := (List.range 8).map fun i => UInt8.ofNat (p / 256 ^ i)

/-- zt_table.c 303-310 `zt_table_hash_int`: hashes `key_len` bytes of the pointer variable itself; beyond its 8 bytes: undefined. -/
def hashInt (k : Key) : Outcome ULong := do
  let h ← Hash.hash32Buff (ptrBytes k.1) k.2 Hash.INIT32
  pure (h.setWidth 64)

/-- `memcmp(a, b, n) == 0`. -/
def memcmp0 : Nat → List Byte → List Byte → Outcome Bool
  | 0, _, _ => .ok true
  | n + 1, a :: as, b :: bs => if a = b then memcmp0 n as bs else .ok false
  | _ + 1, _, _ => .ub

/-- `strncmp(a, b, n) == 0`. -/
def strncmp0 : Nat → List Byte → List Byte → Outcome Bool
  | 0, _, _ => .ok true
  | n + 1, a :: as, b :: bs => if a ≠ b then .ok false else if a = 0 then .ok true else strncmp0 n as bs
  | _ + 1, _, _ => .ub

/-- `tolower` in the C locale. -/
def lower (b : Byte) : Byte := if 65 ≤ b ∧ b ≤ 90 then b + 32 else b

/-- `strcasecmp(a, b) == 0`. -/
def strcasecmp0 : List Byte → List Byte → Outcome Bool
  | a :: as, b :: bs => if lower a ≠ lower b then .ok false else if a = 0 then .ok true else strcasecmp0 as bs
  | _, _ => .ub

/-- zt_table.c 312-321 `zt_table_compare_int`: compares the pointer variables. -/
def compareInt (k k' : Key) : Outcome Bool := if k.2 = k'.2 then memcmp0 k.2 (ptrBytes k.1) (ptrBytes k'.1) else .ok false

/-- zt_table.c 323-330 `zt_table_hash_string`. -/
def hashString (mem : Nat → List Byte) (k : Key) : Outcome ULong := do
  let h ← Hash.hash32Cstr (mem k.1) Hash.INIT32
  pure (h.setWidth 64)

/-- zt_table.c 332-341 `zt_table_compare_string`. -/
def compareString (mem : Nat → List Byte) (k k' : Key) : Outcome Bool := if k.2 = k'.2 then strncmp0 k.2 (mem k.1) (mem k'.1) else .ok false

/-- zt_table.c 343-350 `zt_table_compare_string_case`. -/
def compareStringCase (mem : Nat → List Byte) (k k' : Key) : Outcome Bool := strcasecmp0 (mem k.1) (mem k'.1)

/-- zt_table.c 352-359 `zt_table_hash_buff`. -/
def hashBuff (mem : Nat → List Byte) (k : Key) : Outcome ULong := do
  let h ← Hash.hash32Buff (mem k.1) k.2 Hash.INIT32
  pure (h.setWidth 64)

/-- zt_table.c 361-370 `zt_table_compare_buff` (it uses strncmp). -/
def compareBuff (mem : Nat → List Byte) (k k' : Key) : Outcome Bool := if k.2 = k'.2 then strncmp0 k.2 (mem k.1) (mem k'.1) else .ok false

theorem memcmp0_eq (n : Nat) (a b : List Byte) (ha : n ≤ a.length) (hb : n ≤ b.length) : memcmp0 n a b = .ok (decide (a.take n = b.take n)) := by
  induction n generalizing a b with
  | zero => simp [memcmp0]
  | succ n ih =>
      match a, b, ha, hb with
      | x :: xs, y :: ys, ha, hb =>
        rw [memcmp0]
        by_cases c : x = y
        · simp only [c, if_true]; rw [ih xs ys (by simpa using ha) (by simpa using hb)]; simp
        · simp [c]

theorem strncmp0_eq (n : Nat) (a b : List Byte) (ha : n ≤ a.length) (hb : n ≤ b.length) (hz : ∀ x ∈ a.take n, x ≠ 0) :
    strncmp0 n a b = .ok (decide (a.take n = b.take n)) := by
  induction n generalizing a b with
  | zero => simp [strncmp0]
  | succ n ih =>
      match a, b, ha, hb with
      | x :: xs, y :: ys, ha, hb =>
        rw [strncmp0]
        by_cases c : x = y
        · have : x ≠ 0 := hz x (by simp)
          simp only [c, ne_eq, not_true, if_false]
          rw [if_neg (c ▸ this), ih xs ys (by simpa using ha) (by simpa using hb) fun z hz' => hz z (by simp [hz'])]
          simp
        · simp [c]

theorem ptrBytes_length (p : Nat) : (ptrBytes p).length = 8 := by simp [ptrBytes]

theorem hashInt_eq (k : Key) (hk : k.2 ≤ 8) :
    hashInt k = .ok ((((ptrBytes k.1).take k.2).foldl (Hash.step Hash.PRIME32) Hash.INIT32).setWidth 64) := by
  have e := Hash.buff_eq Hash.INIT32 Hash.PRIME32 ((ptrBytes k.1).take k.2) ((ptrBytes k.1).drop k.2) Hash.INIT32
  rw [List.take_append_drop, List.length_take, ptrBytes_length, Nat.min_eq_left hk] at e
  rw [hashInt, Hash.hash32Buff, e]
  rfl

theorem compareInt_eq (k k' : Key) (hk : k.2 ≤ 8) :
    compareInt k k' = .ok (decide (k.2 = k'.2 ∧ (ptrBytes k.1).take k.2 = (ptrBytes k'.1).take k'.2)) := by
  rw [compareInt]
  by_cases c : k.2 = k'.2
  · rw [if_pos c, memcmp0_eq _ _ _ (by rw [ptrBytes_length]; exact hk) (by rw [ptrBytes_length]; exact hk)]
    simp [c]
  · simp [c]

theorem setWidth_lt (h : BitVec 32) : (h.setWidth 64).toNat < 2 ^ 32 := by
  rw [BitVec.toNat_setWidth]
  exact Nat.lt_of_le_of_lt (Nat.mod_le _ _) h.isLt

/-- The callbacks `hash`, `cmp` (which may be undefined on bad keys) act on the keys in `ok` as good table callbacks whose hashes
have 32 bits. -/
def Suitable (hash : Key → Outcome ULong) (cmp : Key → Key → Outcome Bool) (ok : Key → Prop) : Prop :=
  ∃ cb : Callbacks, Good cb ∧ (∀ k, (cb.hash k).toNat < 2 ^ 32) ∧ (∀ k, ok k → hash k = .ok (cb.hash k)) ∧
    ∀ k k', ok k → ok k' → cmp k k' = .ok (cb.cmp k k')

/-- A key whose text is `v k`: callbacks that compute from the text alone are good. -/
theorem suitable_of {α : Type} [DecidableEq α] (hash : Key → Outcome ULong) (cmp : Key → Key → Outcome Bool) (ok : Key → Prop) (v : Key → α)
    (hf : α → BitVec 32) (h1 : ∀ k, ok k → hash k = .ok ((hf (v k)).setWidth 64))
    (h2 : ∀ k k', ok k → ok k' → cmp k k' = .ok (decide (v k = v k'))) : Suitable hash cmp ok :=
  ⟨⟨fun k => (hf (v k)).setWidth 64, fun k k' => decide (v k = v k')⟩,
    ⟨by simp, by simp; intros; simp [*], by simp; intros; simp [*], by simp; intros; simp [*]⟩,
    fun k => setWidth_lt _, h1, h2⟩

/-- **C59** `zt_table_hash_int` / `zt_table_compare_int` are good callbacks for keys of at most 8 bytes: keys are equal exactly when
the lengths and the first `key_len` bytes of the pointer value are. -/
theorem int_callbacks : Suitable hashInt compareInt (fun k => k.2 ≤ 8) ∧
    (∀ k k' : Key, k.2 ≤ 8 → (compareInt k k' = .ok true ↔ k.2 = k'.2 ∧ (ptrBytes k.1).take k.2 = (ptrBytes k'.1).take k'.2)) := by
  refine ⟨suitable_of hashInt compareInt _ (fun k => (k.2, (ptrBytes k.1).take k.2)) (fun v => v.2.foldl (Hash.step Hash.PRIME32) Hash.INIT32)
    (fun k hk => hashInt_eq k hk) (fun k k' hk hk' => ?_), fun k k' hk => ?_⟩
  · rw [compareInt_eq k k' hk]; simp [Prod.ext_iff]
  · rw [compareInt_eq k k' hk]; simp

/-- A pointer fits in 8 bytes, so full-width keys are equal exactly when the pointers are. -/
theorem ptrBytes_inj (p q : Nat) (hp : p < 2 ^ 64) (hq : q < 2 ^ 64) (h : ptrBytes p = ptrBytes q) : p = q := by
  simp only [ptrBytes, List.range, List.range.loop, List.map_cons, List.map_nil, List.cons.injEq, ← UInt8.toNat_inj, UInt8.toNat_ofNat'] at h
  omega

/-- The bytes at `k.1` are a string `s` of length `key_len`, NUL-terminated. -/
def IsString (mem : Nat → List Byte) (k : Key) : Prop := ∃ s rest, mem k.1 = s ++ 0 :: rest ∧ (∀ b ∈ s, b ≠ 0) ∧ s.length = k.2

/-- The text of a string key. -/
def text (mem : Nat → List Byte) (k : Key) : List Byte := (mem k.1).take k.2

theorem text_eq {mem : Nat → List Byte} {k : Key} {s rest} (h : mem k.1 = s ++ 0 :: rest) (hl : s.length = k.2) : text mem k = s := by
  rw [text, h, ← hl]; simp

/-- **C59** `zt_table_hash_string` / `zt_table_compare_string` are good callbacks for strings passed with their length: keys are
equal exactly when the strings are. -/
theorem string_callbacks (mem : Nat → List Byte) : Suitable (hashString mem) (compareString mem) (IsString mem) ∧
    (∀ k k' : Key, IsString mem k → IsString mem k' → (compareString mem k k' = .ok true ↔ text mem k = text mem k')) := by
  have hc : ∀ k k' : Key, IsString mem k → IsString mem k' → compareString mem k k' = .ok (decide (text mem k = text mem k')) := by
    rintro k k' ⟨s, rest, h1, h2, h3⟩ ⟨s', rest', h1', h2', h3'⟩
    rw [text_eq h1 h3, text_eq h1' h3', compareString]
    by_cases c : k.2 = k'.2
    · rw [if_pos c, strncmp0_eq _ _ _ (by rw [h1]; simp; omega) (by rw [h1']; simp; omega) (by
        intro x hx
        have : (mem k.1).take k.2 = s := text_eq h1 h3
        rw [this] at hx; exact h2 x hx)]
      have e1 : (mem k.1).take k.2 = s := text_eq h1 h3
      have e2 : (mem k'.1).take k.2 = s' := by rw [c]; exact text_eq h1' h3'
      rw [e1, e2]
    · rw [if_neg c]
      have : s ≠ s' := by rintro rfl; omega
      simp [this]
  refine ⟨suitable_of _ _ _ (text mem) (fun v => v.foldl (Hash.step Hash.PRIME32) Hash.INIT32) ?_ hc, fun k k' h h' => by rw [hc k k' h h']; simp⟩
  rintro k ⟨s, rest, h1, h2, h3⟩
  have e := Hash.buff_eq Hash.INIT32 Hash.PRIME32 s [] Hash.INIT32
  simp only [List.append_nil] at e
  rw [text_eq h1 h3, hashString, h1, Hash.hash32_cstr_eq_buff s rest _ h2, Hash.hash32Buff, e]
  rfl

/-- The bytes at `k.1` include `key_len` bytes without a NUL. -/
def IsPlain (mem : Nat → List Byte) (k : Key) : Prop := k.2 ≤ (mem k.1).length ∧ ∀ b ∈ text mem k, b ≠ 0

/-- **C59** `zt_table_hash_buff` / `zt_table_compare_buff` are good callbacks for buffers without NUL bytes. Missing: buffers with
NUL bytes (`buff_nul_equal`). -/
theorem buff_callbacks_partial (mem : Nat → List Byte) : Suitable (hashBuff mem) (compareBuff mem) (IsPlain mem) ∧
    (∀ k k' : Key, IsPlain mem k → IsPlain mem k' → (compareBuff mem k k' = .ok true ↔ text mem k = text mem k')) := by
  have hc : ∀ k k' : Key, IsPlain mem k → IsPlain mem k' → compareBuff mem k k' = .ok (decide (text mem k = text mem k')) := by
    rintro k k' ⟨h1, h2⟩ ⟨h1', h2'⟩
    rw [compareBuff]
    by_cases c : k.2 = k'.2
    · rw [if_pos c, strncmp0_eq _ _ _ h1 (by omega) h2]
      simp only [text, c]
    · rw [if_neg c]
      have : text mem k ≠ text mem k' := by
        intro h
        have := congrArg List.length h
        simp only [text, List.length_take] at this
        omega
      simp [this]
  refine ⟨suitable_of _ _ _ (text mem) (fun v => v.foldl (Hash.step Hash.PRIME32) Hash.INIT32) ?_ hc, fun k k' h h' => by rw [hc k k' h h']; simp⟩
  rintro k ⟨h1, h2⟩
  have e := Hash.buff_eq Hash.INIT32 Hash.PRIME32 ((mem k.1).take k.2) ((mem k.1).drop k.2) Hash.INIT32
  rw [List.take_append_drop, List.length_take, Nat.min_eq_left h1] at e
  rw [hashBuff, Hash.hash32Buff, e]
  rfl

/-- Violation of C59: `zt_table_compare_buff` stops at a NUL byte, so different buffers are reported equal. -/
theorem buff_nul_equal : compareBuff (fun p => if p = 1 then [0, 1] else [0, 2]) (1, 2) (2, 2) = .ok true ∧ ([0, 1] : List Byte) ≠ [0, 2] := by
  decide

/-- Violation of C59: `zt_table_compare_string_case` accepts "A" and "a" as equal, but `zt_table_hash_string`, the only shipped string
hash, gives them different hashes, so a table using both treats them as different keys. -/
theorem case_hash_differs :
    compareStringCase (fun p => if p = 1 then [65, 0] else [97, 0]) (1, 1) (2, 1) = .ok true ∧
    hashString (fun p => if p = 1 then [65, 0] else [97, 0]) (1, 1) ≠ hashString (fun p => if p = 1 then [65, 0] else [97, 0]) (2, 1) := by
  decide

theorem strcasecmp0_eq : ∀ (s r s' r' : List Byte), (∀ b ∈ s, b ≠ 0) → (∀ b ∈ s', b ≠ 0) → strcasecmp0 (s ++ 0 :: r) (s' ++ 0 :: r') = .ok (decide (s.map lower = s'.map lower))
  | [], r, [], r', _, _ => by simp [strcasecmp0]
  | [], r, b :: s', r', _, h' => by
      have hb : b ≠ 0 := h' b (by simp)
      have : lower 0 ≠ lower b := by
        unfold lower
        intro e
        split at e <;> split at e <;> simp only [UInt8.le_iff_toNat_le, ne_eq, ← UInt8.toNat_inj, UInt8.toNat_add] at * <;> simp at * <;> omega
      simp [strcasecmp0, this]
  | a :: s, r, [], r', h, _ => by
      have ha : a ≠ 0 := h a (by simp)
      have : lower a ≠ lower 0 := by
        unfold lower
        intro e
        split at e <;> split at e <;> simp only [UInt8.le_iff_toNat_le, ne_eq, ← UInt8.toNat_inj, UInt8.toNat_add] at * <;> simp at * <;> omega
      simp [strcasecmp0, this]
  | a :: s, r, b :: s', r', h, h' => by
      have ih := strcasecmp0_eq s r s' r' (fun x hx => h x (by simp [hx])) (fun x hx => h' x (by simp [hx]))
      have ha : a ≠ 0 := h a (by simp)
      simp only [List.cons_append, strcasecmp0, ha, if_false]
      by_cases e : lower a = lower b
      · simp [e, ih]
      · simp [e]

/-- **C59** For strings, of whatever lengths were given, `zt_table_compare_string_case` tells exactly whether they agree up to the case of letters. -/
theorem string_case_exact (mem : Nat → List Byte) (k k' : Key) (s r s' r' : List Byte) (h : mem k.1 = s ++ 0 :: r) (h' : mem k'.1 = s' ++ 0 :: r') (hs : ∀ b ∈ s, b ≠ 0) (hs' : ∀ b ∈ s', b ≠ 0) :
    compareStringCase mem k k' = .ok (decide (s.map lower = s'.map lower)) := by
  rw [compareStringCase, h, h']
  exact strcasecmp0_eq s r s' r' hs hs'

/-- **C59** Case is that of the ASCII letters; bytes beyond ASCII have none. -/
theorem lower_ascii (b : Byte) : lower b = if b < 128 then UInt8.ofNat (Char.ofNat b.toNat).toLower.toNat else b := by
  have h : ∀ n : Fin 256, lower (UInt8.ofNat n.val) = if UInt8.ofNat n.val < 128 then UInt8.ofNat (Char.ofNat (UInt8.ofNat n.val).toNat).toLower.toNat else UInt8.ofNat n.val := by decide +kernel
  have := h ⟨b.toNat, b.toNat_lt⟩
  simpa using this

/-- Violation of C59: with key_len 0 (strings passed without a length) `zt_table_compare_string` reports all strings equal. -/
theorem string_len0_equal (mem : Nat → List Byte) (p q : Nat) : compareString mem (p, 0) (q, 0) = .ok true := by
  simp [compareString, strncmp0]

/-- Keys longer than a pointer make `zt_table_hash_int` read past the pointer variable. -/
theorem int_long_ub (k : Key) (h : 8 < k.2) : hashInt k = .ub := by
  have : ∀ (n : Nat) (l : List Byte) (hv : BitVec 32), l.length < n → Hash.buffLoop Hash.PRIME32 n l hv = .ub := by
    intro n
    induction n with
    | zero => intro l hv h; omega
    | succ n ih =>
        intro l hv h
        match l with
        | [] => rfl
        | x :: xs => rw [Hash.buffLoop]; exact ih xs _ (by simpa using h)
  rw [hashInt, Hash.hash32Buff, Hash.buff, this _ _ _ (by rw [ptrBytes_length]; exact h), Outcome.ub_bind]

/-- Two strings, stored at 16 and 32, are keys to which `string_callbacks` applies. -/
example : IsString (fun p => if p = 16 then [104, 105, 0] else [104, 111, 0, 7]) (16, 2) ∧
    IsString (fun p => if p = 16 then [104, 105, 0] else [104, 111, 0, 7]) (32, 2) :=
  ⟨⟨[104, 105], [], by decide⟩, ⟨[104, 111], [7], by decide⟩⟩

/-! ## Duplicate keys -/

/-- Spec of a table with duplicates: each key has a stack of data. -/
abbrev Multi := Key → List Nat

structure AbsD (cb : Callbacks) (T : Tbl) (C : Nat → List (Nat × Entry)) (m : Multi) (L : Nat) : Prop where
  rep : Rep cb T C
  live : Live T C
  look : ∀ k, m k = ((C (index cb T k)).filter fun x => cb.cmp x.2.key k).map (·.2.datum)
  len : ∀ i, (C i).length ≤ L
  range : InRange cb T
  dup : T.dup = true

/-- Operations of a table with duplicates (deletion: see `del_exact`, which applies in the same way). -/
def specD (cmp : Key → Key → Bool) (m : Multi) : Op → Res × Multi
  | .set k d _ => (.int 0, fun k' => if cmp k k' then d :: m k' else m k')
  | .get k => (.ret (report (m k).head?), m)
  | .del _ => (.int 0, m)

def specRunD (cmp : Key → Key → Bool) : Multi → List Op → List Res
  | _, [] => []
  | m, op :: ops => (specD cmp m op).1 :: specRunD cmp (specD cmp m op).2 ops

theorem exists_freeD {cb : Callbacks} {T : Tbl} {C} {m L} (A : AbsD cb T C m L) : ∃ a, T.heap a = none := by
  have hfin : ∀ a, T.heap a ≠ none → a ∈ ((List.range T.num).map fun i => adr (C i)).flatten := by
    intro a ha
    obtain ⟨i, hi⟩ := A.live a ha
    obtain ⟨x, hx, rfl⟩ := List.mem_map.mp hi
    have := (A.rep.hash i x hx).2.2
    exact List.mem_flatten.mpr ⟨_, List.mem_map.mpr ⟨i, by simpa using this, rfl⟩, hi⟩
  generalize ((List.range T.num).map fun i => adr (C i)).flatten = l at hfin
  have hb : ∃ b, ∀ a ∈ l, a < b := by
    clear hfin
    induction l with
    | nil => exact ⟨0, by simp⟩
    | cons x xs ih =>
        obtain ⟨b, hb⟩ := ih
        refine ⟨b + x + 1, ?_⟩
        intro a ha
        rcases List.mem_cons.mp ha with rfl | ha
        · omega
        · have := hb a ha; omega
  obtain ⟨b, hb⟩ := hb
  refine ⟨b, Decidable.byContradiction fun h => ?_⟩
  have := hb b (hfin b h)
  omega

theorem find_filter {α : Type} (p : α → Bool) (l : List α) : l.find? p = (l.filter p).head? := (List.head?_filter ..).symm

theorem runD {cb : Callbacks} (g : Good cb) {alloc} (al : Allocator alloc) (ops : List Op) (hd : ∀ k, Op.del k ∉ ops) {T : Tbl} {C m L}
    (A : AbsD cb T C m L) (fuel : Nat) (hf : L + ops.length < fuel) : ∃ T', run cb alloc fuel T ops = .ok (specRunD cb.cmp m ops, T') := by
  induction ops generalizing T C m L with
  | nil => exact ⟨T, rfl⟩
  | cons op ops ih =>
      have hlen := fun i => A.len i
      cases op with
      | set k d dl =>
          have hs := set_spec A.rep fuel k d dl (alloc T) (A.range k) (by have := hlen (index cb T k); omega)
          rw [A.dup] at hs
          have A' : AbsD cb (pushed T (index cb T k) (alloc T) ⟨k, d, dl, cb.hash k⟩) (upd C (index cb T k) ((alloc T, ⟨k, d, dl, cb.hash k⟩) :: C (index cb T k)))
              (fun k' => if cb.cmp k k' then d :: m k' else m k') (L + 1) := by
            refine ⟨pushed_rep A.rep (index cb T k) (alloc T) ⟨k, d, dl, cb.hash k⟩ (al T (exists_freeD A)) rfl rfl (A.range k), pushed_live A.live _ _ _, ?_, ?_, A.range, A.dup⟩
            · intro k'
              have hidx : index cb (pushed T (index cb T k) (alloc T) ⟨k, d, dl, cb.hash k⟩) k' = index cb T k' := rfl
              rw [hidx, upd_eq]
              by_cases hc : cb.cmp k k'
              · rw [if_pos hc, if_pos (index_congr g T (g.symm _ _ hc)), List.filter_cons, if_pos hc, A.look k', index_congr g T hc]
                rfl
              · rw [if_neg hc]
                split
                · rename_i he
                  rw [List.filter_cons, if_neg hc, A.look k', he]
                · exact A.look k'
            · intro i
              rw [upd_eq]
              have := hlen i
              split
              · subst_vars; simp; omega
              · omega
          obtain ⟨T', e⟩ := ih (fun k hk => hd k (by simp [hk])) A' (by simp at hf; omega)
          refine ⟨T', ?_⟩
          have hs' : set cb fuel T k d dl (alloc T) = .ok (0, pushed T (index cb T k) (alloc T) ⟨k, d, dl, cb.hash k⟩) := by simpa using hs
          simp only [run, exec, hs', Outcome.ok_bind, Outcome.pure_eq, e, specRunD, specD]
      | get k =>
          obtain ⟨T', e⟩ := ih (fun k hk => hd k (by simp [hk])) A (by simp at hf; omega)
          refine ⟨T', ?_⟩
          have hg := get_spec A.rep fuel k (A.range k) (by have := hlen (index cb T k); omega)
          have hg' : get cb fuel T k = .ok (report (m k).head?) := by
            rw [hg, find_hit g A.rep, A.look k, List.head?_map, ← find_filter]
            cases (C (index cb T k)).find? fun x => cb.cmp x.2.key k <;> rfl
          simp only [run, exec, hg', Outcome.ok_bind, Outcome.pure_eq, e, specRunD, specD]
      | del k => exact absurd (by simp) (hd k)

/-- **C60** With ZT_TABLE_ALLOW_DUP_KEYS every set adds an entry (returning 0) and get returns the most recently added datum of the
key. Missing: deletion (`zt_table_del` removes the most recent one only if it is first or second in its bucket, `del_exact`). -/
theorem dup_history_partial (cb : Callbacks) (g : Good cb) (alloc : Tbl → Nat) (al : Allocator alloc) (hint : Nat) (useHint : Bool)
    (hr : InRange cb (init hint useHint true)) (ops : List Op) (hd : ∀ k, Op.del k ∉ ops) :
    ∃ n, ∀ fuel ≥ n, ∃ T, run cb alloc fuel (init hint useHint true) ops = .ok (specRunD cb.cmp (fun _ => []) ops, T) := by
  refine ⟨ops.length + 1, fun fuel hf => ?_⟩
  exact runD g al ops hd (T := init hint useHint true) (C := fun _ => []) (L := 0) ⟨⟨fun _ => rfl, fun _ => by simp, fun i j a h => by simp at h, fun i x h => by simp at h⟩,
    fun a h => absurd rfl h, fun _ => rfl, fun _ => by simp, hr, rfl⟩ fuel (by omega)

example : specRunD constCb.cmp (fun _ => []) [.set (1, 1) 10 0, .set (1, 1) 11 0, .get (1, 1), .get (2, 1)] =
    [.int 0, .int 0, .ret ⟨11, false⟩, .ret ⟨0, true⟩] := by decide

end ZT.Table
