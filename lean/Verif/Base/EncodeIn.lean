import Verif.Base.InPlace

/-!
# C145: encoding within one block

zt_base_encode with the output in the same block `m` as the data: the data at offset `a`, the output at offset `o`. The functions are those of Verif.Base.Model with
the reads and writes going to the same block.
-/

namespace ZT.Base
open Spec

/-! ## Model -/

/-- `*out++ = alphabet[i];` for each index in turn, at offset `w` of the block (zt_base.c 225-228, 235-240, 331-338, 349-367, 487-488). -/
def emitAt (d : Def) (m : List Byte) (w : Nat) : List Nat → Outcome (List Byte)
  | [] => .ok m
  | i :: is => do
      let c ← alphaAt d i
      let m ← wr m w c
      emitAt d m (w + 1) is

/-- The padding behind a partial group, zt_base.c 242-246 and 371-375. -/
def padAt (d : Def) (m : List Byte) (w k : Nat) : Outcome (List Byte) := if d.padding then storesAt m w (List.replicate k d.pad) else .ok m

/-- `(mod > k) ? *in++ : 0` (zt_base.c 232, 343-345). -/
def tailAt (m : List Byte) (guard : Bool) (p : Nat) : Outcome Nat := if guard then do let b ← rd m p; pure b.toNat else .ok 0

/-- zt_base.c 209-251 `_encode64` on one block; `in` is at `p`, `out` at `w`. All bytes of a group are read before its characters are written. -/
def encMem64 (d : Def) (mod : Nat) : (lcnt p w : Nat) → List Byte → Outcome (List Byte)
  | n + 1, p, w, m => do
      let b0 ← rd m p
      let b1 ← rd m (p + 1)
      let b2 ← rd m (p + 2)
      let m ← emitAt d m w (idx64 b0.toNat b1.toNat b2.toNat)
      encMem64 d mod n (p + 3) (w + 4) m
  | 0, p, w, m =>
      if mod > 0 then do
        let b0 ← rd m p
        let b1 ← tailAt m (mod > 1) (p + 1)
        let m ← emitAt d m w (idx64Tail mod b0.toNat b1)
        padAt d m (w + (idx64Tail mod b0.toNat b1).length) (3 - mod)
      else .ok m

/-- zt_base.c 314-379 `_encode32` on one block. -/
def encMem32 (d : Def) (mod : Nat) : (lcnt p w : Nat) → List Byte → Outcome (List Byte)
  | n + 1, p, w, m => do
      let b0 ← rd m p
      let b1 ← rd m (p + 1)
      let b2 ← rd m (p + 2)
      let b3 ← rd m (p + 3)
      let b4 ← rd m (p + 4)
      let m ← emitAt d m w (idx32 b0.toNat b1.toNat b2.toNat b3.toNat b4.toNat)
      encMem32 d mod n (p + 5) (w + 8) m
  | 0, p, w, m =>
      if mod > 0 then do
        let b0 ← tailAt m true p
        let b1 ← tailAt m (mod > 1) (p + 1)
        let b2 ← tailAt m (mod > 2) (p + 2)
        let b3 ← tailAt m (mod > 3) (p + 3)
        let m ← emitAt d m w (idx32Tail mod b0 b1 b2 b3)
        padAt d m (w + (idx32Tail mod b0 b1 b2 b3).length) (pad32 mod)
      else .ok m

/-- zt_base.c 471-493 `_encode16` on one block. -/
def encMem16 (d : Def) : (lcnt p w : Nat) → List Byte → Outcome (List Byte)
  | n + 1, p, w, m => do
      let b0 ← rd m p
      let m ← emitAt d m w [b0.toNat >>> 4, b0.toNat &&& 0x0F]
      encMem16 d n (p + 1) (w + 2) m
  | 0, _, _, m => .ok m

/-- zt_base.c 536-608 `zt_base_encode(def, m + a, n, &out, &ob)` with `out = m + o` in the same block, `n > 0`. -/
def encodeMem (d : Def) (m : List Byte) (a n o ob : Nat) : Outcome MRet :=
  if !validDictionary d then .ok ⟨-1, ob, m⟩
  else
    let ocount := encodedCount d n
    if ob < ocount then .ok ⟨-2, ocount, m⟩
    else if d.base = 64 then do let m ← encMem64 d (n % d.igroups) (n / d.igroups) a o m; pure ⟨0, ocount, m⟩
    else if d.base = 32 then do let m ← encMem32 d (n % d.igroups) (n / d.igroups) a o m; pure ⟨0, ocount, m⟩
    else if d.base = 16 then do let m ← encMem16 d (n / d.igroups) a o m; pure ⟨0, ocount, m⟩
    else .ok ⟨-1, ocount, m⟩

/-! ## Proof -/

theorem store_eq {m : List Byte} {o : Nat} {bs : List Byte} (b : Byte) (h : o + bs.length ≤ m.length) :
    wr (overwrite m o bs) (o + bs.length) b = (OBuf.store ⟨m.length - o, bs⟩ b >>= fun ob => .ok (overwrite m o ob.data)) := by
  rw [OBuf.store, wr]
  simp only
  rw [overwrite_length h]
  by_cases hl : o + bs.length < m.length
  · rw [if_pos hl, if_pos (by omega), overwrite_set b hl]; rfl
  · rw [if_neg hl, if_neg (by omega)]; rfl

theorem emit_eq (d : Def) {m : List Byte} {o : Nat} (is : List Nat) : ∀ bs : List Byte, o + bs.length ≤ m.length →
    emitAt d (overwrite m o bs) (o + bs.length) is = (OBuf.emit d ⟨m.length - o, bs⟩ is >>= fun ob => .ok (overwrite m o ob.data)) ∧
      ∀ ob, OBuf.emit d ⟨m.length - o, bs⟩ is = .ok ob → ∃ bs', ob = ⟨m.length - o, bs'⟩ ∧ bs'.length = bs.length + is.length ∧ o + bs'.length ≤ m.length := by
  induction is with
  | nil =>
      intro bs h
      refine ⟨rfl, fun ob e => ?_⟩
      cases e; exact ⟨bs, rfl, rfl, h⟩
  | cons i is ih =>
      intro bs h
      rw [emitAt, OBuf.emit]
      cases alphaAt d i with
      | abort => exact ⟨rfl, fun ob e => by cases e⟩
      | ub => exact ⟨rfl, fun ob e => by cases e⟩
      | ok c =>
          simp only [Outcome.ok_bind]
          rw [store_eq c h]
          by_cases hl : o + bs.length < m.length
          · have hs : OBuf.store ⟨m.length - o, bs⟩ c = .ok ⟨m.length - o, bs ++ [c]⟩ := by rw [OBuf.store, if_pos (by simp only; omega)]
            rw [hs]
            simp only [Outcome.ok_bind]
            have hlen : (bs ++ [c]).length = bs.length + 1 := by simp
            obtain ⟨i1, i2⟩ := ih (bs ++ [c]) (by omega)
            rw [hlen, ← Nat.add_assoc] at i1
            refine ⟨i1, fun ob e => ?_⟩
            obtain ⟨bs', e1, e2, e3⟩ := i2 ob e
            exact ⟨bs', e1, by rw [e2, hlen, List.length_cons]; omega, e3⟩
          · have hs : OBuf.store ⟨m.length - o, bs⟩ c = .ub := by rw [OBuf.store, if_neg (by simp only; omega)]
            rw [hs]
            exact ⟨rfl, fun ob e => by cases e⟩

theorem stores_eq {m : List Byte} {o : Nat} (cs : List Byte) : ∀ bs : List Byte, o + bs.length ≤ m.length →
    storesAt (overwrite m o bs) (o + bs.length) cs = (OBuf.stores ⟨m.length - o, bs⟩ cs >>= fun ob => .ok (overwrite m o ob.data)) := by
  induction cs with
  | nil => intro bs h; rfl
  | cons c cs ih =>
      intro bs h
      rw [storesAt, OBuf.stores, store_eq c h]
      by_cases hl : o + bs.length < m.length
      · have hs : OBuf.store ⟨m.length - o, bs⟩ c = .ok ⟨m.length - o, bs ++ [c]⟩ := by rw [OBuf.store, if_pos (by simp only; omega)]
        rw [hs]
        simp only [Outcome.ok_bind]
        have := ih (bs ++ [c]) (by simp; omega)
        rw [List.length_append, List.length_singleton, ← Nat.add_assoc] at this
        exact this
      · have hs : OBuf.store ⟨m.length - o, bs⟩ c = .ub := by rw [OBuf.store, if_neg (by simp only; omega)]
        rw [hs]; rfl

theorem rd_over {m : List Byte} {o p : Nat} {bs : List Byte} (h : o + bs.length ≤ m.length) (hp : o + bs.length ≤ p) (hl : p < m.length) : rd (overwrite m o bs) p = .ok m[p] := by
  rw [rd_eq_ok, overwrite_get h hp, List.getElem?_eq_getElem hl]

theorem take_next {m : List Byte} {p k : Nat} (h : p < m.length) : (m.drop p).take (k + 1) = m[p] :: (m.drop (p + 1)).take k := by
  rw [List.drop_eq_getElem_cons h, List.take_succ_cons]

/-- After the characters of the last group comes the padding. -/
theorem tailPad_eq (d : Def) {m : List Byte} {o : Nat} (bs : List Byte) (is : List Nat) (k : Nat) (h : o + bs.length ≤ m.length) :
    (emitAt d (overwrite m o bs) (o + bs.length) is >>= fun m' => padAt d m' (o + bs.length + is.length) k) =
      ((OBuf.emit d ⟨m.length - o, bs⟩ is >>= fun ob => if d.padding then ob.stores (List.replicate k d.pad) else .ok ob) >>= fun ob => .ok (overwrite m o ob.data)) := by
  obtain ⟨h1, h2⟩ := emit_eq d is bs h
  rw [h1]
  cases he : OBuf.emit d ⟨m.length - o, bs⟩ is with
  | abort => rfl
  | ub => rfl
  | ok ob =>
      obtain ⟨bs', rfl, hl, hb⟩ := h2 ob he
      simp only [Outcome.ok_bind]
      rw [padAt]
      split
      · rw [Nat.add_assoc, ← hl, stores_eq _ bs' hb]
      · rfl

theorem enc64_eq (d : Def) (mod : Nat) (hm : mod < 3) {m : List Byte} {o : Nat} : ∀ (n p : Nat) (bs : List Byte), o + bs.length ≤ m.length → p + 3 * n + mod ≤ m.length →
    (0 < n + mod → o + bs.length + (n + (mod + 1) / 2) ≤ p + 1) →
    encMem64 d mod n p (o + bs.length) (overwrite m o bs) = (encode64 d mod n ((m.drop p).take (3 * n + mod)) ⟨m.length - o, bs⟩ >>= fun ob => .ok (overwrite m o ob.data)) := by
  intro n
  induction n with
  | zero =>
      intro p bs hb hp hr
      match mod, hm with
      | 0, _ => simp [encMem64, encode64]
      | 1, _ =>
          have e : (m.drop p).take (3 * 0 + 1) = [m[p]'(by omega)] := by rw [take_next (k := 0) (by omega)]; simp
          rw [encMem64, e, encode64, if_pos (by omega), if_pos (by omega), rd_over hb (by omega) (by omega)]
          · exact tailPad_eq d bs _ 2 hb
          · rfl
      | 2, _ =>
          have e : (m.drop p).take (3 * 0 + 2) = [m[p]'(by omega), m[p + 1]'(by omega)] := by
            rw [take_next (k := 1) (by omega), take_next (k := 0) (by omega)]; simp
          rw [encMem64, e, encode64, if_pos (by omega), if_pos (by omega), rd_over hb (by omega) (by omega)]
          · simp only [Outcome.ok_bind, tailAt]
            have h1 : rd (overwrite m o bs) (p + 1) = .ok (m[p + 1]'(by omega)) := rd_over hb (by omega) (by omega)
            rw [h1]
            exact tailPad_eq d bs _ 1 hb
          · rfl
  | succ n ih =>
      intro p bs hb hp hr
      have hr := hr (by omega)
      have e : (m.drop p).take (3 * (n + 1) + mod) = m[p]'(by omega) :: m[p + 1]'(by omega) :: m[p + 2]'(by omega) :: (m.drop (p + 3)).take (3 * n + mod) := by
        rw [show 3 * (n + 1) + mod = 3 * n + mod + 1 + 1 + 1 by omega, take_next (by omega), take_next (by omega), take_next (by omega)]
      rw [encMem64, e, encode64, rd_over hb (by omega) (by omega), rd_over hb (by omega) (by omega), rd_over hb (by omega) (by omega)]
      simp only [Outcome.ok_bind]
      obtain ⟨h1, h2⟩ := emit_eq d (idx64 (m[p]'(by omega)).toNat (m[p + 1]'(by omega)).toNat (m[p + 2]'(by omega)).toNat) bs hb
      rw [h1]
      cases he : OBuf.emit d ⟨m.length - o, bs⟩ (idx64 (m[p]'(by omega)).toNat (m[p + 1]'(by omega)).toNat (m[p + 2]'(by omega)).toNat) with
      | abort => rfl
      | ub => rfl
      | ok ob =>
          obtain ⟨bs', rfl, hl, hb'⟩ := h2 ob he
          simp only [Outcome.ok_bind]
          have hl4 : bs'.length = bs.length + 4 := hl
          rw [show o + bs.length + 4 = o + bs'.length by omega]
          exact ih (p + 3) bs' hb' (by omega) (fun _ => by omega)

theorem enc32_eq (d : Def) (mod : Nat) (hm : mod < 5) {m : List Byte} {o : Nat} : ∀ (n p : Nat) (bs : List Byte), o + bs.length ≤ m.length → p + 5 * n + mod ≤ m.length →
    (0 < n + mod → o + bs.length + 3 * (n + (mod + 3) / 4) ≤ p + 3) →
    encMem32 d mod n p (o + bs.length) (overwrite m o bs) = (encode32 d mod n ((m.drop p).take (5 * n + mod)) ⟨m.length - o, bs⟩ >>= fun ob => .ok (overwrite m o ob.data)) := by
  intro n
  induction n with
  | zero =>
      intro p bs hb hp hr
      by_cases h0 : mod = 0
      · subst h0; simp [encMem32, encode32]
      · have hr := hr (by omega)
        have ht : ∀ k (g : Bool), (g = true → k < mod) → tailAt (overwrite m o bs) g (p + k) = tailByte ((m.drop p).take (5 * 0 + mod)) g k := by
          intro k g hg
          cases g with
          | false => rfl
          | true =>
              have hk := hg rfl
              rw [tailAt, tailByte, if_pos rfl, if_pos rfl, rd_over hb (by omega) (by omega)]
              have : ((m.drop p).take (5 * 0 + mod))[k]? = some (m[p + k]'(by omega)) := by
                rw [List.getElem?_take, if_pos (by omega), List.getElem?_drop, List.getElem?_eq_getElem (by omega)]
              rw [this]; rfl
        have t0 := ht 0 true (fun _ => by omega)
        have t1 := ht 1 (decide (mod > 1)) (fun h => by simpa using h)
        have t2 := ht 2 (decide (mod > 2)) (fun h => by simpa using h)
        have t3 := ht 3 (decide (mod > 3)) (fun h => by simpa using h)
        rw [Nat.add_zero] at t0
        rw [encMem32, encode32, if_pos (by omega), if_pos (by omega), t0, t1, t2, t3]
        cases tailByte ((m.drop p).take (5 * 0 + mod)) true 0 with
        | abort => rfl
        | ub => rfl
        | ok b0 =>
            cases tailByte ((m.drop p).take (5 * 0 + mod)) (decide (mod > 1)) 1 with
            | abort => rfl
            | ub => rfl
            | ok b1 =>
                cases tailByte ((m.drop p).take (5 * 0 + mod)) (decide (mod > 2)) 2 with
                | abort => rfl
                | ub => rfl
                | ok b2 =>
                    cases tailByte ((m.drop p).take (5 * 0 + mod)) (decide (mod > 3)) 3 with
                    | abort => rfl
                    | ub => rfl
                    | ok b3 => exact tailPad_eq d bs _ (pad32 mod) hb
  | succ n ih =>
      intro p bs hb hp hr
      have hr := hr (by omega)
      have e : (m.drop p).take (5 * (n + 1) + mod) =
          m[p]'(by omega) :: m[p + 1]'(by omega) :: m[p + 2]'(by omega) :: m[p + 3]'(by omega) :: m[p + 4]'(by omega) :: (m.drop (p + 5)).take (5 * n + mod) := by
        rw [show 5 * (n + 1) + mod = 5 * n + mod + 1 + 1 + 1 + 1 + 1 by omega, take_next (by omega), take_next (by omega), take_next (by omega), take_next (by omega), take_next (by omega)]
      rw [encMem32, e, encode32, rd_over hb (by omega) (by omega), rd_over hb (by omega) (by omega), rd_over hb (by omega) (by omega), rd_over hb (by omega) (by omega), rd_over hb (by omega) (by omega)]
      simp only [Outcome.ok_bind]
      obtain ⟨h1, h2⟩ := emit_eq d (idx32 (m[p]'(by omega)).toNat (m[p + 1]'(by omega)).toNat (m[p + 2]'(by omega)).toNat (m[p + 3]'(by omega)).toNat (m[p + 4]'(by omega)).toNat) bs hb
      rw [h1]
      cases he : OBuf.emit d ⟨m.length - o, bs⟩ (idx32 (m[p]'(by omega)).toNat (m[p + 1]'(by omega)).toNat (m[p + 2]'(by omega)).toNat (m[p + 3]'(by omega)).toNat (m[p + 4]'(by omega)).toNat) with
      | abort => rfl
      | ub => rfl
      | ok ob =>
          obtain ⟨bs', rfl, hl, hb'⟩ := h2 ob he
          simp only [Outcome.ok_bind]
          have hl4 : bs'.length = bs.length + 8 := hl
          rw [show o + bs.length + 8 = o + bs'.length by omega]
          exact ih (p + 5) bs' hb' (by omega) (fun _ => by omega)

theorem enc16_eq (d : Def) {m : List Byte} {o : Nat} : ∀ (n p : Nat) (bs : List Byte), o + bs.length ≤ m.length → p + n ≤ m.length →
    (0 < n → o + bs.length + n ≤ p + 1) →
    encMem16 d n p (o + bs.length) (overwrite m o bs) = (encode16 d n ((m.drop p).take n) ⟨m.length - o, bs⟩ >>= fun ob => .ok (overwrite m o ob.data)) := by
  intro n
  induction n with
  | zero => intro p bs hb hp hr; simp [encMem16, encode16]
  | succ n ih =>
      intro p bs hb hp hr
      have hr := hr (by omega)
      rw [encMem16, take_next (by omega), encode16, rd_over hb (by omega) (by omega)]
      simp only [Outcome.ok_bind]
      obtain ⟨h1, h2⟩ := emit_eq d [(m[p]'(by omega)).toNat >>> 4, (m[p]'(by omega)).toNat &&& 0x0F] bs hb
      rw [h1]
      cases he : OBuf.emit d ⟨m.length - o, bs⟩ [(m[p]'(by omega)).toNat >>> 4, (m[p]'(by omega)).toNat &&& 0x0F] with
      | abort => rfl
      | ub => rfl
      | ok ob =>
          obtain ⟨bs', rfl, hl, hb'⟩ := h2 ob he
          simp only [Outcome.ok_bind]
          have hl4 : bs'.length = bs.length + 2 := hl
          rw [show o + bs.length + 2 = o + bs'.length by omega]
          exact ih (p + 1) bs' hb' (by omega) (fun _ => by omega)

/-- The number of groups, whole or partial, that `n` bytes make. -/
def groups (k : Kind) (n : Nat) : Nat := (n + ig k - 1) / ig k

/-- **C145 (same as with a separate buffer).** For each of the shipped definitions, any data at offset `a` of a block and an output at offset `o` of the same block, such
that before the last group is read the text has not reached it (each group makes the text overtake the data by `og - ig` bytes): the code, `*out_bytes` and the
characters are those of the call with a separate output buffer, and no other byte of the block changes. -/
theorem c145_encode (k : Kind) (m : List Byte) (a n o ob : Nat) (h0 : 0 < n) (hn : a + n ≤ m.length) (ho : o + (groups k n - 1) * (og k - ig k) ≤ a) :
    encodeMem k.toDef m a n o ob = (encode k.toDef (some ((m.drop a).take n)) (.buf (m.length - o)) (some ob) >>= fun r => .ok (toMem m o r)) := by
  have hlen : ((m.drop a).take n).length = n := by simp; omega
  obtain ⟨c, cs, hcs⟩ : ∃ c cs, (m.drop a).take n = c :: cs := by
    cases h : (m.drop a).take n with
    | nil => rw [h] at hlen; simp at hlen; omega
    | cons c cs => exact ⟨c, cs, rfl⟩
  have hov : overwrite m o [] = m := overwrite_nil m o
  rw [encodeMem, encode.eq_def, valid_eq]
  simp only [Bool.not_true, Bool.false_eq_true, if_false]
  rw [hcs]
  dsimp only
  rw [← hcs, encodeInto, hlen]
  by_cases hob : ob < encodedCount k.toDef n
  · simp [hob, toMem, overwrite_nil]
  · rw [if_neg hob, if_neg hob, encodeDispatch, hlen, igroups_eq]
    have e64 := enc64_eq k.toDef (n % 3) (by omega) (m := m) (o := o) (n / 3) a [] (by simp; omega) (by omega)
    have e32 := enc32_eq k.toDef (n % 5) (by omega) (m := m) (o := o) (n / 5) a [] (by simp; omega) (by omega)
    have e16 := enc16_eq k.toDef (m := m) (o := o) n a [] (by simp; omega) (by omega)
    rw [overwrite_nil, List.length_nil, Nat.add_zero, show 3 * (n / 3) + n % 3 = n by omega] at e64
    rw [overwrite_nil, List.length_nil, Nat.add_zero, show 5 * (n / 5) + n % 5 = n by omega] at e32
    rw [overwrite_nil, List.length_nil, Nat.add_zero] at e16
    have hb : (k.toDef.base = 64 ∧ ig k = 3 ∧ og k = 4) ∨ (k.toDef.base = 32 ∧ ig k = 5 ∧ og k = 8) ∨ (k.toDef.base = 16 ∧ ig k = 1 ∧ og k = 2) := by cases k <;> decide
    rcases hb with ⟨hb, hi, hg⟩ | ⟨hb, hi, hg⟩ | ⟨hb, hi, hg⟩
    · rw [if_pos hb, if_pos hb, hi]
      rw [groups, hi, hg] at ho
      rw [e64 (fun _ => by omega)]
      cases encode64 k.toDef (n % 3) (n / 3) ((m.drop a).take n) ⟨m.length - o, []⟩ <;> rfl
    · simp only [hb, Nat.reduceEqDiff, if_false, if_true, hi]
      rw [groups, hi, hg] at ho
      rw [e32 (fun _ => by omega)]
      cases encode32 k.toDef (n % 5) (n / 5) ((m.drop a).take n) ⟨m.length - o, []⟩ <;> rfl
    · simp only [hb, Nat.reduceEqDiff, if_false, if_true, hi, Nat.div_one]
      rw [groups, hi, hg] at ho
      rw [e16 (fun _ => by omega)]
      cases encode16 k.toDef n ((m.drop a).take n) ⟨m.length - o, []⟩ <;> rfl

/-- **C145 (text of data at the end).** Data at the end of a block that has exactly room for their text, or further behind: the text appears at the beginning, the rest
of the block is as before. -/
theorem c145_text (k : Kind) (data mid post : List Byte) (hd : data ≠ []) (hroom : (Spec.encode k data).length ≤ mid.length + data.length) (ob : Nat)
    (hob : (Spec.encode k data).length ≤ ob ∧ ob ≤ mid.length + data.length + post.length) :
    encodeMem k.toDef (mid ++ data ++ post) mid.length data.length 0 ob =
      .ok ⟨0, (Spec.encode k data).length, overwrite (mid ++ data ++ post) 0 (Spec.encode k data)⟩ := by
  have hl := List.length_pos_iff.2 hd
  have hsl := spec_length k data
  have hT : ((mid ++ data ++ post).drop mid.length).take data.length = data := by rw [List.append_assoc, List.drop_left, List.take_left]
  rw [c145_encode k _ _ _ 0 ob hl (by simp) ?_, hT, encode_buf k data _ ob (by simp; omega), if_neg (by omega), ← hsl]
  · rfl
  · rw [hsl, encodedLen] at hroom
    cases k <;> simp only [padded, ig, og, needed, bits, groups, if_true, Bool.false_eq_true, if_false] at * <;> omega

/-- Violation: the condition cannot be dropped: six bytes encoded onto themselves. -/
theorem c145_near_violation : encodeMem Kind.b64.toDef (ascii "ABCXYZ..") 0 6 0 8 ≠ .ok ⟨0, 8, ascii "QUJDWFla"⟩ ∧
    encodeMem Kind.b64.toDef (ascii ".ABCXYZ.") 1 6 0 8 = .ok ⟨0, 8, ascii "QUJDWFla"⟩ := by decide +kernel

/-- The hypotheses are met. -/
example : groups .b64 6 = 2 ∧ 0 + (groups .b64 6 - 1) * (og .b64 - ig .b64) ≤ 1 := by decide

end ZT.Base
