import Verif.Base.Props
import Verif.Mem

/-!
# C140: decoding in place

zt_base_decode with the output in the same block as the text, at or before its beginning: one memory block `m`, the text at offset `a`, the output at
offset `o`. The functions below are those of Verif.Base.Model with the reads and writes going to the same block.
-/

namespace ZT.Base
open Spec

/-! ## Model -/

/-- Consecutive stores `*out++ = b` at offset `w` of a block (zt_base.c 281-283, 299-303, 414-418, 434-458, 521). -/
def storesAt (m : List Byte) (w : Nat) : List Byte → Outcome (List Byte)
  | [] => .ok m
  | b :: bs => do
      let m ← wr m w b
      storesAt m (w + 1) bs

/-- State of a decode loop: `buf`, the block, the offset of `out`, `obytes`. -/
structure MState where
  buf : List Nat
  m : List Byte
  w : Nat
  obytes : Nat

/-- The loop shared by `_decode64` (zt_base.c 263-291), `_decode32` (391-426) and `_decode16` (505-529) on one block: `n` characters are left, `p` is the
offset of `in`. -/
def memLoop (d : Def) (size : Nat) (full : List Nat → List Byte) : (n p : Nat) → MState → Outcome (MState × Bool)
  | 0, _, s => .ok (s, true)
  | n + 1, p, s => do
      let c ← rd s.m p
      let v ← dictAt d c
      if v ≥ 0 then
        let buf := s.buf ++ [v.toNat]
        if buf.length = size then do
          let m ← storesAt s.m s.w (full buf)
          memLoop d size full n (p + 1) ⟨[], m, s.w + (full buf).length, s.obytes + (full buf).length⟩
        else memLoop d size full n (p + 1) { s with buf := buf }
      else if v = -1 then .ok (s, false)
      else memLoop d size full n (p + 1) s

/-- What the caller sees: the code, `*out_bytes`, the block. -/
structure MRet where
  code : Int
  outBytes : Nat
  m : List Byte
  deriving Repr, DecidableEq

/-- Return after the remaining stores (`extra` bytes are counted). -/
def memDone (s : MState) (bs : List Byte) : Outcome MRet := do
  let m ← storesAt s.m s.w bs
  pure ⟨0, s.obytes + bs.length, m⟩

/-- zt_base.c 253-312 `_decode64` on one block. -/
def mem64 (d : Def) (n p w : Nat) (m : List Byte) (ob : Nat) : Outcome MRet := do
  let (s, fin) ← memLoop d 4 full64 n p ⟨[], m, w, 0⟩
  if !fin then pure ⟨-1, ob, s.m⟩
  else
    match s.buf with
    | [] => pure ⟨0, s.obytes, s.m⟩
    | [_] => pure ⟨-1, s.obytes, s.m⟩
    | [b0, b1] => memDone s [UInt8.ofNat (b0 <<< 2 ||| (b1 >>> 4))]
    | [b0, b1, b2] => memDone s [UInt8.ofNat (b0 <<< 2 ||| (b1 >>> 4)), UInt8.ofNat ((b1 &&& 0x0F) <<< 4 ||| (b2 >>> 2))]
    | _ => .ub

/-- zt_base.c 381-469 `_decode32` on one block. -/
def mem32 (d : Def) (n p w : Nat) (m : List Byte) (ob : Nat) : Outcome MRet := do
  let (s, fin) ← memLoop d 8 full32 n p ⟨[], m, w, 0⟩
  if !fin then pure ⟨-1, ob, s.m⟩
  else
    match s.buf with
    | [] => pure ⟨0, s.obytes, s.m⟩
    | [_] => pure ⟨-1, s.obytes, s.m⟩
    | [b0, b1] => memDone s [UInt8.ofNat (b0 <<< 3 ||| b1 >>> 2)]
    | [_, _, _] => pure ⟨-1, s.obytes, s.m⟩
    | [b0, b1, b2, b3] => memDone s [UInt8.ofNat (b0 <<< 3 ||| b1 >>> 2), UInt8.ofNat (b1 <<< 6 ||| b2 <<< 1 ||| b3 >>> 4)]
    | [b0, b1, b2, b3, b4] => memDone s [UInt8.ofNat (b0 <<< 3 ||| b1 >>> 2), UInt8.ofNat (b1 <<< 6 ||| b2 <<< 1 ||| b3 >>> 4), UInt8.ofNat (b3 <<< 4 ||| b4 >>> 1)]
    | [_, _, _, _, _, _] => pure ⟨-1, ob, s.m⟩
    | [b0, b1, b2, b3, b4, b5, b6] => memDone s [UInt8.ofNat (b0 <<< 3 ||| b1 >>> 2), UInt8.ofNat (b1 <<< 6 ||| b2 <<< 1 ||| b3 >>> 4), UInt8.ofNat (b3 <<< 4 ||| b4 >>> 1),
        UInt8.ofNat (b4 <<< 7 ||| b5 <<< 2 ||| b6 >>> 3)]
    | _ => pure ⟨-1, s.obytes, s.m⟩

/-- zt_base.c 495-533 `_decode16` on one block. -/
def mem16 (d : Def) (n p w : Nat) (m : List Byte) (ob : Nat) : Outcome MRet := do
  let (s, fin) ← memLoop d 2 full16 n p ⟨[], m, w, 0⟩
  if !fin then pure ⟨-1, ob, s.m⟩ else pure ⟨0, s.obytes, s.m⟩

/-- zt_base.c 615-688 `zt_base_decode(def, m + a, n, &out, &ob)` with `out = m + o` in the same block, `n > 0`. The counting of padding (640-645) reads the
text before anything is written. -/
def decodeMem (d : Def) (m : List Byte) (a n o ob : Nat) : Outcome MRet :=
  if !validDictionary d then .ok ⟨-1, ob, m⟩
  else
    let ocount := decodedCount d ((m.drop a).take n)
    if ob < ocount then .ok ⟨-2, ocount, m⟩
    else if d.base = 64 then mem64 d n a o m ob
    else if d.base = 32 then mem32 d n a o m ob
    else if d.base = 16 then mem16 d n a o m ob
    else .ok ⟨-1, ob, m⟩

/-! ## Specification -/

/-- The block with `bs` at offset `o`. -/
def overwrite (m : List Byte) (o : Nat) (bs : List Byte) : List Byte := m.take o ++ bs ++ m.drop (o + bs.length)

/-! ## Proof -/

theorem overwrite_length {m : List Byte} {o : Nat} {bs : List Byte} (h : o + bs.length ≤ m.length) : (overwrite m o bs).length = m.length := by
  simp [overwrite]; omega

theorem overwrite_get {m : List Byte} {o p : Nat} {bs : List Byte} (h : o + bs.length ≤ m.length) (hp : o + bs.length ≤ p) : (overwrite m o bs)[p]? = m[p]? := by
  have h1 : (m.take o ++ bs).length = o + bs.length := by simp; omega
  rw [overwrite, List.getElem?_append_right (by omega), h1, List.getElem?_drop]
  congr 1; omega

theorem overwrite_nil (m : List Byte) (o : Nat) : overwrite m o [] = m := by simp [overwrite]

theorem overwrite_set {m : List Byte} {o : Nat} {bs : List Byte} (b : Byte) (h : o + bs.length < m.length) : (overwrite m o bs).set (o + bs.length) b = overwrite m o (bs ++ [b]) := by
  have h1 : (m.take o ++ bs).length = o + bs.length := by simp; omega
  unfold overwrite
  rw [List.set_append_right _ _ (by omega), h1, Nat.sub_self, List.drop_eq_getElem_cons h]
  simp [Nat.add_assoc]

theorem storesAt_overwrite {m : List Byte} {o : Nat} (cs : List Byte) : ∀ bs : List Byte, o + bs.length + cs.length ≤ m.length →
    storesAt (overwrite m o bs) (o + bs.length) cs = .ok (overwrite m o (bs ++ cs)) := by
  induction cs with
  | nil => intro bs _; simp [storesAt]
  | cons c cs ih =>
      intro bs h
      simp only [List.length_cons] at h
      rw [storesAt, wr_lt (by rw [overwrite_length (by omega)]; omega), overwrite_set c (by omega)]
      simp only [Outcome.ok_bind]
      have := ih (bs ++ [c]) (by simp; omega)
      rw [List.length_append, List.length_singleton, ← Nat.add_assoc] at this
      rw [this]; simp

/-- The state on one block that corresponds to a state with a separate output. -/
def lift (m : List Byte) (o : Nat) (s : DState) : MState := ⟨s.buf, overwrite m o s.o.data, o + s.o.data.length, s.obytes⟩

theorem memLoop_eq (d : Def) (size : Nat) (full : List Nat → List Byte) (hfull : ∀ l, (full l).length ≤ l.length) (m : List Byte) (o a cap : Nat) (ho : o ≤ a) (hcap : m.length ≤ o + cap) : ∀ (n p : Nat) (s : DState),
    s.o.cap = cap → a + s.o.data.length + s.buf.length ≤ p → p + n ≤ m.length →
    memLoop d size full n p (lift m o s) = (decodeLoop d size full ((m.drop p).take n) s >>= fun x => .ok (lift m o x.1, x.2)) ∧
      ∀ x, decodeLoop d size full ((m.drop p).take n) s = .ok x → x.1.o.cap = cap ∧ a + x.1.o.data.length + x.1.buf.length ≤ p + n := by
  intro n
  induction n with
  | zero =>
      intro p s hc hp hn
      simp only [memLoop, List.take_zero, decodeLoop, Outcome.ok_bind, true_and]
      intro x hx; cases hx; exact ⟨hc, by omega⟩
  | succ n ih =>
      intro p s hc hp hn
      have hlt : p < m.length := by omega
      have hdrop : (m.drop p).take (n + 1) = m[p] :: (m.drop (p + 1)).take n := by rw [List.drop_eq_getElem_cons hlt, List.take_succ_cons]
      have hrd : rd (lift m o s).m p = .ok m[p] := by
        rw [rd_eq_ok]
        simp only [lift]
        rw [overwrite_get (by omega) (by omega), List.getElem?_eq_getElem hlt]
      rw [hdrop, memLoop, hrd, decodeLoop]
      simp only [Outcome.ok_bind]
      cases hv : dictAt d m[p] with
      | abort => simp
      | ub => simp
      | ok v =>
          simp only [Outcome.ok_bind]
          by_cases hv0 : v ≥ 0
          · simp only [hv0, if_true]
            by_cases hs : (s.buf ++ [v.toNat]).length = size
            · have hf := hfull (s.buf ++ [v.toNat])
              have hlen : (s.buf ++ [v.toNat]).length = s.buf.length + 1 := by simp
              have e1 : (lift m o s).buf ++ [v.toNat] = s.buf ++ [v.toNat] := rfl
              rw [e1]
              simp only [if_pos hs]
              have hst := storesAt_overwrite (m := m) (o := o) (full (s.buf ++ [v.toNat])) s.o.data (by omega)
              have hst' : storesAt (lift m o s).m (lift m o s).w (full (s.buf ++ [v.toNat])) = .ok (overwrite m o (s.o.data ++ full (s.buf ++ [v.toNat]))) := hst
              have hso := stores_ok s.o (full (s.buf ++ [v.toNat])) (by omega)
              rw [hst', hso]
              simp only [Outcome.ok_bind]
              obtain ⟨i1, i2⟩ := ih (p + 1) ⟨[], { s.o with data := s.o.data ++ full (s.buf ++ [v.toNat]) }, s.obytes + (full (s.buf ++ [v.toNat])).length⟩ hc (by simp; omega) (by omega)
              refine ⟨?_, fun x hx => ?_⟩
              · rw [← i1]; simp only [lift, List.length_append, Nat.add_assoc]
              · have := i2 x hx; exact ⟨this.1, by omega⟩
            · have e1 : (lift m o s).buf ++ [v.toNat] = s.buf ++ [v.toNat] := rfl
              rw [e1]
              simp only [if_neg hs]
              obtain ⟨i1, i2⟩ := ih (p + 1) { s with buf := s.buf ++ [v.toNat] } hc (by simp; omega) (by omega)
              refine ⟨i1, fun x hx => ?_⟩
              have := i2 x hx; exact ⟨this.1, by omega⟩
          · simp only [hv0, if_false]
            by_cases hv1 : v = -1
            · simp only [hv1, if_true]
              refine ⟨rfl, fun x hx => ?_⟩
              cases hx; exact ⟨hc, by dsimp only; omega⟩
            · simp only [hv1, if_false]
              obtain ⟨i1, i2⟩ := ih (p + 1) s hc (by omega) (by omega)
              refine ⟨i1, fun x hx => ?_⟩
              have := i2 x hx; exact ⟨this.1, by omega⟩

theorem full64_le (l : List Nat) : (full64 l).length ≤ l.length := by unfold full64; split <;> simp
theorem full32_le (l : List Nat) : (full32 l).length ≤ l.length := by unfold full32; split <;> simp
theorem full16_le (l : List Nat) : (full16 l).length ≤ l.length := by unfold full16; split <;> simp

/-- What the caller of the in-place call sees, from what the caller with a separate output buffer sees. -/
def toMem (m : List Byte) (o : Nat) (r : Ret) : MRet := ⟨r.code, r.outBytes.getD 0, overwrite m o r.out⟩

theorem memDone_eq {m : List Byte} {o : Nat} {s : DState} {bs : List Byte} (h1 : o + s.o.data.length + bs.length ≤ m.length) (h2 : s.o.data.length + bs.length ≤ s.o.cap) :
    memDone (lift m o s) bs = .ok ⟨0, s.obytes + bs.length, overwrite m o (s.o.data ++ bs)⟩ ∧ s.o.stores bs = .ok { s.o with data := s.o.data ++ bs } := by
  refine ⟨?_, stores_ok _ _ h2⟩
  rw [memDone]
  have := storesAt_overwrite (m := m) (o := o) bs s.o.data h1
  have h' : storesAt (lift m o s).m (lift m o s).w bs = .ok (overwrite m o (s.o.data ++ bs)) := this
  rw [h']; rfl

theorem mem64_eq (d : Def) (m : List Byte) (o a n ob cap : Nat) (ho : o ≤ a) (hn : a + n ≤ m.length) (hcap : m.length ≤ o + cap) :
    mem64 d n a o m ob = (decode64 d ((m.drop a).take n) ⟨cap, []⟩ ob >>= fun r => .ok (toMem m o r)) := by
  obtain ⟨h1, h2⟩ := memLoop_eq d 4 full64 full64_le m o a cap ho hcap n a ⟨[], ⟨cap, []⟩, 0⟩ rfl (by simp) hn
  have hl : lift m o ⟨[], ⟨cap, []⟩, 0⟩ = ⟨[], m, o, 0⟩ := by simp [lift, overwrite_nil]
  rw [hl] at h1
  rw [mem64, decode64, h1]
  cases hx : decodeLoop d 4 full64 ((m.drop a).take n) ⟨[], ⟨cap, []⟩, 0⟩ with
  | abort => simp
  | ub => simp
  | ok x =>
      obtain ⟨s, fin⟩ := x
      obtain ⟨hc, hb⟩ := h2 _ hx
      simp only at hc hb
      cases fin with
      | false => simp [lift, toMem]
      | true =>
          simp only [Outcome.ok_bind, Bool.not_true, Bool.false_eq_true, if_false]
          have hbuf : (lift m o s).buf = s.buf := rfl
          have go : ∀ bs : List Byte, bs.length ≤ s.buf.length → memDone (lift m o s) bs = (s.o.stores bs >>= fun o' => pure ⟨0, some (s.obytes + bs.length), o'.data⟩) >>= fun r => .ok (toMem m o r) := by
            intro bs hbs
            obtain ⟨e1, e2⟩ := memDone_eq (m := m) (o := o) (s := s) (bs := bs) (by omega) (by omega)
            rw [e1, e2]; rfl
          rw [hbuf]
          rcases hs : s.buf with _ | ⟨b0, _ | ⟨b1, _ | ⟨b2, _ | ⟨b3, l⟩⟩⟩⟩
          · simp [lift, toMem]
          · simp [lift, toMem]
          · exact go _ (by simp [hs])
          · exact go _ (by simp [hs])
          · rfl

theorem mem32_eq (d : Def) (m : List Byte) (o a n ob cap : Nat) (ho : o ≤ a) (hn : a + n ≤ m.length) (hcap : m.length ≤ o + cap) :
    mem32 d n a o m ob = (decode32 d ((m.drop a).take n) ⟨cap, []⟩ ob >>= fun r => .ok (toMem m o r)) := by
  obtain ⟨h1, h2⟩ := memLoop_eq d 8 full32 full32_le m o a cap ho hcap n a ⟨[], ⟨cap, []⟩, 0⟩ rfl (by simp) hn
  have hl : lift m o ⟨[], ⟨cap, []⟩, 0⟩ = ⟨[], m, o, 0⟩ := by simp [lift, overwrite_nil]
  rw [hl] at h1
  rw [mem32, decode32, h1]
  cases hx : decodeLoop d 8 full32 ((m.drop a).take n) ⟨[], ⟨cap, []⟩, 0⟩ with
  | abort => simp
  | ub => simp
  | ok x =>
      obtain ⟨s, fin⟩ := x
      obtain ⟨hc, hb⟩ := h2 _ hx
      simp only at hc hb
      cases fin with
      | false => simp [lift, toMem]
      | true =>
          simp only [Outcome.ok_bind, Bool.not_true, Bool.false_eq_true, if_false]
          have hbuf : (lift m o s).buf = s.buf := rfl
          have go : ∀ bs : List Byte, bs.length ≤ s.buf.length → memDone (lift m o s) bs = (s.o.stores bs >>= fun o' => pure ⟨0, some (s.obytes + bs.length), o'.data⟩) >>= fun r => .ok (toMem m o r) := by
            intro bs hbs
            obtain ⟨e1, e2⟩ := memDone_eq (m := m) (o := o) (s := s) (bs := bs) (by omega) (by omega)
            rw [e1, e2]; rfl
          rw [hbuf]
          rcases hs : s.buf with _ | ⟨b0, _ | ⟨b1, _ | ⟨b2, _ | ⟨b3, _ | ⟨b4, _ | ⟨b5, _ | ⟨b6, _ | ⟨b7, l⟩⟩⟩⟩⟩⟩⟩⟩
          · simp [lift, toMem]
          · simp [lift, toMem]
          · exact go _ (by simp [hs])
          · simp [lift, toMem]
          · exact go _ (by simp [hs])
          · exact go _ (by simp [hs])
          · simp [lift, toMem]
          · exact go _ (by simp [hs])
          · simp [lift, toMem]

theorem mem16_eq (d : Def) (m : List Byte) (o a n ob cap : Nat) (ho : o ≤ a) (hn : a + n ≤ m.length) (hcap : m.length ≤ o + cap) :
    mem16 d n a o m ob = (decode16 d ((m.drop a).take n) ⟨cap, []⟩ ob >>= fun r => .ok (toMem m o r)) := by
  obtain ⟨h1, h2⟩ := memLoop_eq d 2 full16 full16_le m o a cap ho hcap n a ⟨[], ⟨cap, []⟩, 0⟩ rfl (by simp) hn
  have hl : lift m o ⟨[], ⟨cap, []⟩, 0⟩ = ⟨[], m, o, 0⟩ := by simp [lift, overwrite_nil]
  rw [hl] at h1
  rw [mem16, decode16, h1]
  cases hx : decodeLoop d 2 full16 ((m.drop a).take n) ⟨[], ⟨cap, []⟩, 0⟩ with
  | abort => simp
  | ub => simp
  | ok x =>
      obtain ⟨s, fin⟩ := x
      cases fin <;> simp [lift, toMem]

/-- **C140 (same as with a separate buffer).** For every definition, text, offsets with the output at or before the beginning of the text in one block, and
every value of `*out_bytes`: the code, `*out_bytes` and the bytes written are those of the call with a separate output buffer, and no other byte of the block
changes. -/
theorem c140_decode (d : Def) (m : List Byte) (a n o ob : Nat) (h0 : 0 < n) (ho : o ≤ a) (hn : a + n ≤ m.length) :
    decodeMem d m a n o ob = (decode d (some ((m.drop a).take n)) (.buf (m.length - o)) (some ob) >>= fun r => .ok (toMem m o r)) := by
  have hlen : ((m.drop a).take n).length = n := by simp; omega
  obtain ⟨c, cs, hcs⟩ : ∃ c cs, (m.drop a).take n = c :: cs := by
    cases h : (m.drop a).take n with
    | nil => rw [h] at hlen; simp at hlen; omega
    | cons c cs => exact ⟨c, cs, rfl⟩
  rw [decodeMem, decode.eq_def]
  cases hv : validDictionary d with
  | false => simp [toMem, overwrite_nil]
  | true =>
      simp only [Bool.not_true, Bool.false_eq_true, if_false]
      rw [hcs]
      dsimp only
      by_cases hob : ob < decodedCount d (c :: cs)
      · simp [hob, toMem, overwrite_nil]
      · rw [if_neg hob, if_neg hob, decodeDispatch]
        by_cases h64 : d.base = 64
        · rw [if_pos h64, if_pos h64, mem64_eq d m o a n ob (m.length - o) ho hn (by omega), hcs]
        · rw [if_neg h64, if_neg h64]
          by_cases h32 : d.base = 32
          · rw [if_pos h32, if_pos h32, mem32_eq d m o a n ob (m.length - o) ho hn (by omega), hcs]
          · rw [if_neg h32, if_neg h32]
            by_cases h16 : d.base = 16
            · rw [if_pos h16, if_pos h16, mem16_eq d m o a n ob (m.length - o) ho hn (by omega), hcs]
            · rw [if_neg h16, if_neg h16]; simp [toMem, overwrite_nil]

theorem decodedCount_le_length (k : Kind) (t : List Byte) : decodedCount k.toDef t ≤ t.length := by
  simp only [decodedCount, ogroups_eq, igroups_eq]
  generalize stripLoop _ t.reverse 0 = i
  cases k <;> simp only [og, ig] <;> omega

/-- **C140 (round trip).** For each of the shipped definitions: the text made of any data, anywhere in a block, decoded onto its own beginning (or onto any
place before it) with its own length as size: the data appear there, and the rest of the block is as before. -/
theorem c140_roundtrip (k : Kind) (data pre post : List Byte) (o : Nat) (hd : data ≠ []) (ho : o ≤ pre.length) :
    decodeMem k.toDef (pre ++ Spec.encode k data ++ post) pre.length (Spec.encode k data).length o (Spec.encode k data).length =
      .ok ⟨0, data.length, overwrite (pre ++ Spec.encode k data ++ post) o data⟩ := by
  obtain ⟨h1, h2⟩ := spec_roundtrip k data
  have hne : Spec.encode k data ≠ [] := by
    intro h; rw [h] at h1; apply hd; rw [← h1]; simp [digitsOf, decDigits_nil]
  have hT : ((pre ++ Spec.encode k data ++ post).drop pre.length).take (Spec.encode k data).length = Spec.encode k data := by
    rw [List.append_assoc, List.drop_left, List.take_left]
  rw [c140_decode k.toDef _ _ _ o _ (List.length_pos_iff.2 hne) ho (by simp), hT]
  have hcl := clean_encode k data
  have hle := decodedCount_le_length k (Spec.encode k data)
  generalize hg : Spec.encode k data = T at *
  match T, hne with
  | c :: cs, _ =>
      obtain ⟨r, hr, hs⟩ := decodeDispatch_spec k (c :: cs) ((pre ++ c :: cs ++ post).length - o) (c :: cs).length (by
        refine Nat.le_trans hle ?_
        simp only [List.length_append]; omega)
      have hgood := hs.good hcl (Or.inl h2)
      rw [h1] at hgood
      rw [decode.eq_def, valid_eq]
      simp only [Bool.not_true, Bool.false_eq_true, if_false]
      rw [if_neg (by omega), hr, hgood]
      rfl

/-- Violation: an output that begins behind the beginning of the text destroys characters that are still to be read: "QUJDREVG" (ABCDEF) at offset 0,
decoded to offset 3. -/
theorem c140_behind_violation : decodeMem Kind.b64.toDef (ascii "QUJDREVG....") 0 8 3 8 ≠ .ok ⟨0, 6, overwrite (ascii "QUJDREVG....") 3 (ascii "ABCDEF")⟩ := by decide +kernel

/-- The hypotheses are met. -/
example : decodeMem Kind.b64.toDef (ascii "QUJDREVG....") 0 8 0 8 = .ok ⟨0, 6, ascii "ABCDEFVG...."⟩ := by decide +kernel

end ZT.Base
