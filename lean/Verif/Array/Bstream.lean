import Verif.Array.Props

/-! # C28: zt_bstream -/

namespace ZT.Arr

/-- The bytes a call with `len` bytes transfers, in stream order. -/
def order (flip : Bool) (s : List Byte) : List Byte := if flip then s.reverse else s

theorem order_order (flip : Bool) (s : List Byte) : order flip (order flip s) = s := by cases flip <;> simp [order]
theorem order_length (flip : Bool) (s : List Byte) : (order flip s).length = s.length := by cases flip <;> simp [order]

/-- A byte array (`size = 1`) whose block is `m`. -/
def bytesOf (a : Arr) : List Byte := a.data.getD []

theorem put_byte {a : Arr} (w : WF a) (h1 : a.size = 1) {o : Nat} (ho : o < a.length) {b : Byte} {rest : List Byte} :
    put a o (b :: rest) = .ok { a with data := some ((bytesOf a).set o b) } := by
  obtain ⟨m, hm, hl⟩ := w.some (by omega)
  have hsm := w.small
  rw [h1, Nat.mul_one] at hl hsm
  rw [put, if_pos ho, hm]
  simp only [h1, Nat.mul_one]
  rw [slice_ok (by simp), sz_lt (by omega)]
  simp only [Outcome.ok_bind, List.drop_zero, List.take_succ_cons, List.take_zero]
  rw [blit_ok (by simp; omega)]
  simp only [Outcome.ok_bind, Outcome.pure_eq, bytesOf, hm, Option.getD_some]
  rw [List.set_eq_take_append_cons_drop, if_pos (by omega)]
  simp

theorem wf_set {a : Arr} (w : WF a) {m : List Byte} (h : 0 < a.length) (hm : m.length = a.length * a.size) : WF { a with data := some m } :=
  ⟨w.size, w.small, fun q hq => by cases hq; exact hm, by simp; omega⟩

theorem splice_cons {d : List Byte} {o : Nat} {b : Byte} {bs : List Byte} (h : o < d.length) :
    (d.set o b).take (o + 1) ++ bs ++ (d.set o b).drop (o + 1 + bs.length) = d.take o ++ (b :: bs) ++ d.drop (o + (b :: bs).length) := by
  rw [List.take_set, List.drop_set_of_lt (by omega)]
  rw [List.set_eq_take_append_cons_drop, if_pos (by simp; omega), List.take_take, List.drop_take]
  simp only [Nat.sub_self, List.take_zero, List.length_cons]
  rw [show min o (o + 1) = o by omega, show o + 1 + bs.length = o + (bs.length + 1) by omega]
  simp

/-- The bytes still to be transferred. -/
theorem order_step (flip : Bool) (s : List Byte) (n : Nat) (h : n < s.length) :
    ∃ b, s[if flip then n else s.length - (n + 1)]? = some b ∧
      (if flip then (s.take (n + 1)).reverse else s.drop (s.length - (n + 1))) = b :: (if flip then (s.take n).reverse else s.drop (s.length - n)) := by
  cases flip
  · simp only [Bool.false_eq_true, if_false]
    refine ⟨s[s.length - (n + 1)]'(by omega), by rw [List.getElem?_eq_getElem], ?_⟩
    rw [List.drop_eq_getElem_cons (by omega)]
    congr 2; omega
  · simp only [if_true]
    refine ⟨s[n], by rw [List.getElem?_eq_getElem], ?_⟩
    rw [List.take_succ_eq_append_getElem h]; simp

theorem arrayPut_spec (flip : Bool) (s : List Byte) (n : Nat) : ∀ (a : Arr) (o : Nat), WF a → a.size = 1 → n ≤ s.length → o + n ≤ a.length →
    ∃ a', arrayPut flip s s.length n a o = .ok (a', o + n) ∧ WF a' ∧ a'.length = a.length ∧ a'.size = 1 ∧
      bytesOf a' = (bytesOf a).take o ++ (if flip then (s.take n).reverse else s.drop (s.length - n)) ++ (bytesOf a).drop (o + n) := by
  induction n with
  | zero =>
      intro a o w h1 _ ho
      refine ⟨a, rfl, w, rfl, h1, ?_⟩
      cases flip <;> simp
  | succ n ih =>
      intro a o w h1 hn ho
      obtain ⟨b, hb, hseq⟩ := order_step flip s n (by omega)
      obtain ⟨m, hm, hl⟩ := w.some (by omega)
      have hdrop : ∃ rest, s.drop (if flip then n else s.length - (n + 1)) = b :: rest := by
        obtain ⟨hlt, hge⟩ := List.getElem?_eq_some_iff.1 hb
        exact ⟨_, by rw [List.drop_eq_getElem_cons hlt, hge]⟩
      obtain ⟨rest, hdrop⟩ := hdrop
      have hbl : (bytesOf a).length = a.length := by simp [bytesOf, hm, hl, h1]
      have w' : WF { a with data := some ((bytesOf a).set o b) } := wf_set w (by omega) (by rw [List.length_set, hbl, h1]; simp)
      obtain ⟨a', e1, e2, e3, e4, e5⟩ := ih { a with data := some ((bytesOf a).set o b) } (o + 1) w' h1 (by omega) (by simp; omega)
      have hsm := w.small
      rw [h1] at hsm
      refine ⟨a', ?_, e2, e3, e4, ?_⟩
      · rw [arrayPut, hdrop, put_byte w h1 (by omega)]
        simp only [Outcome.ok_bind]
        rw [sz_lt (by omega), e1]
        congr 2; omega
      · rw [e5, hseq]
        have hcut : bytesOf { a with data := some ((bytesOf a).set o b) } = (bytesOf a).set o b := rfl
        rw [hcut]
        have := splice_cons (d := bytesOf a) (o := o) (b := b) (bs := if flip then (s.take n).reverse else s.drop (s.length - n)) (by omega)
        have hlen : (if flip then (s.take n).reverse else s.drop (s.length - n)).length = n := by
          cases flip
          · simp; omega
          · simp; omega
        rw [List.length_cons, hlen] at this
        rw [this]

theorem arrayGet_spec (flip : Bool) (a : Arr) (w : WF a) (h1 : a.size = 1) (n : Nat) : ∀ (s : List Byte) (o : Nat), n ≤ s.length → o + n ≤ a.length →
    ∃ s', arrayGet flip a s.length n s o = .ok (s', o + n) ∧
      s' = if flip then (((bytesOf a).drop o).take n).reverse ++ s.drop n else s.take (s.length - n) ++ ((bytesOf a).drop o).take n := by
  induction n with
  | zero => intro s o _ _; refine ⟨s, rfl, ?_⟩; cases flip <;> simp
  | succ n ih =>
      intro s o hn ho
      obtain ⟨m, hm, hl⟩ := w.some (by omega)
      have hsm := w.small
      rw [h1, Nat.mul_one] at hl hsm
      have hbm : bytesOf a = m := by simp [bytesOf, hm]
      have hidx : (if flip then n else s.length - (n + 1)) < s.length := by cases flip <;> simp <;> omega
      obtain ⟨s', e1, e2⟩ := ih (s.set (if flip then n else s.length - (n + 1)) m[o]) (o + 1) (by simp; omega) (by omega)
      refine ⟨s', ?_, ?_⟩
      · rw [arrayGet, get, if_pos (by omega), h1, Nat.mul_one, sz_lt (by omega), hm]
        simp only [Outcome.ok_bind]
        rw [rd_lt (by omega)]
        simp only [Outcome.ok_bind]
        rw [wr_lt hidx]
        simp only [Outcome.ok_bind]
        rw [sz_lt (by omega)]
        rw [List.length_set] at e1
        rw [e1]; congr 2; omega
      · rw [e2, hbm]
        have hcons : (m.drop o).take (n + 1) = m[o] :: (m.drop (o + 1)).take n := by rw [List.drop_eq_getElem_cons (by omega), List.take_succ_cons]
        rw [hcons]
        cases flip
        · simp only [Bool.false_eq_true, if_false, List.length_set]
          rw [List.set_eq_take_append_cons_drop, if_pos (by omega), List.take_append, List.take_take, List.length_take]
          rw [show s.length - n - min (s.length - (n + 1)) s.length = 1 by omega]
          rw [show min (s.length - n) (s.length - (n + 1)) = s.length - (n + 1) by omega]
          simp
        · simp only [if_true, List.reverse_cons]
          rw [List.set_eq_take_append_cons_drop, if_pos (by omega), List.drop_append, List.drop_eq_nil_of_le (as := List.take n s) (by rw [List.length_take]; omega)]
          rw [List.length_take, show n - min n s.length = 0 by omega]
          simp

/-! ## Streams -/

/-- What a user may rely on between calls: a byte array, position inside it, and sizes far from `2 ^ 64`. -/
structure Ready (b : Bs) : Prop where
  wf : WF b.arr
  one : b.arr.size = 1
  pos : b.offt ≤ b.arr.length
  small : b.arr.length < 2 ^ 62

/-- The contents of the stream up to the position. -/
def written (b : Bs) : List Byte := (bytesOf b.arr).take b.offt

theorem bytes_length {a : Arr} (w : WF a) (h1 : a.size = 1) : (bytesOf a).length = a.length := by
  cases hd : a.data with
  | none => simp [bytesOf, hd, w.null.1 hd]
  | some m => have := w.block m hd; simp [bytesOf, hd, this, h1]

/-- One write: it appends the bytes in stream order at the position, keeps what is before it, and advances. -/
theorem write_spec {b : Bs} (r : Ready b) (junk : Nat → Byte) (s : List Byte) (hs : b.offt + s.length < 2 ^ 60) (k : Nat × Nat) (hk : k.1 * k.2 = s.length) :
    ∃ b', write junk b s k.1 k.2 = .ok b' ∧ Ready b' ∧ b'.flip = b.flip ∧ b'.offt = b.offt + s.length ∧ written b' = written b ++ order b.flip s := by
  obtain ⟨w, h1, hp, hsm⟩ := r
  have hav : sz (b.arr.length + 2 ^ 64 - b.offt) = b.arr.length - b.offt := by simp only [sz]; omega
  -- the array after the possible growth
  have grow : ∃ a, (if sz s.length > sz (b.arr.length + 2 ^ 64 - b.offt) then resize junk b.arr (sz ((b.arr.length + sz s.length) * 2)) else pure b.arr) = .ok a ∧
      WF a ∧ a.size = 1 ∧ b.offt + s.length ≤ a.length ∧ a.length < 2 ^ 62 ∧ (bytesOf a).take b.offt = written b := by
    rw [sz_lt (by omega : s.length < 2 ^ 64), hav]
    by_cases hg : s.length > b.arr.length - b.offt
    · rw [if_pos hg, sz_lt (by omega)]
      obtain ⟨a', e1, e2, e3, e4, e5, e6⟩ := c27_resize w junk (len := (b.arr.length + s.length) * 2) (by omega) (by rw [h1]; omega)
      refine ⟨a', e1, e2, by rw [e4, h1], by omega, by omega, ?_⟩
      have hb1 := bytes_length w h1
      have hb2 := bytes_length e2 (by rw [e4, h1])
      simp only [written]
      apply List.ext_getElem?
      intro i
      rw [List.getElem?_take, List.getElem?_take]
      split
      · have h5 := e5 i (by omega) (by omega)
        rw [elemCopy_eq e2 (by omega), elemCopy_eq w (by omega)] at h5
        simp only [elem, e4, h1, Nat.mul_one, Outcome.ok.injEq] at h5
        have := congrArg (fun l => l[0]?) h5
        simpa [List.getElem?_take, List.getElem?_drop, bytesOf] using this
      · rfl
    · rw [if_neg hg]
      exact ⟨b.arr, rfl, w, h1, by omega, hsm, rfl⟩
  obtain ⟨a, ea, wa, sa, la, sma, ta⟩ := grow
  obtain ⟨a', e1, e2, e3, e4, e5⟩ := arrayPut_spec b.flip s s.length a b.offt wa sa (Nat.le_refl _) la
  refine ⟨{ b with arr := a', offt := b.offt + s.length }, ?_, ⟨e2, e4, by simp; omega, by simp; omega⟩, rfl, rfl, ?_⟩
  · simp only [write, hk]
    split at ea
    · rename_i hc
      rw [if_pos hc, ea]
      simp only [Outcome.ok_bind]
      rw [sz_lt (by omega : s.length < 2 ^ 64), e1]; rfl
    · rename_i hc
      rw [if_neg hc, ea]
      simp only [Outcome.ok_bind]
      rw [sz_lt (by omega : s.length < 2 ^ 64), e1]; rfl
  · simp only [written] at ta ⊢
    rw [e5, ta]
    have hseq : (if b.flip then (s.take s.length).reverse else s.drop (s.length - s.length)) = order b.flip s := by cases b.flip <;> simp [order]
    rw [hseq]
    have hlen : (List.take b.offt (bytesOf b.arr) ++ order b.flip s).length = b.offt + s.length := by
      rw [List.length_append, order_length, List.length_take, bytes_length w h1]; omega
    rw [List.take_append_of_le_length (by omega), List.take_of_length_le (by omega)]

/-- One read inside the array: the caller's variable receives the next bytes, and the position advances; the array is unchanged. -/
theorem read_spec {b : Bs} (r : Ready b) {s : List Byte} (k : Nat × Nat) (hk : k.1 * k.2 = s.length) (hs : b.offt + s.length ≤ b.arr.length) :
    read b s k.1 k.2 = .ok ({ b with offt := b.offt + s.length }, order b.flip (((bytesOf b.arr).drop b.offt).take s.length)) := by
  obtain ⟨w, h1, hp, hsm⟩ := r
  obtain ⟨s', e1, e2⟩ := arrayGet_spec b.flip b.arr w h1 s.length s b.offt (Nat.le_refl _) hs
  rw [read, hk, sz_lt (by omega), e1]
  simp only [Outcome.ok_bind, Outcome.pure_eq, e2]
  congr 2
  cases b.flip <;> simp [order]

/-- Writing a sequence of blocks. -/
def writeAll (junk : Nat → Byte) : Bs → List (List Byte) → Outcome Bs
  | b, [] => .ok b
  | b, v :: vs => do
      let b ← write junk b v 1 v.length
      writeAll junk b vs

/-- Reading blocks into variables that hold `olds`. -/
def readAll : Bs → List (List Byte) → Outcome (Bs × List (List Byte))
  | b, [] => .ok (b, [])
  | b, o :: os => do
      let (b, v) ← read b o 1 o.length
      let (b, vs) ← readAll b os
      pure (b, v :: vs)

theorem writeAll_spec (junk : Nat → Byte) (vs : List (List Byte)) : ∀ (b : Bs), Ready b → b.offt + vs.flatten.length < 2 ^ 60 →
    ∃ b', writeAll junk b vs = .ok b' ∧ Ready b' ∧ b'.flip = b.flip ∧ b'.offt = b.offt + vs.flatten.length ∧ written b' = written b ++ (vs.map (order b.flip)).flatten := by
  induction vs with
  | nil => intro b r _; exact ⟨b, rfl, r, rfl, by simp, by simp⟩
  | cons v vs ih =>
      intro b r h
      simp only [List.flatten_cons, List.length_append] at h
      obtain ⟨b1, e1, r1, f1, o1, w1⟩ := write_spec r junk v (by omega) (1, v.length) (by simp)
      obtain ⟨b2, e2, r2, f2, o2, w2⟩ := ih b1 r1 (by omega)
      refine ⟨b2, ?_, r2, by rw [f2, f1], ?_, ?_⟩
      · rw [writeAll, e1]; exact e2
      · simp only [List.flatten_cons, List.length_append]; omega
      · rw [w2, w1, f1]; simp

theorem readAll_spec (vs : List (List Byte)) : ∀ (b : Bs) (os : List (List Byte)), Ready b → os.map List.length = vs.map List.length →
    (∃ post, (bytesOf b.arr).drop b.offt = (vs.map (order b.flip)).flatten ++ post) →
    ∃ b', readAll b os = .ok (b', vs) ∧ b'.arr = b.arr ∧ b'.flip = b.flip ∧ b'.offt = b.offt + vs.flatten.length := by
  induction vs with
  | nil =>
      intro b os r ho _
      cases os with
      | nil => exact ⟨b, rfl, rfl, rfl, by simp⟩
      | cons => simp at ho
  | cons v vs ih =>
      intro b os r ho hpost
      cases os with
      | nil => simp at ho
      | cons o os =>
          obtain ⟨post, hpost⟩ := hpost
          simp only [List.map_cons, List.cons.injEq] at ho
          simp only [List.map_cons, List.flatten_cons, List.append_assoc] at hpost
          have hbl := bytes_length r.wf r.one
          have hroom : b.offt + o.length ≤ b.arr.length := by
            have := congrArg List.length hpost
            simp only [List.length_drop, List.length_append, order_length] at this
            have := r.pos
            omega
          have hr := read_spec r (s := o) (1, o.length) (by simp) hroom
          have hv : order b.flip (((bytesOf b.arr).drop b.offt).take o.length) = v := by
            rw [hpost, ho.1]
            rw [List.take_append_of_le_length (by rw [order_length]; omega), List.take_of_length_le (by rw [order_length]; omega), order_order]
          rw [hv] at hr
          obtain ⟨b2, e1, e2, e3, e4⟩ := ih { b with offt := b.offt + o.length } os ⟨r.wf, r.one, by simpa using hroom, r.small⟩ ho.2 (by
            refine ⟨post, ?_⟩
            simp only
            rw [← List.drop_drop, hpost, ho.1, List.drop_append, List.drop_eq_nil_of_le (by rw [order_length]; omega), order_length, Nat.sub_self]
            simp)
          refine ⟨b2, ?_, e2, e3, ?_⟩
          · rw [readAll]
            have : read b o 1 o.length = _ := hr
            rw [this]
            simp only [Outcome.ok_bind, e1, Outcome.pure_eq]
          · simp only [e4, List.flatten_cons, List.length_append]; omega

/-- **C28 (round trip, blocks of bytes).** Any sequence of blocks written from the start of a stream, rewound and read into variables of the same
sizes, comes back unchanged, with or without endian flipping, whatever the stream's array held or its size, and whatever `realloc` leaves in
fresh memory. (Total size below `2 ^ 60`, array below `2 ^ 62` elements.) -/
theorem c28_roundtrip {b : Bs} (r : Ready b) (h0 : b.offt = 0) (junk : Nat → Byte) (vs olds : List (List Byte)) (ho : olds.map List.length = vs.map List.length)
    (hs : vs.flatten.length < 2 ^ 60) :
    ∃ b1 b2, writeAll junk b vs = .ok b1 ∧ readAll (rewind b1).2 olds = .ok (b2, vs) ∧ b2.offt = b1.offt := by
  obtain ⟨b1, e1, r1, f1, o1, w1⟩ := writeAll_spec junk vs b r (by omega)
  have hw : written b = [] := by simp [written, h0]
  rw [hw, List.nil_append] at w1
  obtain ⟨b2, e2, _, _, e5⟩ := readAll_spec vs { b1 with offt := 0 } olds ⟨r1.wf, r1.one, by simp, r1.small⟩ ho (by
    refine ⟨(bytesOf b1.arr).drop b1.offt, ?_⟩
    simp only [List.drop_zero]
    rw [f1, ← w1, written, List.take_append_drop])
  exact ⟨b1, b2, e1, e2, by simp only [e5, o1, h0]⟩

theorem le_length (w n : Nat) : (le w n).length = w := by
  induction w generalizing n with
  | zero => rfl
  | succ w ih => simp [le, ih]

theorem ofLe_le (w n : Nat) : ofLe (le w n) = n % 256 ^ w := by
  induction w generalizing n with
  | zero => simp [le, ofLe, Nat.mod_one]
  | succ w ih =>
      simp only [le, ofLe, ih]
      rw [show (UInt8.ofNat n).toNat = n % 256 by simp, Nat.pow_succ, Nat.mul_comm (256 ^ w) 256, Nat.mod_mul]

/-- Writing typed values: width and value. -/
def writeVals (junk : Nat → Byte) : Bs → List (Nat × Nat) → Outcome Bs
  | b, [] => .ok b
  | b, v :: vs => do
      let b ← writeTyped junk b v.1 v.2
      writeVals junk b vs

/-- Reading typed values into variables that hold `old`. -/
def readVals (old : Nat) : Bs → List Nat → Outcome (Bs × List Nat)
  | b, [] => .ok (b, [])
  | b, w :: ws => do
      let (b, v) ← readTyped b w old
      let (b, vs) ← readVals old b ws
      pure (b, v :: vs)

/-- **C28 (round trip, typed values).** A new stream, with `flipendian` off or on: any sequence of 8-, 16-, 32- and 64-bit values (in fact of any
width) written, rewound and read with the same types gives the same values. -/
theorem c28_typed (flip : Bool) (junk : Nat → Byte) (old : Nat) (vals : List (Nat × Nat)) (hv : ∀ v ∈ vals, v.2 < 256 ^ v.1) (hs : (vals.map (·.1)).sum < 2 ^ 60) :
    ∃ b0 b1 b2, bsNew flip = .ok b0 ∧ writeVals junk b0 vals = .ok b1 ∧ readVals old (rewind b1).2 (vals.map (·.1)) = .ok (b2, vals.map (·.2)) := by
  have r0 : Ready ⟨flip, 0, ⟨0, 1, none⟩⟩ := ⟨⟨by simp, by simp, (fun m hm => by cases hm), by simp⟩, rfl, by simp, by simp⟩
  have hw : ∀ (vs : List (Nat × Nat)) (b : Bs), writeVals junk b vs = writeAll junk b (vs.map (fun v => le v.1 v.2)) := by
    intro vs
    induction vs with
    | nil => intro b; rfl
    | cons v vs ih =>
        intro b
        simp only [writeVals, writeAll, List.map_cons, writeTyped, le_length]
        congr 1; funext b; exact ih b
  have hrd : ∀ (ws : List Nat) (b b' : Bs) (out : List (List Byte)), readAll b (ws.map (fun w => le w old)) = .ok (b', out) → readVals old b ws = .ok (b', out.map ofLe) := by
    intro ws
    induction ws with
    | nil => intro b b' out h; simp only [List.map_nil, readAll, Outcome.ok.injEq, Prod.mk.injEq] at h; obtain ⟨rfl, rfl⟩ := h; rfl
    | cons w ws ih =>
        intro b b' out h
        simp only [List.map_cons, readAll, le_length] at h
        rw [Outcome.bind_eq_ok] at h
        obtain ⟨⟨b1, v⟩, h1, h2⟩ := h
        simp only at h2
        rw [Outcome.bind_eq_ok] at h2
        obtain ⟨⟨b2, vs⟩, h3, h4⟩ := h2
        simp only [Outcome.pure_eq, Outcome.ok.injEq, Prod.mk.injEq] at h4
        obtain ⟨rfl, rfl⟩ := h4
        rw [readVals, readTyped, h1]
        simp only [Outcome.ok_bind, Outcome.pure_eq]
        rw [ih b1 b2 vs h3]; rfl
  have hfl : (vals.map (fun v => le v.1 v.2)).flatten.length = (vals.map (·.1)).sum := by
    rw [List.length_flatten, List.map_map]; congr 1
    exact List.map_congr_left (fun v _ => le_length v.1 v.2)
  obtain ⟨b1, b2, e1, e2, _⟩ := c28_roundtrip r0 rfl junk (vals.map (fun v => le v.1 v.2)) ((vals.map (·.1)).map (fun w => le w old)) (by
    simp only [List.map_map]
    exact List.map_congr_left (fun v _ => by simp [le_length])) (by rw [hfl]; exact hs)
  refine ⟨⟨flip, 0, ⟨0, 1, none⟩⟩, b1, b2, by cases flip <;> rfl, by rw [hw]; exact e1, ?_⟩
  rw [hrd _ _ _ _ e2, List.map_map]
  congr 2
  refine List.map_congr_left (fun v h => ?_)
  simp only [Function.comp_apply, ofLe_le]
  exact Nat.mod_eq_of_lt (hv v h)

/-- **C28 (reading past the end).** A read that goes beyond the array aborts; it never leaves the block. -/
theorem c28_read_past {b : Bs} (r : Ready b) {s : List Byte} (hs : b.arr.length < b.offt + s.length) (h64 : s.length < 2 ^ 62) :
    read b s 1 s.length = .abort := by
  obtain ⟨w, h1, hp, hsm⟩ := r
  have key : ∀ (n : Nat) (t : List Byte) (o : Nat), n ≤ t.length → o ≤ b.arr.length → b.arr.length < o + n → arrayGet b.flip b.arr t.length n t o = .abort := by
    intro n
    induction n with
    | zero => intro t o _ h2 h3; omega
    | succ n ih =>
        intro t o ht ho hgt
        by_cases ho2 : o < b.arr.length
        · obtain ⟨m, hm, hl⟩ := w.some (by omega)
          rw [h1, Nat.mul_one] at hl
          have hidx : (if b.flip then n else t.length - (n + 1)) < t.length := by cases b.flip <;> simp <;> omega
          rw [arrayGet, get, if_pos ho2, h1, Nat.mul_one, sz_lt (by omega), hm]
          simp only [Outcome.ok_bind]
          rw [rd_lt (by omega)]
          simp only [Outcome.ok_bind]
          rw [wr_lt hidx]
          simp only [Outcome.ok_bind]
          rw [sz_lt (by omega)]
          have := ih (t.set (if b.flip then n else t.length - (n + 1)) m[o]) (o + 1) (by simp; omega) (by omega) (by omega)
          rw [List.length_set] at this
          exact this
        · rw [arrayGet, get, if_neg ho2]; rfl
  rw [read, Nat.one_mul, sz_lt (by omega), key s.length s b.offt (Nat.le_refl _) hp hs]; rfl

/-- **C28 (emptiness).** A stream is empty exactly when its array holds no byte; after truncation it is, after writing something it is not. -/
theorem c28_is_empty {b : Bs} (r : Ready b) : (isEmpty b = true ↔ bytesOf b.arr = []) ∧ isEmpty (truncate b).2 = true ∧ (truncate b).1 = b.arr.length ∧
    ∀ (junk : Nat → Byte) (s : List Byte), s ≠ [] → b.offt + s.length < 2 ^ 60 → ∃ b', write junk b s 1 s.length = .ok b' ∧ isEmpty b' = false := by
  have key : ∀ {b : Bs}, Ready b → (isEmpty b = true ↔ bytesOf b.arr = []) := by
    intro b r
    rw [← List.length_eq_zero_iff, bytes_length r.wf r.one]
    simp [isEmpty]
  refine ⟨key r, rfl, rfl, fun junk s hs hl => ?_⟩
  obtain ⟨b', e, r', -, ho, hw⟩ := write_spec r junk s hl (1, s.length) (by simp)
  refine ⟨b', e, ?_⟩
  have h1 := List.length_pos_iff.2 hs
  have h2 := r'.pos
  rw [ho] at h2
  simp only [isEmpty, beq_eq_false_iff_ne]
  omega

/-- The hypotheses of `c28_typed` on a mixed sequence of 1-, 2-, 4- and 8-byte values, with flipping. -/
example : ∃ b0 b1 b2, bsNew true = .ok b0 ∧ writeVals (fun _ => 7) b0 [(1, 200), (4, 0xdeadbeef), (2, 65535), (8, 1)] = .ok b1 ∧
    readVals 0 (rewind b1).2 [1, 4, 2, 8] = .ok (b2, [200, 0xdeadbeef, 65535, 1]) :=
  c28_typed true (fun _ => 7) 0 [(1, 200), (4, 0xdeadbeef), (2, 65535), (8, 1)] (by decide) (by decide)

/-- Finding: the clone of a stream forgets the endian setting, so a two-byte value written with flipping is read back with its bytes exchanged. -/
theorem clone_loses_flip : ∃ b0 b1 b2 b3, bsNew true = .ok b0 ∧ writeTyped (fun _ => 0) b0 2 0x1234 = .ok b1 ∧ clone (rewind b1).2 = .ok b2 ∧
    readTyped b2 2 0 = .ok (b3, 0x3412) := by
  refine ⟨⟨true, 0, ⟨0, 1, none⟩⟩, ⟨true, 2, ⟨4, 1, some [0x12, 0x34, 0, 0]⟩⟩, ⟨false, 0, ⟨4, 1, some [0x12, 0x34, 0, 0]⟩⟩,
    ⟨false, 2, ⟨4, 1, some [0x12, 0x34, 0, 0]⟩⟩, by decide +kernel, by decide +kernel, by decide +kernel, by decide +kernel⟩

/-- Finding: after `zt_bstream_truncate` (which keeps the position) the next write aborts, because the room left is computed with unsigned
wrap-around. -/
theorem write_after_truncate : ∃ b0 b1, bsNew false = .ok b0 ∧ writeTyped (fun _ => 0) b0 2 0x1234 = .ok b1 ∧ writeTyped (fun _ => 0) (truncate b1).2 2 0x1234 = .abort := by
  refine ⟨⟨false, 0, ⟨0, 1, none⟩⟩, ⟨false, 2, ⟨4, 1, some [0x34, 0x12, 0, 0]⟩⟩, by decide +kernel, by decide +kernel, by decide +kernel⟩

end ZT.Arr
