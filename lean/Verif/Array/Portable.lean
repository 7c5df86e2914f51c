import Verif.Host
import Verif.Array.Bstream

/-!
# Byte streams that travel between machines

`Array/Model.lean` writes the typed values of zt_bstream.c as a little-endian machine holds them. Here the machine is a parameter, so that a stream
can be written on one machine and read on another. Each value is a width in bytes and a number (the bit pattern, for float and double).
-/

namespace ZT.Arr

/-- How a machine holds the `w`-byte number `n` (C11 6.2.6: most or least significant byte first). -/
def hold [Host] (w n : Nat) : List Byte := if Host.big then (le w n).reverse else le w n

/-- The number in a variable of a machine. -/
def value [Host] (s : List Byte) : Nat := ofLe (if Host.big then s.reverse else s)

/-- zt_bstream.c 196-236 `zt_bstream_write_byte`, `zt_bstream_write_uint8`, `zt_bstream_write_uint16`, `zt_bstream_write_uint32`, `zt_bstream_write_uint64`,
`zt_bstream_write_float`, `zt_bstream_write_double` on either machine. -/
def writeOn [Host] (junk : Nat → Byte) (b : Bs) (w n : Nat) : Outcome Bs := write junk b (hold w n) 1 w

/-- zt_bstream.c 133-173 `zt_bstream_read_byte`, `zt_bstream_read_uint8`, `zt_bstream_read_uint16`, `zt_bstream_read_uint32`, `zt_bstream_read_uint64`,
`zt_bstream_read_float`, `zt_bstream_read_double` on either machine, into a variable that holds `old`. -/
def readOn [Host] (b : Bs) (w old : Nat) : Outcome (Bs × Nat) := do
  let (b, s) ← read b (hold w old) 1 w
  pure (b, value s)

/-- The calls of zt_bstream.c 196-236, one after the other. -/
def writesOn [Host] (junk : Nat → Byte) : Bs → List (Nat × Nat) → Outcome Bs
  | b, [] => .ok b
  | b, v :: vs => do
      let b ← writeOn junk b v.1 v.2
      writesOn junk b vs

/-- The calls of zt_bstream.c 133-173, one after the other. -/
def readsOn [Host] (old : Nat) : Bs → List Nat → Outcome (Bs × List Nat)
  | b, [] => .ok (b, [])
  | b, w :: ws => do
      let (b, v) ← readOn b w old
      let (b, vs) ← readsOn old b ws
      pure (b, v :: vs)

/-! ## Specification -/

/-- The number whose bytes are those of `n` in the opposite order, for example `0x1234` for `0x3412` in two bytes. -/
def swapped (w n : Nat) : Nat := ofLe (le w n).reverse

/-- The order of bytes on the wire: most significant first? -/
def msbFirst (host : Host) (flip : Bool) : Bool := host.big != flip

/-- The bytes that stand for a sequence of values. -/
def wire (msb : Bool) (vals : List (Nat × Nat)) : List Byte := (vals.map fun v => if msb then (le v.1 v.2).reverse else le v.1 v.2).flatten

/-! ## Proofs -/

theorem hold_length [Host] (w n : Nat) : (hold w n).length = w := by
  simp only [hold]; split <;> simp [le_length]

theorem writesOn_eq [Host] (junk : Nat → Byte) (vs : List (Nat × Nat)) : ∀ b, writesOn junk b vs = writeAll junk b (vs.map fun v => hold v.1 v.2) := by
  induction vs with
  | nil => intro b; rfl
  | cons v vs ih =>
      intro b
      simp only [writesOn, writeAll, List.map_cons, writeOn, hold_length]
      congr 1; funext b; exact ih b

theorem readsOn_eq [Host] (old : Nat) (ws : List Nat) : ∀ (b b' : Bs) (out : List (List Byte)), readAll b (ws.map fun w => hold w old) = .ok (b', out) →
    readsOn old b ws = .ok (b', out.map value) := by
  induction ws with
  | nil => intro b b' out h; simp only [List.map_nil, readAll, Outcome.ok.injEq, Prod.mk.injEq] at h; obtain ⟨rfl, rfl⟩ := h; rfl
  | cons w ws ih =>
      intro b b' out h
      simp only [List.map_cons, readAll, hold_length] at h
      rw [Outcome.bind_eq_ok] at h
      obtain ⟨⟨b1, v⟩, h1, h2⟩ := h
      simp only at h2
      rw [Outcome.bind_eq_ok] at h2
      obtain ⟨⟨b2, vs⟩, h3, h4⟩ := h2
      simp only [Outcome.pure_eq, Outcome.ok.injEq, Prod.mk.injEq] at h4
      obtain ⟨rfl, rfl⟩ := h4
      rw [readsOn, readOn, h1]
      simp only [Outcome.ok_bind, Outcome.pure_eq]
      rw [ih b1 b2 vs h3]; rfl

theorem new_ready (flip : Bool) : ∃ b, bsNew flip = .ok b ∧ Ready b ∧ b.offt = 0 ∧ b.flip = flip ∧ written b = [] :=
  ⟨⟨flip, 0, ⟨0, 1, none⟩⟩, by cases flip <;> rfl, ⟨⟨by simp, by simp, (fun m hm => by cases hm), by simp⟩, rfl, by simp, by simp⟩, rfl, rfl, rfl⟩

/-- **C126 (the format).** What a program writes to a new stream: each value takes its width, in order, most significant byte first exactly if the
machine does so and `flipendian` is off or the machine does not and it is on. Nothing else about the machine shows. -/
theorem c126_wire [H : Host] (flip : Bool) (junk : Nat → Byte) (vals : List (Nat × Nat)) (hs : (vals.map (·.1)).sum < 2 ^ 60) :
    ∃ b0 b1, bsNew flip = .ok b0 ∧ writesOn junk b0 vals = .ok b1 ∧ written b1 = wire (msbFirst H flip) vals := by
  obtain ⟨b0, e0, r0, o0, f0, w0⟩ := new_ready flip
  have hfl : (vals.map (fun v => hold v.1 v.2)).flatten.length = (vals.map (·.1)).sum := by
    rw [List.length_flatten, List.map_map]; congr 1
    exact List.map_congr_left (fun v _ => hold_length v.1 v.2)
  obtain ⟨b1, e1, r1, f1, o1, w1⟩ := writeAll_spec junk (vals.map fun v => hold v.1 v.2) b0 r0 (by omega)
  refine ⟨b0, b1, e0, by rw [writesOn_eq]; exact e1, ?_⟩
  rw [w1, w0, f0, List.nil_append, wire, List.map_map]
  congr 2; funext v
  simp only [Function.comp_apply, hold, msbFirst, order]
  by_cases hb : (H.big = true) <;> cases flip <;> simp [hb]

/-- A copy of received bytes in a stream. -/
theorem received {b : Bs} {d : List Byte} (h0 : d ≠ []) (h : d.length < 2 ^ 31) : bsSetData b (some d) d.length true = .ok { b with arr := ⟨d.length, 1, some d⟩ } := by
  have hl : 0 < d.length := List.length_pos_iff.2 h0
  have hz : sz (d.length * 1) = d.length := by rw [Nat.mul_one]; exact Nat.mod_eq_of_lt (by omega)
  simp only [bsSetData, setData, if_true, repInit, Option.isSome_some, hl, decide_true, Bool.and_self, Bool.true_or, Nat.one_pos, Outcome.ok_bind, hz, slice,
    Nat.zero_add, Nat.le_refl, List.drop_zero, List.take_length, blit, calloc, List.length_replicate, List.take_zero, List.nil_append, Outcome.pure_eq]
  simp

theorem value_order [H : Host] (flip msb : Bool) (w n : Nat) : value (order flip (if msb then (le w n).reverse else le w n)) =
    if msbFirst H flip = msb then n % 256 ^ w else swapped w n := by
  simp only [value, order, msbFirst, swapped, ← ofLe_le]
  cases H.big <;> cases flip <;> cases msb <;> simp

/-- **C126 (reading).** A machine that receives such bytes, copies them into a new stream and reads values of the same widths gets every value
unchanged if its own order of bytes on the wire is the same, and every value with its bytes exchanged if it is not. -/
theorem c126_read [H : Host] (flip msb : Bool) (old : Nat) (vals : List (Nat × Nat)) (hv : ∀ v ∈ vals, v.2 < 256 ^ v.1) (h0 : wire msb vals ≠ []) (hs : (wire msb vals).length < 2 ^ 31) :
    ∃ b0 b1 b2, bsNew flip = .ok b0 ∧ bsSetData b0 (some (wire msb vals)) (wire msb vals).length true = .ok b1 ∧
      readsOn old b1 (vals.map (·.1)) = .ok (b2, vals.map fun v => if msbFirst H flip = msb then v.2 else swapped v.1 v.2) := by
  obtain ⟨b0, e0, r0, o0, f0, w0⟩ := new_ready flip
  have e1 := received (b := b0) h0 hs
  have hl : 0 < (wire msb vals).length := List.length_pos_iff.2 h0
  generalize hd : wire msb vals = d at *
  have r1 : Ready { b0 with arr := ⟨d.length, 1, some d⟩ } :=
    ⟨⟨by simp, by simp only; omega, (fun m hm => by cases hm; simp), by simp only; exact ⟨(fun h => nomatch h), fun h => by omega⟩⟩, rfl, by simp [o0], by simp only; omega⟩
  obtain ⟨b2, e2, _⟩ := readAll_spec (vals.map fun v => order flip (if msb then (le v.1 v.2).reverse else le v.1 v.2)) { b0 with arr := ⟨d.length, 1, some d⟩ }
    ((vals.map (·.1)).map fun w => hold w old) r1 (by
      simp only [List.map_map]
      refine List.map_congr_left (fun v _ => ?_)
      simp only [Function.comp_apply, hold_length, order_length]
      split <;> simp [le_length]) ⟨[], by
      simp only [bytesOf, Option.getD_some, o0, List.drop_zero, List.append_nil, f0, List.map_map]
      rw [← hd, wire]; congr 2; funext v; simp only [Function.comp_apply, order_order]⟩
  refine ⟨b0, _, b2, e0, e1, ?_⟩
  rw [readsOn_eq _ _ _ _ _ e2, List.map_map]
  congr 2
  refine List.map_congr_left (fun v h => ?_)
  simp only [Function.comp_apply, value_order, Nat.mod_eq_of_lt (hv v h)]

/-- Written on one machine, the bytes up to the position sent, received by another and read. -/
def Travels (H H' : Host) (flip flip' : Bool) (junk : Nat → Byte) (old : Nat) (vals : List (Nat × Nat)) (out : List Nat) : Prop :=
  ∃ b0 b1 c0 c1 c2, bsNew flip = .ok b0 ∧ @writesOn H junk b0 vals = .ok b1 ∧ bsNew flip' = .ok c0 ∧
    bsSetData c0 (some (written b1)) (written b1).length true = .ok c1 ∧ @readsOn H' old c1 (vals.map (·.1)) = .ok (c2, out)

theorem wire_length (msb : Bool) (vals : List (Nat × Nat)) : (wire msb vals).length = (vals.map (·.1)).sum := by
  rw [wire, List.length_flatten, List.map_map]; congr 1
  exact List.map_congr_left (fun v _ => by simp only [Function.comp_apply]; split <;> simp [le_length])

/-- **C126.** Any values, any two machines, any settings of `flipendian`: the reader gets what the writer wrote if the two wire orders agree, and
every value with its bytes exchanged if they do not. (At least one byte, because `zt_bstream_set_data` refuses none; less than `2 ^ 31`, because its
length is an int.) -/
theorem c126_travel (H H' : Host) (flip flip' : Bool) (junk : Nat → Byte) (old : Nat) (vals : List (Nat × Nat)) (hv : ∀ v ∈ vals, v.2 < 256 ^ v.1)
    (h0 : 0 < (vals.map (·.1)).sum) (hs : (vals.map (·.1)).sum < 2 ^ 31) :
    Travels H H' flip flip' junk old vals (vals.map fun v => if msbFirst H flip = msbFirst H' flip' then v.2 else swapped v.1 v.2) := by
  obtain ⟨b0, b1, e0, e1, e2⟩ := @c126_wire H flip junk vals (by omega)
  have hne : wire (msbFirst H flip) vals ≠ [] := fun h => by have := wire_length (msbFirst H flip) vals; rw [h] at this; simp only [List.length_nil] at this; omega
  obtain ⟨c0, c1, c2, k0, k1, k2⟩ := @c126_read H' flip' (msbFirst H flip) old vals hv hne (by rw [wire_length]; exact hs)
  refine ⟨b0, b1, c0, c1, c2, e0, e1, k0, by rw [e2]; exact k1, ?_⟩
  rw [k2]
  congr 2
  refine List.map_congr_left fun v _ => ?_
  by_cases h : msbFirst H flip = msbFirst H' flip'
  · rw [if_pos h, if_pos h.symm]
  · rw [if_neg h, if_neg (fun k => h k.symm)]

/-- What a reader gets is determined. -/
theorem Travels.unique {H H' : Host} {flip flip' : Bool} {junk : Nat → Byte} {old : Nat} {vals : List (Nat × Nat)} {o o' : List Nat}
    (h : Travels H H' flip flip' junk old vals o) (h' : Travels H H' flip flip' junk old vals o') : o = o' := by
  obtain ⟨b0, b1, c0, c1, c2, e0, e1, k0, k1, k2⟩ := h
  obtain ⟨b0', b1', c0', c1', c2', e0', e1', k0', k1', k2'⟩ := h'
  rw [e0] at e0'; obtain rfl := Outcome.ok.inj e0'
  rw [e1] at e1'; obtain rfl := Outcome.ok.inj e1'
  rw [k0] at k0'; obtain rfl := Outcome.ok.inj k0'
  rw [k1] at k1'; obtain rfl := Outcome.ok.inj k1'
  rw [k2] at k2'; exact (Prod.mk.inj (Outcome.ok.inj k2')).2

/-- **C126 (when it works).** All sequences of values travel unchanged between two machines exactly if the two agree on the order of bytes on the wire:
same kind of machine and same setting, or different kinds and exactly one of them with `flipendian` on. -/
theorem c126_iff (H H' : Host) (flip flip' : Bool) (junk : Nat → Byte) (old : Nat) :
    (∀ vals : List (Nat × Nat), (∀ v ∈ vals, v.2 < 256 ^ v.1) → 0 < (vals.map (·.1)).sum → (vals.map (·.1)).sum < 2 ^ 31 →
      Travels H H' flip flip' junk old vals (vals.map (·.2))) ↔ (H.big = H'.big ↔ flip = flip') := by
  have hx : (msbFirst H flip = msbFirst H' flip') ↔ (H.big = H'.big ↔ flip = flip') := by
    simp only [msbFirst]; cases H.big <;> cases H'.big <;> cases flip <;> cases flip' <;> simp
  constructor
  · intro h
    rw [← hx]
    have h1 := h [(2, 0x1234)] (by simp) (by decide) (by decide)
    have h2 := c126_travel H H' flip flip' junk old [(2, 0x1234)] (by simp) (by decide) (by decide)
    have h3 := h1.unique h2
    by_cases e : msbFirst H flip = msbFirst H' flip'
    · exact e
    · simp only [List.map_cons, List.map_nil, if_neg e] at h3
      exact absurd h3 (by decide)
  · intro h vals hv h0 hs
    have h2 := c126_travel H H' flip flip' junk old vals hv h0 hs
    simpa only [if_pos (hx.2 h)] using h2

/-- `ntohl`-style use: a little-endian writer with `flipendian` on, a big-endian reader with it off. -/
example : Travels Host.little Host.bigEndian true false (fun _ => 0) 0 [(2, 0x1234), (1, 7), (4, 0xdeadbeef)] [0x1234, 7, 0xdeadbeef] :=
  (c126_iff Host.little Host.bigEndian true false (fun _ => 0) 0).2 (by decide) _ (by decide) (by decide) (by decide)

/-- And with both off the values are exchanged. -/
example : Travels Host.little Host.bigEndian false false (fun _ => 0) 0 [(2, 0x1234), (1, 7)] [0x3412, 7] :=
  c126_travel Host.little Host.bigEndian false false (fun _ => 0) 0 [(2, 0x1234), (1, 7)] (by decide) (by decide) (by decide)

/-! ## Arrays of values -/

/-- An array of `w`-byte elements in the memory of a machine. -/
def elements [Host] (w : Nat) (ns : List Nat) : List Byte := (ns.map (hold w)).flatten

theorem elements_length [Host] (w : Nat) (ns : List Nat) : (elements w ns).length = ns.length * w := by
  induction ns with
  | nil => simp [elements]
  | cons n ns ih =>
      simp only [elements, List.map_cons, List.flatten_cons, List.length_append, hold_length, List.length_cons] at *
      rw [ih]; grind

/-- **C126 (arrays, a finding).** One call that writes a whole array (`len` elements of `size` bytes, zt_bstream.c 175-194) reverses all of its bytes
when `flipendian` is on, not those of each element: the stream is that of the elements written one at a time *from the last to the first*. -/
theorem c126_array_order_violation [H : Host] (flip : Bool) (junk : Nat → Byte) (w : Nat) (ns : List Nat) (hs : ns.length * w < 2 ^ 60) :
    ∃ b0 b1, bsNew flip = .ok b0 ∧ write junk b0 (elements w ns) ns.length w = .ok b1 ∧
      written b1 = wire (msbFirst H flip) ((if flip then ns.reverse else ns).map fun n => (w, n)) := by
  obtain ⟨b0, e0, r0, o0, f0, w0⟩ := new_ready flip
  have hl := elements_length w ns
  obtain ⟨b1, e1, r1, f1, o1, w1⟩ := write_spec r0 junk (elements w ns) (by omega) (ns.length, w) hl.symm
  refine ⟨b0, b1, e0, e1, ?_⟩
  rw [w1, w0, f0, List.nil_append, wire, List.map_map]
  cases flip
  · simp only [order, Bool.false_eq_true, if_false, elements, msbFirst]
    congr 2; funext n; simp only [hold, Function.comp_apply]; by_cases hb : (H.big = true) <;> simp [hb]
  · simp only [order, if_true, elements, msbFirst]
    rw [List.reverse_flatten, List.map_map, ← List.map_reverse]
    congr 2; funext n; simp only [hold, Function.comp_apply]; by_cases hb : (H.big = true) <;> simp [hb]

/-- Two 16-bit numbers written in one call, read in two: they come out in the wrong order, on the same machine. -/
theorem c126_array_swap_violation : ∃ b0 b1 b2, bsNew true = .ok b0 ∧ write (fun _ => 0) b0 (@elements Host.little 2 [1, 2]) 2 2 = .ok b1 ∧
    @readsOn Host.little 0 (rewind b1).2 [2, 2] = .ok (b2, [2, 1]) :=
  ⟨⟨true, 0, ⟨0, 1, none⟩⟩, ⟨true, 4, ⟨8, 1, some [0, 2, 0, 1, 0, 0, 0, 0]⟩⟩, ⟨true, 4, ⟨8, 1, some [0, 2, 0, 1, 0, 0, 0, 0]⟩⟩,
    by decide +kernel, by decide +kernel, by decide +kernel⟩

end ZT.Arr
