import Verif.Sha1.Props

/-!
# C133: hashing data at any address, and data that cannot be written

zt_sha1_update hands complete blocks of the caller's data to `_sha1_transform`, which reads and writes them as 32 bit words where they are (zt_sha1.c 33-40, 63, 132-134).
Here the data has an address and may be in memory that cannot be written (string literals, mapped files). `A` is the alignment the machine demands of a `uint32_t`
(1, 2 or 4). The context itself is properly aligned and writable (its buffer is at offset 28, zt_sha1.h 8-13).
-/

namespace ZT.Sha1

variable [Host]

/-! ## Model -/

/-- A piece of the caller's memory: where it is, whether it can be written, what it contains. -/
structure Piece where
  addr : Nat
  writable : Bool
  bytes : List Byte

/-- The loop of zt_sha1.c 132-134: `_sha1_transform` on `&data[i]` uses it as sixteen words (line 63) and writes them (lines 35 and 39). -/
def blockLoopAt (A addr : Nat) (writable : Bool) : (fuel : Nat) → St → List Byte → (i llen : Word) → Outcome (St × List Byte × Word)
  | 0, _, _, _, _ => .ub
  | fuel + 1, st, data, i, llen =>
      if (i + 63#32) < llen then
        if i.toNat + 64 ≤ data.length then
          if (addr + i.toNat) % A = 0 then
            if writable then
              let (st, blk) := transform st ((data.drop i.toNat).take 64)
              blockLoopAt A addr writable fuel st (data.take i.toNat ++ blk ++ data.drop (i.toNat + 64)) (i + 64#32) llen
            else .ub
          else .ub
        else .ub
      else .ok (st, data, i)

/-- zt_sha1.c 113-138 `zt_sha1_update(ctx, data, len)` with `data` at `addr`. -/
def updateAt (A addr : Nat) (writable : Bool) (ctx : Ctx) (data : List Byte) (len : Nat) : Outcome (Ctx × List Byte) :=
  if len ≤ 2 ^ 32 - 1 - 1 then do
    let llen : Word := BitVec.ofNat 32 len
    let j : Word := (ctx.count0 >>> 3) &&& 63#32
    let count0 := ctx.count0 + (llen <<< 3)
    let count1 := if count0 < (llen <<< 3) then ctx.count1 + 1 else ctx.count1
    let count1 := count1 + (llen >>> 29)
    if (j + llen) > 63#32 then
      let i : Word := 64#32 - j
      let buffer ← memcpy ctx.buffer j.toNat data 0 i.toNat
      let (st, buffer) := transform ctx.state buffer
      let (st, data, i) ← blockLoopAt A addr writable (2 ^ 32) st data i llen
      let buffer ← memcpy buffer 0 data i.toNat (llen - i).toNat
      pure ({ state := st, count0 := count0, count1 := count1, buffer := buffer }, data)
    else
      let buffer ← memcpy ctx.buffer j.toNat data 0 llen.toNat
      pure ({ ctx with count0 := count0, count1 := count1, buffer := buffer }, data)
  else .abort

/-- zt_sha1.c 113-138: `zt_sha1_update` once for each piece; the pieces afterwards. -/
def feedAt (A : Nat) : Ctx → List Piece → Outcome (Ctx × List Piece)
  | ctx, [] => .ok (ctx, [])
  | ctx, p :: ps => do
      let (ctx, d) ← updateAt A p.addr p.writable ctx p.bytes p.bytes.length
      let (ctx, ps) ← feedAt A ctx ps
      pure (ctx, { p with bytes := d } :: ps)

/-- zt_sha1.c 101-166: init, an update for each piece, finalize. zt_sha1_data (168-176) is the case of one piece. The updates of finalize are at most 8 bytes each: they never reach the loop. -/
def runAt (A : Nat) (junk : List Byte) (ps : List Piece) : Outcome (List Byte × List Piece) := do
  let (ctx, ps) ← feedAt A (init junk) ps
  let (d, _) ← finalize ctx
  pure (d, ps)

/-! ## Specification -/

/-- After `n` bytes of the message a piece is harmless if it does not contain a complete block of the message after the one it completes, or if these blocks are aligned and can be written. -/
def Harmless (A n : Nat) (p : Piece) : Prop := n % 64 + p.bytes.length < 128 ∨ ((p.addr + (64 - n % 64)) % A = 0 ∧ p.writable = true)

/-- All pieces are, each where it comes in the message. -/
def AllHarmless (A : Nat) : Nat → List Piece → Prop
  | _, [] => True
  | n, p :: ps => Harmless A n p ∧ AllHarmless A (n + p.bytes.length) ps

/-- The message. -/
def message (ps : List Piece) : List Byte := (ps.map Piece.bytes).flatten

/-! ## Proof -/

theorem loopAt_fine (A addr : Nat) (hA : A ∣ 4) (fuel : Nat) : ∀ (st : St) (data : List Byte) (i llen : Word), (addr + i.toNat) % A = 0 → blockLoopAt A addr true fuel st data i llen = blockLoop fuel st data i llen := by
  have h64 : A ∣ 64 := Nat.dvd_trans hA (by decide)
  have h32 : A ∣ 2 ^ 32 := Nat.dvd_trans hA (by decide)
  induction fuel with
  | zero => intros; rfl
  | succ n ih =>
      intro st data i llen h
      rw [blockLoopAt, blockLoop, if_pos h]
      simp only [if_true]
      rw [ih]
      have hd : A ∣ addr + i.toNat := Nat.dvd_of_mod_eq_zero h
      refine Nat.mod_eq_zero_of_dvd ?_
      have e : (i + 64#32).toNat = (i.toNat + 64) % 2 ^ 32 := by rw [BitVec.toNat_add]; rfl
      have h1 : A ∣ addr + (i.toNat + 64) := by rw [← Nat.add_assoc]; exact Nat.dvd_add hd h64
      have h2 : addr + (i.toNat + 64) = (addr + (i + 64#32).toNat) + 2 ^ 32 * ((i.toNat + 64) / 2 ^ 32) := by rw [e]; omega
      rw [h2] at h1
      exact (Nat.dvd_add_iff_left (Nat.dvd_trans h32 (Nat.dvd_mul_right _ _))).2 h1

theorem loopAt_none (A addr : Nat) (w : Bool) (fuel : Nat) (st : St) (data : List Byte) (i llen : Word) (hf : 0 < fuel) (h : ¬ (i + 63#32) < llen) : blockLoopAt A addr w fuel st data i llen = blockLoop fuel st data i llen := by
  obtain ⟨fuel, rfl⟩ : ∃ k, fuel = k + 1 := ⟨fuel - 1, by omega⟩
  rw [blockLoopAt, blockLoop, if_neg h, if_neg h]

theorem loopAt_bad (A addr : Nat) (w : Bool) (fuel : Nat) (st : St) (data : List Byte) (i llen : Word) (hf : 0 < fuel) (h : (i + 63#32) < llen) (hb : ¬ ((addr + i.toNat) % A = 0 ∧ w = true)) : blockLoopAt A addr w fuel st data i llen = .ub := by
  obtain ⟨fuel, rfl⟩ : ∃ k, fuel = k + 1 := ⟨fuel - 1, by omega⟩
  rw [blockLoopAt, if_pos h]
  split
  · by_cases h1 : (addr + i.toNat) % A = 0
    · have h2 : w = false := by cases w <;> simp_all
      rw [if_pos h1]; simp [h2]
    · rw [if_neg h1]
  · rfl

/-- One update call: as `update`, or an access that is not allowed. -/
theorem updateAt_exact (A : Nat) (hA : A ∣ 4) (p : Piece) (ctx : Ctx) (m : List Byte) (R : Rep ctx m) (hl : m.length % 64 + p.bytes.length < 2 ^ 32) :
    (Harmless A m.length p → updateAt A p.addr p.writable ctx p.bytes p.bytes.length = update ctx p.bytes p.bytes.length) ∧
      (¬ Harmless A m.length p → p.bytes.length ≤ 2 ^ 32 - 2 → updateAt A p.addr p.writable ctx p.bytes p.bytes.length = .ub) := by
  have hj := jval ctx m R
  have hln : p.bytes.length ≤ 2 ^ 32 - 1 - 1 → (BitVec.ofNat 32 p.bytes.length).toNat = p.bytes.length := by intro h; simp; omega
  by_cases hle : p.bytes.length ≤ 2 ^ 32 - 1 - 1
  · rw [updateAt, update, if_pos hle, if_pos hle]
    dsimp only
    specialize hln hle
    generalize (ctx.count0 >>> 3) &&& 63#32 = j at hj ⊢
    generalize BitVec.ofNat 32 p.bytes.length = llen at hln ⊢
    have hsum : (j + llen).toNat = m.length % 64 + p.bytes.length := by rw [BitVec.toNat_add, hj, hln]; omega
    have hi : (64#32 - j).toNat = 64 - m.length % 64 := by rw [BitVec.toNat_sub, hj]; simp; omega
    have hi63 : (64#32 - j + 63#32).toNat = 64 - m.length % 64 + 63 := by rw [BitVec.toNat_add, hi]; simp; omega
    have hgt : (j + llen) > 63#32 ↔ 64 ≤ m.length % 64 + p.bytes.length := by rw [gt_iff_lt, lt_iff, hsum]; simp; omega
    have hlt : (64#32 - j + 63#32) < llen ↔ 128 ≤ m.length % 64 + p.bytes.length := by rw [lt_iff, hi63, hln]; omega
    by_cases hb : (j + llen) > 63#32
    · rw [if_pos hb, if_pos hb]
      constructor
      · intro h
        rcases h with h | ⟨h1, h2⟩
        · congr 1; funext buf
          rw [loopAt_none _ _ _ (2 ^ 32) _ _ _ _ (by decide) (by rw [hlt]; omega)]
        · congr 1; funext buf
          rw [h2, loopAt_fine _ _ hA _ _ _ _ _ (by rw [hi]; exact h1)]
      · intro h _
        have h128 : 128 ≤ m.length % 64 + p.bytes.length := Nat.le_of_not_lt fun c => h (.inl c)
        have hn : ¬ ((p.addr + (64#32 - j).toNat) % A = 0 ∧ p.writable = true) := by rw [hi]; exact fun c => h (.inr c)
        rw [memcpy_ok _ _ _ _ _ (by rw [R.blen, hj, hi]; omega) (by rw [hi]; omega), Outcome.ok_bind]
        rw [loopAt_bad _ _ _ (2 ^ 32) _ _ _ _ (by decide) (hlt.2 h128) hn, Outcome.ub_bind]
    · rw [if_neg hb, if_neg hb]
      refine ⟨fun _ => rfl, fun h _ => ?_⟩
      rw [hgt] at hb
      exact absurd (.inl (by omega)) h
  · refine ⟨fun _ => by rw [updateAt, update, if_neg hle, if_neg hle], fun _ h => absurd h hle⟩

/-- The pieces after the calls: as before, except that the blocks used in place are overwritten. -/
def Kept (ps qs : List Piece) : Prop := qs.map (fun p => (p.addr, p.writable, p.bytes.length)) = ps.map (fun p => (p.addr, p.writable, p.bytes.length))

theorem feedAt_exact (A : Nat) (hA : A ∣ 4) (ps : List Piece) : ∀ (ctx : Ctx) (m : List Byte), Rep ctx m → (∀ p ∈ ps, p.bytes.length < 2 ^ 32 - 63) →
    (AllHarmless A m.length ps → ∃ ctx' qs, feedAt A ctx ps = .ok (ctx', qs) ∧ Rep ctx' (m ++ message ps) ∧ Kept ps qs ∧
        ((∀ p ∈ ps, p.bytes.length ≤ 64 ∨ p.writable = false) → qs = ps)) ∧
      (¬ AllHarmless A m.length ps → feedAt A ctx ps = .ub) := by
  induction ps with
  | nil =>
      intro ctx m R _
      exact ⟨fun _ => ⟨ctx, [], rfl, by simpa [message] using R, rfl, fun _ => rfl⟩, fun h => absurd trivial h⟩
  | cons p ps ih =>
      intro ctx m R hl
      have hp := hl p (by simp)
      obtain ⟨u1, u2⟩ := updateAt_exact A hA p ctx m R (by omega)
      obtain ⟨c1, d1, e1, R1, l1, -, k1⟩ := update_spec ctx m p.bytes [] R (by omega) (by omega)
      rw [List.append_nil, List.append_nil] at e1
      obtain ⟨f1, f2⟩ := ih c1 (m ++ p.bytes) R1 (fun x hx => hl x (by simp [hx]))
      rw [List.length_append] at f1 f2
      by_cases hh : Harmless A m.length p
      · constructor
        · intro ⟨_, h2⟩
          obtain ⟨c2, qs, e2, R2, k2, k3⟩ := f1 h2
          refine ⟨c2, { p with bytes := d1 } :: qs, ?_, ?_, ?_, ?_⟩
          · rw [feedAt, u1 hh, e1, Outcome.ok_bind]
            simp only
            rw [e2]; rfl
          · simpa [message] using R2
          · simp only [Kept, List.map_cons] at k2 ⊢
            rw [k2, l1]
          · intro hs
            rw [k3 (fun x hx => hs x (by simp [hx])), k1 ?_]
            rcases hs p (by simp) with h | h
            · omega
            · rcases hh with c | c
              · exact c
              · rw [h] at c; exact absurd c.2 (by simp)
        · intro h
          rw [feedAt, u1 hh, e1, Outcome.ok_bind]
          simp only
          rw [f2 (fun c => h ⟨hh, c⟩), Outcome.ub_bind]
      · refine ⟨fun h => absurd h.1 hh, fun _ => ?_⟩
        rw [feedAt, u2 hh (by omega), Outcome.ub_bind]

/-! ## The theorems -/

/-- **C133.** Exactly which data can be hashed: the digest is the FIPS 180 digest of the message if all pieces are harmless; otherwise memory is accessed that must not be. Data that cannot be written, and pieces of at most 64 bytes, are
unchanged. -/
theorem c133_exact_partial (A : Nat) (hA : A ∣ 4) (junk : List Byte) (hj : junk.length = 64) (ps : List Piece) (hl : ∀ p ∈ ps, p.bytes.length < 2 ^ 32 - 63) :
    (AllHarmless A 0 ps → ∃ qs, runAt A junk ps = .ok (Spec.sha1 (message ps), qs) ∧ Kept ps qs ∧ ((∀ p ∈ ps, p.bytes.length ≤ 64 ∨ p.writable = false) → qs = ps)) ∧
      (¬ AllHarmless A 0 ps → runAt A junk ps = .ub) := by
  obtain ⟨h1, h2⟩ := feedAt_exact A hA ps (init junk) [] (init_rep junk hj) hl
  constructor
  · intro h
    obtain ⟨c, qs, e, R, k1, k2⟩ := h1 h
    refine ⟨qs, ?_, k1, k2⟩
    rw [runAt, e, Outcome.ok_bind]
    simp only
    rw [finalize_spec c _ R]; rfl
  · intro h
    rw [runAt, h2 h, Outcome.ub_bind]

omit [Host] in
theorem small_harmless (A : Nat) (ps : List Piece) (hs : ∀ p ∈ ps, p.bytes.length ≤ 64) : ∀ n, AllHarmless A n ps := by
  induction ps with
  | nil => intro n; trivial
  | cons p ps ih =>
      intro n
      have := hs p (by simp)
      exact ⟨.inl (by omega), ih (fun x hx => hs x (by simp [hx])) _⟩

/-- **C133.** What always works: pieces of at most 64 bytes, at any address, in any memory. Nothing is changed. -/
theorem c133_small (A : Nat) (hA : A ∣ 4) (junk : List Byte) (hj : junk.length = 64) (ps : List Piece) (hs : ∀ p ∈ ps, p.bytes.length ≤ 64) : runAt A junk ps = .ok (Spec.sha1 (message ps), ps) := by
  obtain ⟨qs, e, -, k⟩ := (c133_exact_partial A hA junk hj ps (fun p hp => by have := hs p hp; omega)).1 (small_harmless A ps hs 0)
  rw [e, k (fun p hp => .inl (hs p hp))]

/-- **C133.** zt_sha1_data (one piece): it needs data that is aligned and can be written, from 128 bytes on. -/
theorem c133_data (A : Nat) (hA : A ∣ 4) (junk : List Byte) (hj : junk.length = 64) (p : Piece) (hl : p.bytes.length < 2 ^ 32 - 63) :
    (∃ r, runAt A junk [p] = .ok r) ↔ p.bytes.length < 128 ∨ (p.addr % A = 0 ∧ p.writable = true) := by
  have h64 : A ∣ 64 := Nat.dvd_trans hA (by decide)
  have hm : (p.addr + 64) % A = p.addr % A := by
    obtain ⟨k, hk⟩ := h64
    rw [hk, Nat.add_mul_mod_self_left]
  have hh : AllHarmless A 0 [p] ↔ p.bytes.length < 128 ∨ (p.addr % A = 0 ∧ p.writable = true) := by
    simp only [AllHarmless, Harmless, Nat.zero_mod, Nat.zero_add, Nat.sub_zero, and_true, hm]
  obtain ⟨h1, h2⟩ := c133_exact_partial A hA junk hj [p] (by simpa using hl)
  rw [← hh]
  constructor
  · intro ⟨r, e⟩
    refine Classical.byContradiction fun c => ?_
    rw [h2 c] at e; cases e
  · intro h
    obtain ⟨qs, e, -⟩ := h1 h
    exact ⟨_, e⟩

/-- **C133.** zt_uuid5 (the 16 bytes of the name space, then the name): a name of 112 bytes or more must be aligned and writable. -/
theorem c133_uuid5 (A : Nat) (hA : A ∣ 4) (junk : List Byte) (hj : junk.length = 64) (ns p : Piece) (hn : ns.bytes.length = 16) (hl : p.bytes.length < 2 ^ 32 - 63) :
    (∃ r, runAt A junk [ns, p] = .ok r) ↔ p.bytes.length < 112 ∨ (p.addr % A = 0 ∧ p.writable = true) := by
  have hm : (p.addr + 48) % A = p.addr % A := by
    obtain ⟨k, hk⟩ := Nat.dvd_trans hA (show 4 ∣ 48 by decide)
    rw [hk, Nat.add_mul_mod_self_left]
  have hh : AllHarmless A 0 [ns, p] ↔ p.bytes.length < 112 ∨ (p.addr % A = 0 ∧ p.writable = true) := by
    simp only [AllHarmless, Harmless, hn, Nat.zero_mod, Nat.zero_add, and_true, show 16 % 64 = 16 from rfl, show 64 - 16 = 48 from rfl, hm]
    have e : (16 + p.bytes.length < 128) ↔ p.bytes.length < 112 := by omega
    rw [e]
    exact ⟨fun h => h.2, fun h => ⟨.inl (by decide), h⟩⟩
  obtain ⟨h1, h2⟩ := c133_exact_partial A hA junk hj [ns, p] (by
    intro x hx
    simp only [List.mem_cons, List.not_mem_nil, or_false] at hx
    rcases hx with rfl | rfl <;> omega)
  rw [← hh]
  constructor
  · intro ⟨r, e⟩
    refine Classical.byContradiction fun c => ?_
    rw [h2 c] at e; cases e
  · intro h
    obtain ⟨qs, e, -⟩ := h1 h
    exact ⟨_, e⟩

/-- **C133**, violated: a constant string of 128 bytes cannot be hashed, on any machine; nor one byte after an aligned address, where words must be aligned. -/
theorem c133_violation (junk : List Byte) (hj : junk.length = 64) (d : List Byte) (h1 : 128 ≤ d.length) (h2 : d.length < 2 ^ 32 - 63) (a : Nat) :
    runAt 1 junk [⟨a, false, d⟩] = .ub ∧ runAt 4 junk [⟨4 * a + 1, true, d⟩] = .ub := by
  refine ⟨(c133_exact_partial 1 (by decide) junk hj _ (by simpa using h2)).2 ?_, (c133_exact_partial 4 (by decide) junk hj _ (by simpa using h2)).2 ?_⟩
  · rintro ⟨h | ⟨_, h⟩, -⟩
    · simp at h; omega
    · cases h
  · rintro ⟨h | ⟨h, _⟩, -⟩
    · simp at h; omega
    · simp at h; omega

/-! ## Non-vacuity -/

/-- A constant text of 100 bytes at an odd address, then an aligned buffer of 220: harmless, the buffer's blocks begin at 1000 + (64 - 36). -/
example : AllHarmless 4 0 [⟨77, false, List.replicate 100 97⟩, ⟨1000, true, List.replicate 220 98⟩] := by
  refine ⟨.inl ?_, .inr ⟨?_, rfl⟩, trivial⟩ <;> simp

/-- The same data in the other order is not: after 220 bytes the text completes a block with its first 36 bytes and has no further one; but if it had 128, it would. -/
example : ¬ AllHarmless 4 0 [⟨1000, true, List.replicate 220 98⟩, ⟨77, false, List.replicate 128 97⟩] := by
  rintro ⟨_, h | ⟨h, _⟩, -⟩
  · simp only [List.length_replicate] at h; omega
  · simp only [List.length_replicate] at h; omega

end ZT.Sha1
