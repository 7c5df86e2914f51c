import Verif.Sha1.Final

/-!
# Property theorems for zt_sha1 (C08, C09, C54)

`Spec.sha1` (Spec.lean) is FIPS 180 SHA-1. `junk` is the indeterminate content of the 64-byte buffer of a fresh context.
-/

namespace ZT.Sha1

/-- `zt_sha1_update` once per chunk, each chunk in its own memory block. -/
def feed [Host] : Ctx → List (List Byte) → Outcome Ctx
  | ctx, [] => .ok ctx
  | ctx, c :: cs => do
      let (ctx, _) ← update ctx c c.length
      feed ctx cs

/-- init, any number of updates, finalize. -/
def run [Host] (junk : List Byte) (chunks : List (List Byte)) : Outcome (List Byte) := do
  let ctx ← feed (init junk) chunks
  let (d, _) ← finalize ctx
  pure d

theorem feed_spec [Host] (ctx : Ctx) (m : List Byte) (R : Rep ctx m) (chunks : List (List Byte))
    (h : ∀ c ∈ chunks, c.length < 2 ^ 32 - 63) : ∃ ctx', feed ctx chunks = .ok ctx' ∧ Rep ctx' (m ++ chunks.flatten) := by
  induction chunks generalizing ctx m with
  | nil => exact ⟨ctx, rfl, by simpa using R⟩
  | cons c cs ih =>
      have hc := h c (by simp)
      obtain ⟨c1, d1, e1, R1, _⟩ := update_spec ctx m c [] R (by omega) (by omega)
      rw [List.append_nil] at e1
      obtain ⟨c2, e2, R2⟩ := ih c1 (m ++ c) R1 (fun x hx => h x (by simp [hx]))
      refine ⟨c2, ?_, by simpa using R2⟩
      rw [feed, e1, Outcome.ok_bind]
      exact e2

/-- **C09 (part)** For every message, split in any way into chunks below 2^32 - 63 bytes, the digest is the FIPS SHA-1
digest of the message (for messages of 2^61 bytes or more, of the standard's padding with the length taken modulo 2^64).
Missing: single chunks of 2^32 - 63 bytes and more; see `update_wraps_ub` and `update_huge_aborts`. -/
theorem sha1_conforms_partial [Host] (junk : List Byte) (hj : junk.length = 64) (chunks : List (List Byte))
    (h : ∀ c ∈ chunks, c.length < 2 ^ 32 - 63) : run junk chunks = .ok (Spec.sha1 chunks.flatten) := by
  obtain ⟨ctx, e, R⟩ := feed_spec _ [] (init_rep junk hj) chunks h
  rw [run, e, Outcome.ok_bind, finalize_spec ctx _ R]
  rfl

/-- **C08 (part)** Two ways of splitting the same data give the same digest (and the digest does not depend on the
uninitialised buffer). Missing: chunks of 2^32 - 63 bytes and more. -/
theorem split_independent_partial [Host] (junk junk' : List Byte) (hj : junk.length = 64) (hj' : junk'.length = 64)
    (cs cs' : List (List Byte)) (h : ∀ c ∈ cs, c.length < 2 ^ 32 - 63) (h' : ∀ c ∈ cs', c.length < 2 ^ 32 - 63)
    (heq : cs.flatten = cs'.flatten) : run junk cs = run junk' cs' := by
  rw [sha1_conforms_partial junk hj cs h, sha1_conforms_partial junk' hj' cs' h', heq]

/-- **C125** Machines of different byte order compute the same digest of the same data, however it is split. -/
theorem c125_same_digest_partial (H H' : Host) (junk junk' : List Byte) (hj : junk.length = 64) (hj' : junk'.length = 64)
    (cs cs' : List (List Byte)) (h : ∀ c ∈ cs, c.length < 2 ^ 32 - 63) (h' : ∀ c ∈ cs', c.length < 2 ^ 32 - 63)
    (heq : cs.flatten = cs'.flatten) : @run H junk cs = @run H' junk' cs' := by
  rw [@sha1_conforms_partial H junk hj cs h, @sha1_conforms_partial H' junk' hj' cs' h', heq]

example : ∀ c ∈ ([[97], [98, 99], []] : List (List Byte)), c.length < 2 ^ 32 - 63 := by decide

/-- **C09** `zt_sha1_data` on any object shorter than 2^32 - 1 bytes. -/
theorem sha1_data [Host] (junk data rest : List Byte) (hj : junk.length = 64) (h : data.length ≤ 2 ^ 32 - 2) :
    ∃ mem, sha1Data junk (data ++ rest) data.length = .ok (Spec.sha1 data, mem) := by
  obtain ⟨c1, d1, e1, R1, _⟩ := update_spec _ [] data rest (init_rep junk hj) (by simp; omega) h
  refine ⟨d1 ++ rest, ?_⟩
  rw [sha1Data, e1, Outcome.ok_bind]
  simp only
  rw [finalize_spec c1 _ R1]
  rfl

/-- **C125** The same for `zt_sha1_data`. -/
theorem c125_data (H H' : Host) (junk junk' data rest : List Byte) (hj : junk.length = 64) (hj' : junk'.length = 64) (h : data.length ≤ 2 ^ 32 - 2) :
    ∃ d mem mem', @sha1Data H junk (data ++ rest) data.length = .ok (d, mem) ∧ @sha1Data H' junk' (data ++ rest) data.length = .ok (d, mem') := by
  obtain ⟨m, e⟩ := @sha1_data H junk data rest hj h
  obtain ⟨m', e'⟩ := @sha1_data H' junk' data rest hj' h
  exact ⟨_, m, m', e, e'⟩

/-- Violation of C08: after a partial block, a chunk whose length plus the number of buffered bytes reaches 2^32 (which the
assertion lets through) overruns the 64-byte context buffer. -/
theorem update_wraps_ub [Host] (ctx : Ctx) (m d : List Byte) (R : Rep ctx m) (h1 : d.length ≤ 2 ^ 32 - 2)
    (h2 : 2 ^ 32 ≤ m.length % 64 + d.length) : update ctx d d.length = .ub := by
  have hj := jval ctx m R
  rw [update, if_pos (by omega)]
  simp only
  generalize (ctx.count0 >>> 3) &&& 63#32 = j at hj ⊢
  have hln : (BitVec.ofNat 32 d.length).toNat = d.length := by simp; omega
  generalize BitVec.ofNat 32 d.length = llen at hln ⊢
  have hsum : (j + llen).toNat = m.length % 64 + d.length - 2 ^ 32 := by
    rw [BitVec.toNat_add, hj, hln]; omega
  have hb := R.blen
  rw [if_neg (by rw [gt_iff_lt, lt_iff, hsum]; simp; omega), memcpy_bad _ _ _ _ _ (by omega)]
  rfl

/-- The situation is reachable: two buffered bytes and one chunk of 2^32 - 2 bytes. -/
theorem update_wraps_reachable [Host] (junk d : List Byte) (hj : junk.length = 64) (hd : d.length = 2 ^ 32 - 2) :
    feed (init junk) [[1, 2], d] = .ub := by
  obtain ⟨c1, d1, e1, R1, _⟩ := update_spec _ [] [1, 2] [] (init_rep junk hj) (by simp) (by simp)
  rw [List.append_nil] at e1
  rw [feed, e1, Outcome.ok_bind]
  simp only [feed]
  rw [update_wraps_ub c1 _ d R1 (by omega) (by rw [hd]; simp)]
  rfl

/-- A chunk of 2^32 - 1 bytes or more is refused by the assertion. -/
theorem update_huge_aborts [Host] (ctx : Ctx) (d : List Byte) (len : Nat) (h : 2 ^ 32 - 1 ≤ len) : update ctx d len = .abort := by
  rw [update, if_neg (by omega)]

/-- **C09** the digest is 20 bytes. -/
theorem sha1_length (m : List Byte) : (Spec.sha1 m).length = 20 := by
  simp [Spec.sha1, Spec.out, be_length]

/-- **C08** finalize wipes the context. -/
theorem finalize_wipes [Host] (ctx : Ctx) (m : List Byte) (R : Rep ctx m) :
    ∃ d, finalize ctx = .ok (d, { state := ⟨0, 0, 0, 0, 0⟩, count0 := 0, count1 := 0, buffer := List.replicate 64 0 }) :=
  ⟨_, finalize_spec ctx m R⟩

/-- **C54 (part)** `zt_sha1_update` leaves the caller's data unchanged when buffered bytes plus data are below 128.
Missing: larger data, which is overwritten (`update_clobbers`). -/
theorem update_preserves_data_partial [Host] (ctx : Ctx) (m d rest : List Byte) (R : Rep ctx m)
    (h : m.length % 64 + d.length < 128) :
    ∃ ctx', update ctx (d ++ rest) d.length = .ok (ctx', d ++ rest) := by
  obtain ⟨c1, d1, e1, _, _, _, hd⟩ := update_spec ctx m d rest R (by omega) (by omega)
  rw [hd h] at e1
  exact ⟨c1, e1⟩

/-- Sliding window of the message schedule, for evaluation. -/
def slide (w : List Word) : List Word :=
  w.tail ++ [Spec.rotl (w.getD 13 0 ^^^ w.getD 8 0 ^^^ w.getD 2 0 ^^^ w.getD 0 0) 1]

theorem slide_W (block : List Byte) (t : Nat) :
    Nat.repeat slide t ((List.range 16).map (Spec.M block)) = (List.range 16).map fun k => Spec.W block (t + k) := by
  induction t with
  | zero =>
      apply List.map_congr_left
      intro k hk
      rw [List.mem_range] at hk
      rw [Spec.W, if_pos (by omega), Nat.zero_add]
  | succ n ih =>
      rw [Nat.repeat, ih]
      have e : (List.range 16) = [0, 1, 2, 3, 4, 5, 6, 7, 8, 9, 10, 11, 12, 13, 14, 15] := by decide
      rw [e]
      simp only [slide, List.map_cons, List.map_nil, List.tail_cons, List.getD_cons_succ, List.getD_cons_zero,
        List.cons_append, List.nil_append]
      have hW : Spec.W block (n + 1 + 15) = Spec.rotl (Spec.W block (n + 13) ^^^ Spec.W block (n + 8) ^^^ Spec.W block (n + 2) ^^^ Spec.W block (n + 0)) 1 := by
        conv => lhs; rw [Spec.W, if_neg (by omega)]
        rfl
      rw [hW]

/-- Schedule windows of the witness block, every 8 steps (values checked by the lemmas below). -/
def witWin : Nat → List Word
  | 0 => [0x1000000#32, 0x0#32, 0x0#32, 0x0#32, 0x0#32, 0x0#32, 0x0#32, 0x0#32, 0x0#32, 0x0#32, 0x0#32, 0x0#32, 0x0#32, 0x0#32, 0x0#32, 0x0#32]
  | 1 => [0x0#32, 0x0#32, 0x0#32, 0x0#32, 0x0#32, 0x0#32, 0x0#32, 0x0#32, 0x2000000#32, 0x0#32, 0x0#32, 0x4000000#32, 0x0#32, 0x0#32, 0x8000000#32, 0x0#32]
  | 2 => [0x2000000#32, 0x0#32, 0x0#32, 0x4000000#32, 0x0#32, 0x0#32, 0x8000000#32, 0x0#32, 0x4000000#32, 0x10000000#32, 0x0#32, 0x0#32, 0x20000000#32, 0x0#32, 0x14000000#32, 0x40000000#32]
  | 3 => [0x4000000#32, 0x10000000#32, 0x0#32, 0x0#32, 0x20000000#32, 0x0#32, 0x14000000#32, 0x40000000#32, 0xc000000#32, 0x0#32, 0x80000000#32, 0x10000000#32, 0x50000000#32, 0x1#32, 0x10000000#32, 0x0#32]
  | 4 => [0xc000000#32, 0x0#32, 0x80000000#32, 0x10000000#32, 0x50000000#32, 0x1#32, 0x10000000#32, 0x0#32, 0x10000002#32, 0x0#32, 0x40000001#32, 0x4#32, 0xc8000000#32, 0x0#32, 0x10000008#32, 0x10000001#32]
  | 5 => [0x10000002#32, 0x0#32, 0x40000001#32, 0x4#32, 0xc8000000#32, 0x0#32, 0x10000008#32, 0x10000001#32, 0x38000005#32, 0x10#32, 0x1#32, 0x50000000#32, 0x10000021#32, 0x0#32, 0x80000014#32, 0x40#32]
  | 6 => [0x38000005#32, 0x10#32, 0x1#32, 0x50000000#32, 0x10000021#32, 0x0#32, 0x80000014#32, 0x40#32, 0xd000000c#32, 0x1#32, 0x10000081#32, 0x11#32, 0x90000051#32, 0x100#32, 0x50000011#32, 0x1#32]
  | 7 => [0xd000000c#32, 0x1#32, 0x10000081#32, 0x11#32, 0x90000051#32, 0x100#32, 0x50000011#32, 0x1#32, 0xd0000211#32, 0x0#32, 0x140#32, 0x401#32, 0xc8#32, 0x0#32, 0x810#32, 0x110#32]
  | 8 => [0xd0000211#32, 0x0#32, 0x140#32, 0x401#32, 0xc8#32, 0x0#32, 0x810#32, 0x110#32, 0x20000538#32, 0x1000#32, 0x101#32, 0x40000050#32, 0x80002111#32, 0x0#32, 0x80001481#32, 0x4001#32]
  | _ => []

theorem witWin_step : ∀ k < 8, Nat.repeat slide 8 (witWin k) = witWin (k + 1) := by decide +kernel

theorem repeat_add {α : Type} (f : α → α) (a b : Nat) (x : α) : Nat.repeat f (a + b) x = Nat.repeat f a (Nat.repeat f b x) := by
  induction a with
  | zero => rw [Nat.zero_add]; rfl
  | succ n ih => rw [Nat.succ_add, Nat.repeat, ih]; rfl

theorem witWin_eq (k : Nat) (hk : k ≤ 8) : Nat.repeat slide (8 * k) (witWin 0) = witWin k := by
  induction k with
  | zero => rfl
  | succ n ih => rw [show 8 * (n + 1) = 8 + 8 * n by omega, repeat_add, ih (by omega), witWin_step n (by omega)]

theorem wit_a1 : Nat.repeat slide 64 (witWin 0) = witWin 8 := by
  have h8 := witWin_eq 8 (by decide)
  rw [show 8 * 8 = 64 by decide] at h8
  exact h8

theorem wit_a2 : (List.range 16).map (Spec.M ([1] ++ List.replicate 63 0)) = witWin 0 := by decide +kernel

theorem wit_a3 (f : Nat → Word) : ((List.range 16).map fun k => f (64 + k)).getD 0 0 = f 64 := rfl

theorem wit_a5 : (List.range 16).map (fun k => Spec.W ([1] ++ List.replicate 63 0) (64 + k)) = witWin 8 := by
  rw [← slide_W, wit_a2, wit_a1]

theorem wit_a6 : Spec.W ([1] ++ List.replicate 63 0) 64 = (witWin 8).getD 0 0 := by
  rw [← wit_a5, wit_a3]

theorem wit_a7 (f : Nat → Word) : (storeLE f).getD 0 0 = UInt8.ofNat ((f 0).toNat % 256) := by
  rw [storeLE, List.getD_eq_getElem?_getD, List.getElem?_map, List.getElem?_range (by decide)]
  simp

theorem wit_a7' (g : Nat → Word) : (storeLE fun k => g (64 + k)).getD 0 0 = UInt8.ofNat ((g 64).toNat % 256) :=
  wit_a7 _

theorem wit_a4' : UInt8.ofNat (((witWin 8).getD 0 0).toNat % 256) ≠ 1 := by decide +kernel

theorem wit_b7 (f : Nat → Word) : (storeBE f).getD 0 0 = UInt8.ofNat (((f 0) >>> 24).toNat % 256) := by
  rw [storeBE, List.getD_eq_getElem?_getD, List.getElem?_map, List.getElem?_range (by decide)]
  simp

theorem wit_b7' (g : Nat → Word) : (storeBE fun k => g (64 + k)).getD 0 0 = UInt8.ofNat (((g 64) >>> 24).toNat % 256) :=
  wit_b7 _

theorem wit_b4' : UInt8.ofNat ((((witWin 8).getD 0 0) >>> 24).toNat % 256) ≠ 1 := by decide +kernel

theorem wit_a8 [Host] : (clobberBlock ([1] ++ List.replicate 63 0)).getD 0 0 ≠ 1 := by
  have h := wit_a7' (Spec.W ([1] ++ List.replicate 63 0))
  have h' := wit_b7' (Spec.W ([1] ++ List.replicate 63 0))
  rw [wit_a6] at h h'
  intro hc
  rw [clobberBlock, store] at hc
  split at hc
  · rw [h'] at hc
    exact wit_b4' hc
  · rw [h] at hc
    exact wit_a4' hc

/-- Violation of C54: hashing 64 zero bytes followed by a block that starts with a 1 changes the caller's bytes. -/
theorem update_clobbers [Host] (junk : List Byte) (hj : junk.length = 64) :
    ∃ ctx' d', update (init junk) (List.replicate 64 0 ++ [1] ++ List.replicate 63 0) 128 = .ok (ctx', d') ∧
      d' ≠ List.replicate 64 0 ++ [1] ++ List.replicate 63 0 := by
  obtain ⟨c1, d1, e1, _, _, hd, _⟩ := update_spec _ [] (List.replicate 64 0 ++ [1] ++ List.replicate 63 0) [] (init_rep junk hj)
    (by simp) (by simp)
  have hlen : (List.replicate 64 (0 : Byte) ++ [1] ++ List.replicate 63 0).length = 128 := by simp
  rw [List.append_nil, List.append_nil, hlen] at e1
  refine ⟨c1, d1, e1, ?_⟩
  rw [if_neg (by simp)] at hd
  have hdrop : (List.replicate 64 (0 : Byte) ++ [1] ++ List.replicate 63 0).drop (64 - ([] : List Byte).length % 64) =
      [1] ++ List.replicate 63 0 := rfl
  have htk : List.take 64 ([1] ++ List.replicate 63 (0 : Byte)) = [1] ++ List.replicate 63 0 := rfl
  rw [hdrop, clobber, if_neg (by simp), htk] at hd
  intro heq
  have h64 := congrArg (fun l : List Byte => l.getD 64 0) heq
  rw [hd] at h64
  have hl : (List.take (64 - ([] : List Byte).length % 64) (List.replicate 64 (0 : Byte) ++ [1] ++ List.replicate 63 0)).length = 64 := rfl
  have hR : (List.replicate 64 (0 : Byte) ++ [1] ++ List.replicate 63 0).getD 64 0 = 1 := by decide
  have hcl : (clobberBlock ([1] ++ List.replicate 63 0)).length = 64 := by
    rw [← transform_snd Spec.H0, transform_length]
  rw [List.getD_eq_getElem?_getD, List.getElem?_append_right (by rw [hl]; exact Nat.le_refl _), hl, Nat.sub_self,
    List.getElem?_append_left (by omega), ← List.getD_eq_getElem?_getD] at h64
  exact wit_a8 (h64.trans hR)

end ZT.Sha1
