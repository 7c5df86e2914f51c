import Verif.Uuid.Spec

namespace ZT.Uuid
open Spec

theorem orShift (a b k : Nat) (h : b < 256) : (a * 2 ^ (k + 8)) ||| (b <<< k) = (a * 256 + b) * 2 ^ k := by
  have e : a * 2 ^ (k + 8) = (2 ^ 8 * a) <<< k := by
    rw [Nat.shiftLeft_eq, Nat.pow_add]
    rw [Nat.mul_comm (2 ^ 8) a, Nat.mul_assoc, Nat.mul_comm (2 ^ 8)]
  rw [e, ← Nat.shiftLeft_or_distrib, ← Nat.two_pow_add_eq_or_of_lt (i := 8) h a, Nat.shiftLeft_eq, Nat.mul_comm (2 ^ 8) a]

theorem gather_spec (u : List Byte) (off i : Nat) (pre w rest : List Byte) (a : Nat) (hu : u = pre ++ w ++ rest)
    (hp : off + i = pre.length) (hi : i + w.length = 8) :
    gather u off w.length i (a * 2 ^ (8 * w.length)) = .ok (w.foldl (fun x b => x * 256 + b.toNat) a) := by
  induction w generalizing i pre a with
  | nil => simp [gather]
  | cons b bs ih =>
      simp only [List.length_cons] at hi ⊢
      rw [gather, hu, hp, show pre ++ b :: bs ++ rest = pre ++ b :: (bs ++ rest) by simp, rd_append_right, Outcome.ok_bind]
      have hb : b.toNat < 256 := b.toNat_lt
      rw [show 8 * (bs.length + 1) = 8 * bs.length + 8 by omega, show (7 - i) * 8 = 8 * bs.length by omega, orShift _ _ _ hb,
        List.foldl_cons]
      rw [show pre ++ b :: (bs ++ rest) = u by simp [hu]]
      exact ih (i + 1) (pre ++ [b]) _ (by simp [hu]) (by simp; omega) (by omega)

theorem gather_lo (u : List Byte) (h : u.length = 16) : gather u 0 8 0 0 = .ok (beVal (u.take 8)) := by
  have := gather_spec u 0 0 [] (u.take 8) (u.drop 8) 0 (by simp) rfl (by simp [h])
  rw [show (u.take 8).length = 8 by simp [h], Nat.zero_mul] at this
  exact this

theorem gather_hi (u : List Byte) (h : u.length = 16) : gather u 8 8 0 0 = .ok (beVal (u.drop 8)) := by
  have := gather_spec u 8 0 (u.take 8) (u.drop 8) [] 0 (by simp) (by simp [h]) (by simp [h])
  rw [show (u.drop 8).length = 8 by simp [h], Nat.zero_mul] at this
  exact this

theorem foldl_bound (w : List Byte) (a : Nat) : w.foldl (fun x b => x * 256 + b.toNat) a < (a + 1) * 256 ^ w.length := by
  induction w generalizing a with
  | nil => simp
  | cons b bs ih =>
      rw [List.foldl_cons]
      have h1 := ih (a * 256 + b.toNat)
      have hb : b.toNat < 256 := b.toNat_lt
      refine Nat.lt_of_lt_of_le h1 ?_
      rw [List.length_cons, Nat.pow_succ, Nat.mul_comm (256 ^ bs.length) 256, ← Nat.mul_assoc]
      exact Nat.mul_le_mul_right _ (by omega)

theorem beVal_lt (w : List Byte) (h : w.length = 8) : beVal w < 2 ^ 64 := by
  have := foldl_bound w 0
  rw [h] at this
  simpa [beVal] using this

/-! ### base 62 -/

theorem alpha_all : ∀ d < 62, rd base62Alphabet d = .ok (alpha d) ∧ val62 (alpha d) = some d ∧ alpha d ∈ base62Alphabet ∧ alpha d ≠ 0 := by
  decide +kernel

theorem b62_length (n v : Nat) : (b62 n v).length = n := by simp [b62]

theorem b62_succ (n v : Nat) : b62 (n + 1) v = b62 n (v / 62) ++ [alpha (v % 62)] := by
  rw [b62, List.range_succ, List.map_append]
  congr 1
  · rw [b62]
    apply List.map_congr_left
    intro k hk
    rw [List.mem_range] at hk
    rw [show n + 1 - 1 - k = (n - 1 - k) + 1 by omega, Nat.pow_succ, Nat.mul_comm, ← Nat.div_div_eq_div_mul]
  · simp

theorem b62_zero (n : Nat) : b62 n 0 = List.replicate n (alpha 0) := by
  induction n with
  | zero => rfl
  | succ n ih => rw [b62_succ, Nat.zero_div, ih, Nat.zero_mod, List.replicate_succ']

theorem enc62Fill_spec (pre seg post : List Byte) :
    enc62Fill (pre ++ seg ++ post) pre.length seg.length = .ok (pre ++ List.replicate seg.length (alpha 0) ++ post) := by
  induction hn : seg.length generalizing seg post with
  | zero => 
      have : seg = [] := List.length_eq_zero_iff.mp hn
      subst this; rfl
  | succ n ih =>
      obtain ⟨s, x, rfl⟩ : ∃ s x, seg = s ++ [x] := ⟨seg.dropLast, seg.getLast (by intro h; simp [h] at hn),
        (List.dropLast_concat_getLast _).symm⟩
      simp at hn
      rw [enc62Fill, (alpha_all 0 (by decide)).1, Outcome.ok_bind, wr_lt (by simp; omega), Outcome.ok_bind]
      have e : (pre ++ (s ++ [x]) ++ post).set (pre.length + n) (alpha 0) = pre ++ s ++ (alpha 0 :: post) := by
        subst hn; simp
      rw [e, ih s (alpha 0 :: post) hn, List.replicate_succ']
      simp

theorem enc62_gen (pre seg post : List Byte) (v : Nat) (h : v < 62 ^ seg.length) :
    ∃ i, (do
      let (out, i) ← enc62Loop (pre ++ seg ++ post) pre.length v seg.length
      let out ← enc62Fill out pre.length i
      pure (out, i) : Outcome (List Byte × Nat)) = .ok (pre ++ b62 seg.length v ++ post, i) := by
  induction hn : seg.length generalizing seg post v with
  | zero =>
      have : seg = [] := List.length_eq_zero_iff.mp hn
      subst this
      have : v = 0 := by simpa using h
      subst this
      rw [enc62Loop]
      exact ⟨0, rfl⟩
  | succ n ih =>
      by_cases hv : v = 0
      · subst hv
        have hf := enc62Fill_spec pre seg post
        rw [hn] at hf
        rw [enc62Loop, dif_pos rfl, Outcome.ok_bind]
        simp only
        rw [hf, b62_zero]
        exact ⟨_, rfl⟩
      · obtain ⟨s, x, rfl⟩ : ∃ s x, seg = s ++ [x] := ⟨seg.dropLast, seg.getLast (by intro h; simp [h] at hn),
          (List.dropLast_concat_getLast _).symm⟩
        simp at hn
        rw [enc62Loop, dif_neg hv]
        simp only
        rw [(alpha_all (v % 62) (Nat.mod_lt _ (by decide))).1, Outcome.ok_bind, wr_lt (by simp; omega), Outcome.ok_bind]
        have e : (pre ++ (s ++ [x]) ++ post).set (pre.length + n) (alpha (v % 62)) = pre ++ s ++ (alpha (v % 62) :: post) := by
          subst hn; simp
        have hlt : v / 62 < 62 ^ s.length := by
          simp at h
          rw [Nat.div_lt_iff_lt_mul (by decide), ← Nat.pow_succ]; exact h
        obtain ⟨i, hi⟩ := ih s (alpha (v % 62) :: post) (v / 62) hlt hn
        refine ⟨i, ?_⟩
        rw [e, hi, b62_succ]
        simp

theorem enc62_spec (pre seg post : List Byte) (v : Nat) (hs : seg.length = 11) (hv : v < 2 ^ 64) :
    ∃ i, enc62 (pre ++ seg ++ post) pre.length v = .ok (pre ++ b62 11 v ++ post, i) := by
  have := enc62_gen pre seg post v (by rw [hs]; exact Nat.lt_trans hv (by decide))
  rw [hs] at this
  exact this

/-- Value of a base-62 text. -/
def value62 : List Byte → Option Nat
  | [] => some 0
  | c :: cs =>
      match val62 c, value62 cs with
      | some n, some v => some (n * 62 ^ cs.length + v)
      | _, _ => none

theorem dec62Loop_spec (tlen : Nat) (w rest : List Byte) (i v x : Nat) (hi : i + w.length = tlen) (hx : value62 w = some x) (hv : v < 2 ^ 64) :
    dec62Loop tlen (w ++ rest) i w.length v = .ok (some ((v + x) % 2 ^ 64)) := by
  induction w generalizing i v x with
  | nil =>
      simp [value62] at hx; subst hx
      simp [dec62Loop, Nat.mod_eq_of_lt hv]
  | cons c cs ih =>
      simp only [List.length_cons] at hi
      rw [value62] at hx
      cases hc : val62 c with
      | none => simp [hc] at hx
      | some n =>
        cases hcs : value62 cs with
        | none => simp [hc, hcs] at hx
        | some y =>
          simp only [hc, hcs, Option.some.injEq] at hx
          subst hx
          rw [List.cons_append, List.length_cons, dec62Loop, hc]
          simp only
          rw [ih (i + 1) _ y (by omega) hcs (Nat.mod_lt _ (by decide)), show tlen - i - 1 = cs.length by omega,
            Nat.mod_add_mod, Nat.add_assoc]

theorem dec62Loop_none (tlen : Nat) (w rest : List Byte) (i v : Nat) (hx : value62 w = none) :
    dec62Loop tlen (w ++ rest) i w.length v = .ok none := by
  induction w generalizing i v with
  | nil => simp [value62] at hx
  | cons c cs ih =>
      rw [List.cons_append, List.length_cons, dec62Loop]
      cases hc : val62 c with
      | none => rfl
      | some n =>
        simp only
        apply ih
        rw [value62, hc] at hx
        cases hcs : value62 cs with
        | none => rfl
        | some y => simp [hcs] at hx

theorem value62_append (a b : List Byte) (x y : Nat) (ha : value62 a = some x) (hb : value62 b = some y) :
    value62 (a ++ b) = some (x * 62 ^ b.length + y) := by
  induction a generalizing x with
  | nil => simp [value62] at ha; subst ha; simp [hb]
  | cons c cs ih =>
      rw [value62] at ha
      cases hc : val62 c with
      | none => simp [hc] at ha
      | some n =>
        cases hcs : value62 cs with
        | none => simp [hc, hcs] at ha
        | some z =>
          simp only [hc, hcs, Option.some.injEq] at ha
          rw [List.cons_append, value62, hc, ih z hcs]
          simp only [Option.some.injEq, List.length_append]
          rw [← ha, Nat.pow_add, Nat.add_mul]
          rw [← Nat.mul_assoc, Nat.add_assoc]

theorem value62_b62 (n v : Nat) (h : v < 62 ^ n) : value62 (b62 n v) = some v := by
  induction n generalizing v with
  | zero => simp at h; subst h; rfl
  | succ n ih =>
      rw [b62_succ]
      have h1 := ih (v / 62) (by rw [Nat.div_lt_iff_lt_mul (by decide), ← Nat.pow_succ]; exact h)
      have h2 : value62 [alpha (v % 62)] = some (v % 62) := by
        simp [value62, (alpha_all (v % 62) (Nat.mod_lt _ (by decide))).2.1]
      rw [value62_append _ _ _ _ h1 h2]
      simp; omega

theorem b62_mem (n v : Nat) : ∀ c ∈ b62 n v, c ∈ base62Alphabet ∧ c ≠ 0 := by
  intro c hc
  simp only [b62, List.mem_map] at hc
  obtain ⟨k, _, rfl⟩ := hc
  exact (alpha_all _ (Nat.mod_lt _ (by decide))).2.2

theorem dec62_b62 (v ilen : Nat) (rest : List Byte) (hv : v < 2 ^ 64) (hi : 11 ≤ ilen) :
    dec62 (b62 11 v ++ rest) ilen = .ok (some v) := by
  have hlen := b62_length 11 v
  have := dec62Loop_spec 11 (b62 11 v) rest 0 0 v (by omega) (value62_b62 11 v (Nat.lt_trans hv (by decide))) (by decide)
  rw [hlen] at this
  rw [dec62, show (if ilen > 11 then 11 else ilen) = 11 by split <;> omega]
  rw [this, Nat.zero_add, Nat.mod_eq_of_lt hv]

theorem spread_beVal (w : List Byte) (h : w.length = 8) : spread (beVal w) = w := by
  match w, h with
  | [b0, b1, b2, b3, b4, b5, b6, b7], _ =>
    have e : beVal [b0, b1, b2, b3, b4, b5, b6, b7] = ((((((((0 * 256 + b0.toNat) * 256 + b1.toNat) * 256 + b2.toNat) * 256
      + b3.toNat) * 256 + b4.toNat) * 256 + b5.toNat) * 256 + b6.toNat) * 256 + b7.toNat) := rfl
    have hs : ∀ v, spread v = [UInt8.ofNat ((v >>> 56) &&& 0xFF), UInt8.ofNat ((v >>> 48) &&& 0xFF), UInt8.ofNat ((v >>> 40) &&& 0xFF),
      UInt8.ofNat ((v >>> 32) &&& 0xFF), UInt8.ofNat ((v >>> 24) &&& 0xFF), UInt8.ofNat ((v >>> 16) &&& 0xFF),
      UInt8.ofNat ((v >>> 8) &&& 0xFF), UInt8.ofNat ((v >>> 0) &&& 0xFF)] := fun _ => rfl
    have ff : ∀ n, n &&& 0xFF = n % 256 := fun n => Nat.and_two_pow_sub_one_eq_mod n 8
    rw [hs, e]
    have h0 := b0.toNat_lt; have h1 := b1.toNat_lt; have h2 := b2.toNat_lt; have h3 := b3.toNat_lt
    have h4 := b4.toNat_lt; have h5 := b5.toNat_lt; have h6 := b6.toNat_lt; have h7 := b7.toNat_lt
    have key : ∀ (b : Byte) (n : Nat), n = b.toNat → UInt8.ofNat n = b := by intro b n hn; subst hn; simp
    simp only [ff, Nat.shiftRight_eq_div_pow]
    rw [key b0 _ (by omega), key b1 _ (by omega), key b2 _ (by omega), key b3 _ (by omega), key b4 _ (by omega),
      key b5 _ (by omega), key b6 _ (by omega), key b7 _ (by omega)]

/-! ### reversing copies -/

theorem take_succ_rev (t : List Byte) (n : Nat) (h : n < t.length) : (t.take (n + 1)).reverse = t[n] :: (t.take n).reverse := by
  have e : t.take (n + 1) = t.take n ++ [t[n]] := List.take_succ_eq_append_getElem h
  rw [e, List.reverse_append]; rfl

theorem revCopy_spec (t done rest : List Byte) (left : Nat) (hl : left ≤ t.length) (hr : left ≤ rest.length) :
    revCopy t (done ++ rest) left done.length = .ok (done ++ (t.take left).reverse ++ rest.drop left) := by
  induction left generalizing done rest with
  | zero => simp [revCopy]
  | succ n ih =>
      match rest, hr with
      | r :: rest, hr =>
      rw [revCopy, rd_lt (by omega), Outcome.ok_bind, wr_lt (by simp), Outcome.ok_bind]
      have e : (done ++ r :: rest).set done.length t[n] = (done ++ [t[n]]) ++ rest := by simp
      rw [e]
      have := ih (done ++ [t[n]]) rest (by omega) (by simpa using hr)
      rw [show (done ++ [t[n]]).length = done.length + 1 by simp] at this
      rw [this, take_succ_rev t n (by omega)]
      simp

theorem revRead_spec (s : List Byte) (left : Nat) (h : left ≤ s.length) : revRead s left = .ok (s.take left).reverse := by
  induction left with
  | zero => rfl
  | succ n ih =>
      rw [revRead, rd_lt (by omega), Outcome.ok_bind, ih (by omega), Outcome.ok_bind, take_succ_rev s n (by omega)]
      rfl

/-! ### printf / scanf items -/

theorem takeStr_spec (w rest : List Byte) (h : ∀ b ∈ w, b ≠ 0) : takeStr w.length (w ++ rest) = .ok w := by
  induction w with
  | nil => rfl
  | cons c cs ih =>
      have hc : c ≠ 0 := h c (by simp)
      rw [List.length_cons, List.cons_append, takeStr, if_neg hc, ih fun b hb => h b (by simp [hb])]
      rfl

theorem item_spec (w rest : List Byte) (n : Nat) (hn : w.length = n) (h : ∀ b ∈ w, b ≠ 0) : item n (w ++ rest) = .ok w := by
  subst hn
  rw [item, takeStr_spec _ _ h]
  simp

theorem scanWord_spec (w rest : List Byte) (h : ∀ b ∈ w, b ≠ 0 ∧ isSpace b = false) :
    scanWord w.length (w ++ rest) = .ok (w, rest) := by
  induction w with
  | nil => rfl
  | cons c cs ih =>
      have hc := h c (by simp)
      rw [List.length_cons, List.cons_append, scanWord, if_neg (by simp [hc]), ih fun b hb => h b (by simp [hb])]
      rfl

theorem putWord_spec (pre tail w : List Byte) (h : w.length + 1 ≤ tail.length) :
    putWord (pre ++ tail) pre.length w = .ok (pre ++ w ++ 0 :: tail.drop (w.length + 1)) := by
  induction w generalizing pre tail with
  | nil =>
      match tail, h with
      | t :: ts, _ =>
      rw [putWord, wr_lt (by simp)]
      simp
  | cons c cs ih =>
      match tail, h with
      | t :: ts, h =>
      rw [putWord, wr_lt (by simp), Outcome.ok_bind]
      have e : (pre ++ t :: ts).set pre.length c = (pre ++ [c]) ++ ts := by simp
      have := ih (pre ++ [c]) ts (by simpa using h)
      rw [show (pre ++ [c]).length = pre.length + 1 by simp] at this
      rw [e, this]
      simp

theorem skipWs_id (s rest : List Byte) (hs : s ≠ []) (h : ∀ b ∈ s, b ≠ 0 ∧ isSpace b = false) : skipWs (s ++ rest) = s ++ rest := by
  match s, hs with
  | c :: cs, _ =>
    have := (h c (by simp)).2
    simp [skipWs, this]

/-- One scanned item followed by a dash. -/
theorem sscanf_dash (n off : Nat) (it : Nat × Nat) (items : List (Nat × Nat)) (w rest pre tail : List Byte) (hn : w.length = n)
    (ho : pre.length = off) (hw : w ≠ []) (h : ∀ b ∈ w, b ≠ 0 ∧ isSpace b = false) (ht : n + 1 ≤ tail.length) :
    sscanf ((n, off) :: it :: items) (w ++ 45 :: rest) (pre ++ tail) =
      sscanf (it :: items) rest (pre ++ w ++ 0 :: tail.drop (n + 1)) := by
  subst hn ho
  rw [sscanf, skipWs_id _ _ hw h, scanWord_spec _ _ h, Outcome.ok_bind]
  simp only
  rw [if_neg hw, putWord_spec _ _ _ ht, Outcome.ok_bind]

theorem sscanf_last (n off : Nat) (w rest pre tail : List Byte) (hn : w.length = n)
    (ho : pre.length = off) (hw : w ≠ []) (h : ∀ b ∈ w, b ≠ 0 ∧ isSpace b = false) (ht : n + 1 ≤ tail.length) :
    sscanf [(n, off)] (w ++ rest) (pre ++ tail) = .ok (pre ++ w ++ 0 :: tail.drop (n + 1)) := by
  subst hn ho
  rw [sscanf, skipWs_id _ _ hw h, scanWord_spec _ _ h, Outcome.ok_bind]
  simp only
  rw [if_neg hw, putWord_spec _ _ _ ht, Outcome.ok_bind]

end ZT.Uuid
