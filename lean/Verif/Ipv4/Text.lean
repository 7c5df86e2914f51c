import Verif.Ipv4.Props

/-! # C25: parsing networks -/

namespace ZT.Ipv4

namespace Spec

/-- Decimal text of a byte. -/
def dec (n : Nat) : List Byte :=
  if n < 10 then [UInt8.ofNat (48 + n)]
  else if n < 100 then [UInt8.ofNat (48 + n / 10), UInt8.ofNat (48 + n % 10)]
  else [UInt8.ofNat (48 + n / 100), UInt8.ofNat (48 + n / 10 % 10), UInt8.ofNat (48 + n % 10)]

/-- `a.b.c.d`. -/
def dotted (a b c d : Nat) : List Byte := dec a ++ 46 :: dec b ++ 46 :: dec c ++ 46 :: dec d

/-- The 32-bit address. -/
def quad (a b c d : Nat) : Nat := a * 2 ^ 24 + b * 2 ^ 16 + c * 2 ^ 8 + d

/-- Value of a string of decimal digits. -/
def decimal (ds : List Byte) : Nat := ds.foldl (fun acc b => acc * 10 + (b.toNat - 48)) 0

end Spec

/-- What is assumed of `ntohl(inet_addr(s))`: it understands dotted decimal addresses. -/
def InetOk (inet : List Byte → Nat) : Prop := ∀ a b c d, a < 256 → b < 256 → c < 256 → d < 256 → inet (Spec.dotted a b c d) = Spec.quad a b c d

theorem dec_props : ∀ n, n < 256 → (Spec.dec n).length ≤ 3 ∧ (∀ x ∈ Spec.dec n, x ≠ 0 ∧ x ≠ 47 ∧ x ≠ 46 ∧ isDigit x = true) ∧ Spec.decimal (Spec.dec n) = n := by decide +kernel

theorem dotted_props {a b c d : Nat} (ha : a < 256) (hb : b < 256) (hc : c < 256) (hd : d < 256) :
    (Spec.dotted a b c d).length ≤ 15 ∧ ∀ x ∈ Spec.dotted a b c d, x ≠ 0 ∧ x ≠ 47 := by
  obtain ⟨la, pa, _⟩ := dec_props a ha
  obtain ⟨lb, pb, _⟩ := dec_props b hb
  obtain ⟨lc, pc, _⟩ := dec_props c hc
  obtain ⟨ld, pd, _⟩ := dec_props d hd
  refine ⟨by simp only [Spec.dotted, List.length_append, List.length_cons]; omega, ?_⟩
  intro x hx
  simp only [Spec.dotted, List.mem_append, List.mem_cons] at hx
  rcases hx with ((h | rfl | h) | rfl | h) | rfl | h
  · exact ⟨(pa x h).1, (pa x h).2.1⟩
  · decide
  · exact ⟨(pb x h).1, (pb x h).2.1⟩
  · decide
  · exact ⟨(pc x h).1, (pc x h).2.1⟩
  · decide
  · exact ⟨(pd x h).1, (pd x h).2.1⟩

theorem digitsVal_eq (ds : List Byte) (hd : ∀ x ∈ ds, isDigit x = true) : ∀ acc, digitsVal ds acc = ds.foldl (fun acc b => acc * 10 + (b.toNat - 48)) acc := by
  induction ds with
  | nil => intro acc; rfl
  | cons x xs ih =>
      intro acc
      rw [digitsVal, if_pos (hd x (by simp)), ih (fun y hy => hd y (by simp [hy]))]; rfl

theorem digit_not_special (b : Byte) (h : isDigit b = true) : isSpace b = false ∧ b ≠ 45 ∧ b ≠ 43 ∧ b ≠ 0 ∧ b ≠ 47 := by
  simp only [isDigit, Bool.and_eq_true, decide_eq_true_eq] at h
  refine ⟨by simp [isSpace]; omega, ?_, ?_, ?_, ?_⟩ <;> (rintro rfl; revert h; decide)

theorem atoi_digits {ds : List Byte} (hd : ∀ x ∈ ds, isDigit x = true) (hv : Spec.decimal ds < 2 ^ 31) : atoi ds = Spec.decimal ds := by
  have hsp : ds.dropWhile isSpace = ds := by
    cases ds with
    | nil => rfl
    | cons x xs => rw [List.dropWhile_cons, if_neg]; rw [(digit_not_special x (hd x (by simp))).1]; simp
  have hval : signed ds = (Spec.decimal ds : Int) := by
    cases ds with
    | nil => rfl
    | cons x xs =>
        have hx := digit_not_special x (hd x (by simp))
        rw [signed, if_neg hx.2.1, if_neg hx.2.2.1, digitsVal_eq _ hd]; rfl
  simp only [atoi, hsp, hval]
  omega

theorem strlen_take {s rest : List Byte} : (s ++ 0 :: rest).take s.length = s := by simp

theorem idxOf?_slash {s t : List Byte} (h : ∀ x ∈ s, x ≠ 47) : (s ++ 47 :: t).idxOf? 47 = some s.length := by
  induction s with
  | nil => simp [List.idxOf?, List.findIdx?_cons]
  | cons x xs ih =>
      have := ih (fun y hy => h y (by simp [hy]))
      simp only [List.idxOf?, List.cons_append, List.findIdx?_cons] at this ⊢
      rw [if_neg (by simpa using h x (by simp)), this]; rfl

/-- **C25 (parsing `a.b.c.d/n`).** For every address and every decimal `n` that fits an `int`: parsing succeeds, whatever follows the string in memory;
the prefix length is `n`, or 32 if `n` is larger; the record has the network's first and last address. -/
theorem c25_parse {inet : List Byte → Nat} (hi : InetOk inet) {a b c d : Nat} (ha : a < 256) (hb : b < 256) (hc : c < 256) (hd : d < 256)
    {ds : List Byte} (hds : ∀ x ∈ ds, isDigit x = true) (hv : Spec.decimal ds < 2 ^ 31) (rest : List Byte) :
    addrFrmStr inet (Spec.dotted a b c d ++ 47 :: ds ++ 0 :: rest) = .ok (some (addrOf ⟨Spec.quad a b c d, min (Spec.decimal ds) 32⟩)) := by
  obtain ⟨hl, hp⟩ := dotted_props ha hb hc hd
  have hs : ∀ x ∈ Spec.dotted a b c d ++ 47 :: ds, x ≠ 0 := by
    intro x hx
    rcases List.mem_append.1 hx with h | h
    · exact (hp x h).1
    · rcases List.mem_cons.1 h with rfl | h
      · decide
      · exact (digit_not_special x (hds x h)).2.2.2.1
  have hidx := idxOf?_slash (s := Spec.dotted a b c d) (t := ds) (fun x hx => (hp x hx).2)
  have hsave : strlen (Spec.dotted a b c d ++ List.replicate (16 - (Spec.dotted a b c d).length) 0) = .ok (Spec.dotted a b c d).length := by
    rw [show 16 - (Spec.dotted a b c d).length = (15 - (Spec.dotted a b c d).length) + 1 by omega, List.replicate_succ]
    exact strlen_eq _ _ (fun x hx => (hp x hx).1)
  have h2n : str2net inet (Spec.dotted a b c d ++ 47 :: ds ++ 0 :: rest) = .ok (some (Spec.quad a b c d, ((min (Spec.decimal ds) 32 : Nat) : Int))) := by
    rw [str2net, strlen_eq _ _ hs]
    simp only [Outcome.ok_bind]
    rw [strlen_take, hidx]
    simp only
    rw [if_neg (by omega)]
    simp only [Outcome.pure_eq, Outcome.ok_bind]
    rw [List.take_left', hsave]
    · simp only [Outcome.ok_bind]
      rw [List.take_left' rfl, hi a b c d ha hb hc hd]
      have hdrop : (Spec.dotted a b c d ++ 47 :: ds).drop ((Spec.dotted a b c d).length + 1) = ds := by
        rw [List.drop_append]; simp
      rw [hdrop, atoi_digits hds hv]
      have : (if (Spec.decimal ds : Int) > 32 then 32 else (Spec.decimal ds : Int)) = ((min (Spec.decimal ds) 32 : Nat) : Int) := by
        split <;> omega
      rw [this]
    · rfl
  rw [addrFrmStr, h2n]
  simp only [Outcome.ok_bind]
  have hq : Spec.quad a b c d < 2 ^ 32 := by simp only [Spec.quad]; omega
  rw [mkAddr_eq (n := ⟨Spec.quad a b c d, min (Spec.decimal ds) 32⟩) ⟨hq, by simp only; omega⟩]
  rfl

/-- **C25 (no prefix length).** `a.b.c.d` alone is a single address (/32), if the caller's memory has at least 16 readable bytes there. -/
theorem c25_plain {inet : List Byte → Nat} (hi : InetOk inet) {a b c d : Nat} (ha : a < 256) (hb : b < 256) (hc : c < 256) (hd : d < 256) (rest : List Byte)
    (hr : 16 ≤ (Spec.dotted a b c d ++ 0 :: rest).length) :
    addrFrmStr inet (Spec.dotted a b c d ++ 0 :: rest) = .ok (some (addrOf ⟨Spec.quad a b c d, 32⟩)) := by
  obtain ⟨hl, hp⟩ := dotted_props ha hb hc hd
  have hs : ∀ x ∈ Spec.dotted a b c d, x ≠ 0 := fun x hx => (hp x hx).1
  have hidx : (Spec.dotted a b c d).idxOf? 47 = none := by
    rw [List.idxOf?_eq_none_iff]
    intro hm
    exact (hp 47 hm).2 rfl
  have htake : (Spec.dotted a b c d ++ 0 :: rest).take 16 = Spec.dotted a b c d ++ 0 :: rest.take (15 - (Spec.dotted a b c d).length) := by
    rw [List.take_append, List.take_of_length_le (by omega), show 16 - (Spec.dotted a b c d).length = (15 - (Spec.dotted a b c d).length) + 1 by omega, List.take_succ_cons]
  have h2n : str2net inet (Spec.dotted a b c d ++ 0 :: rest) = .ok (some (Spec.quad a b c d, 32)) := by
    rw [str2net, strlen_eq _ _ hs]
    simp only [Outcome.ok_bind]
    rw [strlen_take, hidx]
    simp only
    rw [if_pos hr]
    simp only [Outcome.pure_eq, Outcome.ok_bind]
    rw [htake, strlen_eq _ _ hs]
    simp only [Outcome.ok_bind]
    rw [List.take_left' rfl, hi a b c d ha hb hc hd]
    rfl
  rw [addrFrmStr, h2n]
  simp only [Outcome.ok_bind]
  have hq : Spec.quad a b c d < 2 ^ 32 := by simp only [Spec.quad]; omega
  have := mkAddr_eq (n := ⟨Spec.quad a b c d, 32⟩) ⟨hq, by simp⟩
  simp only at this
  rw [show ((32 : Nat) : Int) = 32 from rfl] at this
  rw [this]; rfl

/-- **C25 (meaning of the record).** The addresses between the network address and the broadcast address are exactly those that share the first
`len` bits, and the mask has exactly the first `len` bits set. -/
theorem c25_range {n : Net} (v : n.Valid) (x : Nat) : ((addrOf n).addr ≤ x ∧ x ≤ (addrOf n).broadcast ↔ Spec.Covers n x) ∧
    (x < 2 ^ 32 → (Spec.Covers n x ↔ x &&& (addrOf n).mask = n.ip &&& (addrOf n).mask)) := by
  refine ⟨(covers_iff n x).symm, fun hx => ?_⟩
  have hP : 0 < 2 ^ (32 - n.len) := Nat.two_pow_pos _
  simp only [addrOf]
  rw [and_mask x _ hx (by omega), and_mask n.ip _ v.1 (by omega), Spec.Covers]
  exact ⟨fun h => by rw [h], fun h => Nat.eq_of_mul_eq_mul_right hP h⟩

/-- Violation of C25: a short address without prefix length is read past the end of the caller's string (`memcpy` of 16 bytes). -/
theorem plain_overreads (inet : List Byte → Nat) : addrFrmStr inet (Spec.dotted 1 2 3 4 ++ [0]) = .ub := by
  have h : (Spec.dotted 1 2 3 4 ++ [0] : List Byte) = [49, 46, 50, 46, 51, 46, 52, 0] := by decide +kernel
  rw [h]
  rfl

/-- Violation of C25: a negative prefix length is not rejected but used to index the netmask table. -/
theorem negative_prefix (inet : List Byte → Nat) : addrFrmStr inet ([49, 46, 50, 46, 51, 46, 52, 47, 45, 49, 0]) = .ub := rfl

/-- Violation of C25: so is a prefix length of 4294967295, which `atoi` turns into -1. -/
theorem huge_prefix (inet : List Byte → Nat) : addrFrmStr inet ([49, 46, 50, 46, 51, 46, 52, 47, 52, 50, 57, 52, 57, 54, 55, 50, 57, 53, 0]) = .ub := rfl

/-- Violation of C25: text that is not an address is accepted, as whatever `inet_addr` gives for it (all ones). -/
theorem garbage_accepted (inet : List Byte → Nat) (h : inet [120] = 0xFFFFFFFF) : addrFrmStr inet [120, 47, 56, 0] = .ok (some (addrOf ⟨0xFFFFFFFF, 8⟩)) := by
  have h2n : str2net inet [120, 47, 56, 0] = .ok (some (0xFFFFFFFF, 8)) := by
    rw [← h]; rfl
  rw [addrFrmStr, h2n]; rfl

/-- A parser of dotted decimal addresses. -/
def inetRef (s : List Byte) : Nat :=
  let r := s.foldl (fun (acc : Nat × Nat) b => if b = 46 then (acc.1 * 256 + acc.2, 0) else (acc.1, acc.2 * 10 + (b.toNat - 48))) (0, 0)
  r.1 * 256 + r.2

theorem fold_dec (n : Nat) (h : n < 256) (A : Nat) :
    (Spec.dec n).foldl (fun (acc : Nat × Nat) b => if b = 46 then (acc.1 * 256 + acc.2, 0) else (acc.1, acc.2 * 10 + (b.toNat - 48))) (A, 0) = (A, n) := by
  have key : ∀ (ds : List Byte), (∀ x ∈ ds, x ≠ 46) → ∀ q, ds.foldl (fun (acc : Nat × Nat) b => if b = 46 then (acc.1 * 256 + acc.2, 0) else (acc.1, acc.2 * 10 + (b.toNat - 48))) (A, q) =
      (A, ds.foldl (fun acc b => acc * 10 + (b.toNat - 48)) q) := by
    intro ds
    induction ds with
    | nil => intro _ q; rfl
    | cons x xs ih => intro hx q; rw [List.foldl_cons, if_neg (hx x (by simp)), ih (fun y hy => hx y (by simp [hy]))]; rfl
  obtain ⟨_, h2, h3⟩ := dec_props n h
  rw [key _ (fun x hx => (h2 x hx).2.2.1) 0]
  exact congrArg (Prod.mk A) h3

/-- The assumption on `inet_addr` can be met. -/
theorem inetRef_ok : InetOk inetRef := by
  intro a b c d ha hb hc hd
  simp only [inetRef, Spec.dotted, List.foldl_append, List.foldl_cons, fold_dec _ ha, fold_dec _ hb, fold_dec _ hc, fold_dec _ hd, if_true, Spec.quad]
  omega

/-- 192.168.3.7/16. -/
example : addrFrmStr inetRef (Spec.dotted 192 168 3 7 ++ 47 :: [49, 54] ++ 0 :: [99]) = .ok (some ⟨16, 0xC0A80000, 0xFFFF0000, 0xC0A8FFFF⟩) :=
  (c25_parse inetRef_ok (by decide) (by decide) (by decide) (by decide) (ds := [49, 54]) (by decide) (by decide) [99]).trans (by decide +kernel)

end ZT.Ipv4
