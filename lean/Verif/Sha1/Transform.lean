import Verif.Sha1.Spec

namespace ZT.Sha1

/-- Register number modulo 5. -/
def regAt : Nat → Reg
  | 0 => .a | 1 => .b | 2 => .c | 3 => .d | _ => .e

def kindAt (i : Nat) : RKind :=
  if i < 16 then .R0 else if i < 20 then .R1 else if i < 40 then .R2 else if i < 60 then .R3 else .R4

def genCall (i : Nat) : Call :=
  ⟨kindAt i, regAt ((80 - i) % 5), regAt ((81 - i) % 5), regAt ((82 - i) % 5), regAt ((83 - i) % 5),
    regAt ((84 - i) % 5), i⟩

theorem calls_eq : calls = (List.range 80).map genCall := by decide +kernel

theorem rol_eq (x : Word) (n : Nat) (h : n < 32) : rol x n = Spec.rotl x n := by
  rw [rol, Spec.rotl, BitVec.rotateLeft_def]
  rw [Nat.mod_eq_of_lt h]

theorem ch_eq (w x y : Word) : (w &&& (x ^^^ y)) ^^^ y = (w &&& x) ^^^ (~~~w &&& y) := by
  apply BitVec.eq_of_getLsbD_eq
  intro i hi
  simp [hi]
  cases w[i] <;> cases x[i] <;> cases y[i] <;> rfl

theorem maj_eq (w x y : Word) : ((w ||| x) &&& y) ||| (w &&& x) = (w &&& x) ^^^ (w &&& y) ^^^ (x &&& y) := by
  apply BitVec.eq_of_getLsbD_eq
  intro i hi
  simp
  cases w.getLsbD i <;> cases x.getLsbD i <;> cases y.getLsbD i <;> rfl

theorem bswap (p q r s : BitVec 8) :
    (rol (s ++ r ++ q ++ p : BitVec 32) 24 &&& 0xFF00FF00#32) ||| (rol (s ++ r ++ q ++ p : BitVec 32) 8 &&& 0x00FF00FF#32) =
      (p ++ q ++ r ++ s : BitVec 32) := by
  have key : ∀ (x : BitVec 32) (n : Nat), n < 32 → ∀ i, i < 32 → (rol x n).getLsbD i =
      if i < n then x.getLsbD (32 - n + i) else x.getLsbD (i - n) := by
    intro x n hn i hi
    rw [rol]
    simp only [BitVec.getLsbD_or, BitVec.getLsbD_shiftLeft, BitVec.getLsbD_ushiftRight]
    by_cases h : i < n
    · simp [h, hi]
    · simp [h, hi]
      intro hc
      have := BitVec.lt_of_getLsbD hc
      omega
  apply BitVec.eq_of_getLsbD_eq
  intro i hi
  simp only [BitVec.getLsbD_or, BitVec.getLsbD_and, key _ 24 (by decide) i hi, key _ 8 (by decide) i hi]
  have h1 : ∀ j < 32, (0xFF00FF00#32).getLsbD j = decide ((8 ≤ j ∧ j < 16) ∨ 24 ≤ j) := by decide +kernel
  have h2 : ∀ j < 32, (0x00FF00FF#32).getLsbD j = decide (j < 8 ∨ (16 ≤ j ∧ j < 24)) := by decide +kernel
  rw [h1 i hi, h2 i hi]
  simp only [BitVec.getLsbD_append]
  have h4 : i < 8 ∨ (8 ≤ i ∧ i < 16) ∨ (16 ≤ i ∧ i < 24) ∨ (24 ≤ i) := by omega
  rcases h4 with h | h | h | h
  · rw [if_pos (show i < 24 by omega), if_pos (show i < 8 by omega)]
    have e1 : ¬ ((8 ≤ i ∧ i < 16) ∨ 24 ≤ i) := by omega
    have e2 : (i < 8 ∨ (16 ≤ i ∧ i < 24)) := by omega
    have e3 : ¬ (32 - 8 + i < 8) := by omega
    have e4 : ¬ (32 - 8 + i - 8 < 8) := by omega
    have e5 : ¬ (32 - 8 + i - 8 - 8 < 8) := by omega
    rw [decide_eq_false e1, decide_eq_true e2]
    simp only [e3, e4, e5, h, decide_true, decide_false, Bool.and_false, Bool.and_true, Bool.false_or, if_true, if_false]
    apply congrArg; omega
  · rw [if_pos (show i < 24 by omega), if_neg (show ¬ i < 8 by omega)]
    have e1 : ((8 ≤ i ∧ i < 16) ∨ 24 ≤ i) := by omega
    have e2 : ¬ (i < 8 ∨ (16 ≤ i ∧ i < 24)) := by omega
    have e3 : ¬ (32 - 24 + i < 8) := by omega
    have e4 : ¬ (32 - 24 + i - 8 < 8) := by omega
    have e5 : (32 - 24 + i - 8 - 8 < 8) := by omega
    have e6 : ¬ i < 8 := by omega
    have e7 : i - 8 < 8 := by omega
    rw [decide_eq_true e1, decide_eq_false e2]
    simp only [e3, e4, e5, e6, e7, decide_true, decide_false, Bool.and_false, Bool.and_true, Bool.or_false, if_true, if_false]
    apply congrArg; omega
  · rw [if_pos (show i < 24 by omega), if_neg (show ¬ i < 8 by omega)]
    have e1 : ¬ ((8 ≤ i ∧ i < 16) ∨ 24 ≤ i) := by omega
    have e2 : (i < 8 ∨ (16 ≤ i ∧ i < 24)) := by omega
    have e3 : ¬ (i - 8 < 8) := by omega
    have e4 : (i - 8 - 8 < 8) := by omega
    have e6 : ¬ i < 8 := by omega
    rw [decide_eq_false e1, decide_eq_true e2]
    simp only [e3, e4, e6, decide_true, decide_false, Bool.and_false, Bool.and_true, Bool.false_or, if_true, if_false]
  · rw [if_neg (show ¬ i < 24 by omega)]
    have e1 : ((8 ≤ i ∧ i < 16) ∨ 24 ≤ i) := by omega
    have e2 : ¬ (i < 8 ∨ (16 ≤ i ∧ i < 24)) := by omega
    have e3 : (i - 24 < 8) := by omega
    have e4 : ¬ (i - 8 < 8) := by omega
    have e5 : ¬ (i - 8 - 8 < 8) := by omega
    have e6 : ¬ i < 8 := by omega
    rw [decide_eq_true e1, decide_eq_false e2]
    simp only [e3, e4, e5, e6, decide_true, decide_false, Bool.and_false, Bool.and_true, Bool.or_false, if_true, if_false]
    apply congrArg; omega

theorem blk0_load [Host] (block : List Byte) (k : Nat) : blk0 (load block) k = Spec.M block k := by
  unfold blk0 load
  cases Host.big
  · rw [if_neg (by decide), if_neg (by decide), loadLE, bswap, Spec.M]
  · rw [if_pos rfl, if_pos rfl, loadBE, Spec.M]

theorem and15 (n : Nat) : n &&& 15 = n % 16 := Nat.and_two_pow_sub_one_eq_mod _ 4

/-- Loop invariant of the transform after `t` macro calls. -/
structure TInv [Host] (h : St) (block : List Byte) (t : Nat) (s : TState) : Prop where
  ra : s.r (regAt ((80 - t) % 5)) = (Spec.rounds h block t).s0
  rb : s.r (regAt ((81 - t) % 5)) = (Spec.rounds h block t).s1
  rc : s.r (regAt ((82 - t) % 5)) = (Spec.rounds h block t).s2
  rd : s.r (regAt ((83 - t) % 5)) = (Spec.rounds h block t).s3
  re : s.r (regAt ((84 - t) % 5)) = (Spec.rounds h block t).s4
  old : ∀ k, k < t → t ≤ k + 16 → s.l (k % 16) = Spec.W block k
  new : ∀ k, t ≤ k → k < 16 → s.l k = load block k

theorem kindAt_ne (t : Nat) (h : ¬ t < 16) : kindAt t ≠ .R0 := by
  unfold kindAt
  rw [if_neg h]
  repeat' split
  all_goals simp

/-- The word a call consumes. -/
theorem msg_word [Host] (h : St) (block : List Byte) (t : Nat) (s : TState) (I : TInv h block t s) :
    msgWord (kindAt t) s.l t = Spec.W block t := by
  by_cases h16 : t < 16
  · have : kindAt t = .R0 := by simp [kindAt, h16]
    rw [this, msgWord, Spec.W, if_pos h16, ← blk0_load, blk0, blk0, I.new t (Nat.le_refl t) h16]
  · have e : msgWord (kindAt t) s.l t = blk s.l t := by
      have := kindAt_ne t h16
      unfold msgWord
      split
      · contradiction
      · rfl
    rw [e, blk, and15, and15, and15, and15, rol_eq _ _ (by decide), Spec.W, if_neg h16]
    have e1 := I.old (t - 3) (by omega) (by omega)
    have e2 := I.old (t - 8) (by omega) (by omega)
    have e3 := I.old (t - 14) (by omega) (by omega)
    have e4 := I.old (t - 16) (by omega) (by omega)
    rw [show (t + 13) % 16 = (t - 3) % 16 by omega, show (t + 8) % 16 = (t - 8) % 16 by omega,
      show (t + 2) % 16 = (t - 14) % 16 by omega, show t % 16 = (t - 16) % 16 by omega, e1, e2, e3, e4]

/-- The boolean function and constant of a call. -/
theorem f_K (t : Nat) (w x y m : Word) :
    mix (kindAt t) w x y m = Spec.f t w x y + m + Spec.K t := by
  unfold kindAt Spec.f Spec.K
  by_cases h1 : t < 16
  · have : t < 20 := by omega
    simp [h1, this, ch_eq, mix]
  · by_cases h2 : t < 20
    · simp [h1, h2, ch_eq, mix]
    · by_cases h3 : t < 40
      · simp [h1, h2, h3, mix]
      · by_cases h4 : t < 60
        · simp [h1, h2, h3, h4, maj_eq, mix]
        · simp [h1, h2, h3, h4, mix]

theorem index_word (t : Nat) : wordIdx (kindAt t) t = t % 16 := by
  by_cases h16 : t < 16
  · have : kindAt t = .R0 := by simp [kindAt, h16]
    rw [this, wordIdx]; omega
  · have := kindAt_ne t h16
    unfold wordIdx
    split
    · contradiction
    · exact and15 t

theorem exec_inv [Host] (h : St) (block : List Byte) (t : Nat) (s : TState) (ht : t < 80) (I : TInv h block t s) :
    TInv h block (t + 1) (exec s (genCall t)) := by
  have hm := msg_word h block t s I
  have hi := index_word t
  have hl : (exec s (genCall t)).l = setL s.l (t % 16) (Spec.W block t) := by
    simp only [exec, genCall]
    rw [hi, hm]
  have hr : (exec s (genCall t)).r =
      (let r1 := setReg s.r (genCall t).z (s.r (genCall t).z +
        (Spec.f t (s.r (genCall t).w) (s.r (genCall t).x) (s.r (genCall t).y) + Spec.W block t + Spec.K t + Spec.rotl (s.r (genCall t).v) 5))
       setReg r1 (genCall t).w (Spec.rotl (r1 (genCall t).w) 30)) := by
    simp only [exec]
    rw [← rol_eq _ 5 (by decide), ← rol_eq _ 30 (by decide)]
    simp only [genCall]
    rw [hm, f_K]
  have hA := I.ra; have hB := I.rb; have hC := I.rc; have hD := I.rd; have hE := I.re
  have sumEq : ∀ z f w k v : Word, z + (f + w + k + v) = v + f + z + k + w := by
    intro z f w k v
    ac_rfl
  have h5 : t % 5 = 0 ∨ t % 5 = 1 ∨ t % 5 = 2 ∨ t % 5 = 3 ∨ t % 5 = 4 := by omega
  have hreg : (exec s (genCall t)).r (regAt ((80 - (t + 1)) % 5)) = (Spec.rounds h block (t + 1)).s0 ∧
      (exec s (genCall t)).r (regAt ((81 - (t + 1)) % 5)) = (Spec.rounds h block (t + 1)).s1 ∧
      (exec s (genCall t)).r (regAt ((82 - (t + 1)) % 5)) = (Spec.rounds h block (t + 1)).s2 ∧
      (exec s (genCall t)).r (regAt ((83 - (t + 1)) % 5)) = (Spec.rounds h block (t + 1)).s3 ∧
      (exec s (genCall t)).r (regAt ((84 - (t + 1)) % 5)) = (Spec.rounds h block (t + 1)).s4 := by
    rw [hr]
    simp only [genCall, Spec.rounds]
    rw [← hA, ← hB, ← hC, ← hD, ← hE]
    rcases h5 with h5 | h5 | h5 | h5 | h5
    · rw [show (80 - t) % 5 = 0 by omega, show (81 - t) % 5 = 1 by omega, show (82 - t) % 5 = 2 by omega,
        show (83 - t) % 5 = 3 by omega, show (84 - t) % 5 = 4 by omega, show (80 - (t+1)) % 5 = 4 by omega,
        show (81 - (t+1)) % 5 = 0 by omega, show (82 - (t+1)) % 5 = 1 by omega,
        show (83 - (t+1)) % 5 = 2 by omega, show (84 - (t+1)) % 5 = 3 by omega]
      simp [regAt, setReg, sumEq]
    · rw [show (80 - t) % 5 = 4 by omega, show (81 - t) % 5 = 0 by omega, show (82 - t) % 5 = 1 by omega,
        show (83 - t) % 5 = 2 by omega, show (84 - t) % 5 = 3 by omega, show (80 - (t+1)) % 5 = 3 by omega,
        show (81 - (t+1)) % 5 = 4 by omega, show (82 - (t+1)) % 5 = 0 by omega,
        show (83 - (t+1)) % 5 = 1 by omega, show (84 - (t+1)) % 5 = 2 by omega]
      simp [regAt, setReg, sumEq]
    · rw [show (80 - t) % 5 = 3 by omega, show (81 - t) % 5 = 4 by omega, show (82 - t) % 5 = 0 by omega,
        show (83 - t) % 5 = 1 by omega, show (84 - t) % 5 = 2 by omega, show (80 - (t+1)) % 5 = 2 by omega,
        show (81 - (t+1)) % 5 = 3 by omega, show (82 - (t+1)) % 5 = 4 by omega,
        show (83 - (t+1)) % 5 = 0 by omega, show (84 - (t+1)) % 5 = 1 by omega]
      simp [regAt, setReg, sumEq]
    · rw [show (80 - t) % 5 = 2 by omega, show (81 - t) % 5 = 3 by omega, show (82 - t) % 5 = 4 by omega,
        show (83 - t) % 5 = 0 by omega, show (84 - t) % 5 = 1 by omega, show (80 - (t+1)) % 5 = 1 by omega,
        show (81 - (t+1)) % 5 = 2 by omega, show (82 - (t+1)) % 5 = 3 by omega,
        show (83 - (t+1)) % 5 = 4 by omega, show (84 - (t+1)) % 5 = 0 by omega]
      simp [regAt, setReg, sumEq]
    · rw [show (80 - t) % 5 = 1 by omega, show (81 - t) % 5 = 2 by omega, show (82 - t) % 5 = 3 by omega,
        show (83 - t) % 5 = 4 by omega, show (84 - t) % 5 = 0 by omega, show (80 - (t+1)) % 5 = 0 by omega,
        show (81 - (t+1)) % 5 = 1 by omega, show (82 - (t+1)) % 5 = 2 by omega,
        show (83 - (t+1)) % 5 = 3 by omega, show (84 - (t+1)) % 5 = 4 by omega]
      simp [regAt, setReg, sumEq]
  refine ⟨hreg.1, hreg.2.1, hreg.2.2.1, hreg.2.2.2.1, hreg.2.2.2.2, ?_, ?_⟩
  · intro k hk hk2
    rw [hl, setL]
    by_cases hkt : k = t
    · subst hkt; simp
    · rw [if_neg (by omega)]
      exact I.old k (by omega) (by omega)
  · intro k hk hk2
    rw [hl, setL, if_neg (by omega)]
    exact I.new k (by omega) hk2

theorem fold_inv [Host] (h : St) (block : List Byte) (t : Nat) (ht : t ≤ 80) (s0 : TState) (I : TInv h block 0 s0) :
    TInv h block t (((List.range t).map genCall).foldl exec s0) := by
  induction t with
  | zero => simpa using I
  | succ n ih =>
      rw [List.range_succ, List.map_append, List.foldl_append]
      exact exec_inv h block n _ (by omega) (ih (by omega))

/-- The code's block function is the FIPS compression function. -/
theorem transform_spec [Host] (st : St) (block : List Byte) : (transform st block).1 = Spec.compress st block := by
  have I0 : TInv st block 0 { r := regsOf st, l := load block } := by
    refine ⟨rfl, rfl, rfl, rfl, rfl, ?_, ?_⟩
    · intro k hk; omega
    · intro k _ _; rfl
  have I := fold_inv st block 80 (by omega) _ I0
  rw [← calls_eq] at I
  have ha : (List.foldl exec { r := regsOf st, l := load block } calls).r .a = _ := I.ra
  have hb : (List.foldl exec { r := regsOf st, l := load block } calls).r .b = _ := I.rb
  have hc : (List.foldl exec { r := regsOf st, l := load block } calls).r .c = _ := I.rc
  have hd : (List.foldl exec { r := regsOf st, l := load block } calls).r .d = _ := I.rd
  have he : (List.foldl exec { r := regsOf st, l := load block } calls).r .e = _ := I.re
  simp only [transform, Spec.compress]
  rw [ha, hb, hc, hd, he]

/-- What the in-place transform leaves in the 64 bytes: the last 16 words of the schedule. -/
def clobberBlock [Host] (block : List Byte) : List Byte := store fun k => Spec.W block (64 + k)

theorem transform_snd [Host] (st : St) (block : List Byte) : (transform st block).2 = clobberBlock block := by
  have I0 : TInv st block 0 { r := regsOf st, l := load block } := by
    refine ⟨rfl, rfl, rfl, rfl, rfl, ?_, ?_⟩
    · intro k hk; omega
    · intro k _ _; rfl
  have I := fold_inv st block 80 (by omega) _ I0
  rw [← calls_eq] at I
  simp only [transform, clobberBlock, store, storeLE, storeBE]
  split
  all_goals
    apply List.map_congr_left
    intro n hn
    rw [List.mem_range] at hn
    have := I.old (64 + n / 4) (by omega) (by omega)
    rw [show (64 + n / 4) % 16 = n / 4 by omega] at this
    rw [this]

theorem transform_length [Host] (st : St) (block : List Byte) : (transform st block).2.length = 64 := by
  simp only [transform, store]
  split
  · simp [storeBE]
  · simp [storeLE]

end ZT.Sha1
