import Verif.Cstr.DumpPrint

/-!
# C113: replacements of string functions (zt_win32.c, replace/basename.c)
-/

namespace ZT.Replace

/-- zt_win32.c 123-133: is `c` one of the bytes of `delim`, its NUL included? -/
def inDelim (c : Byte) : List Byte → Outcome Bool
  | [] => .ub
  | x :: xs => if x = c then .ok true else if x = 0 then .ok false else inDelim c xs

/-- zt_win32.c 121-134: the first byte from `i` on that is one of `delim` or NUL. -/
def sepLoop (d : List Byte) : List Byte → Nat → Outcome (Nat × Byte)
  | [], _ => .ub
  | c :: cs, i => do
      let b ← inDelim c d
      if b then .ok (i, c) else sepLoop d cs (i + 1)

/-- What strsep leaves: the memory, `*stringp`, and the value returned. Pointers are offsets in the block. -/
structure Sep where
  mem : List Byte
  stringp : Option Nat
  tok : Option Nat

/-- zt_win32.c 110-136 `strsep` -/
def strsep (m d : List Byte) : Option Nat → Outcome Sep
  | none => .ok ⟨m, none, none⟩
  | some s => do
      let r ← sepLoop d (m.drop s) s
      if r.2 = 0 then .ok ⟨m, none, some s⟩
      else do
        let m ← wr m r.1 0
        .ok ⟨m, some (r.1 + 1), some s⟩

/-- `n` calls of strsep, with the values returned. -/
def strseps (d : List Byte) : Nat → List Byte → Option Nat → Outcome (List Byte × Option Nat × List (Option Nat))
  | 0, m, p => .ok (m, p, [])
  | n + 1, m, p => do
      let r ← strsep m d p
      let q ← strseps d n r.mem r.stringp
      .ok (q.1, q.2.1, r.tok :: q.2.2)

/-- The C library's `strrchr(s, c)`: offsets in the string. -/
def strrchr (c : Byte) : List Byte → Nat → Option Nat → Outcome (Option Nat)
  | [], _, _ => .ub
  | b :: bs, i, last => if b = 0 then .ok last else strrchr c bs (i + 1) (if b = c then some i else last)

/-- replace/basename.c 47-53 `basename`: the offset of the result in the path. -/
def basename (path : List Byte) : Outcome Nat := do
  let r ← strrchr 47 path 0 none
  match r with
  | some i => .ok (i + 1)
  | none => .ok 0

/-- zt_win32.c 25-33 `snprintf`: the C library's vsprintf_s ends the program if the text `t` does not fit (the default handler of invalid parameters). -/
def winSnprintf (m : List Byte) (i size : Nat) (t : List Byte) : Outcome (List Byte × Nat) :=
  if t.length < size then Cstr.snprintf m i size t else .abort

/-! ## Specification -/

/-- The fields `fs` of a text, which end at the bytes `ds` of `D`. -/
inductive Fields (D : List Byte) : List Byte → List (List Byte) → List Byte → Prop
  | last (f : List Byte) : (∀ b ∈ f, b ∉ D) → Fields D f [f] []
  | cons (f : List Byte) (c : Byte) (r : List Byte) (fs : List (List Byte)) (ds : List Byte) : (∀ b ∈ f, b ∉ D) → c ∈ D → Fields D r fs ds → Fields D (f ++ c :: r) (f :: fs) (c :: ds)

/-- Every text has fields. -/
theorem Fields.exist (D s : List Byte) : ∃ fs ds, Fields D s fs ds := by
  induction s with
  | nil => exact ⟨_, _, .last [] (by simp)⟩
  | cons c s ih =>
    obtain ⟨fs, ds, h⟩ := ih
    by_cases hc : c ∈ D
    · exact ⟨_, _, .cons [] c s fs ds (by simp) hc h⟩
    · cases h with
      | last f hf => exact ⟨_, _, .last (c :: s) (fun b hb => (List.mem_cons.1 hb).elim (fun e => e ▸ hc) (hf b))⟩
      | cons f x r fs ds hf hx h => exact ⟨_, _, .cons (c :: f) x r fs ds (fun b hb => (List.mem_cons.1 hb).elim (fun e => e ▸ hc) (hf b)) hx h⟩

/-- The text at an offset of the memory. -/
def textAt (m : List Byte) (p : Nat) (t : List Byte) : Prop := ∃ q r, m = q ++ t ++ 0 :: r ∧ q.length = p ∧ ∀ b ∈ t, b ≠ 0

/-! ## strsep -/

theorem inDelim_eq (c : Byte) (D z : List Byte) (hD : ∀ b ∈ D, b ≠ 0) (hc : c ≠ 0) : inDelim c (D ++ 0 :: z) = .ok (decide (c ∈ D)) := by
  induction D with
  | nil => simp [inDelim, Ne.symm hc]
  | cons x D ih =>
    have hx : x ≠ 0 := hD x (by simp)
    rw [List.cons_append, inDelim, ih fun b hb => hD b (by simp [hb])]
    by_cases e : x = c
    · simp [e]
    · simp [e, hx, Ne.symm e]

theorem inDelim_nul (D z : List Byte) : inDelim 0 (D ++ 0 :: z) = .ok true := by
  induction D with
  | nil => simp [inDelim]
  | cons x D ih =>
    rw [List.cons_append, inDelim]
    by_cases e : x = 0
    · simp [e]
    · simp [e, ih]

theorem sepLoop_skip (D z f r : List Byte) (i : Nat) (hD : ∀ b ∈ D, b ≠ 0) (hf : ∀ b ∈ f, b ∉ D) (hn : ∀ b ∈ f, b ≠ 0) : sepLoop (D ++ 0 :: z) (f ++ r) i = sepLoop (D ++ 0 :: z) r (i + f.length) := by
  induction f generalizing i with
  | nil => rfl
  | cons c f ih =>
    rw [List.cons_append, sepLoop, inDelim_eq c D z hD (hn c (by simp)), Outcome.ok_bind]
    simp only [hf c (by simp), decide_false, Bool.false_eq_true, if_false]
    rw [ih (i + 1) (fun b hb => hf b (by simp [hb])) (fun b hb => hn b (by simp [hb]))]
    congr 1; simp; omega

/-- A call that finds no delimiter. -/
theorem strsep_last (D z p f r : List Byte) (hD : ∀ b ∈ D, b ≠ 0) (hf : ∀ b ∈ f, b ∉ D) (hn : ∀ b ∈ f, b ≠ 0) :
    strsep (p ++ f ++ 0 :: r) (D ++ 0 :: z) (some p.length) = .ok ⟨p ++ f ++ 0 :: r, none, some p.length⟩ := by
  unfold strsep
  dsimp only
  rw [List.append_assoc, List.drop_left, sepLoop_skip D z f _ _ hD hf hn, sepLoop, inDelim_nul]
  rfl

/-- A call that finds a delimiter. -/
theorem strsep_next (D z p f r : List Byte) (c : Byte) (hD : ∀ b ∈ D, b ≠ 0) (hf : ∀ b ∈ f, b ∉ D) (hn : ∀ b ∈ f, b ≠ 0) (hc : c ∈ D) :
    strsep (p ++ f ++ c :: r) (D ++ 0 :: z) (some p.length) = .ok ⟨p ++ f ++ 0 :: r, some (p ++ f ++ [0]).length, some p.length⟩ := by
  unfold strsep
  dsimp only
  have h0 := hD c hc
  have e : sepLoop (D ++ 0 :: z) ((p ++ f ++ c :: r).drop p.length) p.length = .ok (p.length + f.length, c) := by
    rw [List.append_assoc, List.drop_left, sepLoop_skip D z f _ _ hD hf hn, sepLoop, inDelim_eq c D z hD h0]
    simp [hc]
  rw [e, Outcome.ok_bind, if_neg h0, wr_lt (by simp), Outcome.ok_bind]
  have h2 : p.length + f.length = (p ++ f).length := by simp
  rw [h2, List.set_append_right _ _ (Nat.le_refl _)]
  simp; omega

theorem textAt.keep {m : List Byte} {p : Nat} {t : List Byte} {k : Nat} {m' : List Byte} (h : textAt m p t) (hk : p + t.length < k) (e : m'.take k = m.take k) : textAt m' p t := by
  obtain ⟨q, r, rfl, rfl, hn⟩ := h
  refine ⟨q, (m'.drop (q.length + t.length + 1)), ?_, rfl, hn⟩
  have e2 : m'.take (q.length + t.length + 1) = q ++ t ++ [0] := by
    have := congrArg (List.take (q.length + t.length + 1)) e
    rw [List.take_take, List.take_take, Nat.min_eq_left (by omega)] at this
    rw [this, show q ++ t ++ 0 :: r = (q ++ t ++ [0]) ++ r from by simp, List.take_left' (by simp; omega)]
  have := List.take_append_drop (q.length + t.length + 1) m'
  rw [e2] at this
  refine this.symm.trans ?_
  simp

theorem strseps_eq {D : List Byte} (z : List Byte) (hD : ∀ b ∈ D, b ≠ 0) {s : List Byte} {fs : List (List Byte)} {ds : List Byte} (hs : Fields D s fs ds) (hn : ∀ b ∈ s, b ≠ 0) (p r : List Byte) :
    ∃ (m : List Byte) (ps : List Nat), strseps (D ++ 0 :: z) fs.length (p ++ s ++ 0 :: r) (some p.length) = .ok (m, none, ps.map some) ∧ ps.length = fs.length ∧
      (∀ (i : Nat) (a : Nat) (f : List Byte), ps[i]? = some a → fs[i]? = some f → textAt m a f) ∧
      m.length = (p ++ s ++ 0 :: r).length ∧ m.take p.length = p ∧ m.drop (p.length + s.length) = 0 :: r := by
  induction hs generalizing p with
  | last f hf =>
    refine ⟨p ++ f ++ 0 :: r, [p.length], ?_, rfl, ?_, rfl, ?_, ?_⟩
    · simp only [List.length_singleton, strseps]
      rw [strsep_last D z p f r hD hf hn]
      rfl
    · intro i a f' h1 h2
      cases i with
      | zero => simp at h1 h2; subst h1 h2; exact ⟨p, r, rfl, rfl, hn⟩
      | succ i => simp at h1
    · simp
    · rw [List.drop_left' (by simp)]
  | cons f c s fs ds hf hc hs ih =>
    have hnf : ∀ b ∈ f, b ≠ 0 := fun b hb => hn b (by simp [hb])
    obtain ⟨m, ps, e1, e2, e3, e4, e5, e6⟩ := ih (fun b hb => hn b (by simp [hb])) (p ++ f ++ [0])
    have ea : p ++ f ++ [0] ++ s ++ 0 :: r = p ++ f ++ 0 :: (s ++ 0 :: r) := by simp
    rw [ea] at e1
    refine ⟨m, p.length :: ps, ?_, by simp [e2], ?_, ?_, ?_, ?_⟩
    · simp only [List.length_cons, strseps]
      have := strsep_next D z p f (s ++ 0 :: r) c hD hf hnf hc
      rw [show p ++ (f ++ c :: s) ++ 0 :: r = p ++ f ++ c :: (s ++ 0 :: r) from by simp, this, Outcome.ok_bind]
      dsimp only
      rw [e1]; rfl
    · intro i a f' h1 h2
      cases i with
      | zero =>
        simp at h1 h2; subst h1 h2
        refine textAt.keep (m := p ++ f ++ [0]) (k := (p ++ f ++ [0]).length) ⟨p, [], rfl, rfl, hnf⟩ (by simp) ?_
        rw [e5, List.take_length]
      | succ i => simp at h1 h2; exact e3 i a f' h1 h2
    · rw [e4]; simp
    · have := congrArg (List.take p.length) e5
      rw [List.take_take, Nat.min_eq_left (by simp)] at this
      rw [this, List.append_assoc, List.take_left]
    · rw [← e6]; congr 1; simp; omega

/-- **C113**: strsep called as often as a text has fields returns the fields in order; each is a C string in the memory, which has changed nowhere but inside the text; then every call returns NULL. -/
theorem c113_strsep (D z p s r : List Byte) (fs : List (List Byte)) (ds : List Byte) (hD : ∀ b ∈ D, b ≠ 0) (hs : Fields D s fs ds) (hn : ∀ b ∈ s, b ≠ 0) :
    ∃ (m : List Byte) (ps : List Nat), strseps (D ++ 0 :: z) fs.length (p ++ s ++ 0 :: r) (some p.length) = .ok (m, none, ps.map some) ∧ ps.length = fs.length ∧
      (∀ (i : Nat) (a : Nat) (f : List Byte), ps[i]? = some a → fs[i]? = some f → textAt m a f) ∧
      m.length = (p ++ s ++ 0 :: r).length ∧ m.take p.length = p ∧ m.drop (p.length + s.length) = 0 :: r ∧
      ∀ k, strseps (D ++ 0 :: z) (fs.length + k) (p ++ s ++ 0 :: r) (some p.length) = .ok (m, none, ps.map some ++ List.replicate k none) := by
  obtain ⟨m, ps, e1, e2, e3, e4, e5, e6⟩ := strseps_eq z hD hs hn p r
  refine ⟨m, ps, e1, e2, e3, e4, e5, e6, fun k => ?_⟩
  have done : ∀ k m, strseps (D ++ 0 :: z) k m none = .ok (m, none, List.replicate k none) := by
    intro k
    induction k with
    | zero => intro m; rfl
    | succ k ih => intro m; simp only [strseps, strsep, Outcome.ok_bind, ih]; rfl
  have app : ∀ n m q m' ps', strseps (D ++ 0 :: z) n m q = .ok (m', none, ps') → strseps (D ++ 0 :: z) (n + k) m q = .ok (m', none, ps' ++ List.replicate k none) := by
    intro n
    induction n with
    | zero =>
      intro m q m' ps' e
      cases e
      rw [Nat.zero_add, done]; rfl
    | succ n ih =>
      intro m q m' ps' e
      rw [Nat.add_right_comm, strseps]
      rw [strseps] at e
      obtain ⟨x, a1, a2⟩ := Outcome.bind_eq_ok.1 e
      obtain ⟨⟨y1, y2, y3⟩, b1, b2⟩ := Outcome.bind_eq_ok.1 a2
      cases b2
      rw [a1, Outcome.ok_bind, ih _ _ _ _ b1]; rfl
  exact app _ _ _ _ _ e1

/-! ## basename -/

theorem strrchr_eq (c : Byte) (s r : List Byte) (i : Nat) (l : Option Nat) (hn : ∀ b ∈ s, b ≠ 0) :
    (∃ a b, s = a ++ c :: b ∧ c ∉ b ∧ strrchr c (s ++ 0 :: r) i l = .ok (some (i + a.length))) ∨ (c ∉ s ∧ strrchr c (s ++ 0 :: r) i l = .ok l) := by
  induction s generalizing i l with
  | nil => exact .inr ⟨by simp, by simp [strrchr]⟩
  | cons x s ih =>
    have hx : x ≠ 0 := hn x (by simp)
    rw [List.cons_append, strrchr, if_neg hx]
    rcases ih (i + 1) (if x = c then some i else l) (fun b hb => hn b (by simp [hb])) with ⟨a, b, rfl, h2, h3⟩ | ⟨h1, h2⟩
    · refine .inl ⟨x :: a, b, rfl, h2, ?_⟩
      rw [h3]; simp; omega
    · by_cases e : x = c
      · refine .inl ⟨[], s, by rw [e]; rfl, h1, ?_⟩
        rw [h2, if_pos e]; simp
      · refine .inr ⟨?_, by rw [h2, if_neg e]⟩
        intro hm
        rcases List.mem_cons.1 hm with rfl | hm
        · exact e rfl
        · exact h1 hm

/-- **C113**: basename returns what follows the last slash of a path, or the whole path. -/
theorem c113_basename (s r : List Byte) (hn : ∀ b ∈ s, b ≠ 0) :
    ∃ a b, s = a ++ b ∧ 47 ∉ b ∧ (a = [] ∨ a.getLast? = some 47) ∧ basename (s ++ 0 :: r) = .ok a.length ∧ textAt (s ++ 0 :: r) a.length b := by
  rcases strrchr_eq 47 s r 0 none hn with ⟨a, b, rfl, h2, h3⟩ | ⟨h1, h2⟩
  · refine ⟨a ++ [47], b, by simp, h2, .inr (by simp), ?_, ⟨a ++ [47], r, by simp, rfl, fun x hx => hn x (by simp [hx])⟩⟩
    unfold basename
    rw [h3]; simp
  · refine ⟨[], s, rfl, h1, .inl rfl, ?_, ⟨[], r, rfl, rfl, hn⟩⟩
    unfold basename
    rw [h2]; rfl

/-! ## snprintf on Windows -/

/-- **C113**: a text that fits is printed as the C standard says. -/
theorem c113_snprintf_partial (m : List Byte) (i size : Nat) (t : List Byte) (hl : t.length < size) (hm : i + size ≤ m.length) :
    winSnprintf m i size t = .ok (m.take i ++ t ++ 0 :: m.drop (i + t.length + 1), t.length) := by
  unfold winSnprintf Cstr.snprintf
  rw [if_pos hl, if_neg (by omega), List.take_of_length_le (by omega), if_pos (by omega)]

/-- **C113**: the C standard cuts a text that does not fit; this function ends the program. -/
theorem c113_snprintf_violation (m : List Byte) (i size : Nat) (t : List Byte) (hl : size ≤ t.length) (hs : 0 < size) (hm : i + size ≤ m.length) :
    Cstr.snprintf m i size t = .ok (m.take i ++ t.take (size - 1) ++ 0 :: m.drop (i + (t.take (size - 1)).length + 1), t.length) ∧ winSnprintf m i size t = .abort := by
  refine ⟨?_, by unfold winSnprintf; rw [if_neg (by omega)]⟩
  unfold Cstr.snprintf
  rw [if_neg (by omega), if_pos (by simp; omega)]

/-! ## Examples -/

/-- ":a;b" has the fields "", "a" and "b". -/
example : Fields [58, 59] [58, 97, 59, 98] [[], [97], [98]] [58, 59] :=
  .cons [] 58 _ _ _ (by simp) (by simp) (.cons [97] 59 _ _ _ (by simp) (by simp) (.last [98] (by simp)))

example : ∃ m, strseps [58, 59, 0] 4 [58, 97, 59, 98, 0] (some 0) = .ok (m, none, [some 0, some 1, some 3, none]) := ⟨[0, 97, 0, 98, 0], by rfl⟩

example : basename [47, 97, 47, 98, 99, 0] = .ok 3 := by rfl

end ZT.Replace
