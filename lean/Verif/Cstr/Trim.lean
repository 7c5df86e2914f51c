import Verif.Cstr.Search

/-!
# C42: trimming and path names
-/

namespace ZT.Cstr

theorem position_nat {n k : Nat} (h : k < n) : position n (k : Int) = some k := by
  simp only [position]
  rw [if_pos (by omega)]
  exact congrArg _ (by omega)

theorem position_neg {n k : Nat} (h : 0 < k) (hk : k ≤ n) : position n (-(k : Int)) = some (n - k) := by
  simp only [position]
  rw [if_neg (by omega), if_pos (by omega)]
  exact congrArg _ (by omega)

theorem bounds_of {n : Nat} {i j : Int} {a b : Nat} (hi : position n i = some a) (hj : position n j = some b) (hab : a ≤ b) : bounds n i j = some (a, b) := by
  simp only [bounds, hi, hj]
  rw [Nat.min_eq_left hab, Nat.max_eq_right hab]

theorem bounds_all {n : Nat} {a : Nat} (h : a < n) : bounds n (a : Int) (-1) = some (a, n - 1) :=
  bounds_of (position_nat h) (position_neg (k := 1) (by omega) (by omega)) (by omega)

theorem slice_of {s : List Byte} {i j : Int} {a b : Nat} (h : bounds s.length i j = some (a, b)) : slice s i j = some (chars s a b) := by rw [slice, h]; rfl

/-! ## Line ends -/

/-- **C42** (partial): zt_cstr_chomp removes one trailing newline, in place. Not proved, since false: the empty string (`c42_chomp_empty_violation`). -/
theorem c42_chomp_partial (s rest : List Byte) (h0 : ∀ b ∈ s, b ≠ 0) : (s ≠ [] → s.getLast? ≠ some 10 → chomp (s ++ 0 :: rest) = .ok (s ++ 0 :: rest)) ∧
    chomp (s ++ 10 :: 0 :: rest) = .ok (s ++ 0 :: 0 :: rest) := by
  constructor
  · intro hs hl
    have hstr : IsStr (s ++ 0 :: rest) s := ⟨h0, rest, rfl⟩
    have hn : 0 < s.length := List.length_pos_iff.2 hs
    rw [chomp, hstr.strlen]
    simp only [Outcome.ok_bind]
    rw [show ((s.length : Int) - 1) = ((s.length - 1 : Nat) : Int) by omega, rdI_nat, hstr.get (by omega)]
    simp only [Outcome.ok_bind]
    rw [if_neg]
    intro e
    apply hl
    rw [List.getLast?_eq_getElem?, List.getElem?_eq_getElem (by omega), e]
  · have hstr : IsStr (s ++ 10 :: 0 :: rest) (s ++ [10]) := ⟨fun b hb => by rcases List.mem_append.1 hb with h | h; exact h0 b h; simp at h; rw [h]; decide, rest, by simp⟩
    rw [chomp, hstr.strlen]
    simp only [Outcome.ok_bind, List.length_append, List.length_singleton]
    rw [show (((s.length + 1 : Nat) : Int) - 1) = (s.length : Int) by omega, rdI_nat, rd_append_right]
    simp only [Outcome.ok_bind]
    rw [if_pos trivial, Nat.add_sub_cancel]
    exact wr_last _ _ _ _

/-- Violation: for the empty string the byte before the string is read. -/
theorem c42_chomp_empty_violation (rest : List Byte) : chomp (0 :: rest) = .ub := by
  simp [chomp, strlen, rdI]

/-! ## Spans from the end -/

theorem strspn_zero {ms set p u : List Byte} {x : Byte} (hset : IsStr ms set) (hp : IsStr p (x :: u)) : ∃ n, strspn p ms = .ok n ∧ (n = 0 ↔ x ∉ set) := by
  obtain ⟨h0, rest, rfl⟩ := hp
  have total : ∀ (u rest : List Byte), (∀ b ∈ u, b ≠ 0) → ∃ n, strspn (u ++ 0 :: rest) ms = .ok n := by
    intro u rest
    induction u with
    | nil => intro _; exact ⟨0, by simp [strspn]⟩
    | cons y u ih =>
        intro hu
        obtain ⟨r, e, _⟩ := strchr_spec hset y
        obtain ⟨n, en⟩ := ih fun b hb => hu b (by simp [hb])
        rw [List.cons_append, strspn, if_neg (hu y (by simp)), e]
        simp only [Outcome.ok_bind]
        cases r.isSome with
        | true => exact ⟨n + 1, by rw [if_pos rfl, en]; rfl⟩
        | false => exact ⟨0, rfl⟩
  have hx : x ≠ 0 := h0 x (by simp)
  obtain ⟨r, e, hr⟩ := strchr_spec hset x
  obtain ⟨n, en⟩ := total u rest fun b hb => h0 b (by simp [hb])
  rw [List.cons_append, strspn, if_neg hx, e]
  simp only [Outcome.ok_bind]
  by_cases hm : x ∈ set
  · rw [if_pos (hr.2 (.inl hm)), en]
    exact ⟨n + 1, rfl, by simp [hm]⟩
  · have : r.isSome ≠ true := fun h => by rcases hr.1 h with h | h <;> contradiction
    rw [if_neg this]
    exact ⟨0, rfl, by simp [hm]⟩

theorem strcspn_zero {ms set p u : List Byte} {x : Byte} (hset : IsStr ms set) (hp : IsStr p (x :: u)) : ∃ n, strcspn p ms = .ok n ∧ (n = 0 ↔ x ∈ set) := by
  obtain ⟨h0, rest, rfl⟩ := hp
  have total : ∀ (u rest : List Byte), (∀ b ∈ u, b ≠ 0) → ∃ n, strcspn (u ++ 0 :: rest) ms = .ok n := by
    intro u rest
    induction u with
    | nil => intro _; exact ⟨0, by simp [strcspn]⟩
    | cons y u ih =>
        intro hu
        obtain ⟨r, e, _⟩ := strchr_spec hset y
        obtain ⟨n, en⟩ := ih fun b hb => hu b (by simp [hb])
        rw [List.cons_append, strcspn, if_neg (hu y (by simp)), e]
        simp only [Outcome.ok_bind]
        cases r.isSome with
        | true => exact ⟨0, rfl⟩
        | false => exact ⟨n + 1, by rw [if_neg (by simp), en]; rfl⟩
  have hx : x ≠ 0 := h0 x (by simp)
  obtain ⟨r, e, hr⟩ := strchr_spec hset x
  obtain ⟨n, en⟩ := total u rest fun b hb => h0 b (by simp [hb])
  rw [List.cons_append, strcspn, if_neg hx, e]
  simp only [Outcome.ok_bind]
  by_cases hm : x ∈ set
  · rw [if_pos (hr.2 (.inl hm))]
    exact ⟨0, rfl, by simp [hm]⟩
  · have : r.isSome ≠ true := fun h => by rcases hr.1 h with h | h <;> contradiction
    rw [if_neg this, en]
    exact ⟨n + 1, rfl, by simp [hm]⟩

theorem drop_cons {s : List Byte} {k : Nat} (h : k < s.length) : s.drop k = s[k] :: s.drop (k + 1) := List.drop_eq_getElem_cons h

/-- The loop: the string is `v ++ [x] ++ w` with `w` in the set and `x` not. -/
theorem rspnLoop_stop {m s ma set : List Byte} (h : IsStr m s) (ha : IsStr ma set) {v w : List Byte} {x : Byte} (hs : s = v ++ x :: w) (hx : x ∉ set) (hw : ∀ c ∈ w, c ∈ set) (hv : v ≠ []) :
    ∀ (n fuel : Nat), n ≤ w.length → n < fuel → rspnLoop m ma s.length fuel (((v.length + n : Nat) : Int)) = .ok w.length := by
  have hml := h.length
  have hvl : 0 < v.length := List.length_pos_iff.2 hv
  have hsl : s.length = v.length + w.length + 1 := by rw [hs]; simp; omega
  intro n
  induction n with
  | zero =>
      intro fuel _ hf
      cases fuel with
      | zero => omega
      | succ fuel =>
          rw [rspnLoop, if_pos (by omega), ptr_nat (by omega)]
          simp only [Outcome.ok_bind, Nat.add_zero]
          have hd : s.drop v.length = x :: w := by rw [hs]; simp
          have hstr := h.drop (k := v.length) (by omega)
          rw [hd] at hstr
          obtain ⟨r, e, hr⟩ := strspn_zero ha hstr
          rw [e]
          simp only [Outcome.ok_bind]
          rw [if_pos (hr.2 hx)]
          exact congrArg _ (by omega)
  | succ n ih =>
      intro fuel hn hf
      cases fuel with
      | zero => omega
      | succ fuel =>
          rw [rspnLoop, if_pos (by omega), ptr_nat (by omega)]
          simp only [Outcome.ok_bind]
          have hk : v.length + (n + 1) < s.length := by omega
          have hstr := h.drop (k := v.length + (n + 1)) (by omega)
          rw [drop_cons hk] at hstr
          obtain ⟨r, e, hr⟩ := strspn_zero ha hstr
          have hmem : s[v.length + (n + 1)] ∈ set := by
            apply hw
            have : s[v.length + (n + 1)] = w[n]'(by omega) := by
              simp only [hs]
              rw [List.getElem_append_right (by omega)]
              simp
            rw [this]
            exact List.getElem_mem _
          rw [e]
          simp only [Outcome.ok_bind]
          rw [if_neg (fun hz => hr.1 hz hmem), show (((v.length + (n + 1) : Nat) : Int) - 1) = ((v.length + n : Nat) : Int) by omega]
          exact ih fuel (by omega) (by omega)

theorem rspnLoop_all {m s ma set : List Byte} (h : IsStr m s) (ha : IsStr ma set) {x : Byte} {w : List Byte} (hs : s = x :: w) (hw : ∀ c ∈ w, c ∈ set) :
    ∀ (n fuel : Nat), n ≤ w.length → n < fuel → rspnLoop m ma s.length fuel ((n : Nat) : Int) = .ok s.length := by
  have hml := h.length
  have hsl : s.length = w.length + 1 := by rw [hs]; simp
  intro n
  induction n with
  | zero =>
      intro fuel _ hf
      cases fuel with
      | zero => omega
      | succ fuel => rw [rspnLoop, if_neg (by omega)]
  | succ n ih =>
      intro fuel hn hf
      cases fuel with
      | zero => omega
      | succ fuel =>
          rw [rspnLoop, if_pos (by omega), ptr_nat (by omega)]
          simp only [Outcome.ok_bind]
          have hk : n + 1 < s.length := by omega
          have hstr := h.drop (k := n + 1) (by omega)
          rw [drop_cons hk] at hstr
          obtain ⟨r, e, hr⟩ := strspn_zero ha hstr
          have hmem : s[n + 1] ∈ set := by
            apply hw
            have : s[n + 1] = w[n]'(by omega) := by simp [hs]
            rw [this]
            exact List.getElem_mem _
          rw [e]
          simp only [Outcome.ok_bind]
          rw [if_neg (fun hz => hr.1 hz hmem), show (((n + 1 : Nat) : Int) - 1) = ((n : Nat) : Int) by omega]
          exact ih fuel (by omega) (by omega)

/-- **C42** (partial): zt_cstr_rspn counts the characters of the set at the end of the string, provided the character before them is not the first of the string. Otherwise, since the first character is never
looked at, the whole length is returned. -/
theorem c42_rspn_partial {m ma set : List Byte} {v w : List Byte} {x : Byte} (h : IsStr m (v ++ x :: w)) (ha : IsStr ma set) (hw : ∀ c ∈ w, c ∈ set) :
    (v ≠ [] → x ∉ set → rspn m ma = .ok w.length) ∧ (v = [] → rspn m ma = .ok (w.length + 1)) := by
  have hl : (v ++ x :: w).length = v.length + w.length + 1 := by simp; omega
  constructor
  · intro hv hx
    have hvl : 0 < v.length := List.length_pos_iff.2 hv
    have := rspnLoop_stop h ha rfl hx hw hv w.length ((v ++ x :: w).length + 1) (Nat.le_refl _) (by omega)
    rw [rspn, h.strlen]
    simp only [Outcome.ok_bind]
    rw [show (((v ++ x :: w).length : Int) - 1) = ((v.length + w.length : Nat) : Int) by omega]
    exact this
  · intro hv
    subst hv
    have := rspnLoop_all h ha rfl hw w.length (([] ++ x :: w).length + 1) (Nat.le_refl _) (by simp; omega)
    rw [rspn, h.strlen]
    simp only [Outcome.ok_bind]
    rw [show ((([] ++ x :: w : List Byte).length : Int) - 1) = ((w.length : Nat) : Int) by simp]
    rw [this]
    exact congrArg _ (by simp)

/-- Violation: "ab" has no trailing space, "a" neither; but for "a" the answer is 1, and for "a " it is 2. -/
theorem c42_rspn_violation : rspn [97, 98, 0] [32, 0] = .ok 0 ∧ rspn [97, 0] [32, 0] = .ok 1 ∧ rspn [97, 32, 0] [32, 0] = .ok 2 := by decide +kernel

/-- **C42** (partial): zt_cstr_rcspn returns the last position of a character of the set, if there is one other than position 0, and else the length of the string. -/
theorem c42_rcspn_partial {m ma set : List Byte} {v w : List Byte} {x : Byte} (h : IsStr m (v ++ x :: w)) (ha : IsStr ma set) (hw : ∀ c ∈ w, c ∉ set) :
    (v ≠ [] → x ∈ set → rcspn m ma = .ok v.length) ∧ (v = [] → rcspn m ma = .ok (w.length + 1)) := by
  have hl : (v ++ x :: w).length = v.length + w.length + 1 := by simp; omega
  have hml := h.length
  have key : ∀ (n fuel : Nat), n ≤ w.length → n < fuel → (v ≠ [] → x ∈ set → rcspnLoop m ma (v ++ x :: w).length fuel (((v.length + n : Nat) : Int)) = .ok v.length) ∧
      (v = [] → rcspnLoop m ma (v ++ x :: w).length fuel (((v.length + n : Nat) : Int)) = .ok (w.length + 1)) := by
    intro n
    induction n with
    | zero =>
        intro fuel _ hf
        cases fuel with
        | zero => omega
        | succ fuel =>
            constructor
            · intro hv hx
              have hvl : 0 < v.length := List.length_pos_iff.2 hv
              rw [rcspnLoop, if_pos (by omega), ptr_nat (by omega)]
              simp only [Outcome.ok_bind, Nat.add_zero]
              have hstr := h.drop (k := v.length) (by omega)
              rw [show (v ++ x :: w).drop v.length = x :: w by simp] at hstr
              obtain ⟨r, e, hr⟩ := strcspn_zero ha hstr
              rw [e]
              simp only [Outcome.ok_bind]
              rw [if_pos (hr.2 hx)]
              exact congrArg _ (by omega)
            · intro hv
              subst hv
              rw [rcspnLoop, if_neg (by simp)]
              simp
    | succ n ih =>
        intro fuel hn hf
        cases fuel with
        | zero => omega
        | succ fuel =>
            have hk : v.length + (n + 1) < (v ++ x :: w).length := by omega
            have hstep : rcspnLoop m ma (v ++ x :: w).length (fuel + 1) (((v.length + (n + 1) : Nat) : Int)) = rcspnLoop m ma (v ++ x :: w).length fuel (((v.length + n : Nat) : Int)) := by
              rw [rcspnLoop, if_pos (by omega), ptr_nat (by omega)]
              simp only [Outcome.ok_bind]
              have hstr := h.drop (k := v.length + (n + 1)) (by omega)
              rw [drop_cons hk] at hstr
              obtain ⟨r, e, hr⟩ := strcspn_zero ha hstr
              have hmem : (v ++ x :: w)[v.length + (n + 1)] ∉ set := by
                apply hw
                have : (v ++ x :: w)[v.length + (n + 1)] = w[n]'(by omega) := by
                  rw [List.getElem_append_right (by omega)]
                  simp
                rw [this]
                exact List.getElem_mem _
              rw [e]
              simp only [Outcome.ok_bind]
              rw [if_neg (fun hz => hmem (hr.1 hz)), show (((v.length + (n + 1) : Nat) : Int) - 1) = ((v.length + n : Nat) : Int) by omega]
            rw [hstep]
            exact ih fuel (by omega) (by omega)
  have := key w.length ((v ++ x :: w).length + 1) (Nat.le_refl _) (by omega)
  rw [rcspn, h.strlen]
  simp only [Outcome.ok_bind]
  rw [show (((v ++ x :: w).length : Int) - 1) = ((v.length + w.length : Nat) : Int) by omega]
  exact this

/-- Violation: "b" occurs at position 0 of "ba" only, and the answer is the length. -/
theorem c42_rcspn_violation : rcspn [98, 97, 0] [98, 0] = .ok 2 := by decide +kernel

/-! ## Blanks -/

theorem strspn_exact {ms set : List Byte} (hset : IsStr ms set) : ∀ (l : List Byte) {u rest : List Byte}, (∀ b ∈ l ++ u, b ≠ 0) → (∀ c ∈ l, c ∈ set) → (∀ c, u.head? = some c → c ∉ set) →
    strspn (l ++ u ++ 0 :: rest) ms = .ok l.length := by
  intro l
  induction l with
  | nil =>
      intro u rest h0 _ hu
      cases u with
      | nil => simp [strspn]
      | cons x u =>
          obtain ⟨n, e, hn⟩ := strspn_zero hset (p := x :: u ++ 0 :: rest) (x := x) (u := u) ⟨h0, rest, rfl⟩
          rw [List.nil_append, e, hn.2 (hu x rfl)]
          rfl
  | cons y l ih =>
      intro u rest h0 hl hu
      obtain ⟨r, e, hr⟩ := strchr_spec hset y
      have := ih (u := u) (rest := rest) (fun b hb => h0 b (List.mem_cons_of_mem _ hb)) (fun c hc => hl c (List.mem_cons_of_mem _ hc)) hu
      rw [List.cons_append, List.cons_append, strspn, if_neg (h0 y (by simp)), e]
      simp only [Outcome.ok_bind]
      rw [if_pos (hr.2 (.inl (hl y (by simp)))), this]
      rfl

/-- A blank: what zt_cstr_strip removes at the start. -/
def blank : List Byte := [32, 9]

/-- What it removes at the end. -/
def blankNl : List Byte := [32, 9, 10]

theorem isStr_blank : IsStr WHITESPACE blank := ⟨by decide, [], rfl⟩
theorem isStr_blankNl : IsStr WHITESPACE_NL blankNl := ⟨by decide, [], rfl⟩

/-- **C42** (partial): zt_cstr_strip removes the blanks and tabs at the start and the blanks, tabs and newlines at the end, but leaves one newline if there was any. Proved for a text `v` between them that is not
empty, contains no newline and is longer than one character unless nothing is to be removed at the end. Not proved, since false: `c42_strip_violation`. -/
theorem c42_strip_partial (l v w rest : List Byte) (h0 : ∀ b ∈ v, b ≠ 0) (hl : ∀ c ∈ l, c ∈ blank) (hw : ∀ c ∈ w, c ∈ blankNl) (hv : v ≠ []) (hhead : ∀ c, v.head? = some c → c ∉ blank)
    (hlast : ∀ c, v.getLast? = some c → c ∉ blankNl) (hnl : (10 : Byte) ∉ v) (hlen : 2 ≤ v.length ∨ w = []) :
    ∃ r, strip (l ++ v ++ w ++ 0 :: rest) = .ok r ∧ r.length = (l ++ v ++ w ++ 0 :: rest).length ∧ IsStr r (v ++ if (10 : Byte) ∈ w then [10] else []) := by
  have hb0 : ∀ c ∈ blank, c ≠ 0 := by decide
  have hbn0 : ∀ c ∈ blankNl, c ≠ 0 := by decide
  have hvw : ∀ b ∈ v ++ w, b ≠ 0 := fun b hb => by
    rcases List.mem_append.1 hb with h | h
    · exact h0 b h
    · exact hbn0 b (hw b h)
  have hall : ∀ b ∈ l ++ v ++ w, b ≠ 0 := fun b hb => by
    rw [List.append_assoc] at hb
    rcases List.mem_append.1 hb with h | h
    · exact hb0 b (hl b h)
    · exact hvw b h
  have hstr : IsStr (l ++ v ++ w ++ 0 :: rest) (l ++ v ++ w) := ⟨hall, rest, rfl⟩
  have e1 : strspn (l ++ v ++ w ++ 0 :: rest) WHITESPACE = .ok l.length := by
    rw [List.append_assoc l v w]
    refine strspn_exact isStr_blank l (by rw [← List.append_assoc]; exact hall) hl ?_
    intro c hc
    cases v with
    | nil => exact absurd rfl hv
    | cons y v => exact hhead c (by simpa using hc)
  have hvl : 0 < v.length := List.length_pos_iff.2 hv
  rw [strip, e1, hstr.strlen]
  simp only [Outcome.ok_bind]
  have hn : (l ++ v ++ w).length - l.length = v.length + w.length := by simp only [List.length_append]; omega
  have hmove : ((l ++ v ++ w ++ 0 :: rest).drop l.length).take ((l ++ v ++ w).length - l.length + 1) ++ (l ++ v ++ w ++ 0 :: rest).drop ((l ++ v ++ w).length - l.length + 1) =
      v ++ w ++ 0 :: (l ++ v ++ w ++ 0 :: rest).drop (v.length + w.length + 1) := by
    rw [hn]
    have : (l ++ v ++ w ++ 0 :: rest).drop l.length = (v ++ w ++ [0]) ++ rest := by
      rw [show l ++ v ++ w ++ 0 :: rest = l ++ (v ++ w ++ [0] ++ rest) by simp]
      exact List.drop_left
    rw [this, List.take_left' (by simp only [List.length_append, List.length_singleton])]
    simp
  have hmlen : (v ++ w ++ 0 :: (l ++ v ++ w ++ 0 :: rest).drop (v.length + w.length + 1)).length = (l ++ v ++ w ++ 0 :: rest).length := by
    simp only [List.length_append, List.length_cons, List.length_drop]; omega
  rw [hmove, ← hmlen]
  generalize (l ++ v ++ w ++ 0 :: rest).drop (v.length + w.length + 1) = tail
  have hstr2 : IsStr (v ++ w ++ 0 :: tail) (v ++ w) := ⟨hvw, tail, rfl⟩
  obtain ⟨r, er, hr⟩ := strchr_spec hstr2 10
  rw [er]
  simp only [Outcome.ok_bind]
  rw [hstr2.strlen]
  have hr2 : r.isSome = true ↔ (10 : Byte) ∈ w := by
    rw [hr]
    constructor
    · rintro (h | h)
      · rcases List.mem_append.1 h with h | h
        · exact absurd h hnl
        · exact h
      · exact absurd h (by decide)
    · intro h; exact .inl (List.mem_append_right _ h)
  by_cases h2 : 2 ≤ v.length
  · obtain ⟨v', x, rfl⟩ : ∃ v' x, v = v' ++ [x] := ⟨v.dropLast, v.getLast hv, (List.dropLast_concat_getLast hv).symm⟩
    have hx : x ∉ blankNl := hlast x (by simp)
    have hv' : v' ≠ [] := fun e => by subst e; simp at h2
    have ek : rspn (v' ++ [x] ++ w ++ 0 :: tail) WHITESPACE_NL = .ok w.length :=
      (c42_rspn_partial (m := v' ++ [x] ++ w ++ 0 :: tail) (v := v') (x := x) (w := w) (by simpa using hstr2) isStr_blankNl hw).1 hv' hx
    rw [ek]
    simp only [Outcome.ok_bind]
    generalize v' ++ [x] = v at *
    rw [show (v ++ w).length - w.length = v.length by simp, cutEnd, if_pos (by omega)]
    by_cases hm : (10 : Byte) ∈ w
    · rw [if_pos (hr2.2 hm), if_pos hm]
      obtain ⟨a, w', rfl⟩ : ∃ a w', w = a :: w' := by
        cases w with
        | nil => simp at hm
        | cons a w' => exact ⟨a, w', rfl⟩
      rw [show v ++ a :: w' ++ 0 :: tail = v ++ a :: (w' ++ 0 :: tail) by simp, wr_last]
      simp only [Outcome.ok_bind]
      obtain ⟨b, t, ht⟩ : ∃ b t, w' ++ 0 :: tail = b :: t := by
        cases w' with
        | nil => exact ⟨0, tail, rfl⟩
        | cons b t => exact ⟨b, t ++ 0 :: tail, rfl⟩
      rw [ht, show v ++ 10 :: b :: t = (v ++ [10]) ++ b :: t by simp, show v.length + 1 = (v ++ [(10 : Byte)]).length by simp, wr_last]
      refine ⟨_, rfl, by simp, ?_, t, rfl⟩
      intro c hc
      rcases List.mem_append.1 hc with h | h
      · exact h0 c h
      · simp at h; rw [h]; decide
    · rw [if_neg (fun h => hm (hr2.1 h)), if_neg hm, List.append_nil]
      cases w with
      | nil =>
          rw [List.append_nil, wr_last]
          exact ⟨_, rfl, by simp, h0, tail, rfl⟩
      | cons a w' =>
          rw [show v ++ a :: w' ++ 0 :: tail = v ++ a :: (w' ++ 0 :: tail) by simp, wr_last]
          exact ⟨_, rfl, by simp, h0, w' ++ 0 :: tail, rfl⟩
  · have hw0 : w = [] := hlen.resolve_left h2
    subst hw0
    obtain ⟨x, rfl⟩ : ∃ x, v = [x] := List.length_eq_one_iff.1 (by omega)
    have ek : rspn ([x] ++ [] ++ 0 :: tail) WHITESPACE_NL = .ok 1 :=
      (c42_rspn_partial (m := [x] ++ [] ++ 0 :: tail) (v := []) (x := x) (w := []) (by simpa using hstr2) isStr_blankNl (by simp)).2 rfl
    rw [ek]
    simp only [Outcome.ok_bind]
    rw [show ([x] ++ [] : List Byte).length - 1 = 0 by simp, cutEnd, if_neg (by simp)]
    exact ⟨_, rfl, by simp, by simpa using h0, tail, by simp⟩

/-- Instance: "  ab \n " becomes "ab\n". -/
example : strip [32, 32, 97, 98, 32, 10, 32, 0] = .ok [97, 98, 10, 0, 32, 0, 32, 0] := by decide +kernel
example : (∀ c ∈ ([32, 32] : List Byte), c ∈ blank) ∧ (∀ c ∈ ([32, 10, 32] : List Byte), c ∈ blankNl) ∧ (10 : Byte) ∉ ([97, 98] : List Byte) := by decide

/-- Violations: "a " is left as it is; of a text of blanks only, "\n  ", nothing is removed; and "a\nb", which needs no trimming, is extended past the end of its block. -/
theorem c42_strip_violation : strip [97, 32, 0] = .ok [97, 32, 0] ∧ strip [10, 32, 32, 0] = .ok [10, 32, 32, 0] ∧ strip [97, 10, 98, 0] = .ub := by decide +kernel

end ZT.Cstr
