import Verif.Cstr.Search

/-!
# C65-C67: splitting strings
-/

namespace ZT.Cstr

/-! ## zt_cstr_split -/

/-- `ts` are the tokens of `s`: maximal runs of characters that are no delimiters, none of them empty. The string is a run of delimiters, a token, a run of delimiters that is not empty, a token, and so on. -/
inductive Tokens (isDelim : Byte → Prop) : List Byte → List (List Byte) → Prop
  | none (gap : List Byte) (hg : ∀ c ∈ gap, isDelim c) : Tokens isDelim gap []
  | last (gap t : List Byte) (hg : ∀ c ∈ gap, isDelim c) (ht : ∀ c ∈ t, ¬ isDelim c) (hne : t ≠ []) : Tokens isDelim (gap ++ t) [t]
  | more (gap t : List Byte) (d : Byte) (s : List Byte) (ts : List (List Byte)) (hg : ∀ c ∈ gap, isDelim c) (ht : ∀ c ∈ t, ¬ isDelim c) (hne : t ≠ []) (hd : isDelim d) (h : Tokens isDelim s ts) :
      Tokens isDelim (gap ++ t ++ d :: s) (t :: ts)

theorem splitLoop_ok (delim : List Byte) : ∀ (fuel : Nat) (s : List Byte), s.length < fuel → ∃ ts, splitLoop delim fuel s = .ok ts ∧ Tokens (· ∈ delim) s ts := by
  intro fuel
  induction fuel with
  | zero => intro s h; omega
  | succ fuel ih =>
      intro s hf
      rw [splitLoop]
      simp only [strtok]
      have hs : s = s.takeWhile (fun c => delim.contains c) ++ s.dropWhile (fun c => delim.contains c) := List.takeWhile_append_dropWhile.symm
      have hg : ∀ c ∈ s.takeWhile (fun c => delim.contains c), c ∈ delim := fun c hc => by
        simpa using List.all_eq_true.1 List.all_takeWhile c hc
      generalize s.takeWhile (fun c => delim.contains c) = gap at hs hg
      have hhead : ∀ c, (s.dropWhile (fun c => delim.contains c)).head? = some c → c ∉ delim := by
        intro c hc hm
        have := List.head?_dropWhile_not (fun c => delim.contains c) s
        rw [hc] at this
        simp at this
        exact this hm
      generalize s.dropWhile (fun c => delim.contains c) = r at hs hhead
      by_cases hr : r = []
      · rw [if_pos hr]
        refine ⟨[], rfl, ?_⟩
        rw [hs, hr, List.append_nil]
        exact .none gap hg
      · rw [if_neg hr]
        have hrr : r = r.takeWhile (fun c => ! delim.contains c) ++ r.dropWhile (fun c => ! delim.contains c) := List.takeWhile_append_dropWhile.symm
        have ht : ∀ c ∈ r.takeWhile (fun c => ! delim.contains c), c ∉ delim := fun c hc => by
          simpa using List.all_eq_true.1 List.all_takeWhile c hc
        have htne : r.takeWhile (fun c => ! delim.contains c) ≠ [] := by
          cases r with
          | nil => exact absurd rfl hr
          | cons x r =>
              have := hhead x rfl
              rw [List.takeWhile_cons, if_pos (by simpa using this)]
              simp
        have hd : ∀ c, (r.dropWhile (fun c => ! delim.contains c)).head? = some c → c ∈ delim := by
          intro c hc
          have := List.head?_dropWhile_not (fun c => ! delim.contains c) r
          rw [hc] at this
          simpa using this
        generalize r.takeWhile (fun c => ! delim.contains c) = t at *
        generalize r.dropWhile (fun c => ! delim.contains c) = q at *
        have htl := List.length_pos_iff.2 htne
        have hlen : s.length = gap.length + (t.length + q.length) := by rw [hs, hrr]; simp
        obtain ⟨ts, e, hts⟩ := ih (q.drop 1) (by rw [List.length_drop]; omega)
        simp only [e, Outcome.ok_bind, Outcome.pure_eq]
        refine ⟨_, rfl, ?_⟩
        cases q with
        | nil =>
            have : ts = [] := by
              have : splitLoop delim fuel ([] : List Byte) = .ok [] := by
                cases fuel with
                | zero => omega
                | succ f => rfl
              rw [List.drop_nil, this] at e
              cases e; rfl
            subst this
            rw [hs, hrr, List.append_nil]
            exact .last gap t hg ht htne
        | cons d q =>
            rw [hs, hrr, ← List.append_assoc]
            exact .more gap t d q ts hg ht htne (hd d rfl) (by simpa using hts)

/-- The tokens of a string are determined by it. -/
theorem Tokens.unique {P : Byte → Prop} : ∀ {s : List Byte} {ts us : List (List Byte)}, Tokens P s ts → Tokens P s us → ts = us := by
  -- a run of delimiters followed by something that begins with no delimiter
  have gaps : ∀ {a b u v : List Byte}, (∀ c ∈ a, P c) → (∀ c ∈ b, P c) → (∀ c, u.head? = some c → ¬ P c) → (∀ c, v.head? = some c → ¬ P c) → a ++ u = b ++ v → a = b ∧ u = v := by
    intro a
    induction a with
    | nil =>
        intro b u v _ hb hu _ e
        cases b with
        | nil => exact ⟨rfl, e⟩
        | cons y b =>
            have hy := hb y (by simp)
            rw [List.nil_append] at e
            subst e
            exact absurd hy (hu y rfl)
    | cons x a ih =>
        intro b u v ha hb hu hv e
        cases b with
        | nil =>
            rw [List.nil_append] at e
            subst e
            exact absurd (ha x (by simp)) (hv x rfl)
        | cons y b =>
            rw [List.cons_append, List.cons_append] at e
            obtain ⟨rfl, e2⟩ := List.cons.inj e
            obtain ⟨rfl, h⟩ := ih (fun c hc => ha c (by simp [hc])) (fun c hc => hb c (by simp [hc])) hu hv e2
            exact ⟨rfl, h⟩
  have toks : ∀ {a b u v : List Byte}, (∀ c ∈ a, ¬ P c) → (∀ c ∈ b, ¬ P c) → (∀ c, u.head? = some c → P c) → (∀ c, v.head? = some c → P c) → a ++ u = b ++ v → a = b ∧ u = v := by
    intro a
    induction a with
    | nil =>
        intro b u v _ hb hu _ e
        cases b with
        | nil => exact ⟨rfl, e⟩
        | cons y b =>
            rw [List.nil_append] at e
            subst e
            exact absurd (hu y rfl) (hb y (by simp))
    | cons x a ih =>
        intro b u v ha hb hu hv e
        cases b with
        | nil =>
            rw [List.nil_append] at e
            subst e
            exact absurd (hv x rfl) (ha x (by simp))
        | cons y b =>
            rw [List.cons_append, List.cons_append] at e
            obtain ⟨rfl, e2⟩ := List.cons.inj e
            obtain ⟨rfl, h⟩ := ih (fun c hc => ha c (by simp [hc])) (fun c hc => hb c (by simp [hc])) hu hv e2
            exact ⟨rfl, h⟩
  have head : ∀ {t w : List Byte}, (∀ c ∈ t, ¬ P c) → t ≠ [] → ∀ c, (t ++ w).head? = some c → ¬ P c := by
    intro t w ht hne c hc
    cases t with
    | nil => exact absurd rfl hne
    | cons x t => simp at hc; subst hc; exact ht x (by simp)
  intro s ts us h
  induction h generalizing us with
  | none gap hg =>
      intro k
      cases k with
      | none => rfl
      | last gap' t hg' ht hne =>
          cases t with
          | nil => exact absurd rfl hne
          | cons x t => exact absurd (hg x (by simp)) (ht x (by simp))
      | more gap' t d s' ts hg' ht hne hd h =>
          cases t with
          | nil => exact absurd rfl hne
          | cons x t => exact absurd (hg x (by simp)) (ht x (by simp))
  | last gap t hg ht hne =>
      intro k
      generalize hs : gap ++ t = s at k
      cases k with
      | none gap' hg' =>
          subst hs
          cases t with
          | nil => exact absurd rfl hne
          | cons x t => exact absurd (hg' x (by simp)) (ht x (by simp))
      | last gap' t' hg' ht' hne' =>
          obtain ⟨_, rfl⟩ := gaps hg hg' (by simpa using head (w := []) ht hne) (by simpa using head (w := []) ht' hne') hs
          rfl
      | more gap' t' d s' ts hg' ht' hne' hd h =>
          rw [List.append_assoc] at hs
          obtain ⟨_, e⟩ := gaps hg hg' (by simpa using head (w := []) ht hne) (head ht' hne') hs
          exact absurd hd (ht d (by rw [e]; simp))
  | more gap t d s ts hg ht hne hd h ih =>
      intro k
      generalize hs : gap ++ t ++ d :: s = s' at k
      cases k with
      | none gap' hg' =>
          subst hs
          cases t with
          | nil => exact absurd rfl hne
          | cons x t => exact absurd (hg' x (by simp)) (ht x (by simp))
      | last gap' t' hg' ht' hne' =>
          rw [List.append_assoc] at hs
          obtain ⟨_, e⟩ := gaps hg hg' (head ht hne) (by simpa using head (w := []) ht' hne') hs
          exact absurd hd (ht' d (by rw [← e]; simp))
      | more gap' t' d' s'' ts' hg' ht' hne' hd' h' =>
          rw [List.append_assoc, List.append_assoc] at hs
          obtain ⟨_, e⟩ := gaps hg hg' (head ht hne) (head ht' hne') hs
          obtain ⟨rfl, e2⟩ := toks ht ht' (by intro c hc; simp at hc; rwa [← hc]) (by intro c hc; simp at hc; rwa [← hc]) e
          obtain ⟨_, rfl⟩ := List.cons.inj e2
          rw [ih h']

/-- **C65**: zt_cstr_split returns the tokens of the string. -/
theorem c65_split {m s md delim : List Byte} (h : IsStr m s) (hd : IsStr md delim) : ∃ ts, split (some m) (some md) = .ok (some ts) ∧ ∀ us, Tokens (· ∈ delim) s us ↔ us = ts := by
  obtain ⟨ts, e, ht⟩ := splitLoop_ok delim (s.length + 1) s (by omega)
  refine ⟨ts, ?_, fun us => ⟨fun hu => hu.unique ht, fun hu => hu ▸ ht⟩⟩
  rw [split, h.strlen]
  simp only [Outcome.ok_bind]
  rw [hd.strlen]
  simp only [Outcome.ok_bind]
  rw [h.cstr, hd.cstr, e]
  rfl

/-- No string or no delimiters: NULL. -/
theorem c65_null (m : Option (List Byte)) : split none m = .ok none ∧ split m none = .ok none := by
  cases m <;> exact ⟨rfl, rfl⟩

/-- Instance: ",a,,bc" at "," and at " ". -/
example : split (some [44, 97, 44, 44, 98, 99, 0]) (some [44, 0]) = .ok (some [[97], [98, 99]]) := by decide +kernel
example : Tokens (· ∈ ([44] : List Byte)) [44, 97, 44, 44, 98, 99] [[97], [98, 99]] :=
  .more [44] [97] 44 [44, 98, 99] [[98, 99]] (by decide) (by decide) (by decide) (by decide) (.last [44] [98, 99] (by decide) (by decide) (by decide))

/-! ## zt_cstr_cut -/

theorem strchr_cut {p u : List Byte} (h : IsStr p u) {d : Byte} (hd : d ≠ 0) : (d ∉ u ∧ strchr p d = .ok none) ∨ ∃ a b, u = a ++ d :: b ∧ d ∉ a ∧ strchr p d = .ok (some a.length) := by
  obtain ⟨h0, rest, rfl⟩ := h
  induction u with
  | nil => exact .inl ⟨by simp, by rw [List.nil_append, strchr, if_neg (Ne.symm hd), if_pos rfl]⟩
  | cons x u ih =>
      have hx : x ≠ 0 := h0 x (by simp)
      by_cases hxd : x = d
      · subst hxd
        exact .inr ⟨[], u, rfl, by simp, by rw [List.cons_append, strchr, if_pos rfl]; rfl⟩
      · rcases ih (fun b hb => h0 b (by simp [hb])) with ⟨h1, h2⟩ | ⟨a, b, rfl, h2, h3⟩
        · exact .inl ⟨by simp [h1]; exact fun e => hxd e.symm, by rw [List.cons_append, strchr, if_neg hxd, if_neg hx, h2]; rfl⟩
        · refine .inr ⟨x :: a, b, rfl, by simp [h2]; exact fun e => hxd e.symm, ?_⟩
          rw [List.cons_append, strchr, if_neg hxd, if_neg hx, h3]
          rfl

/-- The pieces: for every delimiter that is not the last character, in order, the rest of the string behind it (`keep = 0`) or from it on (`keep = 1`). -/
def cuts (d : Byte) (keep : Nat) (s : List Byte) : List (List Byte) := ((List.range (s.length - 1)).filter fun k => s[k]? = some d).map fun k => s.drop (k + 1 - keep)

/-- The same, from position `n` on. -/
def cutsFrom (d : Byte) (keep : Nat) (s : List Byte) (n : Nat) : List (List Byte) := ((List.range' n (s.length - 1 - n)).filter fun k => s[k]? = some d).map fun k => s.drop (k + 1 - keep)

theorem cutsFrom_skip {d : Byte} {keep : Nat} {s : List Byte} : ∀ (i n : Nat), (∀ k, n ≤ k → k < n + i → s[k]? ≠ some d) → cutsFrom d keep s n = cutsFrom d keep s (n + i) := by
  intro i
  induction i with
  | zero => intro n _; rfl
  | succ i ih =>
      intro n h
      rw [show n + (i + 1) = (n + 1) + i by omega, ← ih (n + 1) (fun k h1 h2 => h k (by omega) (by omega))]
      simp only [cutsFrom]
      by_cases hn : n < s.length - 1
      · rw [show s.length - 1 - n = (s.length - 1 - (n + 1)) + 1 by omega, List.range'_succ, List.filter_cons, if_neg (by simpa using h n (by omega) (by omega))]
      · rw [show s.length - 1 - n = 0 by omega, show s.length - 1 - (n + 1) = 0 by omega]
        rfl

theorem cutsFrom_hit {d : Byte} {keep : Nat} {s : List Byte} {n : Nat} (h : s[n]? = some d) (hn : n + 1 < s.length) : cutsFrom d keep s n = s.drop (n + 1 - keep) :: cutsFrom d keep s (n + 1) := by
  simp only [cutsFrom]
  rw [show s.length - 1 - n = (s.length - 1 - (n + 1)) + 1 by omega, List.range'_succ, List.filter_cons, if_pos (by simpa using h)]
  rfl

theorem cutsFrom_end {d : Byte} {keep : Nat} {s : List Byte} {n : Nat} (h : s.length ≤ n + 1) : cutsFrom d keep s n = [] := by
  simp only [cutsFrom]
  rw [show s.length - 1 - n = 0 by omega]
  rfl

theorem cutLoop_ok {m s : List Byte} (h : IsStr m s) {d : Byte} (hd : d ≠ 0) {keep : Nat} (hk : keep ≤ 1) : ∀ (fuel n : Nat), n ≤ s.length → s.length < fuel + n → cutLoop m d keep fuel n = .ok (cutsFrom d keep s n) := by
  have hml := h.length
  intro fuel
  induction fuel with
  | zero => intro n h1 h2; omega
  | succ fuel ih =>
      intro n hn hf
      rw [cutLoop, ptr_nat (by omega)]
      simp only [Outcome.ok_bind]
      have hdr := h.drop hn
      have hidx : ∀ k, n ≤ k → s[k]? = (s.drop n)[k - n]? := fun k hk => by rw [List.getElem?_drop, Nat.add_sub_of_le hk]
      rcases strchr_cut hdr hd with ⟨h1, h2⟩ | ⟨a, b, h1, h2, h3⟩
      · rw [h2]
        simp only [Outcome.ok_bind]
        rw [cutsFrom_skip (s.length - n) n, cutsFrom_end (by omega)]
        intro k h3 h4 e
        rw [hidx k h3] at e
        exact h1 (List.mem_of_getElem? e)
      · rw [h3]
        simp only [Outcome.ok_bind]
        have hab : s.length - n = a.length + (b.length + 1) := by
          have := congrArg List.length h1
          simpa using this
        have hskip : cutsFrom d keep s n = cutsFrom d keep s (n + a.length) := by
          apply cutsFrom_skip
          intro k h4 h5 e
          rw [hidx k h4, h1, List.getElem?_append_left (by omega)] at e
          exact h2 (List.mem_of_getElem? e)
        have hhit : s[n + a.length]? = some d := by
          rw [hidx _ (by omega), h1, List.getElem?_append_right (by omega)]
          simp
        rw [hskip]
        by_cases hend : n + a.length + 1 = s.length
        · have : rd m (n + a.length + 1) = .ok 0 := by
            rw [hend]
            obtain ⟨_, rest, rfl⟩ := h
            exact rd_append_right
          rw [this]
          simp only [Outcome.ok_bind]
          rw [if_pos trivial, cutsFrom_end (by omega)]
        · have hlt : n + a.length + 1 < s.length := by omega
          rw [h.get hlt]
          simp only [Outcome.ok_bind]
          rw [if_neg (h.1 _ (List.getElem_mem _)), show ((n + a.length + 1 : Nat) : Int) - (keep : Int) = ((n + a.length + 1 - keep : Nat) : Int) by omega, ptr_nat (by omega)]
          simp only [Outcome.ok_bind]
          rw [ih (n + a.length + 1) (by omega) (by omega), cutsFrom_hit hhit hlt]
          simp only [Outcome.ok_bind, Outcome.pure_eq]
          rw [(h.drop (k := n + a.length + 1 - keep) (by omega)).cstr]

/-- **C66** (partial): zt_cstr_cut returns the rest of the string behind (or from) each delimiter that is not its last character. Not proved, since false: the delimiter NUL (`c66_cut_violation`). -/
theorem c66_cut_partial {m s : List Byte} (h : IsStr m s) (delim : Int) (hd : toChar delim ≠ 0) (keep : Bool) : cut m delim keep = .ok (cuts (toChar delim) (if keep then 1 else 0) s) := by
  have h' : IsStr (s ++ [0]) s := ⟨h.1, [], rfl⟩
  rw [cut, h.strlen]
  simp only [Outcome.ok_bind]
  rw [h.cstr, cutLoop_ok h' hd (by cases keep <;> simp) _ 0 (by omega) (by omega)]
  simp only [cutsFrom, cuts, Nat.sub_zero, List.range_eq_range']

/-- Violation: with the delimiter NUL the code reads behind the terminator. -/
theorem c66_cut_violation : cut [97, 0] 0 false = .ub := by decide +kernel

/-- Instance: "a/b/c/" at "/". -/
example : cut [97, 47, 98, 47, 99, 47, 0] 47 false = .ok [[98, 47, 99, 47], [99, 47]] ∧ cut [97, 47, 98, 47, 99, 47, 0] 47 true = .ok [[47, 98, 47, 99, 47], [47, 99, 47]] := by decide +kernel
example : toChar 47 ≠ 0 := by decide

/-! ## zt_cstr_tok -/

theorem strrchr_last {p u : List Byte} (h : IsStr p u) {d : Byte} (hd : d ≠ 0) : (d ∉ u ∧ strrchr p d = .ok none) ∨ ∃ a b, u = a ++ d :: b ∧ d ∉ b ∧ strrchr p d = .ok (some a.length) := by
  obtain ⟨h0, rest, rfl⟩ := h
  induction u with
  | nil => exact .inl ⟨by simp, by rw [List.nil_append, strrchr, if_pos rfl, if_neg (Ne.symm hd)]⟩
  | cons x u ih =>
      have hx : x ≠ 0 := h0 x (by simp)
      rcases ih (fun b hb => h0 b (by simp [hb])) with ⟨h1, h2⟩ | ⟨a, b, rfl, h2, h3⟩
      · by_cases hxd : x = d
        · subst hxd
          exact .inr ⟨[], u, rfl, h1, by rw [List.cons_append, strrchr, if_neg hx, h2]; simp⟩
        · exact .inl ⟨by simp [h1]; exact fun e => hxd e.symm, by rw [List.cons_append, strrchr, if_neg hx, h2]; simp [hxd]⟩
      · refine .inr ⟨x :: a, b, rfl, h2, ?_⟩
        rw [List.cons_append, strrchr, if_neg hx, h3]
        rfl

/-- The whole string, and then its prefixes up to each delimiter except one at the start, the longest first. -/
def prefixes (d : Byte) (s : List Byte) : List (List Byte) := s :: ((List.range s.length).filter fun k => 0 < k ∧ s[k]? = some d).reverse.map fun k => s.take k

theorem prefixes_none {d : Byte} {s : List Byte} (h : ∀ k, 0 < k → s[k]? ≠ some d) : prefixes d s = [s] := by
  rw [prefixes, List.filter_eq_nil_iff.2]
  · rfl
  · intro k _ e
    simp at e
    exact h k e.1 e.2

theorem prefixes_last {d : Byte} {a b : List Byte} (hb : d ∉ b) (ha : a ≠ []) : prefixes d (a ++ d :: b) = (a ++ d :: b) :: prefixes d a := by
  have hal := List.length_pos_iff.2 ha
  rw [prefixes, prefixes]
  congr 1
  have : List.range (a ++ d :: b).length = List.range a.length ++ a.length :: List.range' (a.length + 1) b.length := by
    rw [show (a ++ d :: b).length = a.length + (b.length + 1) by simp, List.range_eq_range', ← List.range'_append_1, List.range_eq_range', Nat.zero_add, List.range'_succ]
  rw [this, List.filter_append, List.filter_cons, if_pos (by simp [hal])]
  have h2 : (List.range' (a.length + 1) b.length).filter (fun k => 0 < k ∧ (a ++ d :: b)[k]? = some d) = [] := by
    rw [List.filter_eq_nil_iff]
    intro k hk e
    simp only [List.mem_range'_1] at hk
    simp at e
    rw [List.getElem?_append_right (by omega), show k - a.length = (k - a.length - 1) + 1 by omega, List.getElem?_cons_succ] at e
    exact hb (List.mem_of_getElem? e.2)
  have h1 : (List.range a.length).filter (fun k => 0 < k ∧ (a ++ d :: b)[k]? = some d) = (List.range a.length).filter (fun k => 0 < k ∧ a[k]? = some d) := by
    apply List.filter_congr
    intro k hk
    rw [List.mem_range] at hk
    rw [List.getElem?_append_left hk]
  rw [h1, h2, List.reverse_append, List.map_append]
  simp only [List.reverse_cons, List.reverse_nil, List.nil_append, List.map_cons, List.map_nil, List.singleton_append, List.take_left, List.cons.injEq, true_and]
  apply List.map_congr_left
  intro k hk
  rw [List.mem_reverse, List.mem_filter, List.mem_range] at hk
  rw [List.take_append_of_le_length (by omega)]

theorem tokLoop_ok {d : Byte} (hd : d ≠ 0) : ∀ (fuel : Nat) (m s : List Byte), IsStr m s → s.length < fuel → tokLoop d fuel m = .ok (prefixes d s) := by
  intro fuel
  induction fuel with
  | zero => intro m s _ h; omega
  | succ fuel ih =>
      intro m s h hf
      rw [tokLoop]
      rcases strrchr_last h hd with ⟨h1, h2⟩ | ⟨a, b, hab, h2, h3⟩
      · rw [h2]
        simp only [Outcome.ok_bind]
        rw [h.cstr, prefixes_none fun k _ e => h1 (List.mem_of_getElem? e)]
      · rw [h3]
        by_cases ha : a = []
        · subst ha
          simp only [Outcome.ok_bind, List.length_nil]
          rw [h.cstr, prefixes_none]
          intro k hk e
          rw [hab, List.nil_append, show k = (k - 1) + 1 by omega, List.getElem?_cons_succ] at e
          exact h2 (List.mem_of_getElem? e)
        · have hal := List.length_pos_iff.2 ha
          have hsl : s.length = a.length + (b.length + 1) := by rw [hab]; simp
          have hcs := h.cstr
          obtain ⟨h0, rest, rfl⟩ := h
          subst hab
          rw [show (a ++ d :: b) ++ 0 :: rest = a ++ d :: (b ++ 0 :: rest) by simp] at hcs ⊢
          have h' : IsStr (a ++ 0 :: (b ++ 0 :: rest)) a := ⟨fun x hx => h0 x (by simp [hx]), _, rfl⟩
          obtain ⟨k, hk⟩ : ∃ k, a.length = k + 1 := ⟨a.length - 1, by omega⟩
          simp only [Outcome.ok_bind, hk]
          rw [← hk, wr_last]
          simp only [Outcome.ok_bind]
          rw [ih _ _ h' (by omega)]
          simp only [Outcome.ok_bind, Outcome.pure_eq]
          rw [hcs, prefixes_last h2 ha]

/-- Without one delimiter at the end. -/
def chop (d : Byte) (s : List Byte) : List Byte := if s.getLast? = some d then s.dropLast else s

/-- **C67** (partial): zt_cstr_tok drops one delimiter at the end and returns the prefixes of the rest that end before a delimiter, the longest first, beginning with the whole. Not proved, since false: the empty
string, the delimiter NUL, and a delimiter above 127 given as its (positive) code (`c67_tok_violation`). -/
theorem c67_tok_partial {m s : List Byte} (h : IsStr m s) (hs : s ≠ []) (d : Byte) (hd : d ≠ 0) : tok m (schar d) = .ok (prefixes d (chop d s)) := by
  have hl := List.length_pos_iff.2 hs
  have hto : toChar (schar d) = d := by
    have h1 := schar_emod d
    rw [toChar, h1]
    simp
  rw [tok, h.strlen]
  simp only [Outcome.ok_bind]
  rw [show ((s.length : Int) - 1) = ((s.length - 1 : Nat) : Int) by omega, rdI_nat, h.get (by omega)]
  simp only [Outcome.ok_bind]
  rw [h.cstr, hto]
  have hlast : s.getLast? = some (s[s.length - 1]'(by omega)) := by rw [List.getLast?_eq_getElem?, List.getElem?_eq_getElem (by omega)]
  by_cases hc : s[s.length - 1]'(by omega) = d
  · rw [if_pos (by rw [hc]), chop, if_pos (by rw [hlast, hc])]
    obtain ⟨a, x, rfl⟩ : ∃ a x, s = a ++ [x] := ⟨s.dropLast, s.getLast hs, (List.dropLast_concat_getLast hs).symm⟩
    have : wr (a ++ [x] ++ [0]) ((a ++ [x]).length - 1) (0 : Byte) = .ok (a ++ 0 :: [0]) := by
      rw [show a ++ [x] ++ [0] = a ++ x :: [0] by simp, show (a ++ [x]).length - 1 = a.length by simp, wr_last]
    rw [this]
    simp only [Outcome.ok_bind]
    rw [tokLoop_ok hd _ _ a ⟨fun y hy => h.1 y (by simp [hy]), [0], rfl⟩ (by simp; omega), List.dropLast_concat]
  · rw [if_neg (fun e => hc ((schar_inj _ _).1 e)), chop, if_neg (by rw [hlast]; intro e; exact hc (Option.some.inj e))]
    simp only [Outcome.ok_bind]
    exact tokLoop_ok hd _ _ s ⟨h.1, [], rfl⟩ (by omega)

/-- Instance: "/a/b/c/" at "/". -/
example : tok [47, 97, 47, 98, 47, 99, 47, 0] 47 = .ok [[47, 97, 47, 98, 47, 99], [47, 97, 47, 98], [47, 97]] := by decide +kernel
example : prefixes 47 (chop 47 [47, 97, 47, 98, 47, 99, 47]) = [[47, 97, 47, 98, 47, 99], [47, 97, 47, 98], [47, 97]] ∧ schar 47 = 47 := by decide

/-- Violations: the empty string reads before its start, and the delimiter 233 at the end is kept, unlike 233 converted to char. -/
theorem c67_tok_violation : tok [0] 47 = .ub ∧ tok [97, 233, 0] 233 = .ok [[97, 233], [97]] ∧ tok [97, 233, 0] (schar 233) = .ok [[97]] := by decide +kernel

end ZT.Cstr
