import Verif.Prog.Props

/-!
# C84: the directory of the program
-/

namespace ZT.Prog

open ZT.Cstr

theorem isStr_colon : IsStr COLON [58] := ⟨by decide, [], rfl⟩
theorem isStr_dot : IsStr DOT [46] := ⟨by decide, [], rfl⟩

theorem slice_whole {u : List Byte} (hu : u ≠ []) : slice u 0 (-1) = some u := by
  have hul := List.length_pos_iff.2 hu
  have := slice_of (s := u) (bounds_all (a := 0) (by omega))
  rw [chars_all hu] at this
  exact this

/-- The head of the buffer. -/
theorem fill_head {pm : Nat} (hpm : 1 < pm) {st : List Byte} (hb : Buf pm st) {t : List Byte} (ht : ∀ b ∈ t, b ≠ 0) (hne : t ≠ []) :
    ∃ c, rd (fill t st pm) 0 = .ok c ∧ c ≠ 0 ∧ t.head? = some c := by
  have h := fill_str hb ht
  obtain ⟨c, e1, e2, e3⟩ := first_ne h (by cases t with | nil => exact absurd rfl hne | cons x xs => rw [show pm = (pm - 1) + 1 by omega]; simp)
  refine ⟨c, e1, e2, ?_⟩
  cases t with
  | nil => exact absurd rfl hne
  | cons x xs => rw [show pm = (pm - 1) + 1 by omega] at e3; simpa using e3

theorem isBare_fill {pm : Nat} (hpm : 1 < pm) {st : List Byte} (hb : Buf pm st) {t : List Byte} (ht : ∀ b ∈ t, b ≠ 0) (hne : t ≠ []) (hfit : t.length ≤ pm) :
    isBare (fill t st pm) = .ok (decide (t = [46])) := by
  obtain ⟨c, e1, e2, -⟩ := fill_head hpm hb ht hne
  obtain ⟨r, e3, e4⟩ := strcmp_ok (fill_str hb ht) isStr_dot
  rw [List.take_of_length_le hfit] at e4
  simp only [isBare, e1, Outcome.ok_bind, if_neg e2, e3, Outcome.pure_eq, e4]

/-- The call up to the decision. -/
theorem progpath_eq {pm : Nat} (hpm : 1 < pm) {st : List Byte} (hb : Buf pm st) (junk : Byte) (env : Env) {m s : List Byte} (h : IsStr m s) (hs : s ≠ []) {t : List Byte}
    (hd : ∀ npath : List Byte, pm ≤ npath.length → dirname npath pm m = .ok (fill t npath pm)) (ht : ∀ b ∈ t, b ≠ 0) (hne : t ≠ []) (hfit : t.length ≤ pm) :
    progpath pm junk env st (some m) = if t = [46] then search pm junk env (fill t st pm) m else located pm junk env (fill t st pm) := by
  obtain ⟨c, e, hc, -⟩ := first_ne h hs
  obtain ⟨e1, hb1⟩ := cleared hb
  simp only [progpath, e, Outcome.ok_bind, if_neg hc, e1]
  rw [hd _ (by rw [hb1.1]; omega), fill_twice hb]
  simp only [Outcome.ok_bind]
  rw [isBare_fill hpm hb ht hne hfit]
  simp only [Outcome.ok_bind, decide_eq_true_eq]

/-- Copying a longer text over the old one. -/
theorem copy_over {pm : Nat} {st : List Byte} (hb : Buf pm st) {t : List Byte} {m u : List Byte} (h : IsStr m u) (hu : u ≠ []) (hl : t.length ≤ u.length) (hfit : u.length ≤ pm) :
    copy m 0 (-1) (fill t st pm) pm = .ok (u.length, fill u st pm) := by
  have hul := List.length_pos_iff.2 hu
  have hsl : slice u 0 (-1) = some u := slice_whole hu
  rw [c38_copy h hu 0 (-1) hsl _ pm (by rw [(fill_buf hb t).1]; omega), Nat.min_eq_left hfit]
  congr 2
  rw [fill_eq hb, fill_eq hb, Nat.min_eq_left hfit, Nat.min_eq_left (by omega), List.take_of_length_le (l := t) (by omega), List.drop_append, List.drop_of_length_le hl, List.drop_replicate, List.nil_append,
    show pm + 1 - t.length - (u.length - t.length) = pm + 1 - u.length by omega]

/-- **C84 (absolute path).** The directory is what precedes the last component. -/
theorem c84_abs_partial {pm : Nat} (hpm : 1 < pm) {st : List Byte} (hb : Buf pm st) (junk : Byte) (env : Env) {m d b : List Byte} (h : IsStr m (47 :: d ++ 47 :: b)) (hb47 : (47 : Byte) ∉ b) (hbne : b ≠ [])
    (hfit : d.length < pm) : ∃ r, progpath pm junk env st (some m) = .ok r ∧ Buf pm r ∧ IsStr r (47 :: d) := by
  have ht : ∀ x ∈ (47 :: d : List Byte), x ≠ 0 := fun x hx => h.1 x (List.mem_append_left _ hx)
  have hd := fun np hn => dirname_exact h (d := 47 :: d) (b := b) (tail := []) (by simp) (by simp) hb47 (Or.inl ⟨hbne, rfl⟩) np pm hn
  refine ⟨fill (47 :: d) st pm, ?_, fill_buf hb _, ?_⟩
  · rw [progpath_eq hpm hb junk env h (by simp) hd ht (by simp) (by simp; omega), if_neg (by simp), located]
    cases env.cwd with
    | none => rfl
    | some c =>
        obtain ⟨x, e1, -, e3⟩ := fill_head hpm hb ht (by simp)
        have : x = 47 := by simpa using e3.symm
        simp only [e1, Outcome.ok_bind, this, ne_eq, not_true_eq_false, if_false]
  · have := fill_str hb ht
    rwa [List.take_of_length_le (by simp; omega)] at this

/-- Without a leading "./". -/
def undot : Str → Str
  | 46 :: 47 :: r => r
  | s => s

theorem skipDot_eq {pm : Nat} (hpm : 1 < pm) {st : List Byte} (hb : Buf pm st) {t : List Byte} (ht : ∀ b ∈ t, b ≠ 0) (hne : t ≠ []) (hfit : t.length ≤ pm) :
    ∃ pp, skipDot (fill t st pm) = .ok pp ∧ IsStr pp (undot t) := by
  have h := fill_str hb ht
  rw [List.take_of_length_le hfit] at h
  obtain ⟨h0, rest, hr⟩ := h
  rw [hr]
  cases t with
  | nil => exact absurd rfl hne
  | cons x xs =>
      by_cases hx : x = 46
      · subst hx
        cases xs with
        | nil => exact ⟨_, rfl, h0, rest, rfl⟩
        | cons y ys =>
            by_cases hy : y = 47
            · subst hy
              refine ⟨ys ++ 0 :: rest, ?_, fun b hb => h0 b (List.mem_cons_of_mem _ (List.mem_cons_of_mem _ hb)), rest, rfl⟩
              simp [skipDot, rd, ptr]
              omega
            · refine ⟨46 :: y :: ys ++ 0 :: rest, ?_, ?_⟩
              · simp [skipDot, rd, hy]
              · have : undot (46 :: y :: ys) = 46 :: y :: ys := by
                  rw [undot]
                  intro r hr
                  simp only [List.cons.injEq, true_and] at hr
                  exact hy hr.1
                rw [this]
                exact ⟨h0, rest, rfl⟩
      · refine ⟨x :: xs ++ 0 :: rest, ?_, ?_⟩
        · simp [skipDot, rd, hx]
        · have : undot (x :: xs) = x :: xs := by
            rw [undot]
            intro r hr
            simp only [List.cons.injEq] at hr
            exact hx hr.1
          rw [this]
          exact ⟨h0, rest, rfl⟩

theorem undot_length (t : Str) : t.length ≤ (undot t).length + 2 := by
  unfold undot
  split <;> simp

/-- **C84 (relative path with a directory).** The current directory, "/", and the directory part (without "./" in front). Missing: the directory "." (`c84_dot_violation`). -/
theorem c84_rel_partial {pm : Nat} (hpm : 1 < pm) {st : List Byte} (hb : Buf pm st) (junk : Byte) (env : Env) {m d b mc c : List Byte} (h : IsStr m (d ++ 47 :: b)) (hb47 : (47 : Byte) ∉ b) (hbne : b ≠ [])
    (hd : d ≠ []) (hrel : d.head? ≠ some 47) (hdot : d ≠ [46]) (hu : undot d ≠ []) (hu47 : (undot d).head? ≠ some 47)
    (hc : env.cwd = some mc) (hmc : IsStr mc c) (hcne : c ≠ []) (hcl : c.length = 1 ∨ c.getLast? ≠ some 47) (hfit : c.length + 1 + (undot d).length ≤ pm) :
    ∃ r, progpath pm junk env st (some m) = .ok r ∧ Buf pm r ∧ IsStr r (c ++ 47 :: undot d) := by
  have ht : ∀ x ∈ d, x ≠ 0 := fun x hx => h.1 x (List.mem_append_left _ hx)
  have hdn := fun np hn => dirname_exact h (d := d) (b := b) (tail := []) (by simp) hd hb47 (Or.inl ⟨hbne, rfl⟩) np pm hn
  have hcl0 := List.length_pos_iff.2 hcne
  have hul := undot_length d
  have hdl : d.length ≤ pm := by omega
  obtain ⟨pp, e1, hpp⟩ := skipDot_eq hpm hb ht hd hdl
  obtain ⟨tp, e2, htp⟩ := c42_append_partial junk (m1 := mc) (m2 := pp) (p := c) (q := undot d) (i := 0) (j := 0) (by simpa using hmc) (by simpa using hpp) hcne hcl hu hu47
  have htl : (c ++ 47 :: undot d).length = c.length + 1 + (undot d).length := by simp; omega
  refine ⟨fill (c ++ 47 :: undot d) st pm, ?_, fill_buf hb _, ?_⟩
  · rw [progpath_eq hpm hb junk env h (by simp) hdn ht hd hdl, if_neg hdot, located, hc]
    obtain ⟨x, f1, -, f3⟩ := fill_head hpm hb ht hd
    have hx : x ≠ 47 := fun e => hrel (by rw [f3, e])
    simp only [f1, Outcome.ok_bind, ne_eq, hx, not_false_eq_true, if_true, e1, e2]
    rw [copy_over hb htp (by simp) (by omega) (by omega)]
    rfl
  · have := fill_str hb htp.1
    rwa [List.take_of_length_le (by omega)] at this

/-! ## PATH -/

/-- The next colon. -/
theorem any_colon {m done e rest : List Byte} (h : IsStr m (done ++ e ++ 58 :: rest)) (he : (58 : Byte) ∉ e) : any m (done.length : Int) (-1) COLON = .ok ((done.length + e.length : Nat) : Int) := by
  have hl : (done ++ e ++ 58 :: rest).length = done.length + e.length + (rest.length + 1) := by simp; omega
  have hb := bounds_all (n := (done ++ e ++ 58 :: rest).length) (a := done.length) (by omega)
  obtain ⟨r, e1, hf⟩ := c39_any h (by simp) isStr_colon hb
  have hat : At (done ++ e ++ 58 :: rest) (· ∈ [58]) (done.length + e.length) := ⟨58, by rw [List.getElem?_append_right (by simp)]; simp, by simp⟩
  have hbefore : ∀ k, done.length ≤ k → k < done.length + e.length → ¬ At (done ++ e ++ 58 :: rest) (· ∈ [58]) k := by
    rintro k h1 h2 ⟨c, hc, hc2⟩
    simp only [List.mem_singleton] at hc2
    subst hc2
    rw [List.getElem?_append_left (by simp; omega), List.getElem?_append_right h1] at hc
    exact he (List.mem_of_getElem? hc)
  rw [e1]
  rcases hf with ⟨k, rfl, h1, h2, h3, h4⟩ | ⟨_, hno⟩
  · rcases Nat.lt_trichotomy k (done.length + e.length) with hlt | heq | hgt
    · exact absurd h3 (hbefore k h1 hlt)
    · rw [heq]
    · exact absurd hat (h4 _ (by omega) hgt)
  · exact absurd hat (hno _ (by omega) (by omega))

/-- No colon left. -/
theorem any_none {m done e : List Byte} (h : IsStr m (done ++ e)) (he : (58 : Byte) ∉ e) (hne : e ≠ []) : any m (done.length : Int) (-1) COLON = .ok (-1) := by
  have hel := List.length_pos_iff.2 hne
  have hl : (done ++ e).length = done.length + e.length := by simp
  have hb := bounds_all (n := (done ++ e).length) (a := done.length) (by omega)
  obtain ⟨r, e1, hf⟩ := c39_any h (by simp [hne]) isStr_colon hb
  rw [e1]
  rcases hf with ⟨k, rfl, h1, h2, ⟨c, hc, hc2⟩, h4⟩ | ⟨rfl, _⟩
  · simp only [List.mem_singleton] at hc2
    subst hc2
    rw [List.getElem?_append_right h1] at hc
    exact absurd (List.mem_of_getElem? hc) he
  · rfl

/-- The candidate made of an entry of PATH. -/
theorem catv_entry (junk : Byte) {m done e rest : List Byte} (h : IsStr m (done ++ e ++ 58 :: rest)) (hne : e ≠ []) {mp prog : List Byte} (hp : IsStr mp prog) (hpne : prog ≠ []) :
    ∃ t, catv junk [⟨m, done.length, ((done.length + e.length : Nat) : Int) - 1⟩, ⟨SEP, 0, -1⟩, ⟨mp, 0, -1⟩] = .ok t ∧ IsStr t (e ++ 47 :: prog) := by
  have hel := List.length_pos_iff.2 hne
  have hl : (done ++ e ++ 58 :: rest).length = done.length + e.length + (rest.length + 1) := by simp; omega
  have s1 : slice (done ++ e ++ 58 :: rest) (done.length : Int) (((done.length + e.length : Nat) : Int) - 1) = some e := by
    rw [show ((done.length + e.length : Nat) : Int) - 1 = ((done.length + e.length - 1 : Nat) : Int) by omega,
      slice_of (bounds_of (position_nat (by omega)) (position_nat (k := done.length + e.length - 1) (by omega)) (by omega)), chars, show done.length + e.length - 1 + 1 = (done ++ e).length by rw [List.length_append]; omega,
      List.take_left, List.drop_left]
  have s2 : slice [47] 0 (-1) = some ([47] : List Byte) := by decide
  have s3 : slice prog 0 (-1) = some prog := slice_whole hpne
  have := c38_catv junk (fun x : Piece => if x.s = m ∧ x.i = done.length ∧ x.j = ((done.length + e.length : Nat) : Int) - 1 then e else if x.s = SEP then [47] else prog)
    [⟨m, done.length, ((done.length + e.length : Nat) : Int) - 1⟩, ⟨SEP, 0, -1⟩, ⟨mp, 0, -1⟩]
  by_cases c1 : SEP = m ∧ (0 : Int) = done.length ∧ (-1 : Int) = ((done.length + e.length : Nat) : Int) - 1
  · omega
  · by_cases c2 : mp = m ∧ (0 : Int) = done.length ∧ (-1 : Int) = ((done.length + e.length : Nat) : Int) - 1
    · omega
    · by_cases c3 : mp = SEP
      · obtain ⟨t, e1, e2⟩ := this (by
          intro x hx
          simp only [List.mem_cons, List.not_mem_nil, or_false] at hx
          rcases hx with rfl | rfl | rfl
          · exact ⟨_, h, by simp, by simpa using s1⟩
          · exact ⟨[47], isStr_sep, by simp, by rw [if_neg c1, if_pos rfl]; exact s2⟩
          · exact ⟨[47], by rw [c3]; exact isStr_sep, by simp, by rw [if_neg c2, if_pos c3]; exact s2⟩)
        have hq : prog = [47] := by
          rw [c3] at hp
          have h1 := hp.cstr
          rw [← h1]; rfl
        refine ⟨t, e1, ?_⟩
        simp only [List.flatMap_cons, List.flatMap_nil, if_neg c1, if_neg c2, if_pos c3, and_self, if_true, List.append_nil] at e2
        simpa [hq] using e2
      · obtain ⟨t, e1, e2⟩ := this (by
          intro x hx
          simp only [List.mem_cons, List.not_mem_nil, or_false] at hx
          rcases hx with rfl | rfl | rfl
          · exact ⟨_, h, by simp, by simpa using s1⟩
          · exact ⟨[47], isStr_sep, by simp, by rw [if_neg c1, if_pos rfl]; exact s2⟩
          · exact ⟨prog, hp, hpne, by rw [if_neg c2, if_neg c3]; exact s3⟩)
        refine ⟨t, e1, ?_⟩
        simp only [List.flatMap_cons, List.flatMap_nil, if_neg c1, if_neg c2, if_neg c3, and_self, if_true, List.append_nil] at e2
        simpa using e2

/-- The loop: the first entry followed by a colon in which the program exists. -/
theorem pathLoop_spec (junk : Byte) (stat : Str → Bool) {mp prog : List Byte} (hp : IsStr mp prog) (hpne : prog ≠ []) (last : Str) (hlast : (58 : Byte) ∉ last) {m s : List Byte} (h : IsStr m s) :
    ∀ (es : List Str) (done : Str), s = done ++ (es.flatMap (· ++ [58]) ++ last) → (∀ e ∈ es, e ≠ [] ∧ (58 : Byte) ∉ e) → ∀ fuel, es.length < fuel →
    (es.find? (fun e => stat (e ++ 47 :: prog)) = none ∧ pathLoop junk stat m mp s.length fuel done.length done.length = .ok none) ∨
    ∃ e t, es.find? (fun e => stat (e ++ 47 :: prog)) = some e ∧ pathLoop junk stat m mp s.length fuel done.length done.length = .ok (some t) ∧ IsStr t (e ++ 47 :: prog) := by
  intro es
  induction es with
  | nil =>
      intro done hs _ fuel hf
      obtain ⟨fuel, rfl⟩ : ∃ k, fuel = k + 1 := ⟨fuel - 1, by simp at hf; omega⟩
      left
      refine ⟨rfl, ?_⟩
      simp only [List.flatMap_nil, List.nil_append] at hs
      rw [pathLoop]
      split
      · next hlt =>
          have hne : last ≠ [] := fun e => by rw [hs, e] at hlt; simp at hlt
          rw [hs] at h
          rw [any_none h hlast hne]
          rfl
      · rfl
  | cons e es ih =>
      intro done hs he fuel hf
      obtain ⟨fuel, rfl⟩ : ∃ k, fuel = k + 1 := ⟨fuel - 1, by simp at hf; omega⟩
      obtain ⟨hene, he58⟩ := he e (by simp)
      have hs' : s = done ++ e ++ 58 :: (es.flatMap (· ++ [58]) ++ last) := by rw [hs]; simp
      have h' := h
      rw [hs'] at h'
      obtain ⟨t, e1, e2⟩ := catv_entry junk h' hene hp hpne
      have hlt : done.length < s.length := by rw [hs']; simp; omega
      have hstep : pathLoop junk stat m mp s.length (fuel + 1) done.length done.length =
          if stat (e ++ 47 :: prog) then .ok (some t) else pathLoop junk stat m mp s.length fuel (done.length + e.length + 1) (done.length + e.length + 1) := by
        rw [pathLoop, if_pos hlt, any_colon h' he58]
        simp only [Outcome.ok_bind]
        rw [if_neg (by omega), e1]
        simp only [Outcome.ok_bind, e2.strlen]
        have htk : t.take (e ++ 47 :: prog).length = e ++ 47 :: prog := by
          obtain ⟨_, r, rfl⟩ := e2
          exact List.take_left
        rw [htk]
        simp only [Int.toNat_natCast]
      rw [hstep, List.find?_cons]
      by_cases hst : stat (e ++ 47 :: prog) = true
      · right
        exact ⟨e, t, by simp [hst], by rw [if_pos hst], e2⟩
      · have := ih (done ++ e ++ [58]) (by rw [hs']; simp) (fun x hx => he x (by simp [hx])) fuel (by simp at hf; omega)
        rw [if_neg hst]
        simp only [hst, Bool.false_eq_true]
        simpa [Nat.add_assoc] using this

/-- PATH as a text: entries that are each followed by a colon, and a last one. -/
def pathText (es : List Str) (last : Str) : Str := es.flatMap (· ++ [58]) ++ last

theorem search_spec {pm : Nat} (hpm : 1 < pm) {st : List Byte} (hb : Buf pm st) (junk : Byte) (env : Env) {mp path : List Byte} (he : env.path = some path) {es : List Str} {last : Str} (hpath : IsStr path (pathText es last))
    (hes : ∀ e ∈ es, e ≠ [] ∧ (58 : Byte) ∉ e ∧ e.length ≤ pm) (hlast : (58 : Byte) ∉ last) {s b : List Byte} (h : IsStr mp s) (hs : s ≠ [])
    (hdir : ∀ e : Str, e ≠ [] → ∃ k, e ++ 47 :: s = (e ++ k) ++ 47 :: b) (hb47 : (47 : Byte) ∉ b) (hbne : b ≠ []) :
    (∃ e k r, es.find? (fun e => env.stat (e ++ 47 :: s)) = some e ∧ e ++ 47 :: s = (e ++ k) ++ 47 :: b ∧ search pm junk env (fill [46] st pm) mp = .ok r ∧ Buf pm r ∧ IsStr r ((e ++ k).take pm)) ∨
    (es.find? (fun e => env.stat (e ++ 47 :: s)) = none ∧ search pm junk env (fill [46] st pm) mp = fallback pm env (fill [46] st pm)) := by
  have hbl := List.length_pos_iff.2 hbne
  have hloop := pathLoop_spec junk env.stat h hs last hlast hpath es [] (by simp [pathText]) (fun e hx => ⟨(hes e hx).1, (hes e hx).2.1⟩) ((pathText es last).length + 1) (by
    have : es.length ≤ (es.flatMap (· ++ [58])).length := by
      clear hpath hes
      induction es with
      | nil => simp
      | cons x xs ih => rw [List.flatMap_cons, List.length_append, List.length_append, List.length_cons]; simp only [List.length_singleton]; omega
    rw [pathText, List.length_append]; omega)
  simp only [List.length_nil] at hloop
  rcases hloop with ⟨f1, f2⟩ | ⟨e, t, f1, f2, f3⟩
  · right
    refine ⟨f1, ?_⟩
    simp only [search, he, hpath.strlen, Outcome.ok_bind, f2]
  · left
    obtain ⟨hene, -, -⟩ := hes e (List.mem_of_find?_eq_some f1)
    obtain ⟨k, hk⟩ := hdir e hene
    have hn0 : ∀ x ∈ e ++ k, x ≠ 0 := fun x hx => f3.1 x (by rw [hk]; exact List.mem_append_left _ hx)
    have hbf := fill_buf hb [46]
    refine ⟨e, k, fill (e ++ k) (fill [46] st pm) pm, f1, hk, ?_, fill_buf hbf _, fill_str hbf hn0⟩
    simp only [search, he, hpath.strlen, Outcome.ok_bind, f2]
    rw [hk] at f3
    exact dirname_exact f3 (b := b) (tail := []) (by simp) (by simp [hene]) hb47 (Or.inl ⟨hbne, rfl⟩) _ pm (by rw [hbf.1]; omega)

theorem fallback_spec {pm : Nat} (hpm : 1 < pm) {st : List Byte} (hb : Buf pm st) (env : Env) {mc c : List Byte} (hc : env.cwd = some mc) (hmc : IsStr mc c) (hcne : c ≠ []) (hfit : c.length ≤ pm) :
    fallback pm env (fill [46] st pm) = .ok (fill c st pm) := by
  obtain ⟨r, e3, e4⟩ := strcmp_ok (fill_str hb (t := [46]) (by decide)) isStr_dot
  rw [List.take_of_length_le (by simp; omega)] at e4
  have hcl := List.length_pos_iff.2 hcne
  simp only [fallback, e3, Outcome.ok_bind, e4.2 rfl, hc, if_true]
  rw [copy_over hb hmc hcne (by simp; omega) hfit]
  rfl

/-- **C84 (search).** For a program given without a directory: the first entry of PATH that is followed by a colon and in which the program exists, otherwise the current directory. Missing: the last entry, if no
colon follows it (`c84_last_violation`), and empty entries (`c84_empty_violation`). -/
theorem c84_search_partial {pm : Nat} (hpm : 1 < pm) {st : List Byte} (hb : Buf pm st) (junk : Byte) (env : Env) {mp path : List Byte} (he : env.path = some path) {es : List Str} {last : Str}
    (hpath : IsStr path (pathText es last)) (hes : ∀ e ∈ es, e ≠ [] ∧ (58 : Byte) ∉ e ∧ e.length ≤ pm) (hlast : (58 : Byte) ∉ last) {s : List Byte} (h : IsStr mp s) (hs : s ≠ []) (hs47 : (47 : Byte) ∉ s)
    {mc c : List Byte} (hc : env.cwd = some mc) (hmc : IsStr mc c) (hcne : c ≠ []) (hfit : c.length ≤ pm) :
    ∃ r, progpath pm junk env st (some mp) = .ok r ∧ Buf pm r ∧ IsStr r ((es.find? fun e => env.stat (e ++ 47 :: s)).getD c) := by
  have hd := fun np hn => dirname_dot_exact h hs hs47 np pm hn
  rw [progpath_eq hpm hb junk env h hs hd (by decide) (by decide) (by simp; omega), if_pos rfl]
  rcases search_spec hpm hb junk env he hpath hes hlast h hs (b := s) (fun e _ => ⟨[], by simp⟩) hs47 hs with ⟨e, k, r, f1, f2, f3, f4, f5⟩ | ⟨f1, f2⟩
  · refine ⟨r, f3, f4, ?_⟩
    have hk : k = [] := by
      have := congrArg List.length f2
      simp only [List.length_append, List.length_cons] at this
      exact List.eq_nil_of_length_eq_zero (by omega)
    obtain ⟨-, -, hl⟩ := hes e (List.mem_of_find?_eq_some f1)
    rw [hk, List.append_nil, List.take_of_length_le hl] at f5
    rw [f1]
    exact f5
  · refine ⟨fill c st pm, by rw [f2, fallback_spec hpm hb env hc hmc hcne hfit], fill_buf hb c, ?_⟩
    have := fill_str hb hmc.1
    rw [List.take_of_length_le hfit] at this
    rw [f1]
    exact this

/-- **C84 (no PATH).** The directory of the running executable, as the system gives it. -/
theorem c84_exe_partial {pm : Nat} (hpm : 1 < pm) {st : List Byte} (hb : Buf pm st) (junk : Byte) (env : Env) (he : env.path = none) {mx d b : List Byte} (hx : env.exe = some mx) (hmx : IsStr mx (d ++ 47 :: b)) (hdne : d ≠ [])
    (hb47 : (47 : Byte) ∉ b) (hbne : b ≠ []) (hfit : d.length ≤ pm) {mp s : List Byte} (h : IsStr mp s) (hs : s ≠ []) (hs47 : (47 : Byte) ∉ s) :
    ∃ r, progpath pm junk env st (some mp) = .ok r ∧ Buf pm r ∧ IsStr r d := by
  have hd := fun np hn => dirname_dot_exact h hs hs47 np pm hn
  have hbf := fill_buf hb [46]
  have hn0 : ∀ x ∈ d, x ≠ 0 := fun x hx => hmx.1 x (List.mem_append_left _ hx)
  refine ⟨fill d (fill [46] st pm) pm, ?_, fill_buf hbf _, ?_⟩
  · rw [progpath_eq hpm hb junk env h hs hd (by decide) (by decide) (by simp; omega), if_pos rfl, search, he, hx]
    exact dirname_exact hmx (b := b) (tail := []) (by simp) hdne hb47 (Or.inl ⟨hbne, rfl⟩) _ pm (by rw [hbf.1]; omega)
  · have := fill_str hbf hn0
    rwa [List.take_of_length_le hfit] at this

/-- **C84 (asking).** NULL and the empty text change nothing. -/
theorem c84_ask (pm : Nat) (junk : Byte) (env : Env) (st : List Byte) {m : List Byte} (h : IsStr m []) : progpath pm junk env st none = .ok st ∧ progpath pm junk env st (some m) = .ok st := by
  obtain ⟨-, rest, rfl⟩ := h
  exact ⟨rfl, rfl⟩

/-- Violation of C84: the last entry of PATH is never tried. Whatever files exist, with a PATH of one entry the result is the current directory. -/
theorem c84_last_violation {pm : Nat} (hpm : 1 < pm) {st : List Byte} (hb : Buf pm st) (junk : Byte) (env : Env) {mp path last : List Byte} (he : env.path = some path) (hpath : IsStr path last)
    (hlast : (58 : Byte) ∉ last) {s : List Byte} (h : IsStr mp s) (hs : s ≠ []) (hs47 : (47 : Byte) ∉ s) {mc c : List Byte} (hc : env.cwd = some mc) (hmc : IsStr mc c) (hcne : c ≠ []) (hfit : c.length ≤ pm) :
    ∃ r, progpath pm junk env st (some mp) = .ok r ∧ IsStr r c := by
  obtain ⟨r, e1, -, e3⟩ := c84_search_partial hpm hb junk env he (es := []) (last := last) (by simpa [pathText] using hpath) (by simp) hlast h hs hs47 hc hmc hcne hfit
  exact ⟨r, e1, e3⟩

/-- Violation of C84: a program given as "./x" is looked up in PATH; if a directory of PATH has a program of that name, the result is that directory and not the current one. -/
theorem c84_dot_violation {pm : Nat} (hpm : 4 < pm) {st : List Byte} (hb : Buf pm st) (junk : Byte) (env : Env) (he : env.path = some [47, 98, 58, 0]) (hstat : env.stat [47, 98, 47, 46, 47, 120] = true) :
    ∃ r, progpath pm junk env st (some [46, 47, 120, 0]) = .ok r ∧ IsStr r [47, 98, 47, 46] := by
  have h : IsStr [46, 47, 120, 0] [46, 47, 120] := ⟨by decide, [], rfl⟩
  have hpath : IsStr [47, 98, 58, 0] (pathText [[47, 98]] []) := ⟨by decide, [], rfl⟩
  have hd := fun np hn => dirname_exact h (d := [46]) (b := [120]) (tail := []) rfl (by decide) (by decide) (Or.inl ⟨by decide, rfl⟩) np pm hn
  rw [progpath_eq (by omega) hb junk env h (by decide) hd (by decide) (by decide) (by simp; omega), if_pos rfl]
  rcases search_spec (by omega) hb junk env he hpath (by
      intro e hx
      simp only [List.mem_singleton] at hx
      subst hx
      exact ⟨by decide, by decide, by simp; omega⟩) (by decide) h (by decide) (b := [120]) (fun e _ => ⟨[47, 46], by simp⟩) (by decide) (by decide) with ⟨e, k, r, f1, f2, f3, f4, f5⟩ | ⟨f1, f2⟩
  · refine ⟨r, f3, ?_⟩
    have he : e = [47, 98] := by
      have := List.mem_of_find?_eq_some f1
      simpa using this
    subst he
    have hk : k = [47, 46] := by
      have h1 : ([47, 98] ++ 47 :: [46, 47, 120] : List Byte) = ([47, 98] ++ [47, 46]) ++ 47 :: [120] := rfl
      rw [h1] at f2
      have := List.append_cancel_right f2
      exact (List.append_cancel_left this).symm
    subst hk
    rw [List.take_of_length_le (by simp; omega)] at f5
    exact f5
  · simp [hstat] at f1

theorem dirname_root {m b : List Byte} (h : IsStr m (47 :: b)) (hb : (47 : Byte) ∉ b) (hbne : b ≠ []) (npath : List Byte) (n : Nat) (hn : n ≤ npath.length) : dirname npath n m = .ok (fill (47 :: b) npath n) := by
  have hbl := List.length_pos_iff.2 hbne
  have hml := h.length
  obtain ⟨r, er, hr⟩ := endsSep h (by simp)
  have hr0 : r ≠ 0 := by
    rw [Ne, hr, List.getLast?_eq_getElem?]
    simp only [List.length_cons, Nat.add_sub_cancel]
    rw [show b.length = (b.length - 1) + 1 by omega, List.getElem?_cons_succ]
    exact fun e => hb (List.mem_of_getElem? e)
  have hfind : rfind m 0 (if r = 0 then -2 else -1) SEP = .ok 0 := by
    rw [if_neg hr0]
    refine (rfind_sep h (by simp) (bounds_all (a := 0) (by simp))).1 0 (by omega) rfl (fun k' h1 h2 e => ?_)
    rw [show k' = (k' - 1) + 1 by omega, List.getElem?_cons_succ] at e
    exact hb (List.mem_of_getElem? e)
  have hsl : slice (47 :: b) 0 (0 - 1) = some (47 :: b) := by
    rw [show (0 - 1 : Int) = -1 by omega, slice_whole (by simp)]
  have hcp := c38_copy h (by simp) 0 (0 - 1) hsl (List.replicate n 0 ++ npath.drop n) n (by simp)
  rw [dirname, memset0_ok hn, h.strlen]
  simp only [Outcome.ok_bind]
  rw [show (((47 :: b).length : Int) - 1) = (((47 :: b).length - 1 : Nat) : Int) by simp, ptr_nat (by omega)]
  simp only [Outcome.ok_bind]
  rw [er]
  simp only [Outcome.ok_bind]
  rw [hfind]
  simp only [Outcome.ok_bind]
  rw [if_neg (by decide), hcp]
  rfl

/-- Violation of C84: of a program in the root directory, the program itself is given as its directory. -/
theorem c84_root_violation {pm : Nat} (hpm : 1 < pm) {st : List Byte} (hb : Buf pm st) (junk : Byte) (env : Env) {m b : List Byte} (h : IsStr m (47 :: b)) (hb47 : (47 : Byte) ∉ b) (hbne : b ≠ []) (hfit : b.length < pm) :
    ∃ r, progpath pm junk env st (some m) = .ok r ∧ IsStr r (47 :: b) := by
  refine ⟨fill (47 :: b) st pm, ?_, ?_⟩
  · rw [progpath_eq hpm hb junk env h (by simp) (fun np hn => dirname_root h hb47 hbne np pm hn) h.1 (by simp) (by simp; omega), if_neg (by simp), located]
    cases env.cwd with
    | none => rfl
    | some c =>
        obtain ⟨x, e1, -, e3⟩ := fill_head hpm hb h.1 (by simp)
        have : x = 47 := by simpa using e3.symm
        simp only [e1, Outcome.ok_bind, this, ne_eq, not_true_eq_false, if_false]
  · have := fill_str hb h.1
    rwa [List.take_of_length_le (by simp; omega)] at this

/-- Violation of C84: an empty entry of PATH stands for the current directory, but "::" is looked for instead. -/
theorem c84_empty_violation (junk : Byte) (stat : Str → Bool) (h1 : stat [58, 47, 98, 58, 47, 120] = false) (h2 : stat [47, 98, 47, 120] = true) :
    pathLoop junk stat [58, 47, 98, 58, 0] [120, 0] 4 5 0 0 = .ok (some [47, 98, 47, 120, 0, junk, junk, junk]) := by
  have e1 : any [58, 47, 98, 58, 0] ((0 : Nat) : Int) (-1) COLON = .ok 0 := by decide +kernel
  have e2 : any [58, 47, 98, 58, 0] ((1 : Nat) : Int) (-1) COLON = .ok 3 := by decide +kernel
  have e3 : catv junk [⟨[58, 47, 98, 58, 0], ((0 : Nat) : Int), 0 - 1⟩, ⟨SEP, 0, -1⟩, ⟨[120, 0], 0, -1⟩] = .ok [58, 47, 98, 58, 47, 120, 0, junk, junk, junk] := rfl
  have e4 : catv junk [⟨[58, 47, 98, 58, 0], ((1 : Nat) : Int), 3 - 1⟩, ⟨SEP, 0, -1⟩, ⟨[120, 0], 0, -1⟩] = .ok [47, 98, 47, 120, 0, junk, junk, junk] := rfl
  rw [pathLoop, if_pos (by decide), e1]
  simp only [Outcome.ok_bind]
  rw [if_neg (by decide), e3]
  simp only [Outcome.ok_bind, show strlen [58, 47, 98, 58, 47, 120, 0, junk, junk, junk] = .ok 6 from rfl, List.take_succ_cons, List.take_zero, h1, Bool.false_eq_true, if_false]
  rw [pathLoop, if_pos (by decide), show ((0 : Int).toNat + 1 : Nat) = 1 from rfl, e2]
  simp only [Outcome.ok_bind]
  rw [if_neg (by decide), e4]
  simp only [Outcome.ok_bind, show strlen [47, 98, 47, 120, 0, junk, junk, junk] = .ok 4 from rfl, List.take_succ_cons, List.take_zero, h2, if_true]

/-- Violation of C84: without PATH, if the system does not tell the executable (an empty text, zt_progname.c 102-104), memory before the text is read. -/
theorem c84_exe_violation {pm : Nat} (hpm : 1 < pm) {st : List Byte} (hb : Buf pm st) (junk : Byte) (env : Env) (he : env.path = none) (hx : env.exe = some (List.replicate (pm + 1) 0)) :
    progpath pm junk env st (some [120, 0]) = .ub := by
  have h : IsStr [120, 0] [120] := ⟨by decide, [], rfl⟩
  have hd := fun np hn => dirname_dot_exact h (by decide) (by decide) np pm hn
  have hbf := fill_buf hb [46]
  rw [progpath_eq hpm hb junk env h (by decide) hd (by decide) (by decide) (by simp; omega), if_pos rfl, search, he, hx]
  have hz : IsStr (List.replicate (pm + 1) 0) [] := ⟨by simp, List.replicate pm 0, by simp [List.replicate_succ]⟩
  simp only [dirname, memset0_ok (show pm ≤ (fill [46] st pm).length by rw [hbf.1]; omega), Outcome.ok_bind, hz.strlen]
  rfl

/-- Hypotheses of `c84_search_partial`: PATH is "/a:/b:", the program "x" is in /b. -/
example : ∃ (env : Env) (st : List Byte), env.path = some (pathText [[47, 97], [47, 98]] [] ++ [0]) ∧ IsStr (pathText [[47, 97], [47, 98]] [] ++ [0]) (pathText [[47, 97], [47, 98]] []) ∧ Buf 20 st ∧
    (([[47, 97], [47, 98]] : List Str).find? fun e => env.stat (e ++ 47 :: [120])) = some [47, 98] :=
  ⟨⟨some (pathText [[47, 97], [47, 98]] [] ++ [0]), none, fun s => s == [47, 98, 47, 120], some [47, 0]⟩, List.replicate 21 0, rfl, ⟨by decide, [], rfl⟩, ⟨rfl, rfl⟩, by decide⟩

/-- Hypotheses of `c84_rel_partial`: the program "./s/x" in the current directory "/w". -/
example : IsStr ([46, 47, 115, 47, 120, 0] : List Byte) ([46, 47, 115] ++ 47 :: [120]) ∧ undot [46, 47, 115] = [115] ∧ (undot [46, 47, 115]).head? ≠ some 47 ∧ ([47, 119] : List Byte).getLast? ≠ some 47 :=
  ⟨⟨by decide, [], rfl⟩, rfl, by decide, by decide⟩

end ZT.Prog
