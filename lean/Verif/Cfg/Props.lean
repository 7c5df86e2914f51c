import Verif.Cfg.Store

/-!
# C46: configurations
-/

namespace ZT.Cfg

open Spec

section
variable {F : Type} (fl : Floats F)

/-- C46: after any sequence of writes, zt_cfg_get returns -1 for a variable that was not written; for a variable whose links end at a value it returns the type and the value, and -1 if another type is asked for. Missing: a variable whose links form a
circle (which zt_cfg_set and files can make, see c46_loop_violation) makes zt_cfg_get run forever: it has no result with any number of iterations. -/
theorem c46_get_partial {h : List (Str × Str × Str)} {M : Map F} (hM : History fl h M) :
    ∃ cfg, run fl h new = .ok cfg ∧ (∀ b n, M b n = none → ∀ ty fuel, get fuel cfg b n ty = .ok (-1, none)) ∧
      (∀ b n c, Resolves M b n c → ∀ ty, Runs (fun fuel => get fuel cfg b n ty) (if c.ty = ty then (ty.code, some c) else (-1, none))) ∧
      (∀ b n, M b n ≠ none → (∀ c, ¬ Resolves M b n c) → ∀ ty fuel, get fuel cfg b n ty = .ub) := by
  obtain ⟨cfg, e, hi, hr⟩ := history_rep fl hM
  refine ⟨cfg, e, ?_, ?_, ?_⟩
  · intro b n hn ty fuel
    rw [get_eq]
    cases hf : find cfg b n with
    | none => rfl
    | some x => obtain ⟨en, he, _⟩ := rep_some hr hf; rw [hn] at he; cases he
  · intro b n c hc ty
    have hd : M b n ≠ none := by cases hc with
      | val h => rw [h]; simp
      | link h _ => rw [h]; simp
    cases hf : find cfg b n with
    | none => exact absurd (rep_none hr hf) hd
    | some x =>
      obtain ⟨k, hk⟩ := follow_resolves hr hc x hf
      refine ⟨k, fun fuel hfu => ?_⟩
      simp only [get_eq, hf, hk fuel hfu, Outcome.ok_bind]
      by_cases ht : c.ty = ty
      · rw [if_pos ht, if_pos ht, ht]; rfl
      · rw [if_neg ht, if_neg ht]; rfl
  · intro b n hd hc ty fuel
    rw [get_eq]
    cases hf : find cfg b n with
    | none => exact absurd (rep_none hr hf) hd
    | some x =>
      rcases follow_total cfg fuel x with h | ⟨c, h⟩
      · simp only [h, Outcome.ub_bind]
      · exact absurd (follow_ok hr fuel hf h) (hc c)

/-- Every sequence of writes makes a map: the hypothesis of the theorem is always met. -/
theorem c46_total (h : List (Str × Str × Str)) : ∃ M, History fl h M := history_exists fl h

theorem history_unique_step {h : List (Str × Str × Str)} {b n s : Str} {M' : Map F} (hM : History fl (h ++ [(b, n, s)]) M') : ∃ M, History fl h M ∧ Wrote fl M b n s M' := by
  generalize hl : h ++ [(b, n, s)] = l at hM
  cases hM with
  | nil => simp at hl
  | @snoc h' M _ b' n' s' hM hw =>
    have := List.append_inj' hl rfl
    obtain ⟨rfl, he⟩ := this
    cases he
    exact ⟨M, hM, hw⟩

theorem history_frame {h' : List (Str × Str × Str)} : ∀ {h : List (Str × Str × Str)} {M M' : Map F}, History fl (h ++ h') M' → ∀ b n, (∀ e ∈ h', ¬ (e.1 = b ∧ e.2.1 = n)) → ∃ M, History fl h M ∧ M' b n = M b n := by
  have key : ∀ k, ∀ h' : List (Str × Str × Str), h'.length = k → ∀ {h : List (Str × Str × Str)} {M' : Map F}, History fl (h ++ h') M' → ∀ b n, (∀ e ∈ h', ¬ (e.1 = b ∧ e.2.1 = n)) → ∃ M, History fl h M ∧ M' b n = M b n := by
    intro k
    induction k with
    | zero => intro h' hl h M' hM b n _; rw [List.length_eq_zero_iff] at hl; subst hl; rw [List.append_nil] at hM; exact ⟨M', hM, rfl⟩
    | succ k ih =>
      intro h' hl h M' hM b n hn
      have hne : h' ≠ [] := by rintro rfl; cases hl
      have e := (List.dropLast_concat_getLast hne)
      rw [← e, ← List.append_assoc] at hM
      obtain ⟨M1, h1, hw⟩ := history_unique_step fl (b := (h'.getLast hne).1) (n := (h'.getLast hne).2.1) (s := (h'.getLast hne).2.2) hM
      obtain ⟨M, h2, h3⟩ := ih h'.dropLast (by simp [hl]) h1 b n fun x hx => hn x (by rw [List.dropLast_eq_take] at hx; exact List.mem_of_mem_take hx)
      refine ⟨M, h2, ?_⟩
      rw [hw.1 b n fun hb => hn _ (List.getLast_mem hne) ⟨hb.1.symm, hb.2.symm⟩, h3]
  intro h M M' hM b n hn
  exact key _ h' rfl hM b n hn

/-- C46, last write wins: the text written last to a variable is what zt_cfg_get returns, whatever was written before, and to other variables afterwards, if it is not of the form block.name. -/
theorem c46_last {h h' : List (Str × Str × Str)} {b n s : Str} {c : Cell F} (hd : Denotes fl s c) (hs : ∀ p q, c ≠ .str (p ++ 0x2E :: q)) (hn : ∀ e ∈ h', ¬ (e.1 = b ∧ e.2.1 = n)) :
    ∃ cfg, run fl (h ++ (b, n, s) :: h') new = .ok cfg ∧ Runs (fun fuel => get fuel cfg b n c.ty) (c.ty.code, some c) := by
  obtain ⟨M', hM'⟩ := history_exists fl (h ++ (b, n, s) :: h')
  obtain ⟨cfg, e, _, hget, _⟩ := c46_get_partial fl hM'
  refine ⟨cfg, e, ?_⟩
  rw [show h ++ (b, n, s) :: h' = (h ++ [(b, n, s)]) ++ h' by simp] at hM'
  obtain ⟨M1, h1, h2⟩ := history_frame fl (M := M') hM' b n hn
  obtain ⟨M, _, _, c', hd', h3⟩ := history_unique_step fl h1
  have hc : c' = c := by rw [denotes_unique fl hd', denotes_unique fl hd]
  subst hc
  rcases h3 with ⟨p, q, h4, _⟩ | ⟨_, h4⟩
  · exact absurd h4.1 (hs p q)
  · have := hget b n c' (.val (by rw [h2, h4])) c'.ty
    rwa [if_pos rfl] at this

/-- C46, links: after writing `p.q` to a variable, for `p.q` written before, it stands for the current value of `p.q`, also when that is written again. -/
theorem c46_link {h : List (Str × Str × Str)} {b n p q s t : Str} {c : Cell F} (hp : 0x2E ∉ p) (hn : ¬ (p = b ∧ q = n)) (ht : Denotes fl t (.str (p ++ 0x2E :: q))) (hw : ∃ e ∈ h, e.1 = p ∧ e.2.1 = q) (hd : Denotes fl s c)
    (hs : ∀ p q, c ≠ .str (p ++ 0x2E :: q)) :
    ∃ cfg, run fl (h ++ [(b, n, t), (p, q, s)]) new = .ok cfg ∧ Runs (fun fuel => get fuel cfg b n c.ty) (c.ty.code, some c) := by
  obtain ⟨M, hM⟩ := history_exists fl h
  have hdef : M p q ≠ none := by
    clear hd ht hs
    induction hM with
    | nil => obtain ⟨e, he, _⟩ := hw; cases he
    | @snoc h M M' b' n' s' hM hwr ih =>
      by_cases e : p = b' ∧ q = n'
      · obtain ⟨rfl, rfl⟩ := e
        obtain ⟨c', _, h | h⟩ := hwr.2
        · obtain ⟨_, _, _, h⟩ := h; rw [h]; simp
        · rw [h.2]; simp
      · rw [hwr.1 p q e]
        refine ih ?_
        obtain ⟨e', he', h1, h2⟩ := hw
        rcases List.mem_append.1 he' with h | h
        · exact ⟨e', h, h1, h2⟩
        · simp only [List.mem_singleton] at h; subst h; exact absurd ⟨h1.symm, h2.symm⟩ e
  obtain ⟨M1, hM1⟩ := wrote_exists fl M b n t
  obtain ⟨M2, hM2⟩ := wrote_exists fl M1 p q s
  have hh := History.snoc (History.snoc hM hM1) hM2
  have e1 : h ++ [(b, n, t)] ++ [(p, q, s)] = h ++ [(b, n, t), (p, q, s)] := by simp
  rw [e1] at hh
  obtain ⟨cfg, e, _, hget, _⟩ := c46_get_partial fl hh
  refine ⟨cfg, e, ?_⟩
  have hl : M1 b n = some (.link p q) := by
    obtain ⟨_, c', hc', h⟩ := hM1
    have : c' = .str (p ++ 0x2E :: q) := by rw [denotes_unique fl hc', denotes_unique fl ht]
    subst this
    rcases h with ⟨p', q', h1, h2⟩ | ⟨h1, _⟩
    · have hsp := (splitDot_some (p := p') (q := q')).2 ⟨rfl, h1.2.1⟩
      have hsp2 := (splitDot_some (p := p) (q := q)).2 ⟨rfl, hp⟩
      have heq : p ++ 0x2E :: q = p' ++ 0x2E :: q' := by have := h1.1; simpa using this
      rw [← heq, hsp2] at hsp
      cases hsp; exact h2
    · exact absurd ⟨rfl, hp, Or.inl hdef⟩ (h1 p q)
  have hv : M2 p q = some (.val c) := by
    obtain ⟨_, c', hc', h⟩ := hM2
    have : c' = c := by rw [denotes_unique fl hc', denotes_unique fl hd]
    subst this
    rcases h with ⟨p', q', h1, _⟩ | ⟨_, h2⟩
    · exact absurd h1.1 (hs p' q')
    · exact h2
  have hl2 : M2 b n = some (.link p q) := by rw [hM2.1 b n fun e => hn ⟨e.1.symm, e.2.symm⟩, hl]
  have := hget b n c (.link hl2 (.val hv)) c.ty
  rwa [if_pos rfl] at this

/-! ## zt_cfg_set -/

theorem digits_head {m : Nat} (hm : 0 < m) : (Num.digits 10 m).head? ≠ some 0x30 := by
  induction m using Nat.strongRecOn with
  | ind m ih =>
    by_cases h : m < 10
    · rw [Num.digits_lt h, Num.byte_digit h]
      simp only [List.head?_cons, ne_eq, Option.some.injEq, ← UInt8.toNat_inj, UInt8.toNat_ofNat']
      show ¬ (_ = 48)
      omega
    · rw [Num.digits_ge (by decide) (by omega)]
      have := ih (m / 10) (by omega) (by omega)
      cases hd : Num.digits 10 (m / 10) with
      | nil => exact absurd hd (Num.digits_ne_nil _ _)
      | cons b t => rw [hd] at this; simpa using this

theorem digits_dec (m : Nat) : ∀ b ∈ Num.digits 10 m, IsDec b := by
  induction m using Nat.strongRecOn with
  | ind m ih =>
    have last : ∀ d, d < 10 → IsDec (Num.byte d.digitChar) := by
      intro d hd
      rw [Num.byte_digit hd]
      simp only [IsDec, UInt8.le_iff_toNat_le, UInt8.toNat_ofNat']
      show 48 ≤ _ ∧ _ ≤ 57
      omega
    by_cases h : m < 10
    · rw [Num.digits_lt h]
      intro b hb
      simp only [List.mem_singleton] at hb
      subst hb; exact last m h
    · rw [Num.digits_ge (by decide) (by omega)]
      intro b hb
      rcases List.mem_append.1 hb with hb | hb
      · exact ih (m / 10) (by omega) b hb
      · simp only [List.mem_singleton] at hb
        subst hb; exact last _ (by omega)

theorem digits_const (m : Nat) : Constant (Num.digits 10 m) m := by
  by_cases hm : m = 0
  · subst hm; exact .oct [] (by simp)
  · have := Constant.dec _ (Num.digits_ne_nil 10 m) (digits_dec m) (digits_head (by omega))
    have e : number 10 (Num.digits 10 m) = m := by
      have h := Num.value_digits (b := 10) (n := m) (by decide) (by decide)
      rw [← h]
      unfold number
      conv => rhs; rw [h]
      have key : ∀ (l : Str) (a : Nat), (∀ b ∈ l, IsDec b) → l.foldl (fun n b => n * 10 + digit b) a = l.foldl (fun a c => 10 * a + (c.toNat - 48)) a := by
        intro l
        induction l with
        | nil => intro a _; rfl
        | cons b l ih =>
          intro a hl
          simp only [List.foldl_cons]
          have hb := hl b (by simp)
          have e1 : digit b = b.toNat - 48 := by
            obtain ⟨h1, h2⟩ := hb
            obtain ⟨e1, e2, e3, e4, e5, e6, e7, e8, e9⟩ := u8
            simp only [UInt8.le_iff_toNat_le, e1, e2] at h1 h2
            unfold digit
            simp only [UInt8.le_iff_toNat_le, e4, e7]
            rw [if_neg (by omega), if_neg (by omega)]
          rw [e1, Nat.mul_comm a 10]
          exact ih _ fun x hx => hl x (by simp [hx])
      have := key (Num.digits 10 m) 0 (digits_dec m)
      rw [h] at this ⊢
      exact this
    rw [e] at this; exact this

theorem signed_int {v : Int} (h1 : -2 ^ 63 ≤ v) (h2 : v < 2 ^ 63) : IntText (Num.signed v) v := by
  have hn : nearest v = v := by unfold nearest; omega
  unfold Num.signed
  by_cases hv : v < 0
  · rw [if_pos hv]
    have := IntText.minus [] _ _ (by simp) (digits_const v.natAbs)
    have e : -((v.natAbs : Nat) : Int) = v := by omega
    rw [e, hn] at this
    exact this
  · rw [if_neg hv]
    have := IntText.plain [] _ _ (by simp) (digits_const v.natAbs)
    have e : ((v.natAbs : Nat) : Int) = v := by omega
    rw [e, hn] at this
    exact this

theorem signed_length {v : Int} (h1 : -2 ^ 63 ≤ v) (h2 : v < 2 ^ 63) : (Num.signed v).length ≤ 1023 := by
  unfold Num.signed
  have := (Num.digits_length_le (b := 10) (n := v.natAbs) (k := 20) (by decide) (by decide)).2 (by omega)
  split <;> simp <;> omega

theorem set_text {cfg cfg' : Cfg F} {b n s : Str} {a : Arg F} (ha : argText fl a = .ok (some s)) (h : insert fl cfg b n s = .ok cfg') : set fl cfg b n a = .ok (cfg', 1) := by
  unfold set; rw [ha]; simp only [Outcome.ok_bind, h]; rfl

/-- C46: zt_cfg_set of any `long` succeeds, is the write of its decimal text, and is what zt_cfg_get returns. -/
theorem c46_set_int {h : List (Str × Str × Str)} {cfg : Cfg F} (hc : run fl h new = .ok cfg) (b n : Str) {v : Int} (h1 : -2 ^ 63 ≤ v) (h2 : v < 2 ^ 63) :
    ∃ cfg', set fl cfg b n (.int v) = .ok (cfg', 1) ∧ run fl (h ++ [(b, n, Num.signed v)]) new = .ok cfg' ∧ Runs (fun fuel => get fuel cfg' b n .int) (1, some (.int v)) := by
  obtain ⟨cfg', e, hg⟩ := c46_last fl (h := h) (h' := []) (b := b) (n := n) (.int _ v (signed_int h1 h2)) (by simp) (by simp)
  refine ⟨cfg', ?_, e, hg⟩
  refine set_text fl (s := Num.signed v) ?_ ?_
  · simp only [argText]; rw [List.take_of_length_le (signed_length h1 h2)]
  · rw [run_append, hc] at e
    simp only [Outcome.ok_bind, run] at e
    obtain ⟨c, e1, e2⟩ := Outcome.bind_eq_ok.1 e
    cases e2; exact e1

/-- C46: zt_cfg_set of a string of up to 1023 bytes that does not look like a number, a truth value, a quoted text or a link is what zt_cfg_get returns. Missing: the other strings, see c46_string_violation. -/
theorem c46_set_string_partial {h : List (Str × Str × Str)} {cfg : Cfg F} (hc : run fl h new = .ok cfg) (b n : Str) {s : Str} (hl : s.length ≤ 1023) (h1 : ¬ Number fl s) (h2 : ¬ IsTrue s) (h3 : ¬ IsFalse s) (h4 : ∀ q, s.head? = some q → ¬ IsQuote q)
    (h5 : 0x2E ∉ s) : ∃ cfg', set fl cfg b n (.str s) = .ok (cfg', 1) ∧ run fl (h ++ [(b, n, s)]) new = .ok cfg' ∧ Runs (fun fuel => get fuel cfg' b n .string) (3, some (.str s)) := by
  obtain ⟨cfg', e, hg⟩ := c46_last fl (h := h) (h' := []) (b := b) (n := n) (.str s h1 h2 h3 h4) (fun p q e => h5 (by cases e; simp)) (by simp)
  refine ⟨cfg', ?_, e, hg⟩
  refine set_text fl (s := s) ?_ ?_
  · simp only [argText]; rw [List.take_of_length_le hl]
  · rw [run_append, hc] at e
    simp only [Outcome.ok_bind, run] at e
    obtain ⟨c, e1, e2⟩ := Outcome.bind_eq_ok.1 e
    cases e2; exact e1

/-- C46: zt_cfg_set of a truth value given as the text the code wants ("yes", "false", ...; its address does not end in 32 bits that are 0 or 1) is what zt_cfg_get returns. Missing: truth values given as `int`, see c46_bool_violation. -/
theorem c46_set_bool_partial {h : List (Str × Str × Str)} {cfg : Cfg F} (hc : run fl h new = .ok cfg) (b n : Str) {s : Str} {low v : Int} (hl : low ≠ 0 ∧ low ≠ 1) (h1 : ¬ Number fl s) (h2 : IsTrue s ∧ v = 1 ∨ IsFalse s ∧ v = 0) (hs : s.length ≤ 1023) :
    ∃ cfg', set fl cfg b n (.boolStr low s) = .ok (cfg', 1) ∧ run fl (h ++ [(b, n, s)]) new = .ok cfg' ∧ Runs (fun fuel => get fuel cfg' b n .bool) (0, some (.bool v)) := by
  have hd : Denotes fl s (.bool v) := by
    rcases h2 with ⟨h2, rfl⟩ | ⟨h2, rfl⟩
    · exact .true _ h1 h2
    · exact .false _ h1 h2
  obtain ⟨cfg', e, hg⟩ := c46_last fl (h := h) (h' := []) (b := b) (n := n) hd (by simp) (by simp)
  refine ⟨cfg', ?_, e, hg⟩
  refine set_text fl (s := s) ?_ ?_
  · simp only [argText]; rw [if_neg (by omega), List.take_of_length_le hs]
  · rw [run_append, hc] at e
    simp only [Outcome.ok_bind, run] at e
    obtain ⟨c, e1, e2⟩ := Outcome.bind_eq_ok.1 e
    cases e2; exact e1

/-- C46 is violated: of a longer string only the first 1023 bytes are written, and the call succeeds. -/
theorem c46_cut_violation {h : List (Str × Str × Str)} {cfg : Cfg F} (hc : run fl h new = .ok cfg) (b n : Str) {s : Str} (hl : 1023 < s.length) :
    ∃ cfg', set fl cfg b n (.str s) = .ok (cfg', 1) ∧ run fl (h ++ [(b, n, s.take 1023)]) new = .ok cfg' ∧ s.take 1023 ≠ s := by
  obtain ⟨M, hM⟩ := history_exists fl (h ++ [(b, n, s.take 1023)])
  obtain ⟨cfg', e, _⟩ := c46_get_partial fl hM
  refine ⟨cfg', ?_, e, fun he => ?_⟩
  · refine set_text fl (s := s.take 1023) (by simp only [argText]) ?_
    rw [run_append, hc] at e
    simp only [Outcome.ok_bind, run] at e
    obtain ⟨c, e1, e2⟩ := Outcome.bind_eq_ok.1 e
    cases e2; exact e1
  · have := congrArg List.length he
    rw [List.length_take] at this; omega

/-- C46: zt_cfg_set of a `double` whose text strtod reads back (and which is not an integer constant). The value is what strtod makes of the text of "%f". -/
theorem c46_set_float_partial {h : List (Str × Str × Str)} {cfg : Cfg F} (hc : run fl h new = .ok cfg) (b n : Str) {x y : F} (hl : (fl.print x).length ≤ 1023) (h1 : ∀ k, ¬ IntText (fl.print x) k) (h2 : fl.read (fl.print x) = some y) :
    ∃ cfg', set fl cfg b n (.float x) = .ok (cfg', 1) ∧ Runs (fun fuel => get fuel cfg' b n .float) (2, some (.float y)) := by
  obtain ⟨cfg', e, hg⟩ := c46_last fl (h := h) (h' := []) (b := b) (n := n) (.float _ y h1 h2) (by simp) (by simp)
  refine ⟨cfg', ?_, hg⟩
  refine set_text fl (s := fl.print x) ?_ ?_
  · simp only [argText]; rw [List.take_of_length_le hl]
  · rw [run_append, hc] at e
    simp only [Outcome.ok_bind, run] at e
    obtain ⟨c, e1, e2⟩ := Outcome.bind_eq_ok.1 e
    cases e2; exact e1

/-! ## What does not hold -/

/-- C46 is violated: a variable that links to itself makes zt_cfg_get run forever. -/
theorem c46_loop_violation (hfl : fl.read (globalName ++ [0x2E, 0x78]) = none) :
    ∃ cfg, set fl new globalName [0x78] (.str (globalName ++ [0x2E, 0x78])) = .ok (cfg, 1) ∧ ∀ ty fuel, get fuel cfg globalName [0x78] ty = .ub := by
  obtain ⟨M, hM⟩ := history_exists fl [(globalName, [0x78], globalName ++ [0x2E, 0x78])]
  obtain ⟨cfg, e, _, _, h3⟩ := c46_get_partial fl hM
  obtain ⟨M0, _, hw⟩ := history_unique_step fl (h := []) hM
  have hd : Denotes fl (globalName ++ [0x2E, 0x78]) (.str (globalName ++ [0x2E, 0x78])) := by
    refine .str _ ?_ ?_ ?_ ?_
    · rw [number_iff]; rintro (h | h)
      · exact absurd h (by decide)
      · exact h hfl
    · simp [IsTrue, Same, globalName]
    · simp [IsFalse, Same, globalName]
    · intro q hq; cases hq; simp [IsQuote]
  have hl : M globalName [0x78] = some (.link globalName [0x78]) := by
    obtain ⟨_, c, hc, h⟩ := hw
    rw [denotes_unique fl hc, ← denotes_unique fl hd] at h
    rcases h with ⟨p, q, h1, h2⟩ | ⟨h1, _⟩
    · have hsp := (splitDot_some (p := p) (q := q)).2 ⟨rfl, h1.2.1⟩
      have heq : globalName ++ [0x2E, 0x78] = p ++ 0x2E :: q := by have := h1.1; simpa using this
      rw [← heq] at hsp
      have : splitDot (globalName ++ [0x2E, 0x78]) = some (globalName, [0x78]) := by decide
      rw [this] at hsp; cases hsp; exact h2
    · exact absurd ⟨rfl, by decide, Or.inr ⟨rfl, rfl⟩⟩ (h1 globalName [0x78])
  refine ⟨cfg, ?_, h3 globalName [0x78] (by rw [hl]; simp) ?_⟩
  · refine set_text fl (s := globalName ++ [0x2E, 0x78]) rfl ?_
    simp only [run] at e
    obtain ⟨c, e1, e2⟩ := Outcome.bind_eq_ok.1 e
    cases e2; exact e1
  · have key : ∀ b n c, Resolves M b n c → ¬ (b = globalName ∧ n = [0x78]) := by
      intro b n c h
      induction h with
      | val h => rintro ⟨rfl, rfl⟩; rw [hl] at h; cases h
      | link h _ ih => rintro ⟨rfl, rfl⟩; rw [hl] at h; cases h; exact ih ⟨rfl, rfl⟩
    intro c h; exact key _ _ _ h ⟨rfl, rfl⟩

/-- C46 is violated: for no configuration and no truth value given as `int` does zt_cfg_set write it. -/
theorem c46_bool_violation (cfg : Cfg F) (b n : Str) (v : Int) (hv : v = 0 ∨ v = 1) : set fl cfg b n (.boolInt v) = .ok (cfg, -1) := by
  rcases hv with rfl | rfl <;> rfl

/-- C46 is violated: a string of digits that was set as a string cannot be read as a string. -/
theorem c46_string_violation : ∃ cfg, set fl new [0x62] [0x78] (.str [0x31, 0x32]) = .ok (cfg, 1) ∧ Runs (fun fuel => get fuel cfg [0x62] [0x78] .string) (-1, none) := by
  refine ⟨_, rfl, 1, fun fuel hf => ?_⟩
  obtain ⟨k, rfl⟩ : ∃ k, fuel = k + 1 := ⟨fuel - 1, by omega⟩
  rfl

/-- C46 is violated: reading a truth value succeeds with 0, which is documented to be the failure. -/
theorem c46_result_violation (hfl : fl.read [0x79, 0x65, 0x73] = none) : ∃ cfg, run fl [([0x62], [0x78], [0x79, 0x65, 0x73])] new = .ok cfg ∧ Runs (fun fuel => get fuel cfg [0x62] [0x78] .bool) (0, some (.bool 1)) := by
  have hd : Denotes fl [0x79, 0x65, 0x73] (.bool 1) := .true _ (by rw [number_iff]; rintro (h | h); exact absurd h (by decide); exact h hfl) (Or.inl (by simp [Same]))
  exact c46_last fl (h := []) (h' := []) hd (by simp) (by simp)

end

/-- c46_last and c46_link apply: `a.x = 1`, then `b.y = a.x`, then `a.x = 0x10`; with a strtod that reads nothing. -/
example : ∃ cfg, run (⟨fun _ => none, fun _ => []⟩ : Floats Unit) [([0x61], [0x78], [0x31]), ([0x62], [0x79], [0x61, 0x2E, 0x78]), ([0x61], [0x78], [0x30, 0x78, 0x31, 0x30])] new = .ok cfg ∧ Runs (fun fuel => get fuel cfg [0x62] [0x79] .int) (1, some (.int 16)) := by
  refine c46_link _ (h := [([0x61], [0x78], [0x31])]) (b := [0x62]) (n := [0x79]) (p := [0x61]) (q := [0x78]) (by decide) (by decide) (.str _ ?_ ?_ ?_ ?_) ⟨_, List.mem_singleton.2 rfl, rfl, rfl⟩ (c := .int 16) (.int _ _ ?_) (by simp)
  · rw [number_iff]; rintro (h | h)
    · exact absurd h (by decide)
    · exact h rfl
  · simp [IsTrue, Same]
  · simp [IsFalse, Same]
  · intro q hq; cases hq; simp [IsQuote]
  · exact (intText_iff _ _).2 ⟨by simp, by decide⟩

end ZT.Cfg
