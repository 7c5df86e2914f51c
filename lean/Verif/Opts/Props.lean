import Verif.Opts.General

/-!
# C45, C68: command lines
-/

namespace ZT.Opts

/-! ## C68 -/

/-- C68: zt_opt_validate_default reports nothing exactly if the table is well formed: with a handler that counts, the count stays 0. -/
theorem c68_validate (defs : List Def) (n : Nat) : validateDefault (fun k : Nat => some (k + 1)) defs n = some n ↔ Table defs := by
  have count : ∀ k n : Nat, errors (fun k : Nat => some (k + 1)) k n = some (n + k) := by
    intro k
    induction k with
    | zero => intro n; rfl
    | succ k ih => intro n; rw [errors]; show errors _ k (n + 1) = _; rw [ih]; congr 1; omega
  rw [validateDefault, count, ← problems_iff]
  constructor
  · intro h; injection h; omega
  · intro h; rw [h]; rfl

/-- C68: with the handler of the library the process goes on exactly if the table is well formed. -/
theorem c68_exits {σ : Type} (defs : List Def) (s : σ) : validateDefault exits defs s = some s ↔ Table defs := by
  rw [← problems_iff, validateDefault]
  cases problems defs defs 0 with
  | zero => simp [errors]
  | succ k => simp [errors, exits]

theorem validate_ok {σ : Type} {defs : List Def} (h : Table defs) (err : Handler σ) (s : σ) : validateDefault err defs s = some s := by
  rw [validateDefault, (problems_iff defs).2 h]; rfl

/-! ## C45: every command line -/

theorem table_names {defs : List Def} (hT : Table defs) (hP : Plain defs) : ∀ d ∈ defs, d.sopt ≠ 0 ∧ d.lopt ≠ some [] := by
  intro d h
  constructor
  · by_cases e : d.sopt = NSO
    · rw [e]; decide
    · exact (alnum_ne (hT.short d h e)).1
  · intro e; exact (hP d h [] e).1 rfl

/-- C45: for every command line, table (checked or not, but without the names NUL and "") and error handler: if the callbacks are defined and keep `I` when called at an argument that begins with '-' for an option that occurs in this argument, and the handler
and the validation keep `I`, then zt_opt_process_args reads only argv[0..argc), terminates and keeps `I`: there are no other calls. It exits, or returns the negative value of a callback and leaves `*argc`, or returns 0 with `*argc` the
position of an argument that does not begin with '-' or past the end. -/
theorem c45_general {σ : Type} {defs : List Def} {cb : Callback σ} {I : σ → Prop} {argv : List Str} {err : Handler σ} {validate : List Def → Handler σ} (hS : ∀ d ∈ defs, d.sopt ≠ 0 ∧ d.lopt ≠ some [])
    (hcb : ∀ i a x s, 0 < i → argv[i]? = some a → hd a = 0x2D → Names defs a x → I s → ∃ r, cb i x s = .ok r ∧ Keeps I r) (herr : ∀ s s', I s → err s = some s' → I s')
    (hval : ∀ s s', I s → validate defs s = some s' → I s') (s : σ) (hI : I s) :
    ∃ r, process defs cb argv argv.length validate err s = .ok r ∧
      (r = .exit ∨ ∃ code k s', r = .ret (code, k) s' ∧ I s' ∧ ((code < 0 ∧ k = argv.length ∧ ∃ i x s0, cb i x s0 = .ok (.ret code s')) ∨ (code = 0 ∧ 1 ≤ k ∧ ∀ a, argv[k]? = some a → hd a ≠ 0x2D))) := by
  unfold process
  cases hv : validate defs s with
  | none => exact ⟨.exit, rfl, Or.inl rfl⟩
  | some s1 =>
    obtain ⟨r, hr, hg⟩ := loop_good hS hcb herr (argv.length + 1) 1 s1 (by decide) ⟨by omega, by omega⟩ (hval s s1 hI hv)
    refine ⟨r, hr, ?_⟩
    cases r with
    | exit => exact Or.inl rfl
    | ret a s' => exact Or.inr ⟨a.1, a.2, s', rfl, hg.1, hg.2⟩

theorem skip_ne {a : Str} {b : Byte} (h : b ∈ a) (hb : b ≠ 0x2D) : skipDashes a ≠ [] := by
  induction a with
  | nil => cases h
  | cons c t ih =>
    rw [skipDashes]
    split
    · rename_i e
      rcases List.mem_cons.1 h with h | h
      · exact absurd (h.trans e) hb
      · exact ih h
    · simp

theorem value_good {defs : List Def} (hT : Table defs) (hP : Plain defs) {argv : List Str} {i x : Nat} {a : Str} (ha : argv[i]? = some a) (hn : Names defs a x) (hl : HasLong defs x) (s : Store) :
    getValue defs argv exits i x s = .ok .exit ∨ ∃ v k, getValue defs argv exits i x s = .ok (.ret (some v, k) s) := by
  obtain ⟨d, hd1, hd2, hne, heq, hda⟩ := long_facts hT hP hl
  have hlt : i < argv.length := (List.getElem?_eq_some_iff.1 ha).1
  have hsk : skipDashes a ≠ [] := by
    obtain ⟨e, he, h⟩ := hn
    rw [hd1] at he; cases he
    rcases h with ⟨h1, h2⟩ | ⟨l, h1, h2⟩
    · exact skip_ne (List.mem_of_mem_drop h2) (alnum_ne (hT.short d (List.mem_of_getElem? hd1) h1)).2.1
    · rw [hd2] at h1; cases h1
      rcases h2 with h2 | ⟨v, h2⟩
      · have := skip_name hda hne []
        rw [List.append_nil] at this
        rw [h2, this]; exact hne
      · rw [h2, skip_name hda hne]; simp
  have harg : ∃ o, arg argv (i + 1) = .ok o := by
    unfold arg
    by_cases h : i + 1 < argv.length
    · rw [if_pos h]; exact ⟨_, rfl⟩
    · rw [if_neg h, if_pos (by omega)]; exact ⟨_, rfl⟩
  obtain ⟨o, ho⟩ := harg
  have fin : ∀ (o : Option Str) (k : Nat), (match (o, k).1 with
    | some _ => Outcome.ok (Res.ret (o, k) s)
    | none => match exits s with
      | none => .ok .exit
      | some s => .ok (.ret (o, k) s)) = .ok .exit ∨ ∃ v k', (match (o, k).1 with
    | some _ => Outcome.ok (Res.ret (o, k) s)
    | none => match exits s with
      | none => .ok .exit
      | some s => .ok (.ret (o, k) s)) = .ok (.ret (some v, k') s) := by
    intro o k
    cases o with
    | none => exact Or.inl rfl
    | some v => exact Or.inr ⟨v, k, rfl⟩
  rw [getValue, arg_some ha]
  simp only [Outcome.ok_bind, deref]
  rw [rd_def hd1]
  simp only [Outcome.ok_bind, hd2]
  cases afterEq (skipDashes a) with
  | some v => exact Or.inr ⟨v, 0, rfl⟩
  | none =>
    simp only
    by_cases e : longOf defs x = skipDashes a
    · rw [if_pos e, ho]; exact fin o 1
    · rw [if_neg e]
      cases hp : skipDashes a with
      | nil => exact absurd hp hsk
      | cons b t =>
        simp only [next, Outcome.ok_bind]
        by_cases h0 : hd t ≠ 0
        · rw [if_pos h0]; exact Or.inr ⟨t, 0, rfl⟩
        · rw [if_neg h0, ho]; exact fin o 1

/-- The variables have the types of their callbacks. -/
def WellTyped (kind : Nat → Kind) (s : Store) : Prop := ∃ A, Reps s A ∧ Typed kind A

theorem builtin_good {defs : List Def} (hT : Table defs) (hP : Plain defs) {kind : Nat → Kind} {argv : List Str} {i x : Nat} {a : Str} (ha : argv[i]? = some a) (hn : Names defs a x)
    (hl : kind x = .null ∨ kind x = .flag ∨ HasLong defs x) {s : Store} (h : WellTyped kind s) : ∃ r, builtin kind defs argv exits i x s = .ok r ∧ Keeps (WellTyped kind) r := by
  obtain ⟨A, hr, ht⟩ := h
  by_cases hf : kind x = .null ∨ kind x = .flag
  · obtain ⟨s', e, h1, h2⟩ := bump_ok (defs := defs) (argv := argv) (err := exits) hr ht i hf
    exact ⟨_, e, _, h1, h2⟩
  · have hl' : HasLong defs x := by
      rcases hl with h | h | h
      · exact absurd (Or.inl h) hf
      · exact absurd (Or.inr h) hf
      · exact h
    rcases value_good hT hP ha hn hl' s with e | ⟨v, k, e⟩
    · refine ⟨.exit, ?_, trivial⟩
      cases hk : kind x with
      | null => exact absurd (Or.inl hk) hf
      | flag => exact absurd (Or.inr hk) hf
      | bool => simp only [builtin, hk, e, Outcome.ok_bind]
      | string => simp only [builtin, hk, e, Outcome.ok_bind]
      | array => simp only [builtin, hk, e, Outcome.ok_bind]
      | long => simp only [builtin, hk, e, Outcome.ok_bind]
    · have htx := ht x
      have hrx := hr x
      cases hk : kind x with
      | null => exact absurd (Or.inl hk) hf
      | flag => exact absurd (Or.inr hk) hf
      | bool =>
        cases hb : parseBool v with
        | none => exact ⟨.exit, by simp [builtin, hk, e, deref, hb, exits], trivial⟩
        | some n =>
          simp only [hk] at htx
          rcases htx with e2 | ⟨m, e2⟩
          · rw [e2] at hrx
            cases hc : s x <;> rw [hc] at hrx <;> cases hrx
            exact ⟨.ret k s, by simp [builtin, hk, e, deref, hb, hc], A, hr, ht⟩
          · rw [e2] at hrx
            cases hc : s x <;> rw [hc] at hrx <;> cases hrx
            have hB : ∀ y, y ≠ x → (fun y => if y = x then Val.int n else A y) y = A y := fun y e => by simp [e]
            exact ⟨.ret k (s.set x (.int n)), by simp [builtin, hk, e, deref, hb, hc], fun y => if y = x then .int n else A y, reps_set hr (by simp only [if_true]; exact .int n) hB, typed_set ht x hB (by simp [hk])⟩
      | string =>
        have he : ∃ s', builtin kind defs argv exits i x s = .ok (.ret k s') ∧ Reps s' (assign kind A x v) ∧ Typed kind (assign kind A x v) := by
          have hB : ∀ y, y ≠ x → assign kind A x v y = A y := fun y e => by simp [assign, e]
          simp only [hk] at htx
          obtain ⟨o, e2⟩ := htx
          rw [e2] at hrx
          cases hc : s x <;> rw [hc] at hrx <;> cases hrx
          refine ⟨s.set x (.str (some v)), by simp [builtin, hk, e, hc], reps_set hr (by simp only [assign, if_true, hk, e2]; exact .str _) hB, typed_set ht x hB (by simp [hk, assign, e2])⟩
        obtain ⟨s', h1, h2, h3⟩ := he
        exact ⟨_, h1, _, h2, h3⟩
      | array =>
        have hB : ∀ y, y ≠ x → assign kind A x v y = A y := fun y e => by simp [assign, e]
        simp only [hk] at htx
        obtain ⟨l, e2⟩ := htx
        rw [e2] at hrx
        cases hc : s x <;> rw [hc] at hrx
        case arr b =>
          cases hrx with
          | none =>
            exact ⟨.ret k (s.set x (.arr (some [some v, none]))), by simp [builtin, hk, e, hc, appendArr_null], _, reps_set hr (by simp only [assign, if_true, hk, e2]; exact .arr [v] []) hB, typed_set ht x hB (by simp [hk, assign, e2])⟩
          | arr _ junk =>
            exact ⟨.ret k (s.set x (.arr (some ((l ++ [v]).map some ++ [none])))), by simp [builtin, hk, e, hc, appendArr_ok], _, reps_set hr (by simp only [assign, if_true, hk, e2]; exact .arr (l ++ [v]) []) hB, typed_set ht x hB (by simp [hk, assign, e2])⟩
        all_goals cases hrx
      | long =>
        by_cases h1 : Cfg.clampLong (numberOf v).1 = (numberOf v).1
        · by_cases h2 : hd (numberOf v).2 = 0
          · simp only [hk] at htx
            rcases htx with e2 | ⟨m, e2⟩
            · rw [e2] at hrx
              cases hc : s x <;> rw [hc] at hrx <;> cases hrx
              exact ⟨.ret k s, by simp [builtin, hk, e, deref, report, h1, h2, hc], A, hr, ht⟩
            · rw [e2] at hrx
              cases hc : s x <;> rw [hc] at hrx <;> cases hrx
              have hB : ∀ y, y ≠ x → (fun y => if y = x then Val.long (numberOf v).1 else A y) y = A y := fun y e => by simp [e]
              exact ⟨.ret k (s.set x (.long (numberOf v).1)), by simp [builtin, hk, e, deref, report, h1, h2, hc], fun y => if y = x then .long (numberOf v).1 else A y, reps_set hr (by simp only [if_true]; exact .long _) hB, typed_set ht x hB (by simp [hk])⟩
          · exact ⟨.exit, by simp [builtin, hk, e, deref, report, h1, h2, exits], trivial⟩
        · exact ⟨.exit, by simp [builtin, hk, e, deref, report, h1, exits], trivial⟩

theorem builtin_nonneg {defs : List Def} {kind : Nat → Kind} {argv : List Str} {err : Handler Store} {i x : Nat} {s s' : Store} {code : Int} (h : builtin kind defs argv err i x s = .ok (.ret code s')) : 0 ≤ code := by
  unfold builtin at h
  cases hk : kind x <;> simp only [hk] at h
  case null => cases h; decide
  case flag =>
    cases hc : s x <;> simp only [hc] at h <;> cases h <;> decide
  all_goals
    obtain ⟨r, _, h⟩ := Outcome.bind_eq_ok.1 h
    cases r with
    | exit => cases h
    | ret vk s1 => ?_
  case bool =>
    obtain ⟨v, _, h⟩ := Outcome.bind_eq_ok.1 h
    cases hb : parseBool v <;> simp only [hb] at h
    · cases he : err s1 <;> simp only [he] at h <;> cases h; decide
    · cases hc : s1 x <;> simp only [hc] at h <;> cases h <;> omega
  case string =>
    obtain ⟨o, k⟩ := vk
    cases o <;> simp only at h
    · cases h; omega
    · cases hc : s1 x <;> simp only [hc] at h <;> cases h <;> omega
  case array =>
    obtain ⟨o, k⟩ := vk
    cases o <;> simp only at h
    · cases h; omega
    · cases hc : s1 x <;> simp only [hc] at h
      case arr => obtain ⟨b, _, h⟩ := Outcome.bind_eq_ok.1 h; cases h; omega
      all_goals cases h
  case long =>
    obtain ⟨v, _, h⟩ := Outcome.bind_eq_ok.1 h
    cases h1 : report err (Cfg.clampLong (numberOf v).1 != (numberOf v).1) s1 <;> simp only [h1] at h
    · cases h
    · rename_i s2
      cases h2 : report err (hd (numberOf v).2 != 0) s2 <;> simp only [h2] at h
      · cases h
      · rename_i s3
        cases hc : s3 x <;> simp only [hc] at h <;> cases h <;> omega

/-- C45: with the callbacks, the validation and the error handler of the library, no command line whatever makes it read or write outside of the arguments and variables, if every option that takes a value has a long name. -/
theorem c45_builtin_safe_partial {defs : List Def} (hP : Plain defs) {kind : Nat → Kind} (hl : ∀ x, x < defs.length → kind x = .null ∨ kind x = .flag ∨ HasLong defs x) (argv : List Str) {s : Store} (h : WellTyped kind s) :
    ∃ r, process defs (builtin kind defs argv exits) argv argv.length (validateDefault exits) exits s = .ok r ∧
      (r = .exit ∨ ∃ k s', r = .ret (0, k) s' ∧ WellTyped kind s' ∧ 1 ≤ k ∧ ∀ a, argv[k]? = some a → hd a ≠ 0x2D) := by
  by_cases hT : Table defs
  · obtain ⟨r, hr, hg⟩ := c45_general (I := WellTyped kind) (cb := builtin kind defs argv exits) (argv := argv) (err := exits) (validate := validateDefault exits) (table_names hT hP) (fun i a x s _ ha _ hn hs =>
      builtin_good hT hP ha hn (hl x (by obtain ⟨d, hd1, _⟩ := hn; exact (List.getElem?_eq_some_iff.1 hd1).1)) hs) (fun s s' _ e => by cases e) (fun s s' hI e => by rw [validate_ok hT] at e; cases e; exact hI) s h
    refine ⟨r, hr, ?_⟩
    rcases hg with hg | ⟨code, k, s', h1, h2, ⟨h3, _, i, x, s0, h4⟩ | ⟨h3, h4, h5⟩⟩
    · exact Or.inl hg
    · exact absurd (builtin_nonneg h4) (by omega)
    · subst h3; exact Or.inr ⟨k, s', h1, h2, h4, h5⟩
  · refine ⟨.exit, ?_, Or.inl rfl⟩
    have : validateDefault exits defs s = none := by
      cases e : validateDefault exits defs s with
      | none => rfl
      | some s' =>
        rw [← problems_iff] at hT
        rw [validateDefault] at e
        obtain ⟨k, hk⟩ : ∃ k, problems defs defs 0 = k + 1 := ⟨problems defs defs 0 - 1, by omega⟩
        rw [hk] at e; cases e
    rw [process, this]

theorem nameLen_eq' : ∀ {l : Str} (_ : (0x3D : Byte) ∉ l) (t : Str), nameLen (l ++ 0x3D :: t) = l.length ∧ nameLen l = l.length := by
  intro l
  induction l with
  | nil => intro _ t; simp [nameLen]
  | cons b l ih =>
    intro h t
    have hb : b ≠ 0x3D := fun e => h (by simp [e])
    have := ih (fun e => h (by simp [e])) t
    simp [nameLen, hb, this.1, this.2]

theorem no_match {d : Def} {l p : Str} (hne : l ≠ []) (hd' : d.lopt ≠ some l) (hp : p.take l.length = l) : matchDef d l.length p = false := by
  cases hm : matchDef d l.length p with
  | false => rfl
  | true =>
    unfold matchDef at hm
    have : (l.length == 0) = false := by simpa using hne
    rw [this] at hm
    simp only [Bool.false_and, Bool.false_or] at hm
    cases e : d.lopt with
    | none => rw [e] at hm; cases hm
    | some k =>
      rw [e] at hm
      simp only [Bool.and_eq_true, beq_iff_eq] at hm
      have h2 : p.take l.length = k := by rw [hm.2, ← hm.1, List.take_length]
      rw [hp] at h2
      exact absurd (by rw [e, h2]) hd'

/-! ## C45: well-formed command lines -/

/-- C45: a program name, options (in all the forms of `Item`) and the rest, which is empty or begins with an argument that does not begin with '-': the callbacks are called once for each option, in order, at the position of the option, and `*argc` is the
position of the rest. The callbacks are arbitrary, but report the number of arguments of the piece as consumed. Missing: values attached to a short name (`-ofile`), see c45_attached_violation. -/
theorem c45_calls_partial {σ : Type} {defs : List Def} (hT : Table defs) (hP : Plain defs) {cb : Callback σ} (err : Handler σ) (prog : Str) (items : List Item) (rest : List Str) (hk : ∀ it ∈ items, it.known defs) (hr : Stops rest) {s s' : σ}
    (hd' : Does defs cb 1 items s s') :
    let argv := prog :: (items.flatMap (Item.text defs) ++ rest)
    process defs cb argv argv.length (validateDefault err) err s = .ok (.ret (0, 1 + (items.flatMap (Item.text defs)).length) s') := by
  intro argv
  unfold process
  rw [validate_ok hT err s]
  simp only
  have hlen : argv.length = 1 + (items.flatMap (Item.text defs)).length + rest.length := by simp [argv]; omega
  obtain ⟨m, hm, e⟩ := loop_items (argv := argv) (err := err) hT hP items 1 (argv.length + 1) s s' rest hk rfl (by omega) (by omega) hd'
  rw [e]
  obtain ⟨m, rfl⟩ : ∃ k, m = k + 1 := ⟨m - 1, by omega⟩
  rw [loop]
  cases rest with
  | nil => rw [if_neg (by rw [hlen]; simp)]
  | cons a as =>
    have hget : argv[1 + (items.flatMap (Item.text defs)).length]? = some a := by
      simp [argv, Nat.add_comm 1]
    rw [if_pos (by rw [hlen, List.length_cons]; omega), arg_some hget]
    simp only [Outcome.ok_bind, deref]
    rw [if_neg hr]

/-- C45: with the callbacks of the library the variables afterwards hold what the options say, applied from left to right. Missing: values attached to a short name, and `-o value` for options without long name. -/
theorem c45_values_partial {defs : List Def} (hT : Table defs) (hP : Plain defs) {kind : Nat → Kind} (err : Handler Store) (prog : Str) (items : List Item) (rest : List Str) (hk : ∀ it ∈ items, it.known defs ∧ it.fits kind ∧ ∀ x v, it = .shortSep x v → HasLong defs x)
    (hr : Stops rest) {s : Store} {A : Nat → Val} (hs : Reps s A) (ht : Typed kind A) :
    let argv := prog :: (items.flatMap (Item.text defs) ++ rest)
    ∃ s', process defs (builtin kind defs argv err) argv argv.length (validateDefault err) err s = .ok (.ret (0, 1 + (items.flatMap (Item.text defs)).length) s') ∧ Reps s' (items.foldl (fun A it => it.effect kind A) A) := by
  intro argv
  obtain ⟨s', h1, h2, _⟩ := items_ok (argv := argv) (err := err) hT hP items 1 rest hk rfl hs ht
  exact ⟨s', c45_calls_partial hT hP err prog items rest (fun it h => (hk it h).1) hr h1, h2⟩

/-! ## What does not hold -/

namespace Demo

/-- Options v (a flag), o, b, I with long names, and x without. -/
def defs : List Def := [⟨0x76, some [0x76, 0x65], true⟩, ⟨0x6F, some [0x6F, 0x75, 0x74], true⟩, ⟨0x62, some [0x62, 0x6F], true⟩, ⟨0x49, some [0x69, 0x6E], true⟩, ⟨0x78, none, true⟩]

def kind : Nat → Kind
  | 0 => .flag
  | 1 => .string
  | 2 => .bool
  | 3 => .array
  | _ => .string

def store : Store
  | 0 => .int 0
  | 1 => .str none
  | 2 => .int 0
  | 3 => .arr none
  | _ => .str none

def vals : Nat → Val
  | 0 => .int 0
  | 1 => .str none
  | 2 => .int 0
  | 3 => .arr []
  | _ => .str none

theorem table : Table defs := (problems_iff defs).1 (by decide +kernel)

theorem plain : Plain defs := by
  intro d hd' l hl
  simp only [defs, List.mem_cons, List.not_mem_nil, or_false] at hd'
  rcases hd' with rfl | rfl | rfl | rfl | rfl <;> cases hl <;> decide

theorem reps : Reps store vals := by
  intro x
  match x with
  | 0 => exact .int 0
  | 1 => exact .str none
  | 2 => exact .int 0
  | 3 => exact .none
  | _ + 4 => exact .str none

theorem typed : Typed kind vals := by
  intro x
  match x with
  | 0 => exact Or.inr ⟨0, rfl⟩
  | 1 => exact ⟨_, rfl⟩
  | 2 => exact Or.inr ⟨0, rfl⟩
  | 3 => exact ⟨_, rfl⟩
  | _ + 4 => exact ⟨_, rfl⟩

/-- `-vv -o f --bo=YES --in x -I=y --ve` -/
def items : List Item := [.flags 0 [0], .shortSep 1 [0x66], .longEq 2 [0x59, 0x45, 0x53], .longSep 3 [0x78], .shortEq 3 [0x79], .long 0]

theorem fit : ∀ it ∈ items, it.known defs ∧ it.fits kind ∧ ∀ x v, it = .shortSep x v → HasLong defs x := by
  have s0 : HasShort defs 0 := ⟨_, rfl, by decide⟩
  have l0 : HasLong defs 0 := ⟨_, rfl, by decide⟩
  intro it h
  simp only [items, List.mem_cons, List.not_mem_nil, or_false] at h
  rcases h with rfl | rfl | rfl | rfl | rfl | rfl
  · exact ⟨⟨s0, by simp [s0]⟩, by simp [Item.fits, kind], by intro x v h; cases h⟩
  · exact ⟨⟨_, rfl, by decide⟩, Or.inr (Or.inl rfl), by intro x v h; cases h; exact ⟨_, rfl, by decide⟩⟩
  · exact ⟨⟨_, rfl, by decide⟩, Or.inl ⟨rfl, Or.inl (by decide)⟩, by intro x v h; cases h⟩
  · exact ⟨⟨_, rfl, by decide⟩, Or.inr (Or.inr (Or.inl rfl)), by intro x v h; cases h⟩
  · exact ⟨⟨_, rfl, by decide⟩, Or.inr (Or.inr (Or.inl rfl)), by intro x v h; cases h⟩
  · exact ⟨l0, by simp [Item.fits, kind], by intro x v h; cases h⟩

/-- A command line to which c45_values_partial applies; all of it ends at position 9 of 10. -/
example : ∃ s', process defs (builtin kind defs ([] :: (items.flatMap (Item.text defs) ++ [[0x7A]])) exits) ([] :: (items.flatMap (Item.text defs) ++ [[0x7A]])) ([] :: (items.flatMap (Item.text defs) ++ [[0x7A]])).length (validateDefault exits) exits store
    = .ok (.ret (0, 9) s') ∧ Holds (s' 0) (.int 3) ∧ Holds (s' 1) (.str (some [0x66])) ∧ Holds (s' 2) (.int 1) ∧ Holds (s' 3) (.arr [[0x78], [0x79]]) := by
  obtain ⟨s', h1, h2⟩ := c45_values_partial table plain exits [] items [[0x7A]] fit (show hd [0x7A] ≠ 0x2D by decide) reps typed
  exact ⟨s', h1, h2 0, h2 1, h2 2, h2 3⟩

end Demo

/-- What the program of `Demo` does with a command line: `*argc` and the value returned, and the variables afterwards; `none` for exit. -/
def Demo.run (argv : List Str) (err : Handler Store) : Outcome (Option (Int × Nat × List Cell)) := do
  let r ← process Demo.defs (builtin Demo.kind Demo.defs argv err) argv argv.length (validateDefault err) err Demo.store
  pure (match r with
    | .exit => none
    | .ret (code, k) s => some (code, k, [s 0, s 1, s 2, s 3, s 4]))

/-- C45 is violated: the value in `-ov` is stored, but the rest of the argument is processed as options as well: -v is counted. -/
theorem c45_attached_violation : Demo.run [[0x70], [0x2D, 0x6F, 0x76]] exits = .ok (some (0, 2, [.int 1, .str (some [0x76]), .int 0, .arr none, .str none])) := by decide +kernel

/-- C45 is violated: in `-vo f` the value of -o is taken to be "o", and `f` is left. -/
theorem c45_cluster_violation : Demo.run [[0x70], [0x2D, 0x76, 0x6F], [0x66]] exits = .ok (some (0, 2, [.int 1, .str (some [0x6F]), .int 0, .arr none, .str none])) := by decide +kernel

/-- C45 is violated: `-x f` for an option that takes a value and has no long name passes NULL to strcmp, although the table is valid. -/
theorem c45_no_long_violation : Table Demo.defs ∧ Demo.run [[0x70], [0x2D, 0x78], [0x66]] exits = .ub := ⟨Demo.table, by decide +kernel⟩

/-- C45 is violated: with an error handler that returns, a missing last value makes `*argc` one more than it was: argv[*argc] is behind the NULL. -/
theorem c45_missing_violation : Demo.run [[0x70], [0x2D, 0x6F]] some = .ok (some (0, 3, [.int 0, .str none, .int 0, .arr none, .str none])) := by decide +kernel

/-- C45 is violated: a missing boolean value is dereferenced if the error handler returns. -/
theorem c45_missing_bool_violation : Demo.run [[0x70], [0x2D, 0x62]] some = .ub := by decide +kernel

/-- C45 is violated: an unknown option behind a known one in the same argument is not reported: `-vz` does not exit, and `-z` does. -/
theorem c45_unknown_violation : Demo.run [[0x70], [0x2D, 0x76, 0x7A]] exits = .ok (some (0, 2, [.int 1, .str none, .int 0, .arr none, .str none])) ∧ Demo.run [[0x70], [0x2D, 0x7A]] exits = .ok none := by decide +kernel

/-- C45: an argument with an unknown option, not behind a known one, is reported, for every table and callbacks: with the handler of the library the process exits. -/
theorem c45_unknown {σ : Type} {defs : List Def} (hT : Table defs) {cb : Callback σ} (prog a : Str) (rest : List Str) (s : σ)
    (ha : (∃ b t, a = 0x2D :: b :: t ∧ b ≠ 0x2D ∧ (∀ d ∈ defs, d.sopt ≠ NSO → d.sopt ≠ b) ∧ Plain defs) ∨ (∃ l, a = 0x2D :: 0x2D :: l ∧ l ≠ [] ∧ 0x3D ∉ l ∧ ∀ d ∈ defs, d.lopt ≠ some l) ∨
      (∃ l v, a = 0x2D :: 0x2D :: (l ++ 0x3D :: v) ∧ l ≠ [] ∧ 0x3D ∉ l ∧ ∀ d ∈ defs, d.lopt ≠ some l)) :
    process defs cb (prog :: a :: rest) (prog :: a :: rest).length (validateDefault exits) exits s = .ok .exit := by
  have hone : hd a = 0x2D ∧ one defs cb 1 a s = .ok (.next 1 true s) := by
    rcases ha with ⟨b, t, rfl, hb, hd', hP⟩ | ⟨l, rfl, hne, heq, hd'⟩ | ⟨l, v, rfl, hne, heq, hd'⟩
    · refine ⟨rfl, ?_⟩
      unfold one
      simp only [next, Outcome.ok_bind]
      rw [if_neg (by exact hb), again, search_none defs 0 fun d hm => ?_]
      · rfl
      · cases h : matchDef d 0 (b :: t) with
        | false => rfl
        | true =>
          have := (match_short hT hP hm (b :: t)).1 h
          exact absurd this.2.symm (hd' d hm this.1)
    · refine ⟨rfl, ?_⟩
      have hs : search l.length l defs 0 = none := search_none defs 0 fun d hm => no_match hne (hd' d hm) (by simp)
      unfold one
      simp only [next, Outcome.ok_bind]
      rw [if_pos (by rfl), (nameLen_eq' heq []).2, again, hs]
      rfl
    · refine ⟨rfl, ?_⟩
      have hs : search l.length (l ++ 0x3D :: v) defs 0 = none := search_none defs 0 fun d hm => no_match hne (hd' d hm) (by simp)
      unfold one
      simp only [next, Outcome.ok_bind]
      rw [if_pos (by rfl), (nameLen_eq' heq v).1, again, hs]
      rfl
  unfold process
  rw [validate_ok hT exits s]
  simp only
  rw [loop, if_pos (by simp), arg_some (show (prog :: a :: rest)[1]? = some a from rfl)]
  simp only [Outcome.ok_bind, deref]
  rw [if_pos hone.1, hone.2]
  rfl

example : process Demo.defs (builtin Demo.kind Demo.defs [[], [0x2D, 0x2D, 0x71]] exits) [[], [0x2D, 0x2D, 0x71]] 2 (validateDefault exits) exits Demo.store = .ok .exit :=
  c45_unknown Demo.table [] _ [] _ (Or.inr (Or.inl ⟨[0x71], rfl, by decide, by decide, by decide⟩))

/-- c45_builtin_safe_partial applies to the table without -x. -/
example (argv : List Str) : ∃ r, process (Demo.defs.take 4) (builtin Demo.kind (Demo.defs.take 4) argv exits) argv argv.length (validateDefault exits) exits Demo.store = .ok r := by
  obtain ⟨r, h, _⟩ := c45_builtin_safe_partial (defs := Demo.defs.take 4) (kind := Demo.kind) (fun d hd' => Demo.plain d (List.mem_of_mem_take hd')) (fun x hx => by
    match x, hx with
    | 0, _ => exact Or.inr (Or.inl rfl)
    | 1, _ => exact Or.inr (Or.inr ⟨_, rfl, by decide⟩)
    | 2, _ => exact Or.inr (Or.inr ⟨_, rfl, by decide⟩)
    | 3, _ => exact Or.inr (Or.inr ⟨_, rfl, by decide⟩)) argv ⟨Demo.vals, Demo.reps, Demo.typed⟩
  exact ⟨r, h⟩

end ZT.Opts
