import Verif.Path.Refine

/-!
# The file system under zt_mkdir
-/

namespace ZT.Path

open ZT.Cstr

/-! ## Components -/

theorem segs_append (p q : Str) : segs (p ++ 47 :: q) = segs p ++ segs q := by
  induction p with
  | nil => simp [segs]
  | cons c p ih =>
      rw [List.cons_append, segs, segs]
      split
      · rw [ih]; rfl
      · rw [ih]
        cases h : segs p with
        | nil => exact absurd h (segs_ne p)
        | cons w ws => rfl

theorem comps_sep (p q : Str) : comps (p ++ 47 :: q) = comps p ++ comps q := by rw [comps, segs_append, List.filter_append]; rfl

theorem comps_nil : comps [] = [] := by simp [comps, segs]

theorem comps_one {a : Str} (h : (47 : Byte) ∉ a) (ha : a ≠ []) : comps a = [a] := by rw [comps, segs_one a h]; simp [ha]

theorem comps_snoc_sep (p : Str) : comps (p ++ [47]) = comps p := by rw [comps_sep, comps_nil, List.append_nil]

theorem comps_empty {path : Str} (h : comps path = []) (hne : path ≠ []) : path.head? = some 47 := by
  cases path with
  | nil => exact absurd rfl hne
  | cons c s =>
      by_cases hc : c = 47
      · simp [hc]
      · exfalso
        rw [comps, segs, if_neg hc] at h
        cases hs : segs s with
        | nil => exact absurd hs (segs_ne s)
        | cons w ws => rw [hs] at h; simp at h

/-! ## Places -/

theorem place_nil (cur : List Str) : place cur [] = cur := rfl
theorem place_append (cur : List Str) (a b : List Str) : place cur (a ++ b) = place (place cur a) b := by simp [place, List.foldl_append]
theorem place_snoc (cur : List Str) (a : List Str) (c : Str) : place cur (a ++ [c]) = step (place cur a) c := by rw [place_append]; rfl

theorem walk_iff (fs : FS) : ∀ (cs cur p : List Str), fs.walk cur cs = some p ↔ p = place cur cs ∧ (∀ n < cs.length, fs.isDir (place cur (cs.take n)) = true) ∧ ∀ c ∈ cs, c.length ≤ NAME_MAX := by
  intro cs
  induction cs with
  | nil =>
      intro cur p
      rw [FS.walk]
      constructor
      · intro e; cases e; exact ⟨rfl, by simp, by simp⟩
      · rintro ⟨rfl, -, -⟩; rfl
  | cons c cs ih =>
      intro cur p
      rw [FS.walk]
      split
      next h =>
        rw [ih]
        constructor
        · rintro ⟨rfl, h1, h2⟩
          refine ⟨rfl, ?_, ?_⟩
          · intro n hn
            cases n with
            | zero => exact h.1
            | succ n => exact h1 n (by simpa using hn)
          · intro x hx
            rcases List.mem_cons.1 hx with rfl | hx
            · exact h.2
            · exact h2 x hx
        · rintro ⟨rfl, h1, h2⟩
          exact ⟨rfl, fun n hn => h1 (n + 1) (by simpa using hn), fun x hx => h2 x (by simp [hx])⟩
      next h =>
        constructor
        · intro e; cases e
        · rintro ⟨-, h1, h2⟩
          exact absurd ⟨h1 0 (by simp), h2 c (by simp)⟩ h

theorem isDir_has {fs : FS} {p : List Str} (h : fs.isDir p = true) : fs.has p = true := by
  unfold FS.isDir at h
  unfold FS.has
  split at h
  next e => rw [e]; rfl
  · cases h

theorem has_isDir {fs : FS} {p : List Str} (h : fs.has p = true) (hf : fs.kind p ≠ some .file) : fs.isDir p = true := by
  unfold FS.has at h
  unfold FS.isDir
  split
  · rfl
  next hno =>
    cases hk : fs.kind p with
    | none => rw [hk] at h; cases h
    | some k =>
        cases k with
        | dir w => exact absurd hk (hno w)
        | file => exact absurd hk hf

theorem dropLast_dir {fs : FS} (h : fs.Ok) {p : List Str} (hp : fs.isDir p = true) : fs.isDir p.dropLast = true := by
  rcases List.eq_nil_or_concat p with rfl | ⟨q, c, rfl⟩
  · exact hp
  · rw [List.concat_eq_append] at hp ⊢
    rw [List.dropLast_concat]
    exact h.tree q c (isDir_has hp)

/-- "." and ".." lead to directories. -/
theorem step_dotted {fs : FS} (h : fs.Ok) {p : List Str} (hp : fs.isDir p = true) {c : Str} (hc : dotted c = true) : fs.isDir (step p c) = true := by
  unfold step
  split
  · exact hp
  · rw [if_pos (by simp [dotted] at hc; rcases hc with hc | hc <;> simp_all)]
    exact dropLast_dir h hp

theorem step_plain {p : List Str} {c : Str} (hc : dotted c = false) : step p c = p ++ [c] := by
  simp [dotted] at hc
  simp [step, hc]

theorem start_ok {fs : FS} (h : fs.Ok) (path : Str) : fs.isDir (fs.start path) = true := by
  unfold FS.start
  split
  · exact h.root
  · exact h.cwd

/-! ## New directories -/

theorem add_kind {fs : FS} {p : List Str} {nw : Bool} {q : List Str} {k : Kind} (hp : fs.has p = false) (h : fs.kind q = some k) : (fs.add p nw).kind q = some k := by
  unfold FS.add
  show (if q = p then _ else _) = _
  split
  next e => subst e; unfold FS.has at hp; rw [h] at hp; cases hp
  · exact h

theorem add_isDir {fs : FS} {p : List Str} {nw : Bool} {q : List Str} (hp : fs.has p = false) (h : fs.isDir q = true) : (fs.add p nw).isDir q = true := by
  cases hk : fs.kind q with
  | none => unfold FS.isDir at h; rw [hk] at h; cases h
  | some k =>
      have := add_kind (nw := nw) hp hk
      unfold FS.isDir at h ⊢
      rw [this]
      rw [hk] at h
      exact h

theorem add_ok {fs : FS} (h : fs.Ok) {d : List Str} {c : Str} {nw : Bool} (hd : fs.isDir d = true) (hn : fs.has (d ++ [c]) = false) : (fs.add (d ++ [c]) nw).Ok := by
  refine ⟨add_isDir hn h.root, ?_, add_isDir hn h.cwd⟩
  intro p c' hp
  apply add_isDir hn
  unfold FS.has FS.add at hp
  have hp' : (if p ++ [c'] = d ++ [c] then some (Kind.dir nw) else fs.kind (p ++ [c'])).isSome = true := hp
  split at hp'
  next e => rw [(List.append_inj' e rfl).1]; exact hd
  · exact h.tree p c' hp'

/-! ## mkdir -/

/-- What mkdir does. -/
inductive Made (pm : Nat) (nw : Bool) (fs : FS) (path : Str) : FS × Option Err → Prop
  | new (d : List Str) (c : Str) : place (fs.start path) (comps path) = d ++ [c] → fs.kind d = some (.dir true) → fs.has (d ++ [c]) = false → (∀ n < (comps path).length, fs.isDir (place (fs.start path) ((comps path).take n)) = true) →
      Made pm nw fs path (fs.add (d ++ [c]) nw, none)
  | exist : fs.has (place (fs.start path) (comps path)) = true → (∀ n < (comps path).length, fs.isDir (place (fs.start path) ((comps path).take n)) = true) → Made pm nw fs path (fs, some .exist)
  | other : Made pm nw fs path (fs, some .other)

theorem take_snoc {α : Type} {l : List α} {x : α} (h : l.getLast? = some x) : l = l.dropLast ++ [x] := by
  rcases List.eq_nil_or_concat l with rfl | ⟨q, c, rfl⟩
  · cases h
  · simp at h; subst h; simp

theorem mkdir_made {fs : FS} (h : fs.Ok) (pm : Nat) (nw : Bool) (path : Str) : Made pm nw fs path (FS.mkdir pm nw fs path) := by
  unfold FS.mkdir
  split
  · exact .other
  next hne =>
  cases hl : (comps path).getLast? with
  | none =>
      have hc : comps path = [] := List.getLast?_eq_none_iff.1 hl
      refine .exist ?_ (by simp [hc])
      rw [hc, place_nil]
      exact isDir_has (start_ok h path)
  | some c =>
      have hcs := take_snoc hl
      simp only
      cases hw : fs.walk (fs.start path) (comps path).dropLast with
      | none => exact .other
      | some d =>
          obtain ⟨rfl, hdirs, -⟩ := (walk_iff fs _ _ _).1 hw
          simp only
          generalize hd : place (fs.start path) (comps path).dropLast = d at *
          split
          · exact .other
          next hdir =>
          have hdir : fs.isDir d = true := by simpa using hdir
          have hpl : place (fs.start path) (comps path) = step d c := by rw [hcs, place_snoc, hd]
          have hall : ∀ n < (comps path).length, fs.isDir (place (fs.start path) ((comps path).take n)) = true := by
            intro n hn
            have hlen : (comps path).dropLast.length = (comps path).length - 1 := by simp
            by_cases hn2 : n < (comps path).dropLast.length
            · have := hdirs n hn2
              rw [List.dropLast_eq_take, List.take_take, Nat.min_eq_left (by omega)] at this
              exact this
            · have : (comps path).take n = (comps path).dropLast := by rw [List.dropLast_eq_take]; congr 1; omega
              rw [this, hd]; exact hdir
          split
          next hdot => exact .exist (by rw [hpl]; exact isDir_has (step_dotted h hdir hdot)) hall
          next hdot =>
          have hst := step_plain (p := d) (by simpa using hdot)
          split
          · exact .other
          split
          next hhas => exact .exist (by rw [hpl, hst]; exact hhas) hall
          next hhas =>
          split
          next hk => exact .new d c (by rw [hpl, hst]) hk (by simpa using hhas) hall
          · exact .other

/-- mkdir creates a missing place in a writable directory. -/
theorem mkdir_new {fs : FS} {pm : Nat} {nw : Bool} {path : Str} (hne : path ≠ []) (hlen : path.length < pm) (hname : ∀ c ∈ comps path, c.length ≤ NAME_MAX) {cs : List Str} {c : Str} (hcs : comps path = cs ++ [c])
    (hdirs : ∀ n < (comps path).length, fs.isDir (place (fs.start path) ((comps path).take n)) = true) (hok : fs.Ok) (hno : fs.has (place (fs.start path) (comps path)) = false) (hw : fs.kind (place (fs.start path) cs) = some (.dir true)) :
    FS.mkdir pm nw fs path = (fs.add (place (fs.start path) (comps path)) nw, none) := by
  have hwalk : fs.walk (fs.start path) cs = some (place (fs.start path) cs) := by
    refine (walk_iff fs _ _ _).2 ⟨rfl, fun n hn => ?_, fun x hx => hname x (by rw [hcs]; simp [hx])⟩
    have := hdirs n (by rw [hcs]; simp; omega)
    rwa [hcs, List.take_append_of_le_length (by omega)] at this
  have hd : fs.isDir (place (fs.start path) cs) = true := by simp [FS.isDir, hw]
  have hdot : dotted c = false := by
    cases hx : dotted c with
    | false => rfl
    | true =>
        have := isDir_has (step_dotted hok hd hx)
        rw [hcs, place_snoc, this] at hno
        cases hno
  have hpl : place (fs.start path) (comps path) = place (fs.start path) cs ++ [c] := by rw [hcs, place_snoc, step_plain hdot]
  unfold FS.mkdir
  have hc1 : ¬ (path = [] ∨ pm ≤ path.length) := by rintro (e | e); exact hne e; omega
  have hl : (comps path).getLast? = some c := by rw [hcs]; simp
  have hdl : (comps path).dropLast = cs := by rw [hcs]; simp
  have hcl : ¬ c.length > NAME_MAX := by have := hname c (by rw [hcs]; simp); omega
  rw [if_neg hc1]
  simp only [hl, hdl, hwalk]
  rw [if_neg (by simp [hd]), if_neg (by simp [hdot]), if_neg hcl, if_neg (by rw [← hpl]; simp [hno]), if_pos hw, hpl]

/-- mkdir reports what exists. -/
theorem mkdir_exist {fs : FS} {pm : Nat} {nw : Bool} {path : Str} (hne : path ≠ []) (hlen : path.length < pm) (hname : ∀ c ∈ comps path, c.length ≤ NAME_MAX)
    (hdirs : ∀ n < (comps path).length, fs.isDir (place (fs.start path) ((comps path).take n)) = true) (hhas : fs.has (place (fs.start path) (comps path)) = true) :
    FS.mkdir pm nw fs path = (fs, some .exist) := by
  unfold FS.mkdir
  have hc1 : ¬ (path = [] ∨ pm ≤ path.length) := by rintro (e | e); exact hne e; omega
  rw [if_neg hc1]
  rcases List.eq_nil_or_concat (comps path) with hcs | ⟨cs, c, hcs⟩
  · simp only [hcs, List.getLast?_nil]
  · rw [List.concat_eq_append] at hcs
    have hl : (comps path).getLast? = some c := by rw [hcs]; simp
    have hdl : (comps path).dropLast = cs := by rw [hcs]; simp
    have hcl : ¬ c.length > NAME_MAX := by have := hname c (by rw [hcs]; simp); omega
    have hwalk : fs.walk (fs.start path) cs = some (place (fs.start path) cs) := by
      refine (walk_iff fs _ _ _).2 ⟨rfl, fun n hn => ?_, fun x hx => hname x (by rw [hcs]; simp [hx])⟩
      have := hdirs n (by rw [hcs]; simp; omega)
      rwa [hcs, List.take_append_of_le_length (by omega)] at this
    have hd : fs.isDir (place (fs.start path) cs) = true := by
      have := hdirs cs.length (by rw [hcs]; simp)
      rwa [hcs, List.take_left' rfl] at this
    simp only [hl, hdl, hwalk]
    rw [if_neg (by simp [hd])]
    cases hdot : dotted c with
    | true => rfl
    | false =>
        rw [if_neg (by simp), if_neg hcl, if_pos]
        rw [← step_plain hdot, ← place_snoc, ← hcs]; exact hhas

/-- stat finds what exists. -/
theorem stat_has {fs : FS} {pm : Nat} {path : Str} (hne : path ≠ []) (hlen : path.length < pm) (hname : ∀ c ∈ comps path, c.length ≤ NAME_MAX)
    (hdirs : ∀ n < (comps path).length, fs.isDir (place (fs.start path) ((comps path).take n)) = true) :
    FS.stat pm fs path = (fs.has (place (fs.start path) (comps path)) && (path.getLast? ≠ some 47 || fs.isDir (place (fs.start path) (comps path)))) := by
  have hwalk : fs.walk (fs.start path) (comps path) = some (place (fs.start path) (comps path)) := (walk_iff fs _ _ _).2 ⟨rfl, hdirs, hname⟩
  unfold FS.stat
  have hc1 : ¬ (path = [] ∨ pm ≤ path.length) := by rintro (e | e); exact hne e; omega
  rw [if_neg hc1, hwalk]

end ZT.Path
