import Verif.Path.Fs

/-!
# C79: zt_mkdir
-/

namespace ZT.Path

open ZT.Cstr

/-- The places that a path leads through, its own included. -/
def Through (fs : FS) (path : Str) (p : List Str) : Prop := ∃ n, n ≤ (comps path).length ∧ p = place (fs.start path) ((comps path).take n)

/-- `fs'` has everything that `fs` has, and more directories at places in `P`. -/
structure Grow (nw : Bool) (P : List Str → Prop) (fs fs' : FS) : Prop where
  ok : fs'.Ok
  cwd : fs'.cwd = fs.cwd
  keep : ∀ p k, fs.kind p = some k → fs'.kind p = some k
  fresh : ∀ p, fs.has p = false → fs'.has p = true → fs'.kind p = some (.dir nw) ∧ P p

theorem Grow.refl {nw : Bool} {P : List Str → Prop} {fs : FS} (h : fs.Ok) : Grow nw P fs fs := ⟨h, rfl, fun _ _ e => e, fun p h1 h2 => by rw [h1] at h2; cases h2⟩

theorem Grow.has {nw : Bool} {P : List Str → Prop} {fs fs' : FS} (h : Grow nw P fs fs') {p : List Str} (hp : fs.has p = true) : fs'.has p = true := by
  unfold FS.has at hp ⊢
  cases hk : fs.kind p with
  | none => rw [hk] at hp; cases hp
  | some k => rw [h.keep p k hk]; rfl

theorem Grow.isDir {nw : Bool} {P : List Str → Prop} {fs fs' : FS} (h : Grow nw P fs fs') {p : List Str} (hp : fs.isDir p = true) : fs'.isDir p = true := by
  unfold FS.isDir at hp ⊢
  cases hk : fs.kind p with
  | none => rw [hk] at hp; cases hp
  | some k => rw [h.keep p k hk]; rw [hk] at hp; exact hp

theorem Grow.trans {nw : Bool} {P : List Str → Prop} {a b c : FS} (h : Grow nw P a b) (k : Grow nw P b c) : Grow nw P a c := by
  refine ⟨k.ok, k.cwd.trans h.cwd, fun p x e => k.keep p x (h.keep p x e), fun p h1 h2 => ?_⟩
  cases hb : b.has p with
  | false => exact k.fresh p hb h2
  | true =>
      obtain ⟨e, hp⟩ := h.fresh p h1 hb
      exact ⟨k.keep p _ e, hp⟩

theorem Grow.add {nw : Bool} {P : List Str → Prop} {fs : FS} (h : fs.Ok) {d : List Str} {c : Str} (hd : fs.isDir d = true) (hn : fs.has (d ++ [c]) = false) (hP : P (d ++ [c])) : Grow nw P fs (fs.add (d ++ [c]) nw) := by
  refine ⟨add_ok h hd hn, rfl, fun p k e => add_kind hn e, fun p h1 h2 => ?_⟩
  have hk : (fs.add (d ++ [c]) nw).kind p = if p = d ++ [c] then some (.dir nw) else fs.kind p := rfl
  by_cases hp : p = d ++ [c]
  · rw [hk, if_pos hp]; exact ⟨rfl, hp ▸ hP⟩
  · unfold FS.has at h1 h2
    rw [hk, if_neg hp] at h2
    rw [h2] at h1; cases h1

/-! ## Parent texts -/

theorem split_sep {rest : Str} (h : (47 : Byte) ∈ rest) : ∃ a b, rest = a ++ 47 :: b ∧ (47 : Byte) ∉ a := by
  induction rest with
  | nil => cases h
  | cons c s ih =>
      by_cases hc : c = 47
      · exact ⟨[], s, by simp [hc], by simp⟩
      · obtain ⟨a, b, e, ha⟩ := ih (by simpa [Ne.symm hc] using h)
        exact ⟨c :: a, b, by simp [e], by simp [Ne.symm hc, ha]⟩

/-- A text is a parent text of `path`: what precedes one of its slashes. -/
def Parent (path p : Str) : Prop := p ≠ [] ∧ ∃ q, path = p ++ 47 :: q

theorem pre_mem : ∀ (n : Nat) (done rest : Str), rest.length ≤ n → ∀ p ∈ pre done (segs rest), Parent (done ++ rest) p := by
  intro n
  induction n with
  | zero =>
      intro done rest hr p hp
      have : rest = [] := List.length_eq_zero_iff.1 (by omega)
      subst this
      simp [segs, pre] at hp
  | succ n ih =>
      intro done rest hr p hp
      by_cases hs : (47 : Byte) ∈ rest
      · obtain ⟨a, b, rfl, ha⟩ := split_sep hs
        rw [segs_sep a b ha] at hp
        obtain ⟨t, ts, hts⟩ := List.exists_cons_of_ne_nil (segs_ne b)
        rw [hts, pre, ← hts, List.mem_append] at hp
        rcases hp with hp | hp
        · split at hp
          · cases hp
          next hne =>
            rw [List.mem_singleton] at hp
            subst hp
            exact ⟨hne, b, by simp⟩
        · have := ih (done ++ a ++ [47]) b (by simp at hr; omega) p hp
          simpa using this
      · rw [segs_one rest hs, pre] at hp
        cases hp

theorem Parent.head {path p : Str} (h : Parent path p) : p.head? = path.head? := by
  obtain ⟨hp, q, rfl⟩ := h
  cases p with
  | nil => exact absurd rfl hp
  | cons c p => rfl

theorem Parent.comps {path p : Str} (h : Parent path p) : ∃ j, j ≤ (comps path).length ∧ comps p = (comps path).take j := by
  obtain ⟨hp, q, rfl⟩ := h
  rw [comps_sep]
  exact ⟨(Path.comps p).length, by simp, by simp⟩

theorem start_eq {fs fs' : FS} (hc : fs'.cwd = fs.cwd) {path p : Str} (hh : p.head? = path.head?) : fs'.start p = fs.start path := by unfold FS.start; rw [hc, hh]

theorem through_eq {fs fs' : FS} (hc : fs'.cwd = fs.cwd) {path : Str} {x : List Str} : Through fs' path x ↔ Through fs path x := by
  unfold Through; rw [start_eq hc rfl]

/-! ## Frame -/

theorem fsOs_mkdir (pm : Nat) (nw : Bool) (fs : FS) (p : Str) : (fsOs pm nw).mkdir fs p = FS.mkdir pm nw fs p := rfl
theorem fsOs_stat (pm : Nat) (nw : Bool) (fs : FS) (p : Str) : (fsOs pm nw).stat fs p = FS.stat pm fs p := rfl

/-- mkdir of a path or of one of its parents adds places that the path leads through. -/
theorem mkdir_grow {fs0 fs : FS} (h : fs.Ok) (hc : fs.cwd = fs0.cwd) {path p : Str} (hh : p.head? = path.head?) {j : Nat} (hj : j ≤ (comps path).length) (hcp : comps p = (comps path).take j) (pm : Nat) (nw : Bool) :
    Grow nw (Through fs0 path) fs (FS.mkdir pm nw fs p).1 := by
  have hm := mkdir_made h pm nw p
  generalize FS.mkdir pm nw fs p = x at hm
  cases hm with
  | new d c hpl hk hno _ =>
      refine Grow.add h (by simp [FS.isDir, hk]) hno ⟨j, hj, ?_⟩
      rw [← hpl, hcp, start_eq hc hh]
  | exist _ _ => exact Grow.refl h
  | other => exact Grow.refl h

theorem parent_grow {fs0 fs : FS} (h : fs.Ok) (hc : fs.cwd = fs0.cwd) {path p : Str} (hp : Parent path p) (pm : Nat) (nw : Bool) :
    Grow nw (Through fs0 path) fs (parent (fsOs pm nw) fs p).1 := by
  obtain ⟨j, hj, hcp⟩ := hp.comps
  have := mkdir_grow h hc hp.head hj hcp pm nw
  unfold parent
  split
  · exact Grow.refl h
  · rw [fsOs_mkdir]
    generalize FS.mkdir pm nw fs p = x at *
    rcases x with ⟨w, r⟩
    cases r <;> exact this

theorem makeAll_grow {fs0 : FS} {path : Str} (pm : Nat) (nw : Bool) : ∀ (ps : List Str), (∀ p ∈ ps, Parent path p) → ∀ (fs : FS), fs.Ok → fs.cwd = fs0.cwd → Grow nw (Through fs0 path) fs (makeAll (fsOs pm nw) fs ps).1 := by
  intro ps
  induction ps with
  | nil => intro _ fs h _; exact Grow.refl h
  | cons p ps ih =>
      intro hps fs h hc
      have h1 := parent_grow h hc (hps p (by simp)) pm nw
      rw [makeAll]
      generalize parent (fsOs pm nw) fs p = x at *
      rcases x with ⟨w, r⟩
      cases r
      · exact h1
      · exact h1.trans (ih (fun q hq => hps q (by simp [hq])) w h1.ok (h1.cwd.trans hc))

theorem strlen_ok {m s : List Byte} (h : IsStr m s) : strlen m = .ok s.length := by obtain ⟨h0, rest, rfl⟩ := h; exact strlen_eq s rest h0

theorem mkdir_frame {fs : FS} {m path : List Byte} (hm : IsStr m path) (pm : Nat) (hpm : path.length ≤ pm) (nw create : Bool) : ∀ (fuel : Nat) (fs1 : FS), Grow nw (Through fs path) fs fs1 → ∀ {fs' : FS} {r : Int},
    mkdir (fsOs pm nw) pm m create fuel fs1 = .ok (fs', r) →
      Grow nw (Through fs path) fs fs' ∧ (r = 0 ∧ fs'.has (place (fs.start path) (comps path)) = true ∨ r = -1) ∧ (create = false → r = -1 → fs' = fs1) := by
  intro fuel
  induction fuel with
  | zero => intro fs1 hf fs' r e; cases e
  | succ fuel ih =>
      intro fs1 hg fs' r e
      rw [mkdir, text_ok hm] at e
      simp only [Outcome.ok_bind] at e
      have hmg := mkdir_grow hg.ok hg.cwd (path := path) (p := path) rfl (Nat.le_refl _) (List.take_of_length_le (Nat.le_refl _)).symm pm nw
      have hmm := mkdir_made hg.ok pm nw path
      rw [fsOs_mkdir] at e
      generalize hx : FS.mkdir pm nw fs1 path = x at *
      cases hmm with
      | new d c hpl hk hno _ =>
          cases e
          refine ⟨hg.trans hmg, Or.inl ⟨rfl, ?_⟩, fun _ e => by cases e⟩
          rw [← start_eq hg.cwd rfl, hpl]
          unfold FS.has FS.add
          simp
      | exist hh _ =>
          cases e
          refine ⟨hg, Or.inl ⟨rfl, ?_⟩, fun _ e => by cases e⟩
          rw [← start_eq hg.cwd rfl]
          exact hh
      | other =>
          simp only at e
          split at e
          next hc => cases e; exact ⟨hg, Or.inr rfl, fun _ _ => rfl⟩
          next hc =>
            rw [strlen_ok hm] at e
            simp only [Outcome.ok_bind] at e
            rw [parents_all (fsOs pm nw) hm pm hpm _ (Nat.lt_succ_self _) fs1] at e
            simp only [Outcome.ok_bind] at e
            have hma := makeAll_grow (fs0 := fs) (path := path) pm nw (pre [] (segs path)) (fun p hp => by simpa using pre_mem path.length [] path (Nat.le_refl _) p hp) fs1 hg.ok hg.cwd
            generalize makeAll (fsOs pm nw) fs1 (pre [] (segs path)) = y at *
            rcases y with ⟨w, b⟩
            cases b
            · simp only at e; cases e; exact ⟨hg.trans hma, Or.inr rfl, fun h => absurd h hc⟩
            · obtain ⟨a, b, -⟩ := ih w (hg.trans hma) e
              exact ⟨a, b, fun h => absurd h hc⟩

/-- C79. Whatever zt_mkdir returns, it removes and changes nothing, and adds only directories that the path leads through; it returns 0 or -1, and when it returns 0 the path exists; without the flag nothing is added when it
fails. -/
theorem c79_frame {fs : FS} (h : fs.Ok) {m path : List Byte} (hm : IsStr m path) (pm : Nat) (hpm : path.length ≤ pm) (nw create : Bool) (fuel : Nat) {fs' : FS} {r : Int} (e : mkdir (fsOs pm nw) pm m create fuel fs = .ok (fs', r)) :
    (∀ p k, fs.kind p = some k → fs'.kind p = some k) ∧ (∀ p, fs.has p = false → fs'.has p = true → fs'.kind p = some (.dir nw) ∧ Through fs path p) ∧
      (r = 0 ∧ fs'.has (place (fs.start path) (comps path)) = true ∨ r = -1) ∧ (create = false → r = -1 → fs' = fs) ∧ fs'.Ok := by
  obtain ⟨a, b, c⟩ := mkdir_frame hm pm hpm nw create fuel fs (Grow.refl h) e
  exact ⟨a.keep, a.fresh, b, c, a.ok⟩

/-! ## Success -/

/-- On the way there is no file, and every place that is missing can be created. -/
structure Free (fs : FS) (st : List Str) (C : List Str) : Prop where
  file : ∀ n, n ≤ C.length → fs.kind (place st (C.take n)) ≠ some .file
  write : ∀ n, n < C.length → fs.has (place st (C.take (n + 1))) = false → fs.has (place st (C.take n)) = true → fs.kind (place st (C.take n)) = some (.dir true)

theorem Free.grow {fs0 fs fs' : FS} {st C : List Str} (h : Free fs st C) {P : List Str → Prop} (hg : Grow true P fs fs') : Free fs' st C := by
  have key : ∀ p, fs.has p = false → fs'.has p = true → fs'.kind p = some (.dir true) := fun p a b => (hg.fresh p a b).1
  have old : ∀ p, fs.has p = true → fs'.kind p = fs.kind p := by
    intro p hp
    cases hk : fs.kind p with
    | none => unfold FS.has at hp; rw [hk] at hp; cases hp
    | some k => exact hg.keep p k hk
  constructor
  · intro n hn e
    cases hp : fs.has (place st (C.take n)) with
    | true => rw [old _ hp] at e; exact h.file n hn e
    | false =>
        have : fs'.has (place st (C.take n)) = true := by unfold FS.has; rw [e]; rfl
        rw [key _ hp this] at e; cases e
  · intro n hn h1 h2
    cases hp : fs.has (place st (C.take n)) with
    | false => exact key _ hp h2
    | true =>
        rw [old _ hp]
        refine h.write n hn ?_ hp
        cases hq : fs.has (place st (C.take (n + 1))) with
        | false => rfl
        | true => rw [hg.has hq] at h1; cases h1

variable {fs0 : FS} {path : Str} {pm : Nat}

theorem parent_create (hname : ∀ c ∈ comps path, c.length ≤ NAME_MAX) (hlen : path.length < pm) {fs : FS} (hok : fs.Ok) (hc : fs.cwd = fs0.cwd) (hfree : Free fs (fs0.start path) (comps path)) {p : Str} (hp : Parent path p) {k : Nat}
    (hk : k ≤ (comps path).length) (hcp : comps p = (comps path).take k) (hdirs : ∀ i < k, fs.isDir (place (fs0.start path) ((comps path).take i)) = true) :
    ∃ fs', parent (fsOs pm true) fs p = (fs', true) ∧ Grow true (Through fs0 path) fs fs' ∧ ∀ i ≤ k, fs'.isDir (place (fs0.start path) ((comps path).take i)) = true := by
  have hst : fs.start p = fs0.start path := start_eq hc hp.head
  have hpl : p.length < pm := by obtain ⟨_, q, rfl⟩ := hp; simp at hlen; omega
  have hck : (comps p).length = k := by rw [hcp]; simp; omega
  have hname' : ∀ c ∈ comps p, c.length ≤ NAME_MAX := fun c hx => hname c (by rw [hcp] at hx; exact List.mem_of_mem_take hx)
  have hdirs' : ∀ n < (comps p).length, fs.isDir (place (fs.start p) ((comps p).take n)) = true := by
    intro n hn
    rw [hst, hcp, List.take_take, Nat.min_eq_left (by omega)]
    exact hdirs n (by omega)
  have hstat := stat_has (fs := fs) hp.1 hpl hname' hdirs'
  rw [hst, hcp] at hstat
  unfold parent
  rw [fsOs_stat, fsOs_mkdir]
  cases hh : fs.has (place (fs0.start path) ((comps path).take k)) with
  | true =>
      have hd := has_isDir hh (hfree.file k hk)
      rw [if_pos (by rw [hstat, hh, hd]; simp)]
      refine ⟨fs, rfl, Grow.refl hok, fun i hi => ?_⟩
      rcases Nat.lt_or_ge i k with h | h
      · exact hdirs i h
      · rw [show i = k by omega]; exact hd
  | false =>
      rw [if_neg (by rw [hstat, hh]; simp)]
      have hk0 : k ≠ 0 := by
        intro e
        subst e
        rw [List.take_zero, place_nil] at hh
        have := isDir_has (start_ok hok path)
        rw [start_eq hc rfl, hh] at this
        cases this
      obtain ⟨j, rfl⟩ : ∃ j, k = j + 1 := ⟨k - 1, by omega⟩
      have hsn : comps p = (comps path).take j ++ [(comps path)[j]] := by rw [hcp, List.take_add_one, List.getElem?_eq_getElem (by omega)]; rfl
      have hdj := hdirs j (by omega)
      have hkj := hfree.write j (by omega) hh (isDir_has hdj)
      have hmk := mkdir_new (nw := true) hp.1 hpl hname' hsn hdirs' hok (by rw [hst, hcp]; exact hh) (by rw [hst]; exact hkj)
      rw [hmk, hst, hcp]
      have hg : Grow true (Through fs0 path) fs (FS.mkdir pm true fs p).1 := mkdir_grow hok hc hp.head hk hcp pm true
      rw [hmk, hst, hcp] at hg
      refine ⟨_, rfl, hg, fun i hi => ?_⟩
      rcases Nat.lt_or_ge i (j + 1) with h | h
      · exact hg.isDir (hdirs i h)
      · rw [show i = j + 1 by omega]
        unfold FS.isDir FS.add
        simp

theorem makeAll_create (hname : ∀ c ∈ comps path, c.length ≤ NAME_MAX) (hlen : path.length < pm) : ∀ (n : Nat) (done rest : Str), rest.length ≤ n → path = done ++ rest → (done = [] ∨ ∃ e, done = e ++ [47]) → ∀ (fs : FS), fs.Ok → fs.cwd = fs0.cwd →
    Free fs (fs0.start path) (comps path) → (∀ i ≤ (comps done).length, fs.isDir (place (fs0.start path) ((comps path).take i)) = true) →
    ∃ fs', makeAll (fsOs pm true) fs (pre done (segs rest)) = (fs', true) ∧ Grow true (Through fs0 path) fs fs' ∧ ∀ i < (comps path).length, fs'.isDir (place (fs0.start path) ((comps path).take i)) = true := by
  intro n
  induction n with
  | zero =>
      intro done rest hr hp _ fs hok _ _ hdirs
      have : rest = [] := List.length_eq_zero_iff.1 (by omega)
      subst this
      refine ⟨fs, rfl, Grow.refl hok, fun i hi => hdirs i ?_⟩
      rw [hp, List.append_nil] at hi
      omega
  | succ n ih =>
      intro done rest hr hp hdone fs hok hc hfree hdirs
      have hjoin : ∀ x, comps (done ++ x) = comps done ++ comps x := by
        intro x
        rcases hdone with rfl | ⟨e, rfl⟩
        · rw [comps_nil]; rfl
        · rw [comps_snoc_sep, List.append_assoc, List.singleton_append, comps_sep]
      by_cases hs : (47 : Byte) ∈ rest
      · obtain ⟨a, b, rfl, ha⟩ := split_sep hs
        rw [segs_sep a b ha]
        obtain ⟨t, ts, hts⟩ := List.exists_cons_of_ne_nil (segs_ne b)
        rw [hts, pre, ← hts]
        have hC : comps path = comps (done ++ a) ++ comps b := by rw [hp, ← List.append_assoc, comps_sep]
        have hdone' : done ++ a ++ [47] = [] ∨ ∃ e, done ++ a ++ [47] = e ++ [47] := Or.inr ⟨_, rfl⟩
        have hp' : path = done ++ a ++ [47] ++ b := by rw [hp]; simp
        have hbl : b.length ≤ n := by simp at hr; omega
        by_cases hda : done ++ a = []
        · rw [if_pos hda, List.nil_append]
          refine ih (done ++ a ++ [47]) b hbl hp' hdone' fs hok hc hfree ?_
          intro i hi
          rw [comps_snoc_sep, hda, comps_nil] at hi
          exact hdirs i (by simp at hi; omega)
        · rw [if_neg hda, List.singleton_append, makeAll]
          have hpar : Parent path (done ++ a) := ⟨hda, b, by rw [hp]; simp⟩
          have hk : (comps (done ++ a)).length ≤ (comps path).length := by rw [hC]; simp
          have hcp : comps (done ++ a) = (comps path).take (comps (done ++ a)).length := by
            rw [hC]; exact (List.take_left' rfl).symm
          have hd' : ∀ i < (comps (done ++ a)).length, fs.isDir (place (fs0.start path) ((comps path).take i)) = true := by
            intro i hi
            refine hdirs i ?_
            have : (comps a).length ≤ 1 := by
              by_cases hae : a = []
              · rw [hae, comps_nil]; simp
              · rw [comps_one ha hae]; simp
            rw [hjoin, List.length_append] at hi
            omega
          obtain ⟨fs1, e1, hg1, hd1⟩ := parent_create hname hlen hok hc hfree hpar hk hcp hd'
          rw [e1]
          obtain ⟨fs2, e2, hg2, hd2⟩ := ih (done ++ a ++ [47]) b hbl hp' hdone' fs1 hg1.ok (hg1.cwd.trans hc) (hfree.grow (fs0 := fs0) hg1) (by
            intro i hi
            rw [comps_snoc_sep] at hi
            exact hd1 i hi)
          exact ⟨fs2, e2, hg1.trans hg2, hd2⟩
      · rw [segs_one rest hs]
        refine ⟨fs, rfl, Grow.refl hok, fun i hi => hdirs i ?_⟩
        have : (comps rest).length ≤ 1 := by
          by_cases hae : rest = []
          · rw [hae, comps_nil]; simp
          · rw [comps_one hs hae]; simp
        rw [hp, hjoin, List.length_append] at hi
        omega

/-- The path itself, once its parents exist. -/
theorem mkdir_last (hne : path ≠ []) (hname : ∀ c ∈ comps path, c.length ≤ NAME_MAX) (hlen : path.length < pm) {fs : FS} (hok : fs.Ok) (hc : fs.cwd = fs0.cwd) (hfree : Free fs (fs0.start path) (comps path))
    (hdirs : ∀ i < (comps path).length, fs.isDir (place (fs0.start path) ((comps path).take i)) = true) :
    ∃ fs' r, FS.mkdir pm true fs path = (fs', r) ∧ r ≠ some .other ∧ Grow true (Through fs0 path) fs fs' ∧ ∀ i ≤ (comps path).length, fs'.has (place (fs0.start path) ((comps path).take i)) = true := by
  have hst : fs.start path = fs0.start path := start_eq hc rfl
  have hg : Grow true (Through fs0 path) fs (FS.mkdir pm true fs path).1 := mkdir_grow hok hc rfl (Nat.le_refl _) (List.take_of_length_le (Nat.le_refl _)).symm pm true
  cases hh : fs.has (place (fs0.start path) (comps path)) with
  | true =>
      refine ⟨fs, some .exist, mkdir_exist hne hlen hname (by rw [hst]; exact hdirs) (by rw [hst]; exact hh), by decide, Grow.refl hok, fun i hi => ?_⟩
      rcases Nat.lt_or_ge i (comps path).length with h | h
      · exact isDir_has (hdirs i h)
      · rw [List.take_of_length_le h]; exact hh
  | false =>
      have hk0 : (comps path).length ≠ 0 := by
        intro e
        have e := List.length_eq_zero_iff.1 e
        rw [e, place_nil, ← hst, isDir_has (start_ok hok path)] at hh
        cases hh
      obtain ⟨j, hj⟩ : ∃ j, (comps path).length = j + 1 := ⟨(comps path).length - 1, by omega⟩
      have hsn : comps path = (comps path).take j ++ [(comps path)[j]] := by
        have : (comps path).take (j + 1) = comps path := List.take_of_length_le (by omega)
        rw [List.take_add_one, List.getElem?_eq_getElem (by omega)] at this
        exact this.symm
      have hkj := hfree.write j (by omega) (by rw [List.take_of_length_le (by omega)]; exact hh) (isDir_has (hdirs j (by omega)))
      have hmk := mkdir_new (nw := true) hne hlen hname hsn (by rw [hst]; exact hdirs) hok (by rw [hst]; exact hh) (by rw [hst]; exact hkj)
      rw [hmk, hst] at hg ⊢
      refine ⟨_, _, rfl, by decide, hg, fun i hi => ?_⟩
      rcases Nat.lt_or_ge i (comps path).length with h | h
      · exact hg.has (isDir_has (hdirs i h))
      · rw [List.take_of_length_le h]; unfold FS.has FS.add; simp

open Classical in
/-- C79 (partial). If no file is in the way and whatever is missing lies in writable directories, zt_mkdir with the flag returns 0 and creates exactly the directories that are missing on the path. Not proved, since false
otherwise: that it returns at all (`c79_readonly_violation`, `c79_empty_violation`), that the path is a directory then (`c79_file_violation`), and memory safety for overlong paths (`c79_long_violation`). -/
theorem c79_create_partial {fs : FS} (hok : fs.Ok) {m path : List Byte} (hm : IsStr m path) (pm : Nat) (hne : path ≠ []) (hlen : path.length < pm) (hname : ∀ c ∈ comps path, c.length ≤ NAME_MAX)
    (hfile : ∀ p, Through fs path p → fs.kind p ≠ some .file)
    (hw : ∀ n, n < (comps path).length → fs.has (place (fs.start path) ((comps path).take (n + 1))) = false → fs.has (place (fs.start path) ((comps path).take n)) = true → fs.kind (place (fs.start path) ((comps path).take n)) = some (.dir true)) :
    ∃ fs', Runs (fun fuel => mkdir (fsOs pm true) pm m true fuel fs) (fs', 0) ∧ ∀ p, fs'.kind p = if fs.has p then fs.kind p else if Through fs path p then some (.dir true) else none := by
  have hfree : Free fs (fs.start path) (comps path) := ⟨fun n hn => hfile _ ⟨n, hn, rfl⟩, hw⟩
  have fin : ∀ fs', Grow true (Through fs path) fs fs' → (∀ i ≤ (comps path).length, fs'.has (place (fs.start path) ((comps path).take i)) = true) →
      ∀ p, fs'.kind p = if fs.has p then fs.kind p else if Through fs path p then some (.dir true) else none := by
    intro fs' hg hall p
    cases hp : fs.has p with
    | true =>
        rw [if_pos rfl]
        cases hk : fs.kind p with
        | none => unfold FS.has at hp; rw [hk] at hp; cases hp
        | some k => exact hg.keep p k hk
    | false =>
        rw [if_neg (by simp)]
        by_cases ht : Through fs path p
        · rw [if_pos ht]
          obtain ⟨n, hn, rfl⟩ := ht
          exact (hg.fresh _ hp (hall n hn)).1
        · rw [if_neg ht]
          cases hk : fs'.kind p with
          | none => rfl
          | some k => exact absurd (hg.fresh p hp (by unfold FS.has; rw [hk]; rfl)).2 ht
  have hmm := mkdir_made hok pm true path
  have hgm : Grow true (Through fs path) fs (FS.mkdir pm true fs path).1 := mkdir_grow hok rfl rfl (Nat.le_refl _) (List.take_of_length_le (Nat.le_refl _)).symm pm true
  generalize hx : FS.mkdir pm true fs path = x at *
  cases hmm with
  | new d c hpl hk hno hdirs =>
      refine ⟨_, ⟨1, fun fuel hf => ?_⟩, fin _ hgm fun i hi => ?_⟩
      · obtain ⟨f, rfl⟩ : ∃ f, fuel = f + 1 := ⟨fuel - 1, by omega⟩
        simp only [mkdir, text_ok hm, Outcome.ok_bind, fsOs_mkdir, hx]
      · rcases Nat.lt_or_ge i (comps path).length with h | h
        · exact hgm.has (isDir_has (hdirs i h))
        · rw [List.take_of_length_le h, hpl]; unfold FS.has FS.add; simp
  | exist hh hdirs =>
      refine ⟨_, ⟨1, fun fuel hf => ?_⟩, fin _ hgm fun i hi => ?_⟩
      · obtain ⟨f, rfl⟩ : ∃ f, fuel = f + 1 := ⟨fuel - 1, by omega⟩
        simp only [mkdir, text_ok hm, Outcome.ok_bind, fsOs_mkdir, hx]
      · rcases Nat.lt_or_ge i (comps path).length with h | h
        · exact isDir_has (hdirs i h)
        · rw [List.take_of_length_le h]; exact hh
  | other =>
      obtain ⟨fs1, e1, hg1, hd1⟩ := makeAll_create (fs0 := fs) hname hlen path.length [] path (Nat.le_refl _) rfl (Or.inl rfl) fs hok rfl hfree (by
        intro i hi
        rw [comps_nil] at hi
        rw [show i = 0 by simpa using hi, List.take_zero, place_nil]
        exact start_ok hok path)
      obtain ⟨fs2, r, e2, hr, hg2, hd2⟩ := mkdir_last hne hname hlen hg1.ok hg1.cwd (hfree.grow (fs0 := fs) hg1) hd1
      refine ⟨fs2, ⟨2, fun fuel hf => ?_⟩, fin _ (hg1.trans hg2) hd2⟩
      obtain ⟨f, rfl⟩ : ∃ f, fuel = f + 1 + 1 := ⟨fuel - 2, by omega⟩
      show mkdir (fsOs pm true) pm m true (f + 1 + 1) fs = _
      rw [mkdir, text_ok hm]
      simp only [Outcome.ok_bind, fsOs_mkdir, hx, Bool.true_eq_false, if_false, strlen_ok hm]
      rw [parents_all (fsOs pm true) hm pm (by omega) _ (Nat.lt_succ_self _) fs, e1]
      simp only [Outcome.ok_bind]
      show mkdir (fsOs pm true) pm m true (f + 1) fs1 = _
      rw [mkdir, text_ok hm]
      simp only [Outcome.ok_bind, fsOs_mkdir, e2]
      cases r with
      | none => rfl
      | some x =>
          cases x with
          | exist => rfl
          | other => exact absurd rfl hr

end ZT.Path
