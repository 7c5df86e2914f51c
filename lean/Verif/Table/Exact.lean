import Verif.Table.Props2

/-!
# What histories of zt_table do exactly (C17, C19, C58)

The specification below is a bag of entries per bucket that also says what the code does to entries it was not asked about: a deletion
whose match is not the first of its bucket takes the entries in between out of the table; they stay allocated ("lost").
-/

namespace ZT.Table

/-! ## Specification -/

/-- The stored entry is one a lookup of `k` stops at. -/
def Meets (cb : Callbacks) (k : Key) (e : Entry) : Bool := cb.hash e.key == cb.hash k && cb.cmp e.key k

/-- Entries by bucket, newest first, and the entries that are in no bucket any more but still allocated. -/
structure Bag where
  bucket : Nat → List Entry
  lost : List Entry

/-- What a deletion takes from a bucket: the datum returned, what is left, what is lost. -/
def taken (p : Entry → Bool) : List Entry → Option (Nat × List Entry × List Entry)
  | [] => none
  | e :: es =>
      if p e then some (e.datum, es, [])
      else ((es.dropWhile fun x => !p x).head?).map fun x => (x.datum, e :: (es.dropWhile fun x => !p x).tail, es.takeWhile fun x => !p x)

/-- One call, with `ix` the bucket of a key. -/
def Bag.step (cb : Callbacks) (dup : Bool) (ix : Key → Nat) (s : Bag) : Op → Res × Bag
  | .set k d dl =>
      if !dup && (s.bucket (ix k)).any (Meets cb k) then (.int 1, s)
      else (.int 0, { s with bucket := fun i => if i = ix k then ⟨k, d, dl, cb.hash k⟩ :: s.bucket i else s.bucket i })
  | .get k => (.ret (report (((s.bucket (ix k)).find? (Meets cb k)).map (·.datum))), s)
  | .del k =>
      match taken (Meets cb k) (s.bucket (ix k)) with
      | none => (.ret (report none), s)
      | some (d, l, z) => (.ret (report (some d)), { bucket := fun i => if i = ix k then l else s.bucket i, lost := z ++ s.lost })

def Bag.run (cb : Callbacks) (dup : Bool) (ix : Key → Nat) : Bag → List Op → List Res × Bag
  | s, [] => ([], s)
  | s, op :: ops => ((s.step cb dup ix op).1 :: (Bag.run cb dup ix (s.step cb dup ix op).2 ops).1, (Bag.run cb dup ix (s.step cb dup ix op).2 ops).2)

/-! ## Abstraction -/

structure AbsX (cb : Callbacks) (T : Tbl) (C : Nat → List (Nat × Entry)) (Z : List (Nat × Entry)) (s : Bag) (L : Nat) : Prop where
  rep : Rep cb T C
  buckets : ∀ i, s.bucket i = (C i).map (·.2)
  lost : s.lost = Z.map (·.2)
  live : ∀ a, T.heap a ≠ none ↔ (∃ i, a ∈ adr (C i)) ∨ a ∈ adr Z
  nodup : (adr Z).Nodup
  disj : ∀ i a, a ∈ adr (C i) → a ∉ adr Z
  len : ∀ i, (C i).length ≤ L
  range : InRange cb T

theorem hit_meets {cb : Callbacks} {T : Tbl} {C} (R : Rep cb T C) {i : Nat} {x : Nat × Entry} (hx : x ∈ C i) (k : Key) : hit cb x.2 k = Meets cb k x.2 := by
  rw [hit, Meets, (R.hash i x hx).1]

theorem find_meets {cb : Callbacks} {T : Tbl} {C} (R : Rep cb T C) (i : Nat) (k : Key) :
    ((C i).find? fun x => hit cb x.2 k) = (C i).find? fun x => Meets cb k x.2 := by
  have : ∀ l : List (Nat × Entry), (∀ x ∈ l, hit cb x.2 k = Meets cb k x.2) → (l.find? fun x => hit cb x.2 k) = l.find? fun x => Meets cb k x.2 := by
    intro l hl
    induction l with
    | nil => rfl
    | cons x xs ih =>
        simp only [List.find?_cons, hl x (by simp)]
        rw [ih fun y hy => hl y (by simp [hy])]
  exact this _ fun x hx => hit_meets R hx k

theorem list_bound (l : List Nat) : ∃ b, ∀ a ∈ l, a < b := by
  induction l with
  | nil => exact ⟨0, by simp⟩
  | cons x xs ih =>
      obtain ⟨b, hb⟩ := ih
      refine ⟨b + x + 1, ?_⟩
      intro a ha
      rcases List.mem_cons.mp ha with rfl | ha
      · omega
      · have := hb a ha; omega

theorem exists_freeX {cb : Callbacks} {T : Tbl} {C Z s L} (A : AbsX cb T C Z s L) : ∃ a, T.heap a = none := by
  obtain ⟨b, hb⟩ := list_bound (((List.range T.num).map fun i => adr (C i)).flatten ++ adr Z)
  refine ⟨b, Decidable.byContradiction fun h => ?_⟩
  have : b ∈ ((List.range T.num).map fun i => adr (C i)).flatten ++ adr Z := by
    rcases (A.live b).1 h with ⟨i, hi⟩ | hz
    · obtain ⟨x, hx, e⟩ := List.mem_map.mp hi
      have := (A.rep.hash i x hx).2.2
      exact List.mem_append_left _ (List.mem_flatten.mpr ⟨_, List.mem_map.mpr ⟨i, by simpa using this, rfl⟩, hi⟩)
    · exact List.mem_append_right _ hz
  have := hb b this
  omega

/-- The call leaves the end `rest` of a chain alone, unless it is a deletion whose key an entry of it meets. -/
def Keeps (cb : Callbacks) (T : Tbl) (op : Op) (C C' : Nat → List (Nat × Entry)) : Prop :=
  ∀ i pre rest, C i = pre ++ rest → (∀ k, op = .del k → index cb T k = i → ∀ x ∈ rest, Meets cb k x.2 = false) → ∃ pre', C' i = pre' ++ rest

theorem Keeps.refl (cb : Callbacks) (T : Tbl) (op : Op) (C : Nat → List (Nat × Entry)) : Keeps cb T op C C := fun _ pre _ h _ => ⟨pre, h⟩

theorem suffix_of_middle {α : Type} {pre rest a post : List α} {x : α} (h : pre ++ rest = a ++ x :: post) (hx : x ∉ rest) : ∃ p, post = p ++ rest := by
  rcases List.append_eq_append_iff.1 h with ⟨w, h1, h2⟩ | ⟨w, h1, h2⟩
  · exact absurd (by rw [h2]; simp) hx
  · match w, h2 with
    | [], h2 => exact absurd (by rw [List.nil_append] at h2; rw [← h2]; simp) hx
    | y :: w, h2 => exact ⟨w, (List.cons.inj h2).2⟩

theorem set_xk {cb : Callbacks} {T : Tbl} {C Z s L} (A : AbsX cb T C Z s L) (fuel : Nat) (hf : L < fuel) (k : Key) (d dl a : Nat) (ha : T.heap a = none) :
    ∃ T' C', exec cb (fun _ => a) fuel T (.set k d dl) = .ok ((s.step cb T.dup (index cb T) (.set k d dl)).1, T') ∧ T'.nbits = T.nbits ∧ T'.num = T.num ∧
      T'.dup = T.dup ∧ AbsX cb T' C' Z (s.step cb T.dup (index cb T) (.set k d dl)).2 (L + 1) ∧ Keeps cb T (.set k d dl) C C' := by
  have hs := set_spec A.rep fuel k d dl a (A.range k) (by have := A.len (index cb T k); omega)
  rw [find_meets A.rep] at hs
  have hany : ((C (index cb T k)).find? fun x => Meets cb k x.2).isSome = (s.bucket (index cb T k)).any (Meets cb k) := by
    rw [A.buckets, List.any_map, List.isSome_find?]; rfl
  rw [hany] at hs
  by_cases c : (!T.dup && (s.bucket (index cb T k)).any (Meets cb k)) = true
  · rw [if_pos c] at hs
    refine ⟨T, C, ?_, rfl, rfl, rfl, ?_, Keeps.refl _ _ _ _⟩
    · simp only [exec, hs, Outcome.ok_bind, Bag.step, if_pos c, Outcome.pure_eq]
    · simp only [Bag.step, if_pos c]
      exact { A with len := fun i => by have := A.len i; omega }
  · rw [if_neg c] at hs
    refine ⟨pushed T (index cb T k) a ⟨k, d, dl, cb.hash k⟩, upd C (index cb T k) ((a, ⟨k, d, dl, cb.hash k⟩) :: C (index cb T k)), ?_, rfl, rfl, rfl, ?_, fun i pre rest h _ => ?_⟩
    · simp only [exec, hs, Outcome.ok_bind, Bag.step, if_neg c, Outcome.pure_eq]
    · simp only [Bag.step, if_neg c]
      have hlive := A.live
      have hza : a ∉ adr Z := fun h => (A.live a).2 (.inr h) ha
      refine ⟨pushed_rep A.rep (index cb T k) a ⟨k, d, dl, cb.hash k⟩ ha rfl rfl (A.range k), ?_, A.lost, ?_, A.nodup, ?_, ?_, A.range⟩
      · intro i
        rw [upd_eq]
        by_cases ci : i = index cb T k
        · simp [ci, A.buckets]
        · simp [ci, A.buckets]
      · intro b
        by_cases cb' : b = a
        · subst cb'
          refine ⟨fun _ => .inl ⟨index cb T k, by rw [upd_eq]; simp⟩, fun _ => by simp [pushed]⟩
        · have e : (pushed T (index cb T k) a ⟨k, d, dl, cb.hash k⟩).heap b = T.heap b := by simp [pushed, cb']
          rw [e, hlive]
          refine or_congr ⟨?_, ?_⟩ Iff.rfl
          · rintro ⟨i, hi⟩
            refine ⟨i, ?_⟩
            rw [upd_eq]
            split
            · subst_vars; simp [hi]
            · exact hi
          · rintro ⟨i, hi⟩
            rw [upd_eq] at hi
            refine ⟨i, ?_⟩
            split at hi
            · subst_vars; simpa [cb'] using hi
            · exact hi
      · intro i b hb
        rw [upd_eq] at hb
        split at hb
        · rcases List.mem_cons.mp (by simpa using hb) with rfl | h
          · exact hza
          · exact A.disj _ b h
        · exact A.disj i b hb
      · intro i
        rw [upd_eq]
        have := A.len i
        split
        · subst_vars; simp; omega
        · omega
    · rw [upd_eq]
      split
      · subst_vars; exact ⟨_ :: pre, by rw [h]; rfl⟩
      · exact ⟨pre, h⟩

theorem set_x {cb : Callbacks} {T : Tbl} {C Z s L} (A : AbsX cb T C Z s L) (fuel : Nat) (hf : L < fuel) (k : Key) (d dl a : Nat) (ha : T.heap a = none) :
    ∃ T' C', exec cb (fun _ => a) fuel T (.set k d dl) = .ok ((s.step cb T.dup (index cb T) (.set k d dl)).1, T') ∧ T'.nbits = T.nbits ∧ T'.num = T.num ∧
      T'.dup = T.dup ∧ AbsX cb T' C' Z (s.step cb T.dup (index cb T) (.set k d dl)).2 (L + 1) := by
  obtain ⟨T', C', h1, h2, h3, h4, h5, -⟩ := set_xk A fuel hf k d dl a ha
  exact ⟨T', C', h1, h2, h3, h4, h5⟩

theorem taken_none {p : Entry → Bool} {l : List Entry} (h : ∀ x ∈ l, p x = false) : taken p l = none := by
  match l with
  | [] => rfl
  | e :: es =>
      have : es.dropWhile (fun x => !p x) = [] := by
        have := List.dropWhile_append_of_pos (l₁ := es) (l₂ := []) (p := fun x => !p x) (fun x hx => by simp [h x (by simp [hx])])
        simpa using this
      simp [taken, h e (by simp), this]

theorem taken_first {p : Entry → Bool} {e : Entry} {es : List Entry} (h : p e = true) : taken p (e :: es) = some (e.datum, es, []) := by simp [taken, h]

theorem taken_later {p : Entry → Bool} {f e : Entry} {mid post : List Entry} (hf : p f = false) (hm : ∀ x ∈ mid, p x = false) (he : p e = true) :
    taken p (f :: (mid ++ e :: post)) = some (e.datum, f :: post, mid) := by
  have h1 : (mid ++ e :: post).dropWhile (fun x => !p x) = e :: post := by
    rw [List.dropWhile_append_of_pos (fun x hx => by simp [hm x hx])]
    simp [he]
  have h2 : (mid ++ e :: post).takeWhile (fun x => !p x) = mid := by
    rw [List.takeWhile_append_of_pos (fun x hx => by simp [hm x hx])]
    simp [he]
  simp [taken, hf, h1, h2]

theorem del_xk {cb : Callbacks} {T : Tbl} {C Z s L} (A : AbsX cb T C Z s L) (fuel : Nat) (hf : L < fuel) (k : Key) (alloc : Tbl → Nat) :
    ∃ T' C' Z', exec cb alloc fuel T (.del k) = .ok ((s.step cb T.dup (index cb T) (.del k)).1, T') ∧ T'.nbits = T.nbits ∧ T'.num = T.num ∧
      T'.dup = T.dup ∧ AbsX cb T' C' Z' (s.step cb T.dup (index cb T) (.del k)).2 L ∧ Keeps cb T (.del k) C C' := by
  have hlen : (C (index cb T k)).length < fuel := by have := A.len (index cb T k); omega
  have hb := A.buckets (index cb T k)
  have hrange : ∀ T' : Tbl, T'.nbits = T.nbits → T'.num = T.num → InRange cb T' := fun T' h1 h2 k' => by
    rw [index, h1, h2]; exact A.range k'
  cases hfi : (C (index cb T k)).find? fun x => Meets cb k x.2 with
  | none =>
      have hno : ∀ x ∈ C (index cb T k), Meets cb k x.2 = false := fun x hx => by simpa using List.find?_eq_none.mp hfi x hx
      have hmiss : ∀ x ∈ C (index cb T k), hit cb x.2 k = false := fun x hx => by rw [hit_meets A.rep hx]; exact hno x hx
      have ht : taken (Meets cb k) (s.bucket (index cb T k)) = none := taken_none (by
        intro x hx
        rw [hb] at hx
        obtain ⟨y, hy, rfl⟩ := List.mem_map.mp hx
        exact hno y hy)
      refine ⟨T, C, Z, ?_, rfl, rfl, rfl, ?_, Keeps.refl _ _ _ _⟩
      · simp only [exec, del_miss A.rep fuel k (A.range k) hmiss hlen, Outcome.ok_bind, Bag.step, ht, Outcome.pure_eq, report]
      · simp only [Bag.step, ht]; exact A
  | some x =>
      obtain ⟨pre, post, hC, hx, hpre⟩ := find_split _ _ _ hfi
      have hxh : hit cb x.2 k = true := by rw [hit_meets A.rep (i := index cb T k) (by rw [hC]; simp)]; exact hx
      have hpreh : ∀ y ∈ pre, hit cb y.2 k = false := fun y hy => by
        rw [hit_meets A.rep (i := index cb T k) (by rw [hC]; simp [hy])]; exact hpre y hy
      have hnd := A.rep.nodup (index cb T k)
      have hdj := A.rep.disj
      have hdz := A.disj
      have hzn := A.nodup
      have hlv := A.live
      match pre, hC, hpreh, hpre with
      | [], hC, _, _ =>
          obtain ⟨T', e, R', h1, h2, h3, _, h5⟩ := del_first_heap A.rep fuel k (A.range k) x.1 x.2 post hC hxh hlen
          have ht : taken (Meets cb k) (s.bucket (index cb T k)) = some (x.2.datum, post.map (·.2), []) := by
            rw [hb, hC]; exact taken_first hx
          refine ⟨T', upd C (index cb T k) post, Z, ?_, h1, h2, h3, ?_, fun i pre rest h hk => ?_⟩
          · simp only [exec, e, Outcome.ok_bind, Bag.step, ht, Outcome.pure_eq, report]
          · simp only [Bag.step, ht]
            rw [hC] at hnd
            simp only [List.nil_append, adr_cons, List.nodup_cons] at hnd
            have hin : ∀ b, b ∈ adr (C (index cb T k)) ↔ b = x.1 ∨ b ∈ adr post := fun b => by rw [hC]; simp
            refine ⟨R', ?_, A.lost, ?_, A.nodup, ?_, ?_, hrange T' h1 h2⟩
            · intro i
              rw [upd_eq]
              by_cases ci : i = index cb T k <;> simp [ci, A.buckets]
            · intro b
              rw [h5 b, hlv b]
              have hxz := hdz (index cb T k) x.1 ((hin _).2 (.inl rfl))
              constructor
              · rintro ⟨hne, ⟨i, hi⟩ | hz⟩
                · refine .inl ⟨i, ?_⟩
                  rw [upd_eq]
                  split
                  · subst_vars; rcases (hin b).1 hi with h | h
                    · exact absurd h hne
                    · exact h
                  · exact hi
                · exact .inr hz
              · rintro (⟨i, hi⟩ | hz)
                · rw [upd_eq] at hi
                  split at hi
                  · subst_vars
                    exact ⟨fun h => hnd.1 (h ▸ hi), .inl ⟨_, (hin b).2 (.inr hi)⟩⟩
                  · rename_i hne
                    exact ⟨fun h => hne (hdj i _ b hi ((hin b).2 (.inl h))), .inl ⟨i, hi⟩⟩
                · exact ⟨fun h => hxz (h ▸ hz), .inr hz⟩
            · intro i b hb'
              rw [upd_eq] at hb'
              split at hb'
              · exact hdz (index cb T k) b ((hin b).2 (.inr hb'))
              · exact hdz i b hb'
            · intro i
              rw [upd_eq]
              have := A.len i
              split
              · subst_vars; rw [hC] at this; simp at this; omega
              · exact this
          · rw [upd_eq]
            split
            · subst_vars
              obtain ⟨q, hq⟩ := suffix_of_middle (x := x) (h.symm.trans hC) fun hm => by rw [hk k rfl rfl x hm] at hx; cases hx
              exact ⟨q, hq⟩
            · exact ⟨pre, h⟩
      | f :: mid, hC, hpreh, hpre =>
          obtain ⟨T', e, R', h1, h2, h3, _, _, h5⟩ := del_later_heap A.rep fuel k (A.range k) f.1 f.2 mid x.1 x.2 post hC hpreh hxh hlen
          have ht : taken (Meets cb k) (s.bucket (index cb T k)) = some (x.2.datum, f.2 :: post.map (·.2), mid.map (·.2)) := by
            rw [hb, hC]
            simp only [List.cons_append, List.map_cons, List.map_append]
            refine taken_later (hpre f (by simp)) ?_ hx
            intro y hy
            obtain ⟨z, hz, rfl⟩ := List.mem_map.mp hy
            exact hpre z (by simp [hz])
          refine ⟨T', upd C (index cb T k) ((f.1, f.2) :: post), mid ++ Z, ?_, h1, h2, h3, ?_, fun i pre rest h hk => ?_⟩
          · simp only [exec, e, Outcome.ok_bind, Bag.step, ht, Outcome.pure_eq, report]
          · simp only [Bag.step, ht]
            rw [hC] at hnd
            simp only [List.cons_append, adr_cons, adr_append, List.nodup_cons, List.nodup_append, List.mem_append, List.mem_cons, not_or] at hnd
            have hin : ∀ b, b ∈ adr (C (index cb T k)) ↔ b = f.1 ∨ b ∈ adr mid ∨ b = x.1 ∨ b ∈ adr post := fun b => by
              rw [hC]; simp only [List.cons_append, adr_cons, adr_append, List.mem_cons, List.mem_append]
            refine ⟨R', ?_, ?_, ?_, ?_, ?_, ?_, hrange T' h1 h2⟩
            · intro i
              rw [upd_eq]
              by_cases ci : i = index cb T k <;> simp [ci, A.buckets]
            · simp [A.lost]
            · intro b
              rw [h5 b, hlv b]
              simp only [adr_append, List.mem_append]
              have hxz := hdz (index cb T k) x.1 ((hin _).2 (.inr (.inr (.inl rfl))))
              constructor
              · rintro ⟨hne, ⟨i, hi⟩ | hz⟩
                · by_cases ci : i = index cb T k
                  · subst ci
                    rcases (hin b).1 hi with h | h | h | h
                    · exact .inl ⟨index cb T k, by rw [upd_eq]; simp [h]⟩
                    · exact .inr (.inl h)
                    · exact absurd h hne
                    · exact .inl ⟨index cb T k, by rw [upd_eq]; simp [h]⟩
                  · exact .inl ⟨i, by rw [upd_eq, if_neg ci]; exact hi⟩
                · exact .inr (.inr hz)
              · rintro (⟨i, hi⟩ | hm | hz)
                · rw [upd_eq] at hi
                  split at hi
                  · subst_vars
                    rcases List.mem_cons.mp (by simpa using hi) with h | h
                    · exact ⟨fun h' => hnd.1.2.1 (h.symm.trans h'), .inl ⟨_, (hin b).2 (.inl h)⟩⟩
                    · exact ⟨fun h' => hnd.2.2.1.1 (h' ▸ h), .inl ⟨_, (hin b).2 (.inr (.inr (.inr h)))⟩⟩
                  · rename_i hne
                    exact ⟨fun h => hne (hdj i _ b hi ((hin b).2 (.inr (.inr (.inl h))))), .inl ⟨i, hi⟩⟩
                · exact ⟨fun h => hnd.2.2.2 b hm x.1 (.inl rfl) h, .inl ⟨_, (hin b).2 (.inr (.inl hm))⟩⟩
                · exact ⟨fun h => hxz (h ▸ hz), .inr hz⟩
            · simp only [adr_append, List.nodup_append]
              exact ⟨hnd.2.1, hzn, fun a ha b hb' he => hdz _ a ((hin a).2 (.inr (.inl ha))) (he ▸ hb')⟩
            · intro i b hb' hm
              rw [upd_eq] at hb'
              simp only [adr_append, List.mem_append] at hm
              split at hb'
              · have hb'' : b = f.1 ∨ b ∈ adr post := by simpa using hb'
                rcases hm with hm | hm
                · rcases hb'' with h | h
                  · exact hnd.1.1 (h ▸ hm)
                  · exact hnd.2.2.2 b hm b (.inr h) rfl
                · exact hdz (index cb T k) b ((hin b).2 (hb''.elim (fun h => .inl h) fun h => .inr (.inr (.inr h)))) hm
              · rename_i hne
                rcases hm with hm | hm
                · exact hne (hdj i _ b hb' ((hin b).2 (.inr (.inl hm))))
                · exact hdz i b hb' hm
            · intro i
              rw [upd_eq]
              have := A.len i
              split
              · subst_vars; rw [hC] at this; simp at this ⊢; omega
              · exact this
          · rw [upd_eq]
            split
            · subst_vars
              obtain ⟨q, hq⟩ := suffix_of_middle (x := x) (h.symm.trans hC) fun hm => by rw [hk k rfl rfl x hm] at hx; cases hx
              exact ⟨f :: q, by rw [hq]; rfl⟩
            · exact ⟨pre, h⟩

theorem del_x {cb : Callbacks} {T : Tbl} {C Z s L} (A : AbsX cb T C Z s L) (fuel : Nat) (hf : L < fuel) (k : Key) (alloc : Tbl → Nat) :
    ∃ T' C' Z', exec cb alloc fuel T (.del k) = .ok ((s.step cb T.dup (index cb T) (.del k)).1, T') ∧ T'.nbits = T.nbits ∧ T'.num = T.num ∧
      T'.dup = T.dup ∧ AbsX cb T' C' Z' (s.step cb T.dup (index cb T) (.del k)).2 L := by
  obtain ⟨T', C', Z', h1, h2, h3, h4, h5, -⟩ := del_xk A fuel hf k alloc
  exact ⟨T', C', Z', h1, h2, h3, h4, h5⟩

theorem get_x {cb : Callbacks} {T : Tbl} {C Z s L} (A : AbsX cb T C Z s L) (fuel : Nat) (hf : L < fuel) (k : Key) :
    get cb fuel T k = .ok (report (((s.bucket (index cb T k)).find? (Meets cb k)).map (·.datum))) := by
  rw [get_spec A.rep fuel k (A.range k) (by have := A.len (index cb T k); omega), find_meets A.rep, A.buckets, List.find?_map]
  have : ((C (index cb T k)).find? (Meets cb k ∘ fun x => x.2)) = (C (index cb T k)).find? fun x => Meets cb k x.2 := rfl
  rw [this]
  cases (C (index cb T k)).find? fun x => Meets cb k x.2 <;> rfl

theorem step_x {cb : Callbacks} {alloc} (al : Allocator alloc) {T : Tbl} {C Z s L} (A : AbsX cb T C Z s L) (fuel : Nat) (hf : L < fuel) (op : Op) :
    ∃ T' C' Z', exec cb alloc fuel T op = .ok ((s.step cb T.dup (index cb T) op).1, T') ∧ T'.nbits = T.nbits ∧ T'.num = T.num ∧ T'.dup = T.dup ∧
      AbsX cb T' C' Z' (s.step cb T.dup (index cb T) op).2 (L + 1) := by
  cases op with
  | set k d dl =>
      obtain ⟨T', C', h⟩ := set_x A fuel hf k d dl (alloc T) (al T (exists_freeX A))
      exact ⟨T', C', Z, h⟩
  | get k =>
      refine ⟨T, C, Z, ?_, rfl, rfl, rfl, { A with len := fun i => by have := A.len i; omega }⟩
      simp only [exec, get_x A fuel hf k, Outcome.ok_bind, Bag.step, Outcome.pure_eq]
  | del k =>
      obtain ⟨T', C', Z', e, h1, h2, h3, A'⟩ := del_x A fuel hf k alloc
      exact ⟨T', C', Z', e, h1, h2, h3, { A' with len := fun i => by have := A'.len i; omega }⟩

theorem run_x {cb : Callbacks} {alloc} (al : Allocator alloc) (ops : List Op) : ∀ {T : Tbl} {C Z s L}, AbsX cb T C Z s L → ∀ fuel, L + ops.length < fuel →
    ∃ T' C' Z', run cb alloc fuel T ops = .ok ((s.run cb T.dup (index cb T) ops).1, T') ∧ T'.nbits = T.nbits ∧ T'.num = T.num ∧ T'.dup = T.dup ∧
      AbsX cb T' C' Z' (s.run cb T.dup (index cb T) ops).2 (L + ops.length) := by
  induction ops with
  | nil => intro T C Z s L A fuel _; exact ⟨T, C, Z, rfl, rfl, rfl, rfl, A⟩
  | cons op ops ih =>
      intro T C Z s L A fuel hf
      simp only [List.length_cons] at hf
      obtain ⟨T1, C1, Z1, e1, h1, h2, h3, A1⟩ := step_x al A fuel (by omega) op
      obtain ⟨T2, C2, Z2, e2, g1, g2, g3, A2⟩ := ih A1 fuel (by omega)
      have hix : index cb T1 = index cb T := by funext k; rw [index, index, h1]
      rw [hix, h3] at e2 A2
      refine ⟨T2, C2, Z2, ?_, g1.trans h1, g2.trans h2, g3.trans h3, ?_⟩
      · simp only [run, e1, Outcome.ok_bind, e2, Outcome.pure_eq, Bag.run]
      · simp only [Bag.run, List.length_cons]
        rw [show L + (ops.length + 1) = L + 1 + ops.length by omega]
        exact A2

theorem init_x (cb : Callbacks) (hint : Nat) (useHint dup : Bool) (hr : InRange cb (init hint useHint dup)) :
    AbsX cb (init hint useHint dup) (fun _ => []) [] ⟨fun _ => [], []⟩ 0 := by
  refine ⟨⟨fun _ => rfl, fun _ => List.nodup_nil, fun _ _ _ h => by simp at h, fun _ _ h => by simp at h⟩, fun _ => rfl, rfl, ?_, List.nodup_nil, fun _ _ h => by simp at h, fun _ => Nat.le_refl _, hr⟩
  intro a
  simp [init]

theorem slice_flat (C : Nat → List (Nat × Entry)) (k i : Nat) : slice C k i = (List.range' i k).flatMap fun j => (C j).map (·.2) := by
  induction k generalizing i with
  | zero => rfl
  | succ k ih => rw [slice, ih, List.range'_succ, List.flatMap_cons]

/-- What is known about a table after a history: every kind of call answers from the bag. -/
structure Answers (cb : Callbacks) (fuel : Nat) (T : Tbl) (s : Bag) : Prop where
  gets : ∀ k, get cb fuel T k = .ok (report (((s.bucket (index cb T k)).find? (Meets cb k)).map (·.datum)))
  each : ∀ (σ : Type) (it : Entry → σ → Outcome (Int × σ)) (x : σ), forEach it fuel T x = visit it ((List.range T.num).flatMap s.bucket) x
  destroyed : ∃ (T' : Tbl) (left : List Nat), destroy fuel T = .ok T' ∧ left.Nodup ∧ left.length = s.lost.length ∧ ∀ a, T'.heap a ≠ none ↔ a ∈ left

theorem answers_x {cb : Callbacks} {T : Tbl} {C Z s L} (A : AbsX cb T C Z s L) (fuel : Nat) (hf : L < fuel) : Answers cb fuel T s := by
  have hl : ∀ j, (C j).length < fuel := fun j => by have := A.len j; omega
  refine ⟨get_x A fuel hf, ?_, ?_⟩
  · intro σ it x
    have : (List.range T.num).flatMap s.bucket = slice C T.num 0 := by
      rw [slice_flat, List.range_eq_range']
      congr 1
      funext j
      exact A.buckets j
    rw [this]
    exact eachLoop_spec it T C fuel T.num 0 x A.rep.chain hl (by omega)
  · obtain ⟨T', h1, _, h3⟩ := destroyLoop_spec C fuel hl T.num 0 T (by omega) (fun j _ => A.rep.chain j) A.rep.nodup A.rep.disj
    refine ⟨T', adr Z, h1, A.nodup, by simp [adr, A.lost], fun a => ?_⟩
    rw [h3 a, A.live a]
    constructor
    · rintro ⟨⟨i, hi⟩ | hz, hno⟩
      · obtain ⟨x, hx, e⟩ := List.mem_map.mp hi
        exact absurd hi (hno i (by omega) (by have := (A.rep.hash i x hx).2.2; omega))
      · exact hz
    · intro hz
      exact ⟨.inr hz, fun j _ _ hj => A.disj j a hj hz⟩

/-! ## The theorems -/

/-- **C17 (what every history does).** For every size, flag, callbacks (lawful or not), pool and history for which indices are in range: the code never
goes wrong, its results are those of the bag, and afterwards lookups and enumerations answer from the bag, and destruction leaves exactly as
many nodes allocated as the bag has lost entries. -/
theorem history_exact (cb : Callbacks) (alloc : Tbl → Nat) (al : Allocator alloc) (hint : Nat) (useHint dup : Bool) (hr : InRange cb (init hint useHint dup)) (ops : List Op) :
    ∃ n, ∀ fuel ≥ n, ∃ T, run cb alloc fuel (init hint useHint dup) ops = .ok ((Bag.run cb dup (index cb (init hint useHint dup)) ⟨fun _ => [], []⟩ ops).1, T) ∧
      T.num = (init hint useHint dup).num ∧ T.nbits = (init hint useHint dup).nbits ∧
      Answers cb fuel T (Bag.run cb dup (index cb (init hint useHint dup)) ⟨fun _ => [], []⟩ ops).2 := by
  refine ⟨ops.length + 1, fun fuel hf => ?_⟩
  obtain ⟨T, C, Z, e, h1, h2, _, A⟩ := run_x al ops (init_x cb hint useHint dup hr) fuel (by omega)
  exact ⟨T, e, h2, h1, answers_x A fuel (by omega)⟩

/-- Nothing is ever lost without deletions. -/
theorem bag_no_del (cb : Callbacks) (dup : Bool) (ix : Key → Nat) (ops : List Op) (hd : ∀ k, Op.del k ∉ ops) : ∀ s : Bag, (s.run cb dup ix ops).2.lost = s.lost := by
  induction ops with
  | nil => intro s; rfl
  | cons op ops ih =>
      intro s
      rw [Bag.run]
      simp only
      rw [ih (fun k hk => hd k (by simp [hk]))]
      cases op with
      | set k d dl => simp only [Bag.step]; split <;> rfl
      | get k => rfl
      | del k => exact absurd (by simp) (hd k)

/-- Without duplicates the keys of a bucket are different. -/
def Bag.Distinct (cb : Callbacks) (s : Bag) : Prop := ∀ i, (s.bucket i).Pairwise fun x y => cb.cmp x.key y.key = false
/-- Every entry is in the bucket of its key. -/
def Bag.Placed (cb : Callbacks) (ix : Key → Nat) (s : Bag) : Prop := ∀ i, ∀ e ∈ s.bucket i, ix e.key = i ∧ e.hash = cb.hash e.key

theorem taken_sub {p : Entry → Bool} {l : List Entry} {d : Nat} {r z : List Entry} (h : taken p l = some (d, r, z)) : r.Sublist l := by
  match l with
  | [] => cases h
  | e :: es =>
      rw [taken] at h
      split at h
      · cases h; exact List.sublist_cons_self _ _
      · cases hd : (es.dropWhile fun x => !p x) with
        | nil => rw [hd] at h; cases h
        | cons y ys =>
            rw [hd] at h
            cases h
            refine List.Sublist.cons_cons _ ?_
            refine List.Sublist.trans ?_ (List.dropWhile_sublist (p := fun x => !p x))
            rw [hd]; exact List.sublist_cons_self _ _

theorem meets_good {cb : Callbacks} (g : Good cb) (k : Key) (e : Entry) : Meets cb k e = cb.cmp e.key k := by
  rw [Meets]
  by_cases c : cb.cmp e.key k
  · simp [c, g.hash _ _ c]
  · simp [c]

theorem bag_inv {cb : Callbacks} (g : Good cb) (ix : Key → Nat) (ops : List Op) : ∀ s : Bag, s.Distinct cb → s.Placed cb ix →
    ((s.run cb false ix ops).2).Distinct cb ∧ ((s.run cb false ix ops).2).Placed cb ix := by
  induction ops with
  | nil => intro s h1 h2; exact ⟨h1, h2⟩
  | cons op ops ih =>
      intro s h1 h2
      rw [Bag.run]
      refine ih _ ?_ ?_
      · cases op with
        | set k d dl =>
            simp only [Bag.step, Bool.not_false, Bool.true_and]
            split
            · exact h1
            · rename_i c
              intro i
              simp only
              split
              · subst_vars
                rw [List.pairwise_cons]
                refine ⟨fun y hy => ?_, h1 _⟩
                cases hc : cb.cmp k y.key with
                | false => rfl
                | true =>
                    exact absurd (List.any_eq_true.mpr ⟨y, hy, by rw [meets_good g]; exact g.symm _ _ hc⟩) c
              · exact h1 i
        | get k => exact h1
        | del k =>
            simp only [Bag.step]
            cases ht : taken (Meets cb k) (s.bucket (ix k)) with
            | none => exact h1
            | some v =>
                obtain ⟨d, r, z⟩ := v
                intro i
                simp only
                split
                · subst_vars; exact (h1 _).sublist (taken_sub ht)
                · exact h1 i
      · cases op with
        | set k d dl =>
            simp only [Bag.step, Bool.not_false, Bool.true_and]
            split
            · exact h2
            · intro i
              simp only
              split
              · subst_vars
                intro e he
                rcases List.mem_cons.mp he with rfl | he
                · exact ⟨rfl, rfl⟩
                · exact h2 _ e he
              · exact h2 i
        | get k => exact h2
        | del k =>
            simp only [Bag.step]
            cases ht : taken (Meets cb k) (s.bucket (ix k)) with
            | none => exact h2
            | some v =>
                obtain ⟨d, r, z⟩ := v
                intro i
                simp only
                split
                · subst_vars; exact fun e he => h2 _ e ((taken_sub ht).subset he)
                · exact h2 i

theorem index_ix {cb : Callbacks} {ix : Key → Nat} {T : Tbl} (h : index cb T = ix) {k k' : Key} (g : Good cb) (hc : cb.cmp k k' = true) : ix k = ix k' := by
  rw [← h]; exact index_congr g T hc

/-- **C19 (after every history).** Also after deletions that lose entries, enumeration and lookup agree: zt_table_for_each visits a list of entries with
pairwise different keys, and zt_table_get finds a key exactly if one of these entries has it, and returns that entry's datum. -/
theorem for_each_is_get (cb : Callbacks) (g : Good cb) (alloc : Tbl → Nat) (al : Allocator alloc) (hint : Nat) (useHint : Bool) (hr : InRange cb (init hint useHint false)) (ops : List Op) :
    ∃ n, ∀ fuel ≥ n, ∃ rs T es, run cb alloc fuel (init hint useHint false) ops = .ok (rs, T) ∧
      (∀ (σ : Type) (it : Entry → σ → Outcome (Int × σ)) (x : σ), forEach it fuel T x = visit it es x) ∧
      (es.Pairwise fun x y => cb.cmp x.key y.key = false) ∧
      ∀ k, (∀ e ∈ es, cb.cmp e.key k = true → get cb fuel T k = .ok ⟨e.datum, false⟩) ∧ ((∀ e ∈ es, cb.cmp e.key k = false) → get cb fuel T k = .ok ⟨0, true⟩) := by
  obtain ⟨n, hn⟩ := history_exact cb alloc al hint useHint false hr ops
  refine ⟨n, fun fuel hf => ?_⟩
  obtain ⟨T, e, hnum, hnb, B⟩ := hn fuel hf
  have hix : index cb T = index cb (init hint useHint false) := by funext k; rw [index, index, hnb]
  obtain ⟨hD, hP⟩ := bag_inv g (index cb (init hint useHint false)) ops ⟨fun _ => [], []⟩ (fun _ => List.Pairwise.nil) (fun _ _ h => by simp at h)
  generalize (Bag.run cb false (index cb (init hint useHint false)) ⟨fun _ => [], []⟩ ops).2 = s at B hD hP
  refine ⟨_, T, (List.range T.num).flatMap s.bucket, e, B.each, ?_, ?_⟩
  · rw [List.pairwise_flatMap]
    refine ⟨fun i _ => hD i, ?_⟩
    refine List.Pairwise.imp (R := (· < ·)) ?_ List.pairwise_lt_range
    intro i j hlt x hx y hy
    cases hc : cb.cmp x.key y.key with
    | false => rfl
    | true =>
        have h1 := (hP i x hx).1
        have h2 := (hP j y hy).1
        have := index_congr g (init hint useHint false) hc
        omega
  · intro k
    constructor
    · intro x hx hc
      obtain ⟨i, _, hxi⟩ := List.mem_flatMap.mp hx
      have hi : i = index cb T k := by rw [← (hP i x hxi).1, ← hix]; exact index_congr g T hc
      subst hi
      rw [B.gets k]
      have := (find_datum g.symm g.trans ((s.bucket (index cb T k)).map fun y => (0, y)) (by rw [List.pairwise_map]; exact hD _) k x.datum).2
        ⟨(0, x), List.mem_map.mpr ⟨x, hxi, rfl⟩, hc, rfl⟩
      have hm : (s.bucket (index cb T k)).find? (Meets cb k) = (s.bucket (index cb T k)).find? fun y => cb.cmp y.key k := by
        congr 1; funext y; exact meets_good g k y
      rw [List.find?_map, Option.map_map] at this
      have h' : ((s.bucket (index cb T k)).find? fun y => cb.cmp y.key k).map (·.datum) = some x.datum := this
      rw [hm, h']; rfl
    · intro hno
      rw [B.gets k]
      have : (s.bucket (index cb T k)).find? (Meets cb k) = none := by
        rw [List.find?_eq_none]
        intro y hy
        rw [meets_good g, hno y (List.mem_flatMap.mpr ⟨index cb T k, List.mem_range.mpr (by rw [hnum, hix]; exact hr k), hy⟩)]
        simp
      rw [this]; rfl

/-- **C58 (every history).** zt_table_destroy is always defined, and leaves allocated exactly the entries lost by deletions; without deletions, none. -/
theorem destroy_exact (cb : Callbacks) (alloc : Tbl → Nat) (al : Allocator alloc) (hint : Nat) (useHint dup : Bool) (hr : InRange cb (init hint useHint dup)) (ops : List Op) :
    ∃ n, ∀ fuel ≥ n, ∃ (rs : List Res) (T T' : Tbl) (left : List Nat), run cb alloc fuel (init hint useHint dup) ops = .ok (rs, T) ∧ destroy fuel T = .ok T' ∧ left.Nodup ∧
      left.length = (Bag.run cb dup (index cb (init hint useHint dup)) ⟨fun _ => [], []⟩ ops).2.lost.length ∧ (∀ a, T'.heap a ≠ none ↔ a ∈ left) ∧
      ((∀ k, Op.del k ∉ ops) → left = []) := by
  obtain ⟨n, hn⟩ := history_exact cb alloc al hint useHint dup hr ops
  refine ⟨n, fun fuel hf => ?_⟩
  obtain ⟨T, e, _, _, B⟩ := hn fuel hf
  obtain ⟨T', left, h1, h2, h3, h4⟩ := B.destroyed
  refine ⟨_, T, T', left, e, h1, h2, h3, h4, fun hd => ?_⟩
  rw [bag_no_del cb dup _ ops hd] at h3
  exact List.length_eq_zero_iff.mp h3

/-- Violation of C58: after the history of `del_loses_entries` one node is allocated for ever, whatever the pool is. -/
theorem destroy_leak_violation (alloc : Tbl → Nat) (al : Allocator alloc) :
    ∃ n, ∀ fuel ≥ n, ∃ rs T T' a, run constCb alloc fuel (init 0 false false) [.set (1, 1) 10 0, .set (2, 1) 20 0, .set (3, 1) 30 0, .del (1, 1)] = .ok (rs, T) ∧
      destroy fuel T = .ok T' ∧ T'.heap a ≠ none := by
  obtain ⟨n, hn⟩ := destroy_exact constCb alloc al 0 false false (in_range_small_partial _ 0 false (by decide)) [.set (1, 1) 10 0, .set (2, 1) 20 0, .set (3, 1) 30 0, .del (1, 1)]
  refine ⟨n, fun fuel hf => ?_⟩
  obtain ⟨rs, T, T', left, e, h1, _, h3, h4, _⟩ := hn fuel hf
  have hl : left.length = 1 := by
    rw [h3, init_default]
    decide
  match left, hl with
  | [a], _ => exact ⟨rs, T, T', a, e, h1, (h4 a).2 (by simp)⟩

/-! ### zt_table_copy -/

/-- The call that stores the entry again. -/
def setOp (e : Entry) : Op := .set e.key e.datum e.datumLen

theorem run_length (cb : Callbacks) (alloc : Tbl → Nat) (fuel : Nat) : ∀ (ops : List Op) {T T' : Tbl} {rs : List Res}, run cb alloc fuel T ops = .ok (rs, T') → rs.length = ops.length := by
  intro ops
  induction ops with
  | nil => intro T T' rs h; cases h; rfl
  | cons op ops ih =>
      intro T T' rs h
      obtain ⟨⟨r, T1⟩, _, h⟩ := Outcome.bind_eq_ok.1 h
      obtain ⟨⟨rs', T2⟩, h1, h⟩ := Outcome.bind_eq_ok.1 h
      cases h
      simp [ih h1]

theorem visit_copyX (cb2 : Callbacks) (alloc : Tbl → Nat) (fuel : Nat) : ∀ (es : List Entry) (any : Bool) {T2 T2' : Tbl} {rs : List Res},
    run cb2 alloc fuel T2 (es.map setOp) = .ok (rs, T2') → visit (copyStep cb2 alloc fuel) es (any, T2) = .ok (0, (any || !es.isEmpty, T2')) := by
  intro es
  induction es with
  | nil => intro any T2 T2' rs h; cases h; simp [visit]
  | cons e es ih =>
      intro any T2 T2' rs h
      simp only [List.map_cons, run, setOp, exec] at h
      obtain ⟨⟨r, T1⟩, h1, h⟩ := Outcome.bind_eq_ok.1 h
      obtain ⟨⟨i, T3⟩, h2, h3⟩ := Outcome.bind_eq_ok.1 h1
      cases h3
      obtain ⟨⟨rs', T4⟩, h4, h⟩ := Outcome.bind_eq_ok.1 h
      cases h
      have := ih true h4
      simp only [visit, copyStep, h2, Outcome.ok_bind, Outcome.pure_eq, ne_eq, not_true, if_false, this]
      simp

/-- **C19 (copy, after every history).** zt_table_copy(t1, t2) leaves t2 exactly as zt_table_set would for each entry that zt_table_for_each visits in t1, in that order, and returns
nonzero exactly if there is one; whatever the histories, sizes, callbacks and flags of the two tables. -/
theorem copy_exact (cb1 cb2 : Callbacks) (alloc1 alloc2 : Tbl → Nat) (al1 : Allocator alloc1) (al2 : Allocator alloc2) (hint1 hint2 : Nat) (u1 u2 dup1 dup2 : Bool)
    (hr1 : InRange cb1 (init hint1 u1 dup1)) (hr2 : InRange cb2 (init hint2 u2 dup2)) (ops1 ops2 : List Op) :
    ∃ n, ∀ fuel ≥ n, ∃ rs1 T1 rs2 T2 rs3 T3 es, run cb1 alloc1 fuel (init hint1 u1 dup1) ops1 = .ok (rs1, T1) ∧ run cb2 alloc2 fuel (init hint2 u2 dup2) ops2 = .ok (rs2, T2) ∧
      (∀ (σ : Type) (it : Entry → σ → Outcome (Int × σ)) (x : σ), forEach it fuel T1 x = visit it es x) ∧
      run cb2 alloc2 fuel T2 (es.map setOp) = .ok (rs3, T3) ∧ copy cb2 alloc2 fuel T1 T2 = .ok (!es.isEmpty, T3) := by
  have hb : ∃ N, ((List.range (init hint1 u1 dup1).num).flatMap (Bag.run cb1 dup1 (index cb1 (init hint1 u1 dup1)) ⟨fun _ => [], []⟩ ops1).2.bucket).length ≤ N := ⟨_, Nat.le_refl _⟩
  obtain ⟨N, hN⟩ := hb
  refine ⟨ops1.length + ops2.length + N + 1, fun fuel hf => ?_⟩
  obtain ⟨T1, C1, Z1, e1, _, n1, _, A1⟩ := run_x al1 ops1 (init_x cb1 hint1 u1 dup1 hr1) fuel (by omega)
  obtain ⟨T2, C2, Z2, e2, _, _, _, A2⟩ := run_x al2 ops2 (init_x cb2 hint2 u2 dup2 hr2) fuel (by omega)
  have B1 : Answers cb1 fuel T1 (Bag.run cb1 dup1 (index cb1 (init hint1 u1 dup1)) ⟨fun _ => [], []⟩ ops1).2 := answers_x A1 fuel (by omega)
  obtain ⟨T3, C3, Z3, e3, _, _, _, A3⟩ := run_x al2 (((List.range T1.num).flatMap (Bag.run cb1 dup1 (index cb1 (init hint1 u1 dup1)) ⟨fun _ => [], []⟩ ops1).2.bucket).map setOp) A2 fuel (by
    rw [n1, List.length_map]; omega)
  refine ⟨_, T1, _, T2, _, T3, _, e1, e2, B1.each, e3, ?_⟩
  rw [copy, B1.each, visit_copyX cb2 alloc2 fuel _ false e3]
  simp

/-- The hypotheses of `history_exact`, with duplicates allowed. -/
example : InRange constCb (init 100 false true) := in_range_small_partial _ 100 true (by decide)

/-- The bag after a deletion behind the first entry. -/
example : (taken (Meets constCb (1, 1)) [⟨(3, 1), 30, 0, 0⟩, ⟨(2, 1), 20, 0, 0⟩, ⟨(1, 1), 10, 0, 0⟩]) = some (10, [⟨(3, 1), 30, 0, 0⟩], [⟨(2, 1), 20, 0, 0⟩]) := by decide

end ZT.Table
