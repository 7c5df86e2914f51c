import Verif.LList.Model

namespace ZT.LList
variable {V : Type}

/-- The chain of pairs starting at `p` consists of the cells `l` (addresses and items) and ends in NULL. -/
def IsL (H : Heap V) : Ptr → List (Nat × V) → Prop
  | p, [] => p = none
  | p, (a, v) :: rest => p = some a ∧ ∃ t, H.cells a = some ⟨v, t⟩ ∧ IsL H t rest

/-- The addresses of a chain. -/
def adr (l : List (Nat × V)) : List Nat := l.map (·.1)

theorem isL_det (H : Heap V) (p : Ptr) (l m : List (Nat × V)) (h1 : IsL H p l) (h2 : IsL H p m) : l = m := by
  induction l generalizing p m with
  | nil =>
      cases m with
      | nil => rfl
      | cons y ys =>
          simp only [IsL] at h1 h2; rw [h1] at h2; cases h2.1
  | cons x xs ih =>
      cases m with
      | nil => simp only [IsL] at h1 h2; rw [h2] at h1; cases h1.1
      | cons y ys =>
          obtain ⟨a, v⟩ := x
          obtain ⟨b, w⟩ := y
          simp only [IsL] at h1 h2
          obtain ⟨rfl, t, ht, h1⟩ := h1
          obtain ⟨e, t', ht', h2⟩ := h2
          cases e
          rw [ht] at ht'
          cases ht'
          rw [ih t ys h1 h2]

theorem isL_append (H : Heap V) (p : Ptr) (l : List (Nat × V)) (a : Nat) (v : V) (m : List (Nat × V)) :
    IsL H p (l ++ (a, v) :: m) → IsL H (some a) ((a, v) :: m) := by
  induction l generalizing p with
  | nil => intro h; exact ⟨rfl, h.2⟩
  | cons x xs ih =>
      intro h
      obtain ⟨b, w⟩ := x
      simp only [List.cons_append, IsL] at h
      obtain ⟨_, t, _, h⟩ := h
      exact ih t h

/-- A finite chain has no repeated cell. -/
theorem isL_nodup (H : Heap V) (p : Ptr) (l : List (Nat × V)) (h : IsL H p l) : (adr l).Nodup := by
  induction l generalizing p with
  | nil => simp [adr]
  | cons x xs ih =>
      obtain ⟨a, v⟩ := x
      have h0 := h
      simp only [IsL] at h
      obtain ⟨hp, t, ht, h⟩ := h
      have := ih t h
      simp only [adr, List.map_cons, List.nodup_cons] at this ⊢
      refine ⟨?_, this⟩
      intro hm
      obtain ⟨⟨a', w⟩, hm', e⟩ := List.mem_map.mp hm
      simp at e; subst e
      clear this hm
      obtain ⟨l1, l2, rfl⟩ := List.append_of_mem hm'
      have h2 := isL_append H t l1 a' w l2 h
      rw [hp] at h0
      have := isL_det H _ _ _ h0 h2
      have := congrArg List.length this
      simp at this
      omega

theorem isL_frame (H H' : Heap V) (p : Ptr) (l : List (Nat × V)) (hf : ∀ a ∈ adr l, H'.cells a = H.cells a) (h : IsL H p l) : IsL H' p l := by
  induction l generalizing p with
  | nil => exact h
  | cons x xs ih =>
      obtain ⟨a, v⟩ := x
      simp only [IsL] at h ⊢
      obtain ⟨hp, t, ht, h⟩ := h
      exact ⟨hp, t, by rw [hf a (by simp [adr])]; exact ht, ih t (fun b hb => hf b (by simp [adr] at hb ⊢; right; exact hb)) h⟩

theorem isL_cells (H : Heap V) (p : Ptr) (l : List (Nat × V)) (h : IsL H p l) : ∀ a ∈ adr l, H.cells a ≠ none := by
  induction l generalizing p with
  | nil => simp [adr]
  | cons x xs ih =>
      obtain ⟨b, v⟩ := x
      simp only [IsL] at h
      obtain ⟨hp, t, ht, h⟩ := h
      intro a ha
      simp [adr] at ha
      rcases ha with rfl | ha
      · rw [ht]; simp
      · exact ih t h a (by simp [adr]; exact ha)

theorem upd_cells (H : Heap V) (a b : Nat) (c : Option (Pair V)) : (H.upd a c).cells b = if b = a then c else H.cells b := rfl

theorem load_some (H : Heap V) (a : Nat) (c : Pair V) (h : H.cells a = some c) : load H (some a) = .ok c := by
  simp [load, h]

theorem ppush_some (H : Heap V) (a : Nat) (c : Pair V) (h : H.cells a = some c) (r : Ptr) :
    ppush H (some a) r = .ok (H.upd a (some ⟨c.head, r⟩), some a) := by
  simp [ppush, setTail, h]

/-- Moving the first cell of one chain to the front of another. -/
theorem move (H : Heap V) (a : Nat) (v : V) (t r : Ptr) (l m : List (Nat × V)) (hc : H.cells a = some ⟨v, t⟩) (hl : IsL H t l)
    (hm : IsL H r m) (hal : a ∉ adr l) (ham : a ∉ adr m) :
    IsL (H.upd a (some ⟨v, r⟩)) t l ∧ IsL (H.upd a (some ⟨v, r⟩)) (some a) ((a, v) :: m) := by
  refine ⟨isL_frame H _ t l ?_ hl, rfl, r, by simp [upd_cells], isL_frame H _ r m ?_ hm⟩
  · intro b hb
    rw [upd_cells, if_neg]; rintro rfl; exact hal hb
  · intro b hb
    rw [upd_cells, if_neg]; rintro rfl; exact ham hb

theorem nrevLoop_spec (l m : List (Nat × V)) (H : Heap V) (p r : Ptr) (fuel : Nat) (hl : IsL H p l) (hm : IsL H r m)
    (hd : ∀ a ∈ adr l, a ∉ adr m) (hf : l.length < fuel) :
    ∃ H' q, nrevLoop fuel H p r = .ok (H', q) ∧ IsL H' q (l.reverse ++ m) ∧ H'.brk = H.brk ∧ ∀ a, a ∉ adr l → H'.cells a = H.cells a := by
  induction l generalizing m H p r fuel with
  | nil =>
      simp only [IsL] at hl; subst hl
      match fuel with
      | f + 1 => exact ⟨H, r, rfl, by simpa using hm, rfl, fun _ _ => rfl⟩
  | cons x xs ih =>
      obtain ⟨a, v⟩ := x
      have hnd := isL_nodup H p _ hl
      simp only [IsL] at hl
      obtain ⟨rfl, t, hc, hl⟩ := hl
      match fuel with
      | f + 1 =>
        have ha1 : a ∉ adr xs := by simp [adr] at hnd ⊢; exact hnd.1
        have ha2 : a ∉ adr m := hd a (by simp [adr])
        obtain ⟨m1, m2⟩ := move H a v t r xs m hc hl hm ha1 ha2
        rw [nrevLoop, ppop, load_some H a _ hc, Outcome.ok_bind]
        simp only [Outcome.pure_eq, Outcome.ok_bind]
        rw [ppush_some H a _ hc, Outcome.ok_bind]
        simp only
        obtain ⟨H', q, e, hq, hb, ho⟩ := ih ((a, v) :: m) _ t (some a) f m1 m2 (by
          intro b hb
          simp only [adr, List.map_cons, List.mem_cons, not_or]
          refine ⟨?_, ?_⟩
          · rintro rfl; exact ha1 hb
          · have := hd b (by simp [adr] at hb ⊢; right; exact hb); exact this) (by simpa using hf)
        refine ⟨H', q, e, by simpa using hq, hb, ?_⟩
        intro b hb
        simp [adr] at hb
        rw [ho b (by simp [adr]; exact hb.2), upd_cells, if_neg hb.1]

theorem nreverse_spec (l : List (Nat × V)) (H : Heap V) (p : Ptr) (fuel : Nat) (hl : IsL H p l) (hf : l.length < fuel) :
    ∃ H' q, nreverse fuel H p = .ok (H', q) ∧ IsL H' q l.reverse ∧ H'.brk = H.brk ∧ ∀ a, a ∉ adr l → H'.cells a = H.cells a := by
  have := nrevLoop_spec l [] H p none fuel hl rfl (by simp [adr]) hf
  simpa [nreverse] using this

/-- The order in which `zt_llist_nmerge` takes cells. -/
def mergeSpec (cmp : V → V → Bool) : List (Nat × V) → List (Nat × V) → List (Nat × V)
  | [], l2 => l2
  | x :: xs, [] => x :: xs
  | x :: xs, y :: ys => if cmp y.2 x.2 then x :: mergeSpec cmp xs (y :: ys) else y :: mergeSpec cmp (x :: xs) ys

theorem mergeSpec_nil (cmp : V → V → Bool) (l : List (Nat × V)) : mergeSpec cmp l [] = l := by
  cases l <;> simp [mergeSpec]

theorem mergeSpec_perm (cmp : V → V → Bool) (l1 l2 : List (Nat × V)) : (mergeSpec cmp l1 l2).Perm (l1 ++ l2) := by
  fun_induction mergeSpec cmp l1 l2 with
  | case1 => simp
  | case2 => simp
  | case3 x xs y ys h ih => exact ih.cons x
  | case4 x xs y ys h ih =>
      refine (ih.cons y).trans ?_
      exact (List.perm_middle (a := y) (l₁ := x :: xs) (l₂ := ys)).symm

theorem mergeLoop_spec (cmp : V → V → Bool) (n : Nat) : ∀ (l1 l2 m : List (Nat × V)) (H : Heap V) (p1 p2 r : Ptr) (fuel : Nat), l1.length + l2.length = n →
    IsL H p1 l1 → IsL H p2 l2 → IsL H r m →
    (∀ a ∈ adr l1, a ∉ adr l2) → (∀ a ∈ adr l1 ++ adr l2, a ∉ adr m) → n < fuel →
    ∃ H' q, mergeLoop cmp fuel H p1 p2 r = .ok (H', q) ∧ IsL H' q ((mergeSpec cmp l1 l2).reverse ++ m) ∧ H'.brk = H.brk ∧
      ∀ a, a ∉ adr l1 → a ∉ adr l2 → H'.cells a = H.cells a := by
  induction n with
  | zero =>
      intro l1 l2 m H p1 p2 r fuel hn h1 h2 hm hd hdm hf
      have e1 : l1 = [] := List.length_eq_zero_iff.mp (by omega)
      have e2 : l2 = [] := List.length_eq_zero_iff.mp (by omega)
      subst e1 e2
      simp only [IsL] at h1 h2
      subst h1 h2
      match fuel with
      | f + 1 => exact ⟨H, r, rfl, by simpa [mergeSpec] using hm, rfl, fun _ _ _ => rfl⟩
  | succ n ih =>
      intro l1 l2 m H p1 p2 r fuel hn h1 h2 hm hd hdm hf
      match fuel, hf with
      | f + 1, hf =>
      have take1 : ∀ a v xs, l1 = (a, v) :: xs → mergeSpec cmp l1 l2 = (a, v) :: mergeSpec cmp xs l2 →
          ∃ H' q, (do
            let (p, l1) ← ppop H (some a)
            let (H, r) ← ppush H p r
            mergeLoop cmp f H l1 p2 r : Outcome _) = .ok (H', q) ∧ IsL H' q ((mergeSpec cmp l1 l2).reverse ++ m) ∧ H'.brk = H.brk ∧
            ∀ a, a ∉ adr l1 → a ∉ adr l2 → H'.cells a = H.cells a := by
        intro a v xs e em
        subst e
        have hnd := isL_nodup H p1 _ h1
        simp only [IsL] at h1
        obtain ⟨rfl, t, hc, h1⟩ := h1
        have ha1 : a ∉ adr xs := by simp [adr] at hnd ⊢; exact hnd.1
        have ha2 : a ∉ adr m := hdm a (by simp [adr])
        have ha3 : a ∉ adr l2 := hd a (by simp [adr])
        obtain ⟨m1, m2⟩ := move H a v t r xs m hc h1 hm ha1 ha2
        have m3 : IsL (H.upd a (some ⟨v, r⟩)) p2 l2 := isL_frame H _ p2 l2 (by
          intro b hb; rw [upd_cells, if_neg]; rintro rfl; exact ha3 hb) h2
        rw [ppop, load_some H a _ hc, Outcome.ok_bind]
        simp only [Outcome.pure_eq, Outcome.ok_bind]
        rw [ppush_some H a _ hc, Outcome.ok_bind]
        simp only
        obtain ⟨H', q, e, hq, hb, ho⟩ := ih xs l2 ((a, v) :: m) _ t p2 (some a) f (by simp at hn; omega) m1 m3 m2
          (fun b hb => hd b (by simp [adr] at hb ⊢; right; exact hb)) (by
            intro b hb
            simp only [adr, List.map_cons, List.mem_cons, not_or]
            constructor
            · rintro rfl; rw [List.mem_append] at hb; rcases hb with h | h
              · exact ha1 h
              · exact ha3 h
            · exact hdm b (by simp [adr] at hb ⊢; rcases hb with h | h; exact .inr (.inl h); exact .inr (.inr h))) (by omega)
        refine ⟨H', q, e, by rw [em]; simpa using hq, hb, ?_⟩
        intro b hb1 hb2
        simp [adr] at hb1
        rw [ho b (by simp [adr]; exact hb1.2) hb2, upd_cells, if_neg hb1.1]
      have take2 : ∀ a v ys, l2 = (a, v) :: ys → mergeSpec cmp l1 l2 = (a, v) :: mergeSpec cmp l1 ys →
          ∃ H' q, (do
            let (p, l2) ← ppop H (some a)
            let (H, r) ← ppush H p r
            mergeLoop cmp f H p1 l2 r : Outcome _) = .ok (H', q) ∧ IsL H' q ((mergeSpec cmp l1 l2).reverse ++ m) ∧ H'.brk = H.brk ∧
            ∀ a, a ∉ adr l1 → a ∉ adr l2 → H'.cells a = H.cells a := by
        intro a v xs e em
        subst e
        have hnd := isL_nodup H p2 _ h2
        simp only [IsL] at h2
        obtain ⟨rfl, t, hc, h2⟩ := h2
        have ha1 : a ∉ adr xs := by simp [adr] at hnd ⊢; exact hnd.1
        have ha2 : a ∉ adr m := hdm a (by simp [adr])
        have ha3 : a ∉ adr l1 := fun h => hd a h (by simp [adr])
        obtain ⟨m1, m2⟩ := move H a v t r xs m hc h2 hm ha1 ha2
        have m3 : IsL (H.upd a (some ⟨v, r⟩)) p1 l1 := isL_frame H _ p1 l1 (by
          intro b hb; rw [upd_cells, if_neg]; rintro rfl; exact ha3 hb) h1
        rw [ppop, load_some H a _ hc, Outcome.ok_bind]
        simp only [Outcome.pure_eq, Outcome.ok_bind]
        rw [ppush_some H a _ hc, Outcome.ok_bind]
        simp only
        obtain ⟨H', q, e, hq, hb, ho⟩ := ih l1 xs ((a, v) :: m) _ p1 t (some a) f (by simp at hn; omega) m3 m1 m2
          (fun b hb h => hd b hb (by simp [adr] at h ⊢; right; exact h)) (by
            intro b hb
            simp only [adr, List.map_cons, List.mem_cons, not_or]
            constructor
            · rintro rfl; rw [List.mem_append] at hb; rcases hb with h | h
              · exact ha3 h
              · exact ha1 h
            · exact hdm b (by simp [adr] at hb ⊢; rcases hb with h | h; exact .inl h; exact .inr (.inr h))) (by omega)
        refine ⟨H', q, e, by rw [em]; simpa using hq, hb, ?_⟩
        intro b hb1 hb2
        simp [adr] at hb2
        rw [ho b hb1 (by simp [adr]; exact hb2.2), upd_cells, if_neg hb2.1]
      cases l1 with
      | nil =>
          cases l2 with
          | nil => simp at hn
          | cons y ys =>
              obtain ⟨b, w⟩ := y
              have := take2 b w ys rfl (by simp [mergeSpec])
              have e1 : p1 = none := h1
              have e2 : p2 = some b := h2.1
              subst e1 e2
              simpa [mergeLoop] using this
      | cons x xs =>
          obtain ⟨a, v⟩ := x
          cases l2 with
          | nil =>
              have := take1 a v xs rfl (by simp [mergeSpec, mergeSpec_nil])
              have e1 : p1 = some a := h1.1
              have e2 : p2 = none := h2
              subst e1 e2
              simpa [mergeLoop] using this
          | cons y ys =>
              obtain ⟨b, w⟩ := y
              have e1 : p1 = some a := h1.1
              have e2 : p2 = some b := h2.1
              obtain ⟨_, t1, hc1, _⟩ := h1
              obtain ⟨_, t2, hc2, _⟩ := h2
              subst e1 e2
              rw [mergeLoop, load_some H b _ hc2, Outcome.ok_bind, load_some H a _ hc1, Outcome.ok_bind]
              simp only
              by_cases hcmp : cmp w v = true
              · rw [if_pos hcmp]; exact take1 a v xs rfl (by simp [mergeSpec, hcmp])
              · rw [if_neg hcmp]; exact take2 b w ys rfl (by simp [mergeSpec, hcmp])

theorem nmerge_spec (cmp : V → V → Bool) (l1 l2 : List (Nat × V)) (H : Heap V) (p1 p2 : Ptr) (fuel : Nat)
    (h1 : IsL H p1 l1) (h2 : IsL H p2 l2) (hd : ∀ a ∈ adr l1, a ∉ adr l2) (hf : l1.length + l2.length < fuel) :
    ∃ H' q, nmerge cmp fuel H p1 p2 = .ok (H', q) ∧ IsL H' q (mergeSpec cmp l1 l2) ∧ H'.brk = H.brk ∧
      ∀ a, a ∉ adr l1 → a ∉ adr l2 → H'.cells a = H.cells a := by
  obtain ⟨H1, q1, e1, hq1, hb1, ho1⟩ := mergeLoop_spec cmp _ l1 l2 [] H p1 p2 none fuel rfl h1 h2 rfl hd (by simp [adr]) hf
  rw [List.append_nil] at hq1
  have hp := mergeSpec_perm cmp l1 l2
  obtain ⟨H2, q2, e2, hq2, hb2, ho2⟩ := nreverse_spec _ H1 q1 fuel hq1 (by rw [List.length_reverse, hp.length_eq]; simpa using hf)
  rw [List.reverse_reverse] at hq2
  refine ⟨H2, q2, by rw [nmerge, e1, Outcome.ok_bind]; exact e2, hq2, hb2.trans hb1, ?_⟩
  intro a ha1 ha2
  rw [ho2 a ?_, ho1 a ha1 ha2]
  intro hm
  have : a ∈ adr (l1 ++ l2) := by
    simp only [adr, List.mem_map, List.mem_reverse] at hm ⊢
    obtain ⟨x, hx, e⟩ := hm
    exact ⟨x, hp.mem_iff.mp hx, e⟩
  simp only [adr, List.map_append, List.mem_append] at this
  rcases this with h | h
  · exact ha1 h
  · exact ha2 h

/-! ### split -/

theorem splitLoop_spec (n : Nat) : ∀ (l1 l2 : List (Nat × V)) (H : Heap V) (lst tail : Ptr) (fuel : Nat), l2.length = n → IsL H lst l1 → IsL H tail l2 →
    l2.length / 2 < l1.length → n < fuel → ∃ q, splitLoop fuel H lst tail = .ok q ∧ IsL H q (l1.drop (l2.length / 2)) := by
  induction n using Nat.strongRecOn with
  | _ n ih =>
    intro l1 l2 H lst tail fuel hn h1 h2 hlt hf
    match fuel, hf with
    | f + 1, hf =>
    match l2, h2 with
    | [], h2 =>
        simp only [IsL] at h2; subst h2
        exact ⟨lst, rfl, by simpa using h1⟩
    | [(a, v)], h2 =>
        simp only [IsL] at h2
        obtain ⟨rfl, t, hc, rfl⟩ := h2
        refine ⟨lst, ?_, by simpa using h1⟩
        rw [splitLoop, load_some H a _ hc, Outcome.ok_bind]
        rfl
    | (a, v) :: (b, w) :: rest, h2 =>
        simp only [IsL] at h2
        obtain ⟨rfl, t, hc, rfl, t', hc', h2⟩ := h2
        have hlen : ((a, v) :: (b, w) :: rest).length / 2 = rest.length / 2 + 1 := by simp; omega
        rw [hlen] at hlt ⊢
        cases l1 with
        | nil => simp at hlt
        | cons x xs =>
            obtain ⟨c, u⟩ := x
            simp only [IsL] at h1
            obtain ⟨rfl, tc, hcc, h1⟩ := h1
            obtain ⟨q, e, hq⟩ := ih rest.length (by simp at hn; omega) xs rest H tc t' f rfl h1 h2 (by simpa using hlt) (by simp at hn; omega)
            refine ⟨q, ?_, by simpa using hq⟩
            rw [splitLoop, load_some H a _ hc, Outcome.ok_bind]
            simp only
            rw [load_some H c _ hcc, Outcome.ok_bind, load_some H b _ hc', Outcome.ok_bind]
            exact e

theorem setTail_cut (H : Heap V) (p : Ptr) (pre : List (Nat × V)) (a : Nat) (v : V) (post : List (Nat × V)) (t : Ptr)
    (h : IsL H p (pre ++ (a, v) :: post)) (hc : H.cells a = some ⟨v, t⟩) :
    IsL (H.upd a (some ⟨v, none⟩)) p (pre ++ [(a, v)]) ∧ IsL (H.upd a (some ⟨v, none⟩)) t post := by
  have hnd := isL_nodup H p _ h
  induction pre generalizing p with
  | nil =>
      simp only [List.nil_append, IsL] at h ⊢
      obtain ⟨rfl, t', hc', h⟩ := h
      rw [hc] at hc'; cases hc'
      refine ⟨⟨rfl, none, by simp [upd_cells], rfl⟩, isL_frame H _ t post ?_ h⟩
      intro b hb
      rw [upd_cells, if_neg]
      rintro rfl
      simp [adr] at hnd hb
      exact hnd.1 _ hb.choose_spec
  | cons x xs ih =>
      obtain ⟨b, w⟩ := x
      simp only [List.cons_append, IsL] at h ⊢
      obtain ⟨rfl, t', hc', h⟩ := h
      have hne : b ≠ a := by
        rintro rfl
        simp [adr] at hnd
      obtain ⟨i1, i2⟩ := ih t' h (by simp [adr] at hnd ⊢; exact hnd.2)
      exact ⟨⟨rfl, t', by rw [upd_cells, if_neg hne]; exact hc', i1⟩, i2⟩

theorem split_spec (l : List (Nat × V)) (H : Heap V) (p : Ptr) (fuel : Nat) (h : IsL H p l) (h2 : 2 ≤ l.length) (hf : l.length ≤ fuel) :
    ∃ H' q, split fuel H p = .ok (H', q) ∧ IsL H' p (l.take ((l.length + 1) / 2)) ∧ IsL H' q (l.drop ((l.length + 1) / 2)) ∧
      H'.brk = H.brk ∧ ∀ a, a ∉ adr l → H'.cells a = H.cells a := by
  match l, h2 with
  | (a, v) :: (b, w) :: rest, h2 =>
    have h0 := h
    simp only [IsL] at h
    obtain ⟨rfl, t, hc, rfl, t', hc', h⟩ := h
    have htail : IsL H (some b) ((b, w) :: rest) := ⟨rfl, t', hc', h⟩
    obtain ⟨q, e, hq⟩ := splitLoop_spec _ ((a, v) :: (b, w) :: rest) ((b, w) :: rest) H (some a) (some b) fuel rfl h0 htail (by simp; omega) (by simp at hf ⊢; omega)
    have hk : (((a, v) :: (b, w) :: rest).length + 1) / 2 = ((b, w) :: rest).length / 2 + 1 := by simp; omega
    rw [hk]
    generalize hkk : ((b, w) :: rest).length / 2 = k at *
    have hkl : k < ((a, v) :: (b, w) :: rest).length := by simp at hkk ⊢; omega
    generalize (a, v) :: (b, w) :: rest = L at *
    rw [List.drop_eq_getElem_cons hkl] at hq
    generalize hx : L[k] = x at hq
    obtain ⟨c, u⟩ := x
    simp only [IsL] at hq
    obtain ⟨rfl, tc, hcc, hq⟩ := hq
    have hL : L = L.take k ++ (c, u) :: L.drop (k + 1) := by
      rw [← hx, ← List.drop_eq_getElem_cons hkl, List.take_append_drop]
    have h0' := h0
    rw [hL] at h0'
    obtain ⟨c1, c2⟩ := setTail_cut H (some a) _ c u _ tc h0' hcc
    refine ⟨H.upd c (some ⟨u, none⟩), tc, ?_, ?_, c2, rfl, ?_⟩
    · rw [split]
      rw [load_some H a _ hc, Outcome.ok_bind]
      simp only
      rw [e, Outcome.ok_bind, load_some H c _ hcc, Outcome.ok_bind]
      simp [setTail, hcc]
    · have e1 : L.take (k + 1) = L.take k ++ [L[k]] := List.take_succ_eq_append_getElem hkl
      rw [e1, hx]; exact c1
    · intro d hd
      rw [upd_cells, if_neg]
      rintro rfl
      apply hd
      rw [hL]; simp [adr]

/-! ### sort -/

/-- Merge sort on sequences, halves as the code makes them. -/
def msort (cmp : V → V → Bool) (l : List (Nat × V)) : List (Nat × V) :=
  if l.length < 2 then l
  else mergeSpec cmp (msort cmp (l.take ((l.length + 1) / 2))) (msort cmp (l.drop ((l.length + 1) / 2)))
termination_by l.length
decreasing_by
  · simp; omega
  · simp; omega

theorem msort_perm (cmp : V → V → Bool) (l : List (Nat × V)) : (msort cmp l).Perm l := by
  generalize hn : l.length = n
  induction n using Nat.strongRecOn generalizing l with
  | _ n ih =>
    rw [msort]
    split
    · exact List.Perm.refl _
    · refine (mergeSpec_perm _ _ _).trans ?_
      have h1 := ih (l.take ((l.length + 1) / 2)).length (by simp; omega) _ rfl
      have h2 := ih (l.drop ((l.length + 1) / 2)).length (by simp; omega) _ rfl
      have := h1.append h2
      rwa [List.take_append_drop] at this

theorem adr_perm {l m : List (Nat × V)} (h : l.Perm m) (a : Nat) : a ∈ adr l ↔ a ∈ adr m :=
  (h.map (·.1)).mem_iff

theorem sort_spec (cmp : V → V → Bool) (l : List (Nat × V)) (H : Heap V) (p : Ptr) (fuel : Nat) (h : IsL H p l) (hf : l.length + 1 < fuel) :
    ∃ H' q, sort cmp fuel H p = .ok (H', q) ∧ IsL H' q (msort cmp l) ∧ H'.brk = H.brk ∧ ∀ a, a ∉ adr l → H'.cells a = H.cells a := by
  generalize hn : l.length = n at hf
  induction n using Nat.strongRecOn generalizing l H p fuel with
  | _ n ih =>
    match fuel, hf with
    | f + 1, hf =>
    match l, h with
    | [], h => simp only [IsL] at h; subst h; exact ⟨H, none, rfl, by rw [msort]; simp [IsL], rfl, fun _ _ => rfl⟩
    | [(a, v)], h =>
        have h0 := h
        simp only [IsL] at h
        obtain ⟨rfl, t, hc, rfl⟩ := h
        refine ⟨H, some a, ?_, by rw [msort]; simpa using h0, rfl, fun _ _ => rfl⟩
        rw [sort, load_some H a _ hc]; rfl
    | (a, v) :: (b, w) :: rest, h =>
        have h0 := h
        simp only [IsL] at h
        obtain ⟨rfl, t, hc, rfl, t', hc', h⟩ := h
        obtain ⟨H1, q1, e1, s1, s2, b1, o1⟩ := split_spec _ H (some a) f h0 (by simp) (by simp at hn ⊢; omega)
        generalize hk : (((a, v) :: (b, w) :: rest).length + 1) / 2 = k at *
        have hlen : ((a, v) :: (b, w) :: rest).length = n := hn
        have hk1 : 1 ≤ k ∧ k < n := by simp at hk hlen; omega
        generalize hL : (a, v) :: (b, w) :: rest = L at *
        have hnd := isL_nodup H (some a) L h0
        have hsub : ∀ c, c ∈ adr (L.take k) → c ∈ adr L := by
          intro c hc; simp only [adr] at *; rw [List.map_take] at hc; exact List.mem_of_mem_take hc
        have hsub2 : ∀ c, c ∈ adr (L.drop k) → c ∈ adr L := by
          intro c hc; simp only [adr] at *; rw [List.map_drop] at hc; exact List.mem_of_mem_drop hc
        have hdis : ∀ c ∈ adr (L.take k), c ∉ adr (L.drop k) := by
          intro c h1 h2
          rw [← List.take_append_drop k L] at hnd
          simp only [adr, List.map_append] at hnd h1 h2
          exact (List.nodup_append.mp hnd).2.2 c h1 c h2 rfl
        obtain ⟨H2, q2, e2, r2, b2, o2⟩ := ih (L.take k).length (by simp; omega) (L.take k) H1 (some a) f s1 rfl (by simp; omega)
        have s2' : IsL H2 q1 (L.drop k) := isL_frame H1 H2 q1 _ (fun c hc => o2 c (fun h => hdis c h hc)) s2
        obtain ⟨H3, q3, e3, r3, b3, o3⟩ := ih (L.drop k).length (by simp; omega) (L.drop k) H2 q1 f s2' rfl (by simp; omega)
        have r2' : IsL H3 q2 (msort cmp (L.take k)) := isL_frame H2 H3 q2 _ (fun c hc => o3 c (by
          rw [adr_perm (msort_perm cmp _)] at hc; exact hdis c hc)) r2
        obtain ⟨H4, q4, e4, r4, b4, o4⟩ := nmerge_spec cmp _ _ H3 q2 q3 f r2' r3 (by
          intro c h1 h2
          rw [adr_perm (msort_perm cmp _)] at h1 h2
          exact hdis c h1 h2) (by rw [(msort_perm cmp _).length_eq, (msort_perm cmp _).length_eq]; simp; omega)
        refine ⟨H4, q4, ?_, ?_, b4.trans (b3.trans (b2.trans b1)), ?_⟩
        · rw [sort, load_some H a _ hc, Outcome.ok_bind]
          simp only
          rw [e1, Outcome.ok_bind]
          simp only
          rw [e2, Outcome.ok_bind]
          simp only
          rw [e3, Outcome.ok_bind]
          exact e4
        · rw [msort, if_neg (by omega), hlen]
          have : (n + 1) / 2 = k := by rw [← hk, hlen]
          rw [this]; exact r4
        · intro c hc
          rw [o4 c ?_ ?_, o3 c (fun h => hc (hsub2 c h)), o2 c (fun h => hc (hsub c h)), o1 c hc]
          · rw [adr_perm (msort_perm cmp _)]; exact fun h => hc (hsub c h)
          · rw [adr_perm (msort_perm cmp _)]; exact fun h => hc (hsub2 c h)

end ZT.LList
