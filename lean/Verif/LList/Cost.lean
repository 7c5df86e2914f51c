import Verif.LList.Props

/-!
# C132: sorting with any comparison function, and what it costs

zt_llist_sort (zt_llist.h 140-193) with comparison callbacks that have a state `σ` of their own and may answer anything. C does not say which of the two recursive calls of line 192 is made
first; here a function of the list decides, which may be any. The depth of the recursion is bounded apart from the loops.
-/

namespace ZT.LList

variable {V σ : Type}

/-! ## Model -/

/-- zt_llist.h 141 `int (*cmp)(void*,void*)`: a comparison callback with a state; nonzero is `true`. -/
abbrev Cmp (V σ : Type) := V → V → σ → Bool × σ

/-- The three loops of zt_llist.h 145-154. -/
def mergeLoopW (cmp : Cmp V σ) : (fuel : Nat) → Heap V → (l1 l2 rlst : Ptr) → σ → Outcome (Heap V × Ptr × σ)
  | 0, _, _, _, _, _ => .ub
  | _ + 1, H, none, none, r, s => .ok (H, r, s)
  | fuel + 1, H, some a, none, r, s => do
      let (p, l1) ← ppop H (some a)
      let (H, r) ← ppush H p r
      mergeLoopW cmp fuel H l1 none r s
  | fuel + 1, H, none, some b, r, s => do
      let (p, l2) ← ppop H (some b)
      let (H, r) ← ppush H p r
      mergeLoopW cmp fuel H none l2 r s
  | fuel + 1, H, some a, some b, r, s => do
      let c2 ← load H (some b)
      let c1 ← load H (some a)
      let (t, s) := cmp c2.head c1.head s
      if t then do
        let (p, l1) ← ppop H (some a)
        let (H, r) ← ppush H p r
        mergeLoopW cmp fuel H l1 (some b) r s
      else do
        let (p, l2) ← ppop H (some b)
        let (H, r) ← ppush H p r
        mergeLoopW cmp fuel H (some a) l2 r s

/-- zt_llist.h 140-157 `zt_llist_nmerge`. -/
def nmergeW (cmp : Cmp V σ) (fuel : Nat) (H : Heap V) (l1 l2 : Ptr) (s : σ) : Outcome (Heap V × Ptr × σ) := do
  let (H, r, s) ← mergeLoopW cmp fuel H l1 l2 none s
  let (H, r) ← nreverse fuel H r
  pure (H, r, s)

/-- zt_llist.h 182-193 `zt_llist_sort`: at most `depth` calls are active at a time, each loop makes at most `fuel` iterations; `late lst` says that for this list the second half is sorted first. -/
def sortW (cmp : Cmp V σ) (late : Nat → Bool) (fuel : Nat) : (depth : Nat) → Heap V → Ptr → σ → Outcome (Heap V × Ptr × σ)
  | 0, _, _, _ => .ub
  | _ + 1, H, none, s => .ok (H, none, s)
  | depth + 1, H, some a, s => do
      let c ← load H (some a)
      match c.tail with
      | none => pure (H, some a, s)
      | some _ => do
          let (H, l2) ← split fuel H (some a)
          if late a then do
            let (H, r2, s) ← sortW cmp late fuel depth H l2 s
            let (H, r1, s) ← sortW cmp late fuel depth H (some a) s
            nmergeW cmp fuel H r1 r2 s
          else do
            let (H, r1, s) ← sortW cmp late fuel depth H (some a) s
            let (H, r2, s) ← sortW cmp late fuel depth H l2 s
            nmergeW cmp fuel H r1 r2 s

/-- The callback, counting its calls. -/
def counted (cmp : Cmp V σ) : Cmp V (σ × Nat) := fun x y s => ((cmp x y s.1).1, ((cmp x y s.1).2, s.2 + 1))

/-! ## Specification -/

/-- The answers follow a transitive relation, as in `Orders`, whatever the state of the callback. -/
structure OrdersW (cmp : Cmp V σ) (le : V → V → Prop) : Prop where
  trans : ∀ a b c, le a b → le b c → le a c
  yes : ∀ a b s, (cmp b a s).1 = true → le a b
  no : ∀ a b s, (cmp b a s).1 = false → le b a

/-- No item precedes one that must come before it. -/
def Ordered (le : V → V → Prop) (l : List (Nat × V)) : Prop := l.Pairwise fun x y => le x.2 y.2

/-! ## Proof -/

theorem mergeLoopW_spec (cmp : Cmp V σ) (n : Nat) : ∀ (l1 l2 m : List (Nat × V)) (H : Heap V) (p1 p2 r : Ptr) (fuel : Nat) (s : σ) (k : Nat), l1.length + l2.length = n →
    IsL H p1 l1 → IsL H p2 l2 → IsL H r m →
    (∀ a ∈ adr l1, a ∉ adr l2) → (∀ a ∈ adr l1 ++ adr l2, a ∉ adr m) → n < fuel →
    ∃ H' q, ∃ u : List (Nat × V), ∃ s' k', mergeLoopW (counted cmp) fuel H p1 p2 r (s, k) = .ok (H', q, (s', k')) ∧ IsL H' q (u.reverse ++ m) ∧ u.Perm (l1 ++ l2) ∧ (∀ le, OrdersW cmp le → Ordered le l1 → Ordered le l2 → Ordered le u) ∧ k' ≤ k + (n - 1) ∧ ((l1 = [] ∨ l2 = []) → k' = k) ∧ H'.brk = H.brk ∧
      ∀ a, a ∉ adr l1 → a ∉ adr l2 → H'.cells a = H.cells a := by
  induction n with
  | zero =>
      intro l1 l2 m H p1 p2 r fuel s k hn h1 h2 hm hd hdm hf
      have e1 : l1 = [] := List.length_eq_zero_iff.mp (by omega)
      have e2 : l2 = [] := List.length_eq_zero_iff.mp (by omega)
      subst e1 e2
      simp only [IsL] at h1 h2
      subst h1 h2
      match fuel with
      | f + 1 => exact ⟨H, r, [], s, k, rfl, by simpa using hm, by simp, fun _ _ _ _ => List.Pairwise.nil, by omega, fun _ => rfl, rfl, fun _ _ _ => rfl⟩
  | succ n ih =>
      intro l1 l2 m H p1 p2 r fuel s k hn h1 h2 hm hd hdm hf
      match fuel, hf with
      | f + 1, hf =>
      have take1 : ∀ (s : σ) (k : Nat) a v xs, l1 = (a, v) :: xs →
          ∃ H' q, ∃ u : List (Nat × V), ∃ s' k', (do
            let (p, l1) ← ppop H (some a)
            let (H, r) ← ppush H p r
            mergeLoopW (counted cmp) f H l1 p2 r (s, k) : Outcome _) = .ok (H', q, (s', k')) ∧ IsL H' q (u.reverse ++ m) ∧ u.Perm (l1 ++ l2) ∧ (∀ le, OrdersW cmp le → Ordered le l1 → Ordered le l2 → (∀ z ∈ l2, le v z.2) → Ordered le u) ∧ k' ≤ k + (n - 1) ∧ (l2 = [] → k' = k) ∧ H'.brk = H.brk ∧
            ∀ a, a ∉ adr l1 → a ∉ adr l2 → H'.cells a = H.cells a := by
        intro s k a v xs e
        subst e
        have hnd := isL_nodup H p1 _ h1
        simp only [IsL] at h1
        obtain ⟨rfl, t, hc, h1⟩ := h1
        have ha1 : a ∉ adr xs := by simp [adr] at hnd ⊢; exact hnd.1
        have ha2 : a ∉ adr m := hdm a (by simp [adr])
        have ha3 : a ∉ adr l2 := hd a (by simp [adr])
        obtain ⟨m1, m2⟩ := move H a v t r xs m hc h1 hm ha1 ha2
        have m3 : IsL (H.upd a (some ⟨v, r⟩)) p2 l2 := isL_frame H _ p2 l2 (by
          intro b hb; rw [upd_cells, if_neg]; rintro rfl; exact ha3 hb) h2
        rw [ppop, load_some H a _ hc, Outcome.ok_bind]
        simp only [Outcome.pure_eq, Outcome.ok_bind]
        rw [ppush_some H a _ hc, Outcome.ok_bind]
        simp only
        obtain ⟨H', q, u, s', k', e, hq, hu, hso, hk, hk0, hb, ho⟩ := ih xs l2 ((a, v) :: m) _ t p2 (some a) f s k (by simp at hn; omega) m1 m3 m2
          (fun b hb => hd b (by simp [adr] at hb ⊢; right; exact hb)) (by
            intro b hb
            simp only [adr, List.map_cons, List.mem_cons, not_or]
            constructor
            · rintro rfl; rw [List.mem_append] at hb; rcases hb with h | h
              · exact ha1 h
              · exact ha3 h
            · exact hdm b (by simp [adr] at hb ⊢; rcases hb with h | h; exact .inr (.inl h); exact .inr (.inr h))) (by omega)
        refine ⟨H', q, (a, v) :: u, s', k', e, by simpa using hq, hu.cons _, fun le ho o1 o2 oz => ?_, hk, fun h => hk0 (.inr h), hb, ?_⟩
        · rw [Ordered, List.pairwise_cons] at o1 ⊢
          refine ⟨fun z hz => ?_, hso le ho o1.2 o2⟩
          rcases List.mem_append.1 (hu.mem_iff.1 hz) with hz | hz
          · exact o1.1 z hz
          · exact oz z hz
        intro b hb1 hb2
        simp [adr] at hb1
        rw [ho b (by simp [adr]; exact hb1.2) hb2, upd_cells, if_neg hb1.1]
      have take2 : ∀ (s : σ) (k : Nat) a v ys, l2 = (a, v) :: ys →
          ∃ H' q, ∃ u : List (Nat × V), ∃ s' k', (do
            let (p, l2) ← ppop H (some a)
            let (H, r) ← ppush H p r
            mergeLoopW (counted cmp) f H p1 l2 r (s, k) : Outcome _) = .ok (H', q, (s', k')) ∧ IsL H' q (u.reverse ++ m) ∧ u.Perm (l1 ++ l2) ∧ (∀ le, OrdersW cmp le → Ordered le l1 → Ordered le l2 → (∀ z ∈ l1, le v z.2) → Ordered le u) ∧ k' ≤ k + (n - 1) ∧ (l1 = [] → k' = k) ∧ H'.brk = H.brk ∧
            ∀ a, a ∉ adr l1 → a ∉ adr l2 → H'.cells a = H.cells a := by
        intro s k a v xs e
        subst e
        have hnd := isL_nodup H p2 _ h2
        simp only [IsL] at h2
        obtain ⟨rfl, t, hc, h2⟩ := h2
        have ha1 : a ∉ adr xs := by simp [adr] at hnd ⊢; exact hnd.1
        have ha2 : a ∉ adr m := hdm a (by simp [adr])
        have ha3 : a ∉ adr l1 := fun h => hd a h (by simp [adr])
        obtain ⟨m1, m2⟩ := move H a v t r xs m hc h2 hm ha1 ha2
        have m3 : IsL (H.upd a (some ⟨v, r⟩)) p1 l1 := isL_frame H _ p1 l1 (by
          intro b hb; rw [upd_cells, if_neg]; rintro rfl; exact ha3 hb) h1
        rw [ppop, load_some H a _ hc, Outcome.ok_bind]
        simp only [Outcome.pure_eq, Outcome.ok_bind]
        rw [ppush_some H a _ hc, Outcome.ok_bind]
        simp only
        obtain ⟨H', q, u, s', k', e, hq, hu, hso, hk, hk0, hb, ho⟩ := ih l1 xs ((a, v) :: m) _ p1 t (some a) f s k (by simp at hn; omega) m3 m1 m2
          (fun b hb h => hd b hb (by simp [adr] at h ⊢; right; exact h)) (by
            intro b hb
            simp only [adr, List.map_cons, List.mem_cons, not_or]
            constructor
            · rintro rfl; rw [List.mem_append] at hb; rcases hb with h | h
              · exact ha3 h
              · exact ha1 h
            · exact hdm b (by simp [adr] at hb ⊢; rcases hb with h | h; exact .inl h; exact .inr (.inr h))) (by omega)
        refine ⟨H', q, (a, v) :: u, s', k', e, by simpa using hq, (hu.cons _).trans List.perm_middle.symm, fun le ho o1 o2 oz => ?_, hk, fun h => hk0 (.inl h), hb, ?_⟩
        · rw [Ordered, List.pairwise_cons] at o2 ⊢
          refine ⟨fun z hz => ?_, hso le ho o1 o2.2⟩
          rcases List.mem_append.1 (hu.mem_iff.1 hz) with hz | hz
          · exact oz z hz
          · exact o2.1 z hz
        intro b hb1 hb2
        simp [adr] at hb2
        rw [ho b hb1 (by simp [adr]; exact hb2.2), upd_cells, if_neg hb2.1]
      cases l1 with
      | nil =>
          cases l2 with
          | nil => simp at hn
          | cons y ys =>
              obtain ⟨b, w⟩ := y
              obtain ⟨H', q, u, s', k', e, h1', h2', hso, h3', h4', h5'⟩ := take2 s k b w ys rfl
              have e1 : p1 = none := h1
              have e2 : p2 = some b := h2.1
              subst e1 e2
              exact ⟨H', q, u, s', k', by simpa [mergeLoopW] using e, h1', h2', fun le ho o1 o2 => hso le ho o1 o2 (by simp), by omega, fun _ => h4' rfl, h5'⟩
      | cons x xs =>
          obtain ⟨a, v⟩ := x
          cases l2 with
          | nil =>
              obtain ⟨H', q, u, s', k', e, h1', h2', hso, h3', h4', h5'⟩ := take1 s k a v xs rfl
              have e1 : p1 = some a := h1.1
              have e2 : p2 = none := h2
              subst e1 e2
              exact ⟨H', q, u, s', k', by simpa [mergeLoopW] using e, h1', h2', fun le ho o1 o2 => hso le ho o1 o2 (by simp), by omega, fun _ => h4' rfl, h5'⟩
          | cons y ys =>
              obtain ⟨b, w⟩ := y
              have e1 : p1 = some a := h1.1
              have e2 : p2 = some b := h2.1
              obtain ⟨_, t1, hc1, _⟩ := h1
              obtain ⟨_, t2, hc2, _⟩ := h2
              subst e1 e2
              rw [mergeLoopW, load_some H b _ hc2, Outcome.ok_bind, load_some H a _ hc1, Outcome.ok_bind]
              simp only [counted]
              have hn0 : 1 ≤ n := by simp at hn; omega
              obtain ⟨t, s1, hcs⟩ : ∃ t s1, cmp w v s = (t, s1) := ⟨_, _, rfl⟩
              simp only [hcs]
              cases t with
              | true =>
                  obtain ⟨H', q, u, s', k', e, h1', h2', hso, h3', h4', h5'⟩ := take1 s1 (k + 1) a v xs rfl
                  refine ⟨H', q, u, s', k', e, h1', h2', fun le ho o1 o2 => hso le ho o1 o2 ?_, by omega, fun h => (by simp at h), h5'⟩
                  have hvw : le v w := ho.yes v w s (by rw [hcs])
                  rw [Ordered, List.pairwise_cons] at o2
                  intro z hz
                  rcases List.mem_cons.1 hz with rfl | hz
                  · exact hvw
                  · exact ho.trans _ _ _ hvw (o2.1 z hz)
              | false =>
                  obtain ⟨H', q, u, s', k', e, h1', h2', hso, h3', h4', h5'⟩ := take2 s1 (k + 1) b w ys rfl
                  refine ⟨H', q, u, s', k', e, h1', h2', fun le ho o1 o2 => hso le ho o1 o2 ?_, by omega, fun h => (by simp at h), h5'⟩
                  have hwv : le w v := ho.no v w s (by rw [hcs])
                  rw [Ordered, List.pairwise_cons] at o1
                  intro z hz
                  rcases List.mem_cons.1 hz with rfl | hz
                  · exact hwv
                  · exact ho.trans _ _ _ hwv (o1.1 z hz)

theorem nmergeW_spec (cmp : Cmp V σ) (s : σ) (k : Nat) (l1 l2 : List (Nat × V)) (H : Heap V) (p1 p2 : Ptr) (fuel : Nat)
    (h1 : IsL H p1 l1) (h2 : IsL H p2 l2) (hd : ∀ a ∈ adr l1, a ∉ adr l2) (hf : l1.length + l2.length < fuel) :
    ∃ H' q, ∃ u : List (Nat × V), ∃ s' k', nmergeW (counted cmp) fuel H p1 p2 (s, k) = .ok (H', q, (s', k')) ∧ IsL H' q u ∧ u.Perm (l1 ++ l2) ∧ (∀ le, OrdersW cmp le → Ordered le l1 → Ordered le l2 → Ordered le u) ∧ k' ≤ k + (l1.length + l2.length - 1) ∧ H'.brk = H.brk ∧
      ∀ a, a ∉ adr l1 → a ∉ adr l2 → H'.cells a = H.cells a := by
  obtain ⟨H1, q1, u, s', k', e1, hq1, hp, hso, hk, _, hb1, ho1⟩ := mergeLoopW_spec cmp _ l1 l2 [] H p1 p2 none fuel s k rfl h1 h2 rfl hd (by simp [adr]) hf
  rw [List.append_nil] at hq1
  obtain ⟨H2, q2, e2, hq2, hb2, ho2⟩ := nreverse_spec _ H1 q1 fuel hq1 (by rw [List.length_reverse, hp.length_eq]; simpa using hf)
  rw [List.reverse_reverse] at hq2
  refine ⟨H2, q2, u, s', k', by rw [nmergeW, e1, Outcome.ok_bind]; simp only; rw [e2]; rfl, hq2, hp, hso, hk, hb2.trans hb1, ?_⟩
  intro a ha1 ha2
  rw [ho2 a ?_, ho1 a ha1 ha2]
  intro hm
  have : a ∈ adr (l1 ++ l2) := by
    simp only [adr, List.mem_map, List.mem_reverse] at hm ⊢
    obtain ⟨x, hx, e⟩ := hm
    exact ⟨x, hp.mem_iff.mp hx, e⟩
  simp only [adr, List.map_append, List.mem_append] at this
  rcases this with h | h
  · exact ha1 h
  · exact ha2 h

theorem sortW_spec (cmp : Cmp V σ) (late : Nat → Bool) (fuel : Nat) : ∀ (d : Nat) (l : List (Nat × V)) (H : Heap V) (p : Ptr) (s : σ) (k : Nat), IsL H p l → l.length < fuel → l.length ≤ 2 ^ d →
    ∃ H' q, ∃ u : List (Nat × V), ∃ s' k', sortW (counted cmp) late fuel (d + 1) H p (s, k) = .ok (H', q, (s', k')) ∧ IsL H' q u ∧ u.Perm l ∧ (∀ le, OrdersW cmp le → Ordered le u) ∧ k' + l.length ≤ k + (d * l.length + 1) ∧ H'.brk = H.brk ∧
      ∀ a, a ∉ adr l → H'.cells a = H.cells a := by
  intro d
  induction d with
  | zero =>
      intro l H p s k h hf hd
      match l, h with
      | [], h => simp only [IsL] at h; subst h; exact ⟨H, none, [], s, k, rfl, rfl, .refl _, fun le _ => by simp [Ordered], by simp, rfl, fun _ _ => rfl⟩
      | [(a, v)], h =>
          have h0 := h
          simp only [IsL] at h
          obtain ⟨rfl, t, hc, rfl⟩ := h
          refine ⟨H, some a, [(a, v)], s, k, ?_, h0, .refl _, fun le _ => by simp [Ordered], by simp, rfl, fun _ _ => rfl⟩
          rw [sortW, load_some H a _ hc]; rfl
      | _ :: _ :: _, _ => simp at hd
  | succ d ih =>
      intro l H p s k h hf hd
      match l, h with
      | [], h => simp only [IsL] at h; subst h; exact ⟨H, none, [], s, k, rfl, rfl, .refl _, fun le _ => by simp [Ordered], by simp, rfl, fun _ _ => rfl⟩
      | [(a, v)], h =>
          have h0 := h
          simp only [IsL] at h
          obtain ⟨rfl, t, hc, rfl⟩ := h
          refine ⟨H, some a, [(a, v)], s, k, ?_, h0, .refl _, fun le _ => by simp [Ordered], by simp, rfl, fun _ _ => rfl⟩
          rw [sortW, load_some H a _ hc]; rfl
      | (a, v) :: (b, w) :: rest, h =>
        have h0 := h
        simp only [IsL] at h
        obtain ⟨rfl, t, hc, rfl, t', hc', h⟩ := h
        obtain ⟨H1, q1, e1, s1, s2, b1, o1⟩ := split_spec _ H (some a) fuel h0 (by simp) (by omega)
        generalize hk : (((a, v) :: (b, w) :: rest).length + 1) / 2 = m at *
        have hk2 : 2 ≤ ((a, v) :: (b, w) :: rest).length := by simp
        generalize hL : (a, v) :: (b, w) :: rest = L at *
        have hpow : 2 ^ (d + 1) = 2 * 2 ^ d := by rw [Nat.pow_succ]; omega
        have hnd := isL_nodup H (some a) L h0
        have hsub : ∀ c, c ∈ adr (L.take m) → c ∈ adr L := by
          intro c hc; simp only [adr] at *; rw [List.map_take] at hc; exact List.mem_of_mem_take hc
        have hsub2 : ∀ c, c ∈ adr (L.drop m) → c ∈ adr L := by
          intro c hc; simp only [adr] at *; rw [List.map_drop] at hc; exact List.mem_of_mem_drop hc
        have hdis : ∀ c ∈ adr (L.take m), c ∉ adr (L.drop m) := by
          intro c h1 h2
          rw [← List.take_append_drop m L] at hnd
          simp only [adr, List.map_append] at hnd h1 h2
          exact (List.nodup_append.mp hnd).2.2 c h1 c h2 rfl
        have hlt : (L.take m).length = m := by rw [List.length_take]; omega
        have hld : (L.drop m).length = L.length - m := by rw [List.length_drop]
        have arith : d * m + d * (L.length - m) = d * L.length := by rw [← Nat.mul_add]; congr 1; omega
        have arith2 : (d + 1) * L.length = d * L.length + L.length := by rw [Nat.add_mul]; omega
        by_cases hlate : late a = true
        · obtain ⟨H2, q2, u2, t2, k2, e2, r2, p2, g2, c2, b2, o2⟩ := ih (L.drop m) H1 q1 s k s2 (by omega) (by omega)
          have s1' : IsL H2 (some a) (L.take m) := isL_frame H1 H2 _ _ (fun c hc => o2 c (fun h => hdis c hc h)) s1
          obtain ⟨H3, q3, u3, t3, k3, e3, r3, p3, g3, c3, b3, o3⟩ := ih (L.take m) H2 (some a) t2 k2 s1' (by omega) (by omega)
          have r2' : IsL H3 q2 u2 := isL_frame H2 H3 q2 _ (fun c hc => o3 c (by
            rw [adr_perm p2] at hc; exact fun h => hdis c h hc)) r2
          have l2 := p2.length_eq
          have l3 := p3.length_eq
          obtain ⟨H4, q4, u4, t4, k4, e4, r4, p4, g4, c4, b4, o4⟩ := nmergeW_spec cmp t3 k3 u3 u2 H3 q3 q2 fuel r3 r2' (by
            intro c h1 h2
            rw [adr_perm p3] at h1
            rw [adr_perm p2] at h2
            exact hdis c h1 h2) (by omega)
          refine ⟨H4, q4, u4, t4, k4, ?_, r4, ?_, ?_, ?_, b4.trans (b3.trans (b2.trans b1)), ?_⟩
          · rw [sortW, load_some H a _ hc, Outcome.ok_bind]
            simp only
            rw [e1, Outcome.ok_bind]
            simp only [hlate, if_true]
            rw [e2, Outcome.ok_bind]
            simp only
            rw [e3, Outcome.ok_bind]
            exact e4
          · have := p3.append p2
            rw [List.take_append_drop] at this
            exact p4.trans this
          · exact fun le ho => g4 le ho (g3 le ho) (g2 le ho)
          · rw [hlt] at c3; rw [hld] at c2; omega
          · intro c hc
            rw [o4 c ?_ ?_, o3 c (fun h => hc (hsub c h)), o2 c (fun h => hc (hsub2 c h)), o1 c hc]
            · rw [adr_perm p3]; exact fun h => hc (hsub c h)
            · rw [adr_perm p2]; exact fun h => hc (hsub2 c h)
        · obtain ⟨H2, q2, u2, t2, k2, e2, r2, p2, g2, c2, b2, o2⟩ := ih (L.take m) H1 (some a) s k s1 (by omega) (by omega)
          have s2' : IsL H2 q1 (L.drop m) := isL_frame H1 H2 q1 _ (fun c hc => o2 c (fun h => hdis c h hc)) s2
          obtain ⟨H3, q3, u3, t3, k3, e3, r3, p3, g3, c3, b3, o3⟩ := ih (L.drop m) H2 q1 t2 k2 s2' (by omega) (by omega)
          have r2' : IsL H3 q2 u2 := isL_frame H2 H3 q2 _ (fun c hc => o3 c (by
            rw [adr_perm p2] at hc; exact hdis c hc)) r2
          have l2 := p2.length_eq
          have l3 := p3.length_eq
          obtain ⟨H4, q4, u4, t4, k4, e4, r4, p4, g4, c4, b4, o4⟩ := nmergeW_spec cmp t3 k3 u2 u3 H3 q2 q3 fuel r2' r3 (by
            intro c h1 h2
            rw [adr_perm p2] at h1
            rw [adr_perm p3] at h2
            exact hdis c h1 h2) (by omega)
          refine ⟨H4, q4, u4, t4, k4, ?_, r4, ?_, ?_, ?_, b4.trans (b3.trans (b2.trans b1)), ?_⟩
          · rw [sortW, load_some H a _ hc, Outcome.ok_bind]
            simp only
            rw [e1, Outcome.ok_bind]
            simp only [hlate, if_false, Bool.false_eq_true]
            rw [e2, Outcome.ok_bind]
            simp only
            rw [e3, Outcome.ok_bind]
            exact e4
          · have := p2.append p3
            rw [List.take_append_drop] at this
            exact p4.trans this
          · exact fun le ho => g4 le ho (g2 le ho) (g3 le ho)
          · rw [hlt] at c2; rw [hld] at c3; omega
          · intro c hc
            rw [o4 c ?_ ?_, o3 c (fun h => hc (hsub2 c h)), o2 c (fun h => hc (hsub c h)), o1 c hc]
            · rw [adr_perm p2]; exact fun h => hc (hsub c h)
            · rw [adr_perm p3]; exact fun h => hc (hsub2 c h)

/-! ## The theorems -/

/-- **C132.** Whatever the callback answers, in whichever order the halves are sorted: zt_llist_sort of `n <= 2^d` items ends with at most `d + 1` calls of it active at a time, each loop within `n + 1`
iterations, and at most `d * n` calls of the callback (at most `(d - 1) * n + 1`, to be exact); the result is a list of the same pairs (cells and items), no other cell is changed and none is allocated or freed; if the answers follow
a transitive relation, the result is ordered by it. -/
theorem c132_any (cmp : Cmp V σ) (late : Nat → Bool) (H : Heap V) (p : Ptr) (l : List (Nat × V)) (h : IsL H p l) (d : Nat) (hd : l.length ≤ 2 ^ d) (s : σ) :
    ∃ H' q, ∃ u : List (Nat × V), ∃ s' calls, sortW (counted cmp) late (l.length + 1) (d + 1) H p (s, 0) = .ok (H', q, (s', calls)) ∧ IsL H' q u ∧ u.Perm l ∧ (∀ le, OrdersW cmp le → Ordered le u) ∧ calls + l.length ≤ d * l.length + 1 ∧
      H'.brk = H.brk ∧ (∀ a, a ∉ adr l → H'.cells a = H.cells a) ∧ ∀ a, H'.cells a = none ↔ H.cells a = none := by
  obtain ⟨H', q, u, s', k', e, h1, h2, ho, h3, h4, h5⟩ := sortW_spec cmp late (l.length + 1) d l H p s 0 h (by omega) hd
  refine ⟨H', q, u, s', k', e, h1, h2, ho, by omega, h4, h5, fun a => ?_⟩
  by_cases ha : a ∈ adr l
  · have k1 := isL_cells H p l h a ha
    have k2 := isL_cells H' q u h1 a ((adr_perm h2 a).2 ha)
    simp [k1, k2]
  · rw [h5 a ha]

/-! ## Non-vacuity -/

/-- A callback that answers yes and no in turn, whatever it is asked. -/
def liar : Cmp Nat Bool := fun _ _ s => (s, !s)

/-- A callback that keeps a count of its own and answers by `<=`. -/
def honest : Cmp Nat Nat := fun b a s => (decide (a ≤ b), s + 1)

example : OrdersW honest (· ≤ ·) :=
  ⟨fun _ _ _ h1 h2 => Nat.le_trans h1 h2, fun a b s h => by simpa [honest] using h, fun a b s h => by simp only [honest, decide_eq_false_iff_not] at h; omega⟩

/-- Three items: depth 3, at most 4 calls of the liar. -/
example (s : Bool) : ∃ H' q, ∃ u : List (Nat × Nat), ∃ s' calls, sortW (counted liar) (· == 1) 4 3 sampleHeap (some 1) (s, 0) = .ok (H', q, (s', calls)) ∧ u.Perm [(1, 30), (2, 10), (3, 20)] ∧ IsL H' q u ∧ calls ≤ 4 := by
  obtain ⟨H', q, u, s', k, e, h, hp, -, hk, -⟩ := c132_any liar (· == 1) sampleHeap (some 1) [(1, 30), (2, 10), (3, 20)] ⟨rfl, _, rfl, rfl, _, rfl, rfl, _, rfl, rfl⟩ 2 (by decide) s
  exact ⟨H', q, u, s', k, e, hp, h, by simpa using hk⟩

/-- The bound is met: one comparison for two items, and (with `<=` on 30, 10, 20) three for three. -/
example : (match sortW (counted honest) (fun _ => false) 4 3 sampleHeap (some 1) (0, 0) with | .ok (_, q, s) => some (q, s) | _ => none) = some (some 2, (3, 3)) := by decide +kernel

end ZT.LList
