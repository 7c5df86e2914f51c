import Verif.Gc.Work

/-!
# C149: does the collector keep up with allocation?

Each zt_gc_register adds one object to the grey list; every `allocs_before_scan` registrations zt_gc_collect scans `marks_per_scan` objects of it (zt_gc.c 247-268, 317-388).
-/

namespace ZT.Gc

open EList (Heap)

/-! ### counting -/

/-- No object of `W` is protected, and no other object refers to one of `W`. -/
structure Cut (W : Nat → Prop) (G : Gc) : Prop where
  prot : ∀ x o, G.obj x = some o → o.prot = true → ¬ W x
  closed : ∀ x o, G.obj x = some o → ¬ W x → ∀ k ∈ o.kids, ¬ W k

theorem Cut.same {W : Nat → Prop} {G G' : Gc} (C : Cut W G) (S : Same G G') : Cut W G' := by
  constructor
  · intro x o' ho' hp
    obtain ⟨o, ho, h1, -⟩ := S.obj' ho'
    exact C.prot x o ho (h1.trans hp)
  · intro x o' ho' hx k hk
    obtain ⟨o, ho, -, h2⟩ := S.obj' ho'
    exact C.closed x o ho hx k (h2 ▸ hk)

/-- No object of `W` has been scanned. -/
def Ph1 (W : Nat → Prop) (be : List Nat) : Prop := ∀ x ∈ be, ¬ W x
/-- No object of `W` has been scanned or is to be. -/
def Ph2 (W : Nat → Prop) (bl be ah : List Nat) : Prop := ∀ x, x ∈ bl ∨ x ∈ be ∨ x ∈ ah → ¬ W x

/-- The loop of an incremental call: it ends the cycle, or leaves it under way with the objects scanned taken off the count. -/
theorem scanLoop_count {W : Nat → Prop} : ∀ (n : Nat) {G G' : Gc} {bl be ah wh : List Addr} {m : Int}, Cut W G → Inv G bl be ah wh → G.scan = ah.headD G.grey → scanLoop false n m G = .ok G' →
    (G'.scan = G'.grey ∧ (ah.length : Int) ≤ max 1 (G.marksPerScan - m) ∧ ∃ be' bl', Inv G' [] [] be' bl' ∧ (Ph1 W be → Ph1 W be') ∧ (Ph2 W bl be ah → ∀ x, (G'.obj x).isSome → ¬ W x)) ∨
    ∃ bl' be' a r wh', Inv G' bl' be' (a :: r) wh' ∧ G'.scan = a ∧ ((a :: r).length + wh'.length : Int) + max 1 (G.marksPerScan - m) = ah.length + wh.length ∧
      (ah.length : Int) ≤ (a :: r).length + max 1 (G.marksPerScan - m) ∧ G'.freed = G.freed ∧ (Ph1 W be → Ph1 W be') ∧ (Ph2 W bl be ah → Ph2 W bl' be' (a :: r)) := by
  intro n
  have fin : ∀ {n : Nat} {G G1 : Gc} {bl be wh : List Addr}, Inv G bl be [] wh → switch n { G with enabled := G.enabled + 1 } = .ok G1 →
      ∃ be' bl', Inv G1 [] [] be' bl' ∧ (Ph1 W be → Ph1 W be') ∧ (Ph2 W bl be [] → ∀ x, (G1.obj x).isSome → ¬ W x) := by
    intro n G G1 bl be wh I h1
    have I' : Inv { G with enabled := G.enabled + 1 } bl be [] wh := ⟨I.lists, I.dom, I.colW, I.colB, I.colG, I.closed⟩
    obtain ⟨G2, e, J, -⟩ := switch_spec (fuel := n + wh.length + 2) I' (by omega)
    have h3 : switch (n + (wh.length + 2)) { G with enabled := G.enabled + 1 } = .ok G1 := by
      generalize wh.length + 2 = k
      induction k with
      | zero => exact h1
      | succ k ihk => exact switch_mono _ _ _ ihk
    rw [show n + (wh.length + 2) = n + wh.length + 2 by omega, e] at h3
    cases h3
    exact ⟨be, bl, J, id, fun hp x hx => hp x (by have := (J.dom x).1 hx; grind)⟩
  induction n with
  | zero => intro G G' bl be ah wh m _ _ _ h; cases h
  | succ n ih =>
      intro G G' bl be ah wh m C I hs h
      rw [scanLoop] at h
      cases ah with
      | nil =>
          rw [if_pos (by rw [hs]; rfl)] at h
          obtain ⟨a, b⟩ := switch_scan h
          refine .inl ⟨by rw [a, b]; rw [hs]; rfl, ?_, fin I h⟩
          simp; omega
      | cons a r =>
          have hsa : G.scan = a := hs
          have hag : a ≠ G.grey := by have := I.lists.grey.2; grind
          obtain ⟨G1, bl1, be1, ah1, wh1, e1, I1, S1, s1, w1, l1, b1, p1, f1⟩ := scanStep_spec I hsa
          have hw : wh1.length ≤ wh.length := sub_len I1.nd_white w1
          have hm := S1.marks
          have C1 := C.same S1
          have ph1 : Ph1 W be → Ph1 W be1 := fun hp x hx => by
            rcases p1 x hx with h | ⟨rfl, o, ho, h⟩
            · exact hp x h
            · exact C.prot x o ho h
          have ph2 : Ph2 W bl be (a :: r) → Ph2 W bl1 be1 ah1 := fun hp x hx => by
            have ha := hp a (by simp)
            rcases hx with h | h | h
            · rcases b1 x h with h | rfl
              · exact hp x (.inl h)
              · exact ha
            · rcases p1 x h with h | ⟨rfl, -⟩
              · exact hp x (.inr (.inl h))
              · exact ha
            · rcases f1 x h with h | ⟨o, ho, h⟩
              · exact hp x (by simp [h])
              · exact C.closed a o ho ha x h
          rw [if_neg (by rw [hsa]; exact hag), e1] at h
          simp only [Outcome.ok_bind] at h
          simp only [List.length_cons] at l1 ⊢
          split at h
          · rename_i hc
            rw [Outcome.pure_eq] at h
            cases h
            simp only [Bool.not_false, Bool.true_and, Bool.and_eq_true, decide_eq_true_eq] at hc
            cases ah1 with
            | nil => exact absurd s1 hc.2
            | cons a1 r1 =>
                refine .inr ⟨bl1, be1, a1, r1, wh1, ⟨I1.lists, I1.dom, I1.colW, I1.colB, I1.colG, I1.closed⟩, s1, ?_, ?_, S1.freed, ph1, ph2⟩
                · simp only [List.length_cons] at l1 ⊢; omega
                · simp only [List.length_cons] at l1 ⊢; omega
          · rename_i hc
            simp only [Bool.not_false, Bool.true_and, Bool.and_eq_true, decide_eq_true_eq] at hc
            by_cases hg : G1.scan = G1.grey
            · cases n with
              | zero => cases h
              | succ n =>
                  rw [scanLoop, if_pos hg] at h
                  obtain ⟨c, d⟩ := switch_scan h
                  have hah : ah1 = [] := by
                    cases ah1 with
                    | nil => rfl
                    | cons a1 r1 =>
                        have h1 : G1.scan = a1 := s1
                        have := I1.lists.grey.2
                        rw [← hg, h1] at this
                        grind
                  subst hah
                  obtain ⟨be', bl', j1, j2, j3⟩ := fin I1 h
                  refine .inl ⟨by rw [c, d]; exact hg, ?_, be', bl', j1, fun hp => j2 (ph1 hp), fun hp => j3 (ph2 hp)⟩
                  simp only [List.length_nil] at l1
                  omega
            · have hlt : m + 1 < G1.marksPerScan := by
                refine Classical.byContradiction fun hh => hc ⟨by omega, hg⟩
              rcases ih C1 I1 s1 h with ⟨h1, h2, be', bl', j1, j2, j3⟩ | ⟨bl', be', a', r', wh', i1, i2, i3, i4, i5, i6, i7⟩
              · refine .inl ⟨h1, ?_, be', bl', j1, fun hp => j2 (ph1 hp), fun hp => j3 (ph2 hp)⟩
                omega
              · refine .inr ⟨bl', be', a', r', wh', i1, i2, ?_, ?_, i5.trans S1.freed, fun hp => i6 (ph1 hp), fun hp => i7 (ph2 hp)⟩
                · rw [hm] at i3; simp only [List.length_cons] at i3 ⊢; omega
                · rw [hm] at i4; simp only [List.length_cons] at i4 ⊢; omega

/-- The settings of zt_gc_init and the counters are the same. -/
structure Quiet (G G' : Gc) : Prop where
  marks : G'.marksPerScan = G.marksPerScan
  before : G'.allocsBefore = G.allocsBefore
  allocs : G'.allocs = G.allocs

theorem Quiet.refl (G : Gc) : Quiet G G := ⟨rfl, rfl, rfl⟩

theorem Quiet.trans {A B C : Gc} (h : Quiet A B) (k : Quiet B C) : Quiet A C := ⟨k.marks.trans h.marks, k.before.trans h.before, k.allocs.trans h.allocs⟩

theorem clearWhite_quiet {G G' : Gc} {v : Addr} (h : clearWhite G v = .ok G') : Quiet G G' := by
  obtain ⟨o, -, h2⟩ := Outcome.bind_eq_ok.1 h
  cases h2; exact ⟨rfl, rfl, rfl⟩

theorem mark_quiet {G G' : Gc} {v : Addr} {b : Bool} (h : mark G v = .ok (b, G')) : Quiet G G' := by
  obtain ⟨o, -, h2⟩ := Outcome.bind_eq_ok.1 h
  split at h2
  · obtain ⟨G1, h3, h4⟩ := Outcome.bind_eq_ok.1 h2
    cases h4
    have := clearWhite_quiet h3
    exact ⟨this.1, this.2, this.3⟩
  · cases h2; exact .refl _

theorem markAll_quiet : ∀ {ks : List Addr} {G G' : Gc}, markAll G ks = .ok G' → Quiet G G' := by
  intro ks
  induction ks with
  | nil => intro G G' h; cases h; exact .refl _
  | cons k ks ih =>
      intro G G' h
      obtain ⟨⟨b, G1⟩, h1, h2⟩ := Outcome.bind_eq_ok.1 h
      exact (mark_quiet h1).trans (ih h2)

theorem scanStep_quiet {G G' : Gc} (h : scanStep G = .ok G') : Quiet G G' := by
  obtain ⟨G1, h1, h⟩ := Outcome.bind_eq_ok.1 h
  obtain ⟨o, -, h⟩ := Outcome.bind_eq_ok.1 h
  obtain ⟨G2, h2, h⟩ := Outcome.bind_eq_ok.1 h
  obtain ⟨o', -, h⟩ := Outcome.bind_eq_ok.1 h
  cases h
  refine ((clearWhite_quiet h1).trans (markAll_quiet h2)).trans ?_
  split <;> exact ⟨rfl, rfl, rfl⟩

theorem freeLoop_quiet (h : Addr) : ∀ (n : Nat) {G G' : Gc} {p q : Addr}, freeLoop h n G p q = .ok G' → Quiet G G' := by
  intro n
  induction n with
  | zero => intro G G' p q e; cases e
  | succ n ih =>
      intro G G' p q e
      rw [freeLoop] at e
      split at e
      · obtain ⟨o, -, h2⟩ := Outcome.bind_eq_ok.1 e
        have := ih (G := { put { G with H := EList.remove G.H p } p none with freed := G.freed ++ [p] }) h2
        exact ⟨this.1, this.2, this.3⟩
      · cases e; exact .refl _

theorem switch_quiet {n : Nat} {G G' : Gc} (e : switch n G = .ok G') : Quiet G G' := by
  obtain ⟨G1, h1, h2⟩ := Outcome.bind_eq_ok.1 e
  cases h2
  have : Quiet G G1 := by
    rw [freeWhite] at h1
    split at h1
    · cases h1; exact ⟨rfl, rfl, rfl⟩
    · have := freeLoop_quiet _ _ (G := { G with enabled := G.enabled - 1 }) h1
      exact ⟨this.1, this.2, this.3⟩
  exact ⟨this.1, this.2, this.3⟩

theorem scanLoop_quiet (full : Bool) : ∀ (n : Nat) {G G' : Gc} {m : Int}, scanLoop full n m G = .ok G' → Quiet G G' := by
  intro n
  induction n with
  | zero => intro G G' m h; cases h
  | succ n ih =>
      intro G G' m h
      rw [scanLoop] at h
      split at h
      · have := switch_quiet h
        exact ⟨this.1, this.2, this.3⟩
      · obtain ⟨G1, h1, h2⟩ := Outcome.bind_eq_ok.1 h
        have h3 := scanStep_quiet h1
        split at h2
        · cases h2; exact ⟨h3.1, h3.2, h3.3⟩
        · exact h3.trans (ih h2)

/-- The settings of zt_gc_init stay, and the count of allocations does not become negative. -/
structure Kept (G G' : Gc) : Prop where
  marks : G'.marksPerScan = G.marksPerScan
  before : G'.allocsBefore = G.allocsBefore
  allocs : 0 ≤ G.allocs → 0 ≤ G'.allocs

theorem Quiet.kept {G G' : Gc} (h : Quiet G G') : Kept G G' := ⟨h.1, h.2, fun h0 => by rw [h.3]; exact h0⟩

theorem Kept.trans {A B C : Gc} (h : Kept A B) (k : Kept B C) : Kept A C := ⟨k.marks.trans h.marks, k.before.trans h.before, k.allocs ∘ h.allocs⟩

theorem collect_kept {n : Nat} {G G' : Gc} {full : Bool} (h : collect n G full = .ok G') : Kept G G' := by
  rw [collect] at h
  split at h
  · cases h; exact (Quiet.refl _).kept
  · have h1 := scanLoop_quiet full n h
    have h2 : (startScan { G with enabled := G.enabled - 1, allocs := 0 }).marksPerScan = G.marksPerScan ∧ (startScan { G with enabled := G.enabled - 1, allocs := 0 }).allocsBefore = G.allocsBefore ∧
        (startScan { G with enabled := G.enabled - 1, allocs := 0 }).allocs = 0 := by
      rw [startScan]; split <;> exact ⟨rfl, rfl, rfl⟩
    exact ⟨h1.1.trans h2.1, h1.2.trans h2.2.1, fun _ => by rw [h1.3, h2.2.2]; omega⟩

theorem protect_quiet {G G' : Gc} {v : Addr} (h : protect G v = .ok G') : Quiet G G' := by
  obtain ⟨G1, h1, h⟩ := Outcome.bind_eq_ok.1 h
  obtain ⟨o, -, h⟩ := Outcome.bind_eq_ok.1 h
  cases h
  have := clearWhite_quiet h1
  exact ⟨this.1, this.2, this.3⟩

theorem exec_kept {n : Nat} {G G' : Gc} {op : Op} (h : exec n G op = .ok G') : Kept G G' := by
  cases op with
  | register v ks =>
      obtain ⟨G1, h1, h2⟩ := Outcome.bind_eq_ok.1 h
      have h3 := clearWhite_quiet h1
      have h4 : Kept G { G1 with H := EList.addTail G1.H G1.grey v, allocs := G1.allocs + 1 } := ⟨h3.1, h3.2, fun h0 => by
        have : G1.allocs = G.allocs := h3.3
        show 0 ≤ G1.allocs + 1
        omega⟩
      dsimp only at h2
      split at h2
      · exact h4.trans (collect_kept (G := { G1 with H := EList.addTail G1.H G1.grey v, allocs := G1.allocs + 1 }) h2)
      · cases h2; exact h4
  | root v ks =>
      have := protect_quiet (G := { put G v (some ⟨false, false, ks⟩) with H := EList.reset G.H v }) h
      exact ⟨this.1, this.2, fun h0 => by have h3 : G'.allocs = G.allocs := this.3; omega⟩
  | protect v => exact (protect_quiet h).kept
  | unprotect v =>
      obtain ⟨o, -, h⟩ := Outcome.bind_eq_ok.1 h
      cases h; exact ⟨rfl, rfl, id⟩
  | unregister v =>
      obtain ⟨o, -, h2⟩ := Outcome.bind_eq_ok.1 h
      have h4 : Kept G { put G v none with H := EList.remove G.H v, allocs := G.allocs + 1 } := ⟨rfl, rfl, fun h0 => by
        show 0 ≤ G.allocs + 1
        omega⟩
      dsimp only at h2
      split at h2
      · exact h4.trans (collect_kept (G := { put G v none with H := EList.remove G.H v, allocs := G.allocs + 1 }) h2)
      · cases h2; exact h4
  | store v ks =>
      obtain ⟨o, -, h⟩ := Outcome.bind_eq_ok.1 h
      cases h; exact ⟨rfl, rfl, id⟩
  | mark v =>
      obtain ⟨⟨b, G1⟩, h1, h⟩ := Outcome.bind_eq_ok.1 h
      cases h; exact (mark_quiet h1).kept
  | collect full => exact collect_kept h
  | enable =>
      have h : enable n G = .ok G' := h
      rw [enable] at h
      split at h
      · split at h
        · have := collect_kept (G := { G with enabled := G.enabled + 1 }) h
          exact ⟨this.1, this.2, this.3⟩
        · cases h; exact ⟨rfl, rfl, id⟩
      · cases h
  | disable => cases h; exact ⟨rfl, rfl, id⟩

theorem hist_kept {G0 : Gc} {ops : List Op} {G : Gc} (h : Hist G0 ops G) : Kept G0 G := by
  induction h with
  | start => exact (Quiet.refl _).kept
  | call _ _ r ih =>
      obtain ⟨k, hk⟩ := r
      exact ih.trans (exec_kept (hk k (Nat.le_refl k)))

/-! ### one call -/

/-- The calls of a client that allocates and links: zt_gc_register, stores into its objects, and zt_gc_mark as the barrier. -/
def Mutator : Op → Prop
  | .register _ _ | .store _ _ | .mark _ => True
  | _ => False

/-- The objects a call registers. -/
def adds : Op → Nat
  | .register _ _ => 1
  | _ => 0

/-- What one of these calls does: nothing but add its object (`silent`), or one step of collection that ends the cycle (`ended`) or not (`part`). -/
inductive Tick (W : Nat → Prop) (G G' : Gc) (op : Op) (bl be ah wh : List Addr) : Prop
  | silent (bl' be' ah' wh') (top : Top G' bl' be' ah' wh') (grey : ah.length + adds op ≤ ah'.length) (sum : ah'.length + wh'.length = ah.length + wh.length + adds op)
      (allocs : G'.allocs = G.allocs + adds op) (freed : G'.freed = G.freed) (idle : Idle G' ↔ Idle G) (enabled : G'.enabled = G.enabled)
      (below : adds op = 1 → G.allocs + 1 < G.allocsBefore ∨ G.enabled < 0) (ph1 : Ph1 W be → Ph1 W be') (ph2 : Ph2 W bl be ah → Ph2 W bl' be' ah')
  | ended (be' bl') (top : Top G' [] [] be' bl') (ph1 : Ph1 W be → Ph1 W be') (ph2 : Ph2 W bl be ah → ∀ x, (G'.obj x).isSome → ¬ W x) (due : G.allocsBefore ≤ G.allocs + 1) (idle : Idle G') (few : (ah.length : Int) + 1 ≤ max 1 G.marksPerScan)
      (en : G'.enabled = G.enabled)
  | part (bl' be' a r wh') (one : adds op = 1) (due : G.allocsBefore ≤ G.allocs + 1) (top : Top G' bl' be' (a :: r) wh') (idle : ¬ Idle G')
      (sum : ((a :: r).length + wh'.length : Int) + max 1 G.marksPerScan = ah.length + wh.length + 1) (allocs : G'.allocs = 0) (freed : G'.freed = G.freed) (enabled : G'.enabled = G.enabled)
      (grey : (ah.length : Int) + 1 ≤ (a :: r).length + max 1 G.marksPerScan) (ph1 : Ph1 W be → Ph1 W be') (ph2 : Ph2 W bl be ah → Ph2 W bl' be' (a :: r))

/-- The call does not make an object outside `W` refer to one of `W`, nor mark one of `W`. -/
def Avoids (W : Nat → Prop) : Op → Prop
  | .register v ks => ¬ W v ∧ ∀ k ∈ ks, ¬ W k
  | .store _ ks => ∀ k ∈ ks, ¬ W k
  | .mark v => ¬ W v
  | _ => True

/-- An incremental collection that is due. -/
theorem collect_count {W : Nat → Prop} {G G' : Gc} {bl be ah wh : List Addr} (C : Cut W G) (T : Top G bl be ah wh) (hen : 0 ≤ G.enabled) (hal : G.allocsBefore ≤ G.allocs) {n : Nat} (h : collect n G false = .ok G') :
    (Idle G' ∧ (ah.length : Int) ≤ max 1 G.marksPerScan ∧ ∃ be' bl', Top G' [] [] be' bl' ∧ (Ph1 W be → Ph1 W be') ∧ (Ph2 W bl be ah → ∀ x, (G'.obj x).isSome → ¬ W x) ∧ G'.enabled = G.enabled) ∨ ∃ bl' be' a r wh', Top G' bl' be' (a :: r) wh' ∧ ¬ Idle G' ∧
      ((a :: r).length + wh'.length : Int) + max 1 G.marksPerScan = ah.length + wh.length ∧ G'.allocs = 0 ∧ G'.freed = G.freed ∧ G'.enabled = G.enabled ∧
      (ah.length : Int) ≤ (a :: r).length + max 1 G.marksPerScan ∧ (Ph1 W be → Ph1 W be') ∧ (Ph2 W bl be ah → Ph2 W bl' be' (a :: r)) := by
  have hen' : G'.enabled = G.enabled := by
    obtain ⟨G2, _, _, _, _, _, e2, _, _, _, en, _, _⟩ := collect_spec T false (fuel := n + (ah.length + wh.length + 2)) (by omega)
    have h5 : collect (n + (ah.length + wh.length + 2)) G false = .ok G' := by
      generalize ah.length + wh.length + 2 = k
      induction k with
      | zero => exact h
      | succ k ihk => exact collect_mono _ _ _ _ ihk
    rw [e2] at h5
    cases h5
    exact en
  rw [collect, if_neg (by simp; omega)] at h
  generalize hG0 : startScan { G with enabled := G.enabled - 1, allocs := 0 } = G0 at h
  have h0 : G0.obj = G.obj ∧ G0.H = G.H ∧ G0.black = G.black ∧ G0.grey = G.grey ∧ G0.white = G.white ∧ G0.sense = G.sense ∧ G0.scan = (if G.scan = G.grey then G.H.next G.scan else G.scan) ∧
      G0.marksPerScan = G.marksPerScan ∧ G0.allocs = 0 ∧ G0.freed = G.freed := by
    subst hG0
    rw [startScan]
    split <;> rename_i hh
    · exact ⟨rfl, rfl, rfl, rfl, rfl, rfl, rfl, rfl, rfl, rfl⟩
    · exact ⟨rfl, rfl, rfl, rfl, rfl, rfl, rfl, rfl, rfl, rfl⟩
  obtain ⟨z1, z2, z3, z4, z5, z6, z11, z7, z8, z9⟩ := h0
  have I0 : Inv G0 bl be ah wh := by
    constructor
    · rw [z2, z3, z4, z5]; exact T.inv.lists
    · rw [z1]; exact T.inv.dom
    · rw [z1, z6]; exact T.inv.colW
    · rw [z1, z6]; exact T.inv.colB
    · rw [z1, z6]; exact T.inv.colG
    · rw [z1]; exact T.inv.closed
  have hs0 : G0.scan = ah.headD G0.grey := by
    rw [z11, z4]
    by_cases hg : G.scan = G.grey
    · obtain ⟨h1, h2, _⟩ := T.scan_grey.1 hg
      rw [if_pos hg, hg]
      have := T.inv.lists.next_head
      rw [this, h2]; rfl
    · rw [if_neg hg]
      rcases T.phase with h | ⟨r, h⟩
      · exact absurd h.1 hg
      · rw [h]; rfl
  have hq := scanLoop_quiet false n h
  have C0 : Cut W G0 := ⟨by rw [z1]; exact C.prot, by rw [z1]; exact C.closed⟩
  rcases scanLoop_count n C0 I0 hs0 h with ⟨a1, a2, be', bl', j1, j2, j3⟩ | ⟨bl', be', a, r, wh', i1, i2, i3, i4, i5, i6, i7⟩
  · exact .inl ⟨a1, by rw [z7] at a2; omega, be', bl', ⟨j1, .inl ⟨a1, rfl, rfl⟩⟩, j2, j3, hen'⟩
  · have T' : Top G' bl' be' (a :: r) wh' := ⟨i1, .inr ⟨r, by rw [i2]⟩⟩
    refine .inr ⟨bl', be', a, r, wh', T', idle_iff T' (by rw [i2]), ?_, by rw [hq.3, z8], by rw [i5, z9], hen', ?_, i6, i7⟩
    · rw [z7] at i3; omega
    · rw [z7] at i4; omega

theorem tick {W : Nat → Prop} {G G' : Gc} {bl be ah wh : List Addr} (C : Cut W G) (T : Top G bl be ah wh) {op : Op} (hav : Avoids W op) (hop : Mutator op) (hl : Legal G op) {n : Nat} (h : exec n G op = .ok G') : Tick W G G' op bl be ah wh := by
  cases op with
  | store v ks =>
      obtain ⟨o, ho, hk, hs⟩ := hl
      obtain ⟨o', ho', h⟩ := Outcome.bind_eq_ok.1 h
      rw [loadOk ho] at ho'
      cases ho'
      cases h
      refine .silent bl be ah wh (edit_obj T ho rfl id hk ?_) (Nat.le_refl _) rfl (by show G.allocs = G.allocs + 0; omega) rfl Iff.rfl rfl (fun h => by cases h) id id
      intro hv k hk'
      rcases T.phase with ⟨_, h2, h3⟩ | ⟨r, h⟩
      · subst h2; subst h3; rcases hv with hv | hv <;> cases hv
      · exact ((hs.resolve_left (idle_iff T h)) k hk').imp id fun h => T.inv.settled h
  | mark v =>
      obtain ⟨hv, hs⟩ := hl
      obtain ⟨o, ho⟩ := Option.isSome_iff_exists.1 hv
      obtain ⟨r, G2, ah', wh', e, I', S, hsc, -, -, hw, hah, -, hlen, -, hd, -⟩ := mark_spec T.inv ho
      obtain ⟨⟨b, G1⟩, h1, h2⟩ := Outcome.bind_eq_ok.1 h
      rw [e] at h1
      cases h1
      cases h2
      have hwl : wh'.length ≤ wh.length := sub_len I'.nd_white hw
      refine .silent bl be ah' wh' ⟨I', ?_⟩ (by simp only [adds]; omega) hlen (by show _ = G.allocs + 0; rw [S.allocs]; omega) S.freed (by rw [Idle, Idle, hsc, S.grey]) S.enabled (fun h => by cases h) id ?_
      rotate_left
      · intro hp x hx
        have hv' : ¬ W v := hav
        rcases hx with h | h | h
        · exact hp x (.inl h)
        · exact hp x (.inr (.inl h))
        · rcases hah x h with h | rfl
          · exact hp x (.inr (.inr h))
          · exact hv'
      rw [hsc, S.grey]
      rcases T.phase with h | ⟨r, h⟩
      · exact .inl h
      · refine .inr (hd _ r h ?_)
        by_cases he : G.scan = v
        · right; rw [he]; exact hs.resolve_left (by simp [he])
        · exact .inl he
  | register v ks =>
      have hfr : Fresh G v ks := hl
      have hout := T.inv.out hfr.1 hfr.2.1
      generalize hG1 : ({ put G v (some ⟨!G.sense, false, ks⟩) with H := EList.addTail (EList.reset G.H v) G.grey v, allocs := G.allocs + 1 } : Gc) = G1
      have hobj : ∀ x, G1.obj x = if x = v then some ⟨!G.sense, false, ks⟩ else G.obj x := by intro x; subst hG1; rfl
      have L := (T.inv.lists.reset hout).addTailGrey hout
      have I1 : Inv G1 bl be (ah ++ [v]) wh := by
        refine new_obj T hfr ⟨!G.sense, false, ks⟩ rfl hobj (by subst hG1; rfl) ?_ (fun x hx => .inl hx) (fun x => by simp only [List.mem_append, List.mem_singleton]; grind)
        subst hG1
        rw [← List.append_assoc]; exact L
      have hG : G1.scan = G.scan ∧ G1.grey = G.grey ∧ G1.enabled = G.enabled ∧ G1.allocs = G.allocs + 1 ∧ G1.allocsBefore = G.allocsBefore ∧ G1.marksPerScan = G.marksPerScan ∧ G1.freed = G.freed := by
        subst hG1; exact ⟨rfl, rfl, rfl, rfl, rfl, rfl, rfl⟩
      obtain ⟨y1, y2, y3, y4, y5, y6, y7⟩ := hG
      have T1 : Top G1 bl be (ah ++ [v]) wh := by
        refine ⟨I1, ?_⟩
        rw [y1, y2]
        rcases T.phase with h | ⟨r, h⟩
        · exact .inl h
        · exact .inr ⟨r ++ [v], by rw [h]; rfl⟩
      have hcl : clearWhite { put G v (some ⟨false, false, ks⟩) with H := EList.reset G.H v } v =
          .ok { put G v (some ⟨!G.sense, false, ks⟩) with H := EList.reset G.H v } := by
        rw [clearWhite_eq (o := ⟨false, false, ks⟩) (by simp [put])]
        congr 1
        simp only [put, Gc.mk.injEq]
        refine ⟨trivial, ?_, trivial, trivial, trivial, trivial, trivial, trivial, trivial, trivial, trivial, trivial⟩
        funext x; split <;> rfl
      have hrun : exec n G (.register v ks) = if G1.allocs ≥ G1.allocsBefore then collect n G1 false else .ok G1 := by
        show register n G v ⟨false, false, ks⟩ = _
        rw [register]
        show (clearWhite { put G v (some ⟨false, false, ks⟩) with H := EList.reset G.H v } v >>= _) = _
        rw [hcl]
        simp only [Outcome.ok_bind]
        subst hG1
        rfl
      rw [hrun] at h
      have ph : Ph2 W bl be ah → Ph2 W bl be (ah ++ [v]) := fun hp x hx => by
        have hv : ¬ W v := hav.1
        simp only [List.mem_append, List.mem_singleton] at hx
        rcases hx with h | h | h | rfl
        · exact hp x (.inl h)
        · exact hp x (.inr (.inl h))
        · exact hp x (.inr (.inr h))
        · exact hv
      have C1 : Cut W G1 := by
        constructor
        · intro x o ho hp
          rw [hobj] at ho
          split at ho
          · cases ho; cases hp
          · exact C.prot x o ho hp
        · intro x o ho hx k hk
          rw [hobj] at ho
          split at ho
          · cases ho; exact hav.2 k hk
          · exact C.closed x o ho hx k hk
      have silent : G' = G1 → (G.allocs + 1 < G.allocsBefore ∨ G.enabled < 0) → Tick W G G' (.register v ks) bl be ah wh := by
        rintro rfl hb
        exact .silent bl be (ah ++ [v]) wh T1 (by simp [adds]) (by simp [adds]; omega) (by rw [y4]; rfl) y7 (by rw [Idle, Idle, y1, y2]) y3 (fun _ => hb) id ph
      split at h
      · rename_i hc
        by_cases hen : 0 ≤ G1.enabled
        · rcases collect_count C1 T1 hen hc h with ⟨a1, a2, be', bl', j1, j2, j3, j4⟩ | ⟨bl', be', a, r, wh', i1, i2, i3, i4, i5, i6, i7, i8, i9⟩
          · refine .ended be' bl' j1 j2 (fun hp => j3 (ph hp)) (by omega) a1 ?_ (by rw [j4, y3])
            rw [y6] at a2; simp at a2; omega
          · rw [y6] at i3 i7
            simp only [List.length_append, List.length_cons, List.length_nil] at i3 i7
            refine .part bl' be' a r wh' rfl (by omega) i1 i2 ?_ i4 (by rw [i5, y7]) (by rw [i6, y3]) ?_ i8 (fun hp => i9 (ph hp))
            · simp only [List.length_cons]; omega
            · simp only [List.length_cons]; omega
        · rw [collect, if_pos (by simp; omega)] at h
          cases h
          exact silent rfl (by omega)
      · cases h
        exact silent rfl (by omega)
  | _ => cases hop

theorem avoids_nothing (op : Op) : Avoids (fun _ => False) op := by cases op <;> simp [Avoids]

/-! ### the theorems -/

/-- How many objects the calls register. -/
def registered (ops : List Op) : Nat := (ops.map adds).sum

theorem registered_snoc (ops : List Op) (op : Op) : registered (ops ++ [op]) = registered ops + adds op := by simp [registered]

/-- C149: if `marks_per_scan` is greater than `allocs_before_scan` (and than 1), then in any state after legal calls, with at most N objects known, a cycle is complete at some point before the client
has registered A·(N + A) more objects (A = `allocs_before_scan`, at least 1), whatever references it stores and marks meanwhile. -/
theorem c149_keeps_up (H : Heap) {l1 l2 l3 : Addr} (h12 : l1 ≠ l2) (h13 : l1 ≠ l3) (h23 : l2 ≠ l3) (marks allocs : Int) (hm : max 1 allocs < marks) {ops : List Op} {G : Gc}
    (h : Hist (init H l1 l2 l3 marks allocs) ops G) (hen : G.enabled = 0) {known : List Nat} (hk : ∀ x, (view G x).isSome → x ∈ known) {more : List Op} {G' : Gc} (h' : Hist G more G')
    (hmut : ∀ op ∈ more, Mutator op) (long : max 1 allocs * (known.length + max 1 allocs) ≤ registered more) : ∃ pre Gp, pre <+: more ∧ Hist G pre Gp ∧ Idle Gp := by
  have g := hist_good (good_init H h12 h13 h23 marks allocs) h
  have k0 := hist_kept h
  have c1 : G.marksPerScan = marks := k0.marks
  have c2 : G.allocsBefore = allocs := k0.before
  have c3 : 0 ≤ G.allocs := k0.allocs (by show (0 : Int) ≤ 0; omega)
  obtain ⟨bl0, be0, ah0, wh0, T0⟩ := g
  have hN : ah0.length + wh0.length ≤ known.length := by
    have := sub_len (l := ah0 ++ wh0) (m := known) (List.nodup_append.1 T0.inv.nd_all).2.1 (fun x hx => hk x (by
      have := (T0.inv.dom x).2 (by simp only [List.mem_append] at hx; grind)
      simpa [view] using this))
    simpa using this
  generalize hA : max 1 allocs = A at hm long
  have hA1 : 1 ≤ A := by omega
  have key : (∃ pre Gp, pre <+: more ∧ Hist G pre Gp ∧ Idle Gp) ∨ ∃ bl be ah wh, Top G' bl be ah wh ∧ G'.enabled = 0 ∧ G'.marksPerScan = marks ∧ G'.allocsBefore = allocs ∧ 0 ≤ G'.allocs ∧
      A * ((ah.length : Int) + wh.length) - (A + 1) * min G'.allocs (A - 1) + registered more ≤ A * known.length := by
    clear long
    induction h' with
    | start =>
        refine .inr ⟨bl0, be0, ah0, wh0, T0, hen, c1, c2, c3, ?_⟩
        have h1 : A * ((ah0.length : Int) + wh0.length) ≤ A * known.length := Int.mul_le_mul_of_nonneg_left (by omega) (by omega)
        have h2 : 0 ≤ (A + 1) * min G.allocs (A - 1) := Int.mul_nonneg (by omega) (by omega)
        simp only [registered, List.map_nil, List.sum_nil]
        omega
    | @call ops1 G1 op G2 h1 hl r ih =>
        rcases ih (fun op hop => hmut op (by simp [hop])) with ⟨pre, Gp, q1, q2, q3⟩ | ⟨bl, be, ah, wh, T, e0, e1, e2, e3, e4⟩
        · exact .inl ⟨pre, Gp, q1.trans (List.prefix_append _ _), q2, q3⟩
        · obtain ⟨k, hk⟩ := r
          have hk1 := hk k (Nat.le_refl k)
          have kk := exec_kept hk1
          have f1 := kk.marks.trans e1
          have f2 := kk.before.trans e2
          have f3 := kk.allocs e3
          rw [registered_snoc]
          cases tick (W := fun _ => False) ⟨fun _ _ _ _ => id, fun _ _ _ _ _ _ => id⟩ T (avoids_nothing op) (hmut op (by simp)) hl hk1 with
          | silent bl' be' ah' wh' top grey sum al freed idle en below _ _ =>
              refine .inr ⟨bl', be', ah', wh', top, en.trans e0, f1, f2, f3, ?_⟩
              have hsum : (ah'.length : Int) + wh'.length = ah.length + wh.length + adds op := by omega
              rw [hsum, al]
              have ha : adds op = 0 ∨ adds op = 1 := by cases op <;> simp [adds]
              rcases ha with ha | ha
              · rw [ha]; simpa using e4
              · rw [ha]
                have hb := below ha
                rw [e2, e0] at hb
                have h3 : min (G1.allocs + ((1 : Nat) : Int)) (A - 1) = G1.allocs + 1 := by omega
                have h4 : min G1.allocs (A - 1) = G1.allocs := by omega
                rw [h3]; rw [h4] at e4
                grind
          | ended _ _ _ _ _ due idle few _ => exact .inl ⟨_, _, List.prefix_refl _, .call h1 hl ⟨k, hk⟩, idle⟩
          | part bl' be' a r wh' one due top idle sum al freed en grey _ _ =>
              refine .inr ⟨bl', be', a :: r, wh', top, en.trans e0, f1, f2, f3, ?_⟩
              have h3 : max 1 G1.marksPerScan = marks := by rw [e1]; omega
              rw [h3] at sum
              have hsum : ((a :: r).length : Int) + wh'.length = ah.length + wh.length + 1 - marks := by omega
              rw [hsum, al, one]
              have h4 : min 0 (A - 1) = 0 := by omega
              rw [h4]
              have h5 : (A + 1) * min G1.allocs (A - 1) ≤ (A + 1) * (A - 1) := Int.mul_le_mul_of_nonneg_left (by omega) (by omega)
              have h6 : A * (1 - marks) ≤ A * (- A) := Int.mul_le_mul_of_nonneg_left (by omega) (by omega)
              have h7 : A * ((ah.length : Int) + wh.length + 1 - marks) = A * ((ah.length : Int) + wh.length) + A * (1 - marks) := by grind
              have h8 : (A + 1) * (A - 1) = A * A - 1 := by grind
              have h9 : A * (- A) = - (A * A) := by grind
              rw [h7]
              simp only [Int.mul_zero]
              omega
  rcases key with h | ⟨bl, be, ah, wh, T, -, -, -, e3, e4⟩
  · exact h
  · exfalso
    have h1 : 0 ≤ A * ((ah.length : Int) + wh.length) := Int.mul_nonneg (by omega) (by omega)
    have h2 : (A + 1) * min G'.allocs (A - 1) ≤ (A + 1) * (A - 1) := Int.mul_le_mul_of_nonneg_left (by omega) (by omega)
    have h8 : (A + 1) * (A - 1) = A * A - 1 := by grind
    have h9 : A * ((known.length : Int) + A) = A * known.length + A * A := by grind
    omega

/-- C149: if `marks_per_scan` is at most `allocs_before_scan`, then from any state after legal calls with no allocations counted (as after zt_gc_init and after a step of collection), with a cycle under way
or some object protected, nothing is ever released however many objects the client registers, whatever references it stores and marks meanwhile; a cycle under way never ends. -/
theorem c149_starves_violation (H : Heap) {l1 l2 l3 : Addr} (h12 : l1 ≠ l2) (h13 : l1 ≠ l3) (h23 : l2 ≠ l3) (marks allocs : Int) (hm : max 1 marks ≤ allocs) {ops : List Op} {G : Gc}
    (h : Hist (init H l1 l2 l3 marks allocs) ops G) (hal : G.allocs = 0) (hr : ¬ Idle G ∨ ∃ x ks, view G x = some (true, ks)) {more : List Op} {G' : Gc} (h' : Hist G more G')
    (hmut : ∀ op ∈ more, Mutator op) : G'.freed = G.freed ∧ (¬ Idle G → ¬ Idle G') := by
  have g := hist_good (good_init H h12 h13 h23 marks allocs) h
  have k0 := hist_kept h
  have c1 : G.marksPerScan = marks := k0.marks
  have c2 : G.allocsBefore = allocs := k0.before
  have key : G'.freed = G.freed ∧ (¬ Idle G → ¬ Idle G') ∧ G'.marksPerScan = marks ∧ G'.allocsBefore = allocs ∧
      ∃ bl be ah wh, Top G' bl be ah wh ∧ max 1 marks + 1 ≤ (ah.length : Int) + allocs - G'.allocs := by
    induction h' with
    | start =>
        obtain ⟨bl, be, ah, wh, T⟩ := g
        refine ⟨rfl, id, c1, c2, bl, be, ah, wh, T, ?_⟩
        have hpos : ah ≠ [] := by
          rcases T.phase with ⟨p1, p2, p3⟩ | ⟨r, p⟩
          · rcases hr with hr | ⟨x, ks, hx⟩
            · exact absurd p1 hr
            · have hx' : (G.obj x).map (fun o => (o.prot, o.kids)) = some (true, ks) := hx
              cases ho : G.obj x with
              | none => rw [ho] at hx'; cases hx'
              | some o =>
                  rw [ho] at hx'
                  simp only [Option.map_some, Option.some.injEq, Prod.mk.injEq] at hx'
                  have hd := (T.inv.dom x).1 (by simp [ho])
                  have hw : x ∉ wh := fun hw => by
                    have := (T.inv.colW x o ho hw).2
                    rw [hx'.1] at this; cases this
                  subst p2; subst p3
                  have : x ∈ ah := by simpa [hw] using hd
                  exact List.ne_nil_of_mem this
          · rw [p]; simp
        have := List.length_pos_iff.2 hpos
        omega
    | @call ops1 G1 op G2 h1 hl r ih =>
        obtain ⟨i1, i2, e1, e2, bl, be, ah, wh, T, i3⟩ := ih (fun op hop => hmut op (by simp [hop]))
        obtain ⟨k, hk⟩ := r
        have hk1 := hk k (Nat.le_refl k)
        have kk := exec_kept hk1
        have f1 := kk.marks.trans e1
        have f2 := kk.before.trans e2
        cases tick (W := fun _ => False) ⟨fun _ _ _ _ => id, fun _ _ _ _ _ _ => id⟩ T (avoids_nothing op) (hmut op (by simp)) hl hk1 with
        | silent bl' be' ah' wh' top grey sum al freed idle en below _ _ =>
            exact ⟨freed.trans i1, fun hn hi => i2 hn (idle.1 hi), f1, f2, bl', be', ah', wh', top, by omega⟩
        | ended _ _ _ _ _ due idle few _ => rw [e1] at few; rw [e2] at due; omega
        | part bl' be' a r wh' one due top idle sum al freed en grey _ _ =>
            refine ⟨freed.trans i1, fun _ => idle, f1, f2, bl', be', a :: r, wh', top, ?_⟩
            have : 0 < (a :: r).length := by simp
            omega
  exact ⟨key.1, key.2.1⟩

/-! ### concrete cases -/

/-- Registrations of garbage. -/
def litter : List Op := (List.range 14).map fun k => .register (20 + k) []

/-- The hypotheses of `c149_starves_violation`: with the settings 1 and 4 (`G0`), a root, and what follows is legal. -/
theorem starves_case : ∃ G, Hist G0 [.root 10 []] G ∧ G.allocs = 0 ∧ view G 10 = some (true, []) ∧ (trace 40 G litter).map (fun G => (G.freed, G.scan == G.grey)) = some ([], false) := by
  have h : (trace 40 G0 [.root 10 []]).any (fun G => decide (G.allocs = 0) && decide (view G 10 = some (true, [])) &&
      decide ((trace 40 G litter).map (fun G => (G.freed, G.scan == G.grey)) = some ([], false))) = true := by decide +kernel
  rw [Option.any_eq_true_iff_get] at h
  obtain ⟨hs, h⟩ := h
  simp only [Bool.and_eq_true, decide_eq_true_eq] at h
  exact ⟨_, trace_hist .start (Option.some_get hs).symm, h.1.1, h.1.2, h.2⟩

/-- The same calls with the settings 3 and 2: garbage is released. -/
theorem keeps_up_case : (trace 40 (init H0 1 2 3 3 2) (.root 10 [] :: litter)).map (fun G => G.freed.length) = some 12 := by decide +kernel

end ZT.Gc
