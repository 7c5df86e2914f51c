import Verif.Gc.Pace

/-!
# C149, continued: garbage is released after a bounded number of registrations
-/

namespace ZT.Gc

open EList (Heap)

theorem view_some {G : Gc} {x : Nat} {o : Obj} (h : G.obj x = some o) : view G x = some (o.prot, o.kids) := by simp [view, h]

theorem view_obj {G : Gc} {x : Nat} {p : Bool × List Nat} (h : view G x = some p) : ∃ o, G.obj x = some o ∧ (o.prot, o.kids) = p := by
  simp only [view] at h
  cases ho : G.obj x with
  | none => rw [ho] at h; cases h
  | some o => rw [ho] at h; exact ⟨o, rfl, Option.some.inj h⟩

/-- Every object of `W` is known or has been released. -/
def Accounted (W : Nat → Prop) (G : Gc) : Prop := ∀ x, W x → (view G x).isSome ∨ x ∈ G.freed

/-- What one call of the client leaves as it is. -/
theorem cut_step {W : Nat → Prop} {G G' : Gc} (g : Good G) {op : Op} (hop : Mutator op) (hl : Legal G op) (hav : Avoids W op) (r : Runs (fun fuel => exec fuel G op) G') :
    Good G' ∧ (Cut W G → Cut W G') ∧ (Accounted W G → Accounted W G') ∧ ∃ l : List Nat, l.length = adds op ∧ ∀ x, (view G' x).isSome → (view G x).isSome ∨ x ∈ l := by
  obtain ⟨G2, rel, r2, g2, R, hf⟩ := fine g hl
  obtain rfl := r.unique r2
  have back : ∀ x p, view G' x = some p → effect (view G) op x = some p := by
    intro x p h
    rw [R.after] at h
    split at h
    · cases h
    · exact h
  have cut : Cut W G → Cut W G' := by
    intro C
    have hp : ∀ x ks, view G x = some (true, ks) → ¬ W x := fun x ks h => by
      obtain ⟨o, ho, e⟩ := view_obj h
      exact C.prot x o ho (congrArg Prod.fst e)
    have hc : ∀ x p, view G x = some p → ¬ W x → ∀ k ∈ p.2, ¬ W k := fun x p h hx k hk => by
      obtain ⟨o, ho, e⟩ := view_obj h
      exact C.closed x o ho hx k (by rw [← e] at hk; exact hk)
    constructor
    · intro x o ho hpo
      have h := back x _ (view_some ho)
      rw [hpo] at h
      cases op with
      | register v ks =>
          simp only [effect, View.set] at h
          split at h
          · cases h
          · exact hp x _ h
      | store v ks =>
          simp only [effect, View.set] at h
          split at h
          · rename_i he
            cases hv : view G v with
            | none => rw [hv] at h; cases h
            | some p =>
                rw [hv] at h
                simp only [Option.map_some, Option.some.injEq, Prod.mk.injEq] at h
                have hp1 : p = (true, p.2) := Prod.ext h.1 rfl
                rw [he]
                exact hp v p.2 (by rw [hv, ← hp1])
          · exact hp x _ h
      | mark v => exact hp x _ h
      | _ => cases hop
    · intro x o ho hx k hk
      have h := back x _ (view_some ho)
      cases op with
      | register v ks =>
          simp only [effect, View.set] at h
          split at h
          · rw [← (Prod.mk.inj (Option.some.inj h)).2] at hk; exact hav.2 k hk
          · exact hc x _ h hx k hk
      | store v ks =>
          simp only [effect, View.set] at h
          split at h
          · cases hv : view G v with
            | none => rw [hv] at h; cases h
            | some p =>
                rw [hv] at h
                simp only [Option.map_some, Option.some.injEq, Prod.mk.injEq] at h
                rw [← h.2] at hk
                exact hav k hk
          · exact hc x _ h hx k hk
      | mark v => exact hc x _ h hx k hk
      | _ => cases hop
  refine ⟨g2, cut, ?_, ?_⟩
  · intro A x hx
    rw [hf]
    rcases A x hx with h | h
    · by_cases hr : x ∈ rel
      · exact .inr (by simp [hr])
      · left
        rw [R.after, if_neg hr]
        cases op with
        | register v ks =>
            simp only [effect, View.set]
            split
            · rfl
            · exact h
        | store v ks =>
            simp only [effect, View.set]
            split
            · rename_i he
              subst he
              simpa using h
            · exact h
        | mark v => exact h
        | _ => cases hop
    · exact .inr (by simp [h])
  · cases op with
    | register v ks =>
        refine ⟨[v], rfl, fun x hx => ?_⟩
        obtain ⟨p, hp⟩ := Option.isSome_iff_exists.1 hx
        have h := back x p hp
        simp only [effect, View.set] at h
        split at h
        · rename_i he; right; simp [he]
        · left; rw [h]; rfl
    | store v ks =>
        refine ⟨[], rfl, fun x hx => ?_⟩
        obtain ⟨p, hp⟩ := Option.isSome_iff_exists.1 hx
        have h := back x p hp
        simp only [effect, View.set] at h
        split at h
        · rename_i he
          left
          subst he
          cases hv : view G x with
          | none => rw [hv] at h; cases h
          | some _ => rfl
        · left; rw [h]; rfl
    | mark v =>
        refine ⟨[], rfl, fun x hx => ?_⟩
        obtain ⟨p, hp⟩ := Option.isSome_iff_exists.1 hx
        have h : view G x = some p := back x p hp
        left; rw [h]; rfl
    | _ => cases hop

/-- What a state must be like for the counting. -/
structure Ready (marks allocs : Int) (G : Gc) : Prop where
  marks : G.marksPerScan = marks
  before : G.allocsBefore = allocs
  count : 0 ≤ G.allocs
  enabled : G.enabled = 0

/-- One cycle: it ends within A(N + A) registrations. -/
theorem cycle {W : Nat → Prop} {marks allocs : Int} (hm : max 1 allocs < marks) {G : Gc} (R0 : Ready marks allocs G) {bl0 be0 ah0 wh0 : List Nat} (T0 : Top G bl0 be0 ah0 wh0) (C0 : Cut W G)
    (A0 : Accounted W G) {known : List Nat} (hk : ∀ x, (view G x).isSome → x ∈ known) {more : List Op} {G' : Gc} (h' : Hist G more G') (hmut : ∀ op ∈ more, Mutator op) (hav : ∀ op ∈ more, Avoids W op) :
    (∃ pre post Gp be bl, more = pre ++ post ∧ Hist G pre Gp ∧ Hist Gp post G' ∧ (registered pre : Int) ≤ max 1 allocs * (known.length + max 1 allocs) ∧ Ready marks allocs Gp ∧ Top Gp [] [] be bl ∧ Cut W Gp ∧
      Accounted W Gp ∧ (∃ known' : List Nat, known'.length = known.length + registered pre ∧ ∀ x, (view Gp x).isSome → x ∈ known') ∧ (Ph1 W be0 → Ph1 W be) ∧
      (Ph2 W bl0 be0 ah0 → ∀ x, (Gp.obj x).isSome → ¬ W x)) ∨
    (registered more : Int) < max 1 allocs * (known.length + max 1 allocs) := by
  have hN : ah0.length + wh0.length ≤ known.length := by
    have := sub_len (l := ah0 ++ wh0) (m := known) (List.nodup_append.1 T0.inv.nd_all).2.1 (fun x hx => hk x (by
      have := (T0.inv.dom x).2 (by simp only [List.mem_append] at hx; grind)
      simpa [view] using this))
    simpa using this
  generalize hA : max 1 allocs = A at hm ⊢
  have hA1 : 1 ≤ A := by omega
  have h8 : (A + 1) * (A - 1) = A * A - 1 := by grind
  have h10 : A * ((known.length : Int) + A) = A * known.length + A * A := by grind
  have key : (∃ pre post Gp be bl, more = pre ++ post ∧ Hist G pre Gp ∧ Hist Gp post G' ∧ (registered pre : Int) ≤ A * (known.length + A) ∧ Ready marks allocs Gp ∧ Top Gp [] [] be bl ∧ Cut W Gp ∧
      Accounted W Gp ∧ (∃ known' : List Nat, known'.length = known.length + registered pre ∧ ∀ x, (view Gp x).isSome → x ∈ known') ∧ (Ph1 W be0 → Ph1 W be) ∧
      (Ph2 W bl0 be0 ah0 → ∀ x, (Gp.obj x).isSome → ¬ W x)) ∨
      ∃ bl be ah wh, Top G' bl be ah wh ∧ Ready marks allocs G' ∧ Cut W G' ∧ Accounted W G' ∧ (∃ known' : List Nat, known'.length = known.length + registered more ∧ ∀ x, (view G' x).isSome → x ∈ known') ∧
      (Ph1 W be0 → Ph1 W be) ∧ (Ph2 W bl0 be0 ah0 → Ph2 W bl be ah) ∧
      A * ((ah.length : Int) + wh.length) - (A + 1) * min G'.allocs (A - 1) + registered more ≤ A * known.length := by
    induction h' with
    | start =>
        refine .inr ⟨bl0, be0, ah0, wh0, T0, R0, C0, A0, ⟨known, by simp [registered], hk⟩, id, id, ?_⟩
        have h1 : A * ((ah0.length : Int) + wh0.length) ≤ A * known.length := Int.mul_le_mul_of_nonneg_left (by omega) (by omega)
        have h2 : 0 ≤ (A + 1) * min G.allocs (A - 1) := Int.mul_nonneg (by omega) (by have := R0.count; omega)
        simp only [registered, List.map_nil, List.sum_nil]
        omega
    | @call ops1 G1 op G2 h1 hl r ih =>
        rcases ih (fun op hop => hmut op (by simp [hop])) (fun op hop => hav op (by simp [hop])) with
          ⟨pre, post, Gp, be, bl, q1, q2, q3, q⟩ | ⟨bl, be, ah, wh, T, R1, C1, A1, ⟨kn, n1, n2⟩, p1, p2, e4⟩
        · exact .inl ⟨pre, post ++ [op], Gp, be, bl, by rw [q1, List.append_assoc], q2, .call q3 hl r, q⟩
        · have hk1 := hmut op (by simp)
          have hav1 := hav op (by simp)
          obtain ⟨g2, c2, a2, l, l1, l2⟩ := cut_step ⟨_, _, _, _, T⟩ hk1 hl hav1 r
          have kn' : ∃ known' : List Nat, known'.length = known.length + registered (ops1 ++ [op]) ∧ ∀ x, (view G2 x).isSome → x ∈ known' :=
            ⟨kn ++ l, by rw [List.length_append, n1, l1, registered_snoc]; omega, fun x hx => by
              rcases l2 x hx with h | h
              · simp [n2 x h]
              · simp [h]⟩
          obtain ⟨k, hk⟩ := r
          have hkk := hk k (Nat.le_refl k)
          have kk := exec_kept hkk
          have f1 := kk.marks.trans R1.marks
          have f2 := kk.before.trans R1.before
          have f3 := kk.allocs R1.count
          have e0 := R1.enabled
          have e1 := R1.marks
          have e2 := R1.before
          have ha : adds op = 0 ∨ adds op = 1 := by cases op <;> simp [adds]
          cases tick C1 T hav1 hk1 hl hkk with
          | silent bl' be' ah' wh' top grey sum al freed idle en below ph1 ph2 =>
              refine .inr ⟨bl', be', ah', wh', top, ⟨f1, f2, f3, en.trans e0⟩, c2 C1, a2 A1, kn', fun h => ph1 (p1 h), fun h => ph2 (p2 h), ?_⟩
              have hsum : (ah'.length : Int) + wh'.length = ah.length + wh.length + adds op := by omega
              rw [registered_snoc, hsum, al]
              rcases ha with ha | ha
              · rw [ha]; simpa using e4
              · rw [ha]
                have hb := below ha
                rw [e2, e0] at hb
                have h3 : min (G1.allocs + ((1 : Nat) : Int)) (A - 1) = G1.allocs + 1 := by omega
                have h4 : min G1.allocs (A - 1) = G1.allocs := by omega
                rw [h3]; rw [h4] at e4
                grind
          | ended be' bl' top ph1 ph2 due idle few en =>
              refine .inl ⟨_, [], _, be', bl', (List.append_nil _).symm, .call h1 hl ⟨k, hk⟩, .start, ?_, ⟨f1, f2, f3, en.trans e0⟩, top, c2 C1, a2 A1, kn', fun h => ph1 (p1 h), fun h => ph2 (p2 h)⟩
              have h5 : (A + 1) * min G1.allocs (A - 1) ≤ (A + 1) * (A - 1) := Int.mul_le_mul_of_nonneg_left (by omega) (by omega)
              have h6 : 0 ≤ A * ((ah.length : Int) + wh.length) := Int.mul_nonneg (by omega) (by omega)
              rw [registered_snoc]
              omega
          | part bl' be' a r wh' one due top idle sum al freed en grey ph1 ph2 =>
              refine .inr ⟨bl', be', a :: r, wh', top, ⟨f1, f2, f3, en.trans e0⟩, c2 C1, a2 A1, kn', fun h => ph1 (p1 h), fun h => ph2 (p2 h), ?_⟩
              have h3 : max 1 G1.marksPerScan = marks := by rw [e1]; omega
              rw [h3] at sum
              have hsum : ((a :: r).length : Int) + wh'.length = ah.length + wh.length + 1 - marks := by omega
              rw [registered_snoc, hsum, al, one]
              have h4 : min 0 (A - 1) = 0 := by omega
              rw [h4]
              have h5 : (A + 1) * min G1.allocs (A - 1) ≤ (A + 1) * (A - 1) := Int.mul_le_mul_of_nonneg_left (by omega) (by omega)
              have h6 : A * (1 - marks) ≤ A * (- A) := Int.mul_le_mul_of_nonneg_left (by omega) (by omega)
              have h7 : A * ((ah.length : Int) + wh.length + 1 - marks) = A * ((ah.length : Int) + wh.length) + A * (1 - marks) := by grind
              have h9 : A * (- A) = - (A * A) := by grind
              rw [h7]
              simp only [Int.mul_zero]
              omega
  rcases key with h | ⟨bl, be, ah, wh, T, R, -, -, -, -, -, e4⟩
  · exact .inl h
  · right
    have h1 : 0 ≤ A * ((ah.length : Int) + wh.length) := Int.mul_nonneg (by omega) (by omega)
    have h2 : (A + 1) * min G'.allocs (A - 1) ≤ (A + 1) * (A - 1) := Int.mul_le_mul_of_nonneg_left (by omega) (by omega)
    omega

theorem registered_append (a b : List Op) : registered (a ++ b) = registered a + registered b := by simp [registered]

theorem Hist.append {G0 G1 G2 : Gc} {a b : List Op} (h : Hist G0 a G1) (k : Hist G1 b G2) : Hist G0 (a ++ b) G2 := by
  induction k with
  | start => simpa using h
  | call _ hl r ih => rw [← List.append_assoc]; exact .call ih hl r

/-- C149: `marks_per_scan` greater than `allocs_before_scan`, no cycle under way, at most N objects known. Objects that are not protected and that no other object refers to (`dropped`: a set of objects
that may refer to each other) are all released before A(A + 2)(N + A) more objects have been registered, whatever references the client stores and marks meanwhile, as long as it does not take up
references to the dropped objects again. -/
theorem c149_releases (H : Heap) {l1 l2 l3 : Nat} (h12 : l1 ≠ l2) (h13 : l1 ≠ l3) (h23 : l2 ≠ l3) (marks allocs : Int) (hm : max 1 allocs < marks) {ops : List Op} {G : Gc}
    (h : Hist (init H l1 l2 l3 marks allocs) ops G) (hen : G.enabled = 0) (hi : Idle G) {known : List Nat} (hk : ∀ x, (view G x).isSome → x ∈ known) {dropped : List Nat}
    (hd : ∀ x ∈ dropped, ∃ ks, view G x = some (false, ks)) (hc : ∀ y p, view G y = some p → y ∉ dropped → ∀ k ∈ p.2, k ∉ dropped) {more : List Op} {G' : Gc} (h' : Hist G more G')
    (hmut : ∀ op ∈ more, Mutator op) (hav : ∀ op ∈ more, Avoids (· ∈ dropped) op) (long : max 1 allocs * (max 1 allocs + 2) * (known.length + max 1 allocs) ≤ registered more) :
    ∃ pre Gp, pre <+: more ∧ Hist G pre Gp ∧ ∀ x ∈ dropped, view Gp x = none ∧ x ∈ Gp.freed := by
  have g := hist_good (good_init H h12 h13 h23 marks allocs) h
  have k0 := hist_kept h
  have R0 : Ready marks allocs G := ⟨k0.marks, k0.before, k0.allocs (by show (0 : Int) ≤ 0; omega), hen⟩
  obtain ⟨bl, be, ah, wh, T⟩ := g
  obtain ⟨b1, b2, -⟩ := T.scan_grey.1 hi
  have C0 : Cut (· ∈ dropped) G := by
    constructor
    · intro x o ho hp hx
      obtain ⟨ks, e⟩ := hd x hx
      rw [view_some ho, hp] at e
      cases e
    · intro x o ho hx k hk
      exact hc x _ (view_some ho) hx k hk
  have A0 : Accounted (· ∈ dropped) G := fun x hx => by
    obtain ⟨ks, e⟩ := hd x hx
    left; rw [e]; rfl
  have hP1 : Ph1 (· ∈ dropped) be := by rw [b2]; intro x hx; cases hx
  generalize hA : max 1 allocs = A at hm long
  have hA1 : 1 ≤ A := by omega
  have x1 : A * (A + 2) * ((known.length : Int) + A) = A * ((known.length : Int) + A) + A * (((known.length : Int) + A * ((known.length : Int) + A)) + A) := by grind
  have x2 : 0 ≤ A * ((known.length : Int) + A) := Int.mul_nonneg (by omega) (by omega)
  have x3 : 0 ≤ A * (((known.length : Int) + A * ((known.length : Int) + A)) + A) := Int.mul_nonneg (by omega) (by omega)
  rcases cycle (by rw [hA]; exact hm) R0 T C0 A0 hk h' hmut hav with ⟨pre, post, Gp, be1, bl1, rfl, q2, q3, q4, q5, q6, q7, q8, ⟨kn, n1, n2⟩, q9, -⟩ | hlt
  · have hmut2 : ∀ op ∈ post, Mutator op := fun op hop => hmut op (by simp [hop])
    have hav2 : ∀ op ∈ post, Avoids (· ∈ dropped) op := fun op hop => hav op (by simp [hop])
    have hp2 : Ph2 (· ∈ dropped) [] [] be1 := fun x hx => q9 hP1 x (by simpa using hx)
    rw [hA] at q4
    rw [registered_append] at long
    rcases cycle (by rw [hA]; exact hm) q5 q6 q7 q8 n2 q3 hmut2 hav2 with ⟨pre2, post2, Gq, be2, bl2, rfl, r2, -, -, -, -, -, r8, -, -, r10⟩ | hlt
    · refine ⟨pre ++ pre2, Gq, ⟨post2, by rw [List.append_assoc]⟩, q2.append r2, fun x hx => ?_⟩
      have hno : ¬ (Gq.obj x).isSome := fun hs => r10 hp2 x hs hx
      have hv : view Gq x = none := by
        cases ho : Gq.obj x with
        | none => simp [view, ho]
        | some _ => rw [ho] at hno; exact absurd rfl hno
      refine ⟨hv, ?_⟩
      rcases r8 x hx with h | h
      · rw [hv] at h; cases h
      · exact h
    · exfalso
      rw [hA, n1] at hlt
      have y1 : A * (((known.length + registered pre : Nat) : Int) + A) ≤ A * (((known.length : Int) + A * ((known.length : Int) + A)) + A) := Int.mul_le_mul_of_nonneg_left (by omega) (by omega)
      have y2 : 0 ≤ A * (((known.length + registered pre : Nat) : Int) + A) := Int.mul_nonneg (by omega) (by omega)
      omega
  · exfalso
    rw [hA] at hlt
    omega

/-! ### a concrete case -/

/-- A root 10 with 11, and 12 ⇄ 13, built while the collector is disabled. -/
def twoRings : List Op := [.disable, .root 10 [], .register 11 [], .store 10 [11], .register 12 [], .register 13 [12], .store 12 [13], .enable, .collect true]

/-- The hypotheses of `c149_releases` for the settings 3 and 2, the objects 12 and 13, and `litter` as what follows; both are released on the way. -/
theorem releases_case : ∃ G, Hist (init H0 1 2 3 3 2) twoRings G ∧ G.enabled = 0 ∧ Idle G ∧ view G 12 = some (false, [13]) ∧ view G 13 = some (false, [12]) ∧ view G 10 = some (true, [11]) ∧
    view G 11 = some (false, []) ∧ (trace 40 G litter).map (fun G => (G.freed.take 2, (view G 11).isSome)) = some ([13, 12], true) := by
  have h : (trace 40 (init H0 1 2 3 3 2) twoRings).any (fun G => decide (G.enabled = 0) && decide (G.scan = G.grey) && decide (view G 12 = some (false, [13])) && decide (view G 13 = some (false, [12])) &&
      decide (view G 10 = some (true, [11])) && decide (view G 11 = some (false, [])) &&
      decide ((trace 40 G litter).map (fun G => (G.freed.take 2, (view G 11).isSome)) = some ([13, 12], true))) = true := by decide +kernel
  rw [Option.any_eq_true_iff_get] at h
  obtain ⟨hs, h⟩ := h
  simp only [Bool.and_eq_true, decide_eq_true_eq] at h
  exact ⟨_, trace_hist .start (Option.some_get hs).symm, h.1.1.1.1.1.1, h.1.1.1.1.1.2, h.1.1.1.1.2, h.1.1.1.2, h.1.1.2, h.1.2, h.2⟩

end ZT.Gc
