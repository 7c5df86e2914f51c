import Verif.Gc.Findings

/-!
# C148: how much a call of the collector does

The code of zt_gc.c again, with the objects handed to the client's mark_fn (zt_gc.c 351) written to a log in order.
-/

namespace ZT.Gc

open EList (Heap)

/-- zt_gc.c 341-387 as `scanLoop`; `log`: the objects handed to mark_fn at line 351 (`gc->scan` at the start of each round). -/
def scanLoopN (full : Bool) : (fuel : Nat) → (marks : Int) → Gc → (log : List Addr) → Outcome (Gc × List Addr)
  | 0, _, _, _ => .ub
  | fuel + 1, marks, G, log =>
      if G.scan = G.grey then do
        let G' ← switch fuel { G with enabled := G.enabled + 1 }
        pure (G', log)
      else do
        let G' ← scanStep G
        if !full && decide (marks + 1 ≥ G'.marksPerScan) && decide (G'.scan ≠ G'.grey) then pure ({ G' with enabled := G'.enabled + 1 }, log ++ [G.scan])
        else scanLoopN full fuel (marks + 1) G' (log ++ [G.scan])

/-- zt_gc.c 317-388 `zt_gc_collect` with the log. -/
def collectN (fuel : Nat) (G : Gc) (full : Bool) : Outcome (Gc × List Addr) :=
  if decide (G.enabled < 0) || (!full && decide (G.allocs < G.allocsBefore)) then .ok (G, [])
  else scanLoopN full fuel 0 (startScan { G with enabled := G.enabled - 1, allocs := 0 }) []

/-- zt_gc.c 247-268 `zt_gc_register` with the log. -/
def registerN (fuel : Nat) (G : Gc) (v : Addr) (o : Obj) : Outcome (Gc × List Addr) := do
  let G := put G v (some o)
  let G := { G with H := EList.reset G.H v }
  let G ← clearWhite G v
  let G := { G with H := EList.addTail G.H G.grey v, allocs := G.allocs + 1 }
  if G.allocs ≥ G.allocsBefore then collectN fuel G false else pure (G, [])

/-- zt_gc.c 235-245 `zt_gc_unregister` with the log. -/
def unregisterN (fuel : Nat) (G : Gc) (v : Addr) : Outcome (Gc × List Addr) := do
  let _ ← load G v
  let G := { put G v none with H := EList.remove G.H v, allocs := G.allocs + 1 }
  if G.allocs < G.allocsBefore then collectN fuel G false else pure (G, [])

/-- zt_gc.c 141-150 `zt_gc_enable` with the log. -/
def enableN (fuel : Nat) (G : Gc) : Outcome (Gc × List Addr) :=
  let G := { G with enabled := G.enabled + 1 }
  if G.enabled ≤ 0 then
    if decide (G.enabled = 0) && decide (G.allocs ≥ G.allocsBefore) then collectN fuel G false else .ok (G, [])
  else .abort

/-- A call executed, and the objects handed to mark_fn during it; zt_gc_protect, zt_gc_unprotect, zt_gc_mark and zt_gc_disable (zt_gc.c 78-98, 152-156, 390-404) call no client function. -/
def execN (fuel : Nat) (G : Gc) : Op → Outcome (Gc × List Addr)
  | .register v ks => registerN fuel G v ⟨false, false, ks⟩
  | .unregister v => unregisterN fuel G v
  | .collect full => collectN fuel G full
  | .enable => enableN fuel G
  | op => do let G' ← exec fuel G op; pure (G', [])

/-! ### the log changes nothing -/

/-- The result without the log. -/
def drop : Outcome (Gc × List Addr) → Outcome Gc
  | .ok p => .ok p.1
  | .abort => .abort
  | .ub => .ub

theorem drop_bind {α : Type} (x : Outcome α) (f : α → Outcome (Gc × List Addr)) : drop (x >>= f) = x >>= fun a => drop (f a) := by cases x <;> rfl

theorem drop_pure (G : Gc) (l : List Addr) : drop (pure (G, l)) = pure G := rfl

theorem drop_scanLoopN (full : Bool) : ∀ (n : Nat) (m : Int) (G : Gc) (log : List Addr), drop (scanLoopN full n m G log) = scanLoop full n m G := by
  intro n
  induction n with
  | zero => intros; rfl
  | succ n ih =>
      intro m G log
      rw [scanLoopN, scanLoop]
      split
      · rw [drop_bind]
        cases switch n { G with enabled := G.enabled + 1 } <;> rfl
      · rw [drop_bind]
        congr 1
        funext G'
        split
        · rfl
        · exact ih _ _ _

theorem drop_collectN (n : Nat) (G : Gc) (full : Bool) : drop (collectN n G full) = collect n G full := by
  rw [collectN, collect]
  split
  · rfl
  · exact drop_scanLoopN _ _ _ _ _

/-- C148: the log is the only difference to the calls of C33. -/
theorem c148_log_only (fuel : Nat) (G : Gc) (op : Op) : drop (execN fuel G op) = exec fuel G op := by
  cases op with
  | register v ks =>
      simp only [execN, exec, registerN, register]
      rw [drop_bind]; congr 1; funext G'
      split
      · exact drop_collectN _ _ _
      · rfl
  | unregister v =>
      simp only [execN, exec, unregisterN, unregister]
      rw [drop_bind]; congr 1; funext _
      split
      · exact drop_collectN _ _ _
      · rfl
  | collect full => exact drop_collectN _ _ _
  | enable =>
      simp only [execN, exec, enableN, enable]
      split
      · split
        · exact drop_collectN _ _ _
        · rfl
      · rfl
  | root v ks => simp only [execN]; rw [drop_bind]; cases exec fuel G (.root v ks) <;> rfl
  | protect v => simp only [execN]; rw [drop_bind]; cases exec fuel G (.protect v) <;> rfl
  | unprotect v => simp only [execN]; rw [drop_bind]; cases exec fuel G (.unprotect v) <;> rfl
  | store v ks => simp only [execN]; rw [drop_bind]; cases exec fuel G (.store v ks) <;> rfl
  | mark v => simp only [execN]; rw [drop_bind]; cases exec fuel G (.mark v) <;> rfl
  | disable => rfl

/-! ### one round, counted -/

theorem sub_len : ∀ {l m : List Addr}, l.Nodup → (∀ x ∈ l, x ∈ m) → l.length ≤ m.length := by
  intro l
  induction l with
  | nil => intros; simp
  | cons a l ih =>
      intro m hn hs
      have ha : a ∈ m := hs a (by simp)
      have := ih (m := m.erase a) (List.nodup_cons.1 hn).2 (fun x hx => by
        have hne : x ≠ a := fun h => (List.nodup_cons.1 hn).1 (h ▸ hx)
        exact (List.mem_erase_of_ne hne).2 (hs x (by simp [hx])))
      rw [List.length_erase_of_mem ha] at this
      have := List.length_pos_of_mem ha
      simp only [List.length_cons]
      omega

theorem sub_eq {l m : List Addr} (hn : l.Nodup) (hs : ∀ x ∈ l, x ∈ m) (hl : m.length ≤ l.length) : ∀ x ∈ m, x ∈ l := by
  intro x hx
  refine Classical.byContradiction fun hc => ?_
  have := sub_len (m := m.erase x) hn (fun y hy => by
    have hne : y ≠ x := fun h => hc (h ▸ hy)
    exact (List.mem_erase_of_ne hne).2 (hs y hy))
  rw [List.length_erase_of_mem hx] at this
  have := List.length_pos_of_mem hx
  omega

theorem Inv.nd_all {G : Gc} {bl be ah wh : List Addr} (I : Inv G bl be ah wh) : ((bl ++ be) ++ (ah ++ wh)).Nodup := by
  have hp := I.parts; have h1 := I.nd_grey; have h2 := I.nd_white; have h3 := I.nd_black
  rw [List.nodup_append] at h1
  rw [List.nodup_append, List.nodup_append, List.nodup_append]
  grind

/-- What one round moves: exactly the object at the scan pointer passes from "not done" to "done". -/
theorem step_part {G G' : Gc} {bl be r wh bl' be' ah' wh' : List Addr} {a : Addr} (I : Inv G bl be (a :: r) wh) (I' : Inv G' bl' be' ah' wh') (S : Same G G')
    (hl : ah'.length + wh'.length + 1 = (a :: r).length + wh.length) (hb : ∀ x ∈ bl', x ∈ bl ∨ x = a) (he : ∀ x ∈ be', x ∈ be ∨ x = a) :
    (∀ x, x ∈ bl' ∨ x ∈ be' ↔ x ∈ bl ∨ x ∈ be ∨ x = a) ∧ (∀ x, x ∈ ah' ∨ x ∈ wh' ↔ x ≠ a ∧ (x ∈ a :: r ∨ x ∈ wh)) := by
  have hd : ∀ x, x ∈ (bl' ++ be') ++ (ah' ++ wh') ↔ x ∈ (bl ++ be) ++ ((a :: r) ++ wh) := by
    intro x
    have h1 := I.dom x; have h2 := I'.dom x
    have h3 : (G'.obj x).isSome ↔ (G.obj x).isSome := by
      have := S.objs x
      cases h4 : G.obj x <;> cases h5 : G'.obj x <;> rw [h4, h5] at this <;> simp at this ⊢
    simp only [List.mem_append] at h1 h2 ⊢
    grind
  have n1 := I.nd_all; have n2 := I'.nd_all
  have l1 := sub_len n1 (fun x hx => (hd x).2 hx)
  have l2 := sub_len n2 (fun x hx => (hd x).1 hx)
  simp only [List.length_append] at l1 l2
  have hn' : (bl' ++ be').Nodup := (List.nodup_append.1 n2).1
  have hsub : ∀ x ∈ bl' ++ be', x ∈ a :: (bl ++ be) := by
    intro x hx
    simp only [List.mem_append, List.mem_cons] at hx ⊢
    grind
  have hsup := sub_eq hn' hsub (by simp only [List.length_cons, List.length_append] at l1 l2 hl ⊢; omega)
  have e1 : ∀ x, x ∈ bl' ∨ x ∈ be' ↔ x ∈ bl ∨ x ∈ be ∨ x = a := by
    intro x
    have h1 := hsub x; have h2 := hsup x
    simp only [List.mem_append, List.mem_cons] at h1 h2
    grind
  refine ⟨e1, fun x => ?_⟩
  have h1 := hd x; have h2 := e1 x; have h3 := I.parts x; have h4 := I'.parts x; have h5 := I.parts a
  simp only [List.mem_append, List.mem_cons] at h1 h3 h5 ⊢
  grind

/-! ### the loop -/

/-- What the rounds of one call hand to mark_fn: `l` are the objects handed over, in order. -/
theorem scanLoopN_spec (full : Bool) : ∀ (n : Nat) {G G' : Gc} {bl be ah wh : List Addr} {m : Int} {log log' : List Addr}, Inv G bl be ah wh → G.scan = ah.headD G.grey →
    scanLoopN full n m G log = .ok (G', log') →
    ∃ l, log' = log ++ l ∧ l.Nodup ∧ (∀ x ∈ l, x ∈ ah ∨ x ∈ wh) ∧ (∀ x, x ∈ bl ∨ x ∈ be ∨ x ∈ l → (G'.obj x).isSome) ∧ (G'.scan = G'.grey → ∀ x, (G'.obj x).isSome → x ∈ bl ∨ x ∈ be ∨ x ∈ l) := by
  intro n
  induction n with
  | zero => intro G G' bl be ah wh m log log' _ _ h; cases h
  | succ n ih =>
      intro G G' bl be ah wh m log log' I hs h
      rw [scanLoopN] at h
      cases ah with
      | nil =>
          rw [if_pos (by rw [hs]; rfl)] at h
          obtain ⟨G1, h1, h2⟩ := Outcome.bind_eq_ok.1 h
          rw [Outcome.pure_eq] at h2
          obtain ⟨rfl, rfl⟩ := Prod.mk.inj (Outcome.ok.inj h2)
          have I' : Inv { G with enabled := G.enabled + 1 } bl be [] wh := ⟨I.lists, I.dom, I.colW, I.colB, I.colG, I.closed⟩
          obtain ⟨G2, e, J, -⟩ := switch_spec (fuel := n + wh.length + 2) I' (by omega)
          have h3 : switch (n + (wh.length + 2)) { G with enabled := G.enabled + 1 } = .ok G1 := by
            generalize wh.length + 2 = k
            induction k with
            | zero => exact h1
            | succ k ihk => exact switch_mono _ _ _ ihk
          rw [show n + (wh.length + 2) = n + wh.length + 2 by omega, e] at h3
          cases h3
          have hJ : ∀ x, (G1.obj x).isSome ↔ x ∈ bl ∨ x ∈ be := by
            intro x; rw [J.dom x]; simp; grind
          exact ⟨[], by simp, .nil, by simp, fun x hx => (hJ x).2 (by simpa using hx), fun _ x hx => by have := (hJ x).1 hx; grind⟩
      | cons a r =>
          have hsa : G.scan = a := hs
          have hag : a ≠ G.grey := by have := I.lists.grey.2; grind
          obtain ⟨G1, bl1, be1, ah1, wh1, e1, I1, S1, s1, w1, l1, b1, p1, f1⟩ := scanStep_spec I hsa
          obtain ⟨q1, q2⟩ := step_part I I1 S1 l1 b1 (fun x hx => (p1 x hx).imp id And.left)
          rw [if_neg (by rw [hsa]; exact hag), e1] at h
          simp only [Outcome.ok_bind] at h
          split at h
          · rename_i hc
            rw [Outcome.pure_eq] at h
            obtain ⟨rfl, rfl⟩ := Prod.mk.inj (Outcome.ok.inj h)
            simp only [Bool.and_eq_true, decide_eq_true_eq] at hc
            refine ⟨[a], by rw [hsa], by simp, by simp, ?_, fun hg => absurd hg hc.2⟩
            intro x hx
            have h1 := (I1.dom x); have h2 := q1 x
            simp only [List.mem_singleton] at hx
            exact h1.2 (by grind)
          · obtain ⟨l, rfl, i1, i2, i3, i4⟩ := ih I1 s1 h
            refine ⟨a :: l, by simp [hsa], ?_, ?_, ?_, ?_⟩
            · rw [List.nodup_cons]
              refine ⟨fun hc => ?_, i1⟩
              exact ((q2 a).1 (i2 a hc)).1 rfl
            · intro x hx
              rcases List.mem_cons.1 hx with rfl | hx
              · simp
              · exact ((q2 x).1 (i2 x hx)).2
            · intro x hx
              refine i3 x ?_
              have h2 := q1 x
              simp only [List.mem_cons] at hx
              grind
            · intro hg x hx
              have h1 := i4 hg x hx
              have h2 := q1 x
              simp only [List.mem_cons]
              grind

theorem collectN_spec {G G' : Gc} (g : Good G) {full : Bool} {n : Nat} {log : List Addr} (h : collectN n G full = .ok (G', log)) :
    log.Nodup ∧ (∀ x ∈ log, (G.obj x).isSome ∧ (G'.obj x).isSome) ∧ (full = true → 0 ≤ G.enabled → Idle G → ∀ x, (G'.obj x).isSome ↔ x ∈ log) := by
  obtain ⟨bl, be, ah, wh, T⟩ := g
  have hcol := drop_collectN n G full
  rw [h] at hcol
  rw [collectN] at h
  by_cases hc : (decide (G.enabled < 0) || (!full && decide (G.allocs < G.allocsBefore))) = true
  · rw [if_pos hc] at h
    obtain ⟨rfl, rfl⟩ := Prod.mk.inj (Outcome.ok.inj h)
    refine ⟨.nil, by simp, ?_⟩
    intro h1 h2
    rw [h1] at hc
    simp at hc
    omega
  · rw [if_neg hc] at h
    generalize hG0 : startScan { G with enabled := G.enabled - 1, allocs := 0 } = G0 at h
    have h0 : G0.obj = G.obj ∧ G0.H = G.H ∧ G0.black = G.black ∧ G0.grey = G.grey ∧ G0.white = G.white ∧ G0.sense = G.sense ∧ G0.scan = (if G.scan = G.grey then G.H.next G.scan else G.scan) := by
      subst hG0
      rw [startScan]
      split <;> rename_i hh
      · exact ⟨rfl, rfl, rfl, rfl, rfl, rfl, rfl⟩
      · exact ⟨rfl, rfl, rfl, rfl, rfl, rfl, rfl⟩
    obtain ⟨z1, z2, z3, z4, z5, z6, z11⟩ := h0
    have I0 : Inv G0 bl be ah wh := by
      constructor
      · rw [z2, z3, z4, z5]; exact T.inv.lists
      · rw [z1]; exact T.inv.dom
      · rw [z1, z6]; exact T.inv.colW
      · rw [z1, z6]; exact T.inv.colB
      · rw [z1, z6]; exact T.inv.colG
      · rw [z1]; exact T.inv.closed
    have hs0 : G0.scan = ah.headD G0.grey := by
      rw [z11, z4]
      by_cases hg : G.scan = G.grey
      · obtain ⟨h1, h2, _⟩ := T.scan_grey.1 hg
        rw [if_pos hg, hg]
        have := T.inv.lists.next_head
        rw [this, h2]; rfl
      · rw [if_neg hg]
        rcases T.phase with h | ⟨r, h⟩
        · exact absurd h.1 hg
        · rw [h]; rfl
    obtain ⟨l, hl, h1, h2, h3, h4⟩ := scanLoopN_spec full n I0 hs0 h
    simp only [List.nil_append] at hl
    subst hl
    refine ⟨h1, fun x hx => ⟨(T.inv.dom x).2 (by have := h2 x hx; grind), h3 x (by simp [hx])⟩, ?_⟩
    intro hf he hi x
    obtain ⟨b1, b2, -⟩ := T.scan_grey.1 hi
    obtain ⟨G2, _, _, _, _, _, e2, _, _, _, _, _, k2⟩ := collect_spec T full (fuel := n + (ah.length + wh.length + 2)) (by omega)
    have h5 : collect (n + (ah.length + wh.length + 2)) G full = .ok G' := by
      generalize ah.length + wh.length + 2 = k
      induction k with
      | zero => exact hcol.symm
      | succ k ihk => exact collect_mono _ _ _ _ ihk
    rw [e2] at h5
    cases h5
    have h6 := h4 (k2 hf he).1 x
    have h7 := h3 x
    subst b1; subst b2
    grind

/-! ### the theorems -/

/-- C148: no call hands an object to mark_fn twice, and every object handed over is known before (the one registered by the call included) and after the call: mark_fn never sees an object that the
same call releases. -/
theorem c148_once (H : Heap) {l1 l2 l3 : Addr} (h12 : l1 ≠ l2) (h13 : l1 ≠ l3) (h23 : l2 ≠ l3) (m n : Int) {ops : List Op} {G G' : Gc} (h : Hist (init H l1 l2 l3 m n) ops G) {op : Op} (hl : Legal G op)
    {fuel : Nat} {log : List Addr} (e : execN fuel G op = .ok (G', log)) :
    log.Nodup ∧ ∀ x ∈ log, (effect (view G) op x).isSome ∧ (view G' x).isSome := by
  have g := hist_good (good_init H h12 h13 h23 m n) h
  have hnil : log = [] → log.Nodup ∧ ∀ x ∈ log, (effect (view G) op x).isSome ∧ (view G' x).isSome := by rintro rfl; simp
  have hsome : ∀ (K : Gc) x, (view K x).isSome = (K.obj x).isSome := by intro K x; simp [view]
  have fin : ∀ {G1 : Gc} {full : Bool}, Good G1 → (∀ x, (G1.obj x).isSome → (effect (view G) op x).isSome) → collectN fuel G1 full = .ok (G', log) →
      log.Nodup ∧ ∀ x ∈ log, (effect (view G) op x).isSome ∧ (view G' x).isSome := by
    intro G1 full g1 hv hc
    obtain ⟨a1, a2, -⟩ := collectN_spec g1 hc
    exact ⟨a1, fun x hx => ⟨hv x (a2 x hx).1, by rw [hsome]; exact (a2 x hx).2⟩⟩
  have other : (do let G1 ← exec fuel G op; pure (G1, ([] : List Addr))) = .ok (G', log) → log = [] := by
    intro h
    obtain ⟨G1, -, h2⟩ := Outcome.bind_eq_ok.1 h
    exact (Prod.mk.inj (Outcome.ok.inj h2)).2.symm
  have quiet : ∀ (b : Int), Good { G with allocsBefore := b } := fun b => by
    obtain ⟨bl, be, ah, wh, T⟩ := g
    exact ⟨bl, be, ah, wh, ⟨T.inv.lists, T.inv.dom, T.inv.colW, T.inv.colB, T.inv.colG, T.inv.closed⟩, T.phase⟩
  have loud : ∀ (K : Gc) (b : Int), Good K → Good { K with allocsBefore := b } := fun K b g => by
    obtain ⟨bl, be, ah, wh, T⟩ := g
    exact ⟨bl, be, ah, wh, ⟨T.inv.lists, T.inv.dom, T.inv.colW, T.inv.colB, T.inv.colG, T.inv.closed⟩, T.phase⟩
  cases op with
  | collect full => exact fin g (fun x hx => by simpa [effect, hsome] using hx) e
  | enable =>
      simp only [execN, enableN] at e
      split at e
      · split at e
        · exact fin (good_enabled g _) (fun x hx => by simpa [effect, hsome] using hx) e
        · exact hnil (Prod.mk.inj (Outcome.ok.inj e)).2.symm
      · cases e
  | register v ks =>
      simp only [execN, registerN] at e
      obtain ⟨G1, e1, e2⟩ := Outcome.bind_eq_ok.1 e
      split at e2
      · obtain ⟨G2, rel, r2, g2, v2, -⟩ := fine_register (quiet (G.allocs + 2)) (v := v) (ks := ks) hl
        have e1' : G1 = put { put G v (some ⟨false, false, ks⟩) with H := EList.reset G.H v } v (some ⟨!G.sense, false, ks⟩) := by
          rw [clearWhite_eq (o := ⟨false, false, ks⟩) (by simp [put])] at e1
          exact (Outcome.ok.inj e1).symm
        obtain ⟨k, hk⟩ := r2
        have e3 : exec k { G with allocsBefore := G.allocs + 2 } (.register v ks) = .ok { G1 with H := EList.addTail G1.H G1.grey v, allocs := G1.allocs + 1, allocsBefore := G.allocs + 2 } := by
          simp only [exec, register]
          rw [clearWhite_eq (o := ⟨false, false, ks⟩) (by simp [put]), Outcome.ok_bind]
          have : ¬ (G.allocs + 1 ≥ G.allocs + 2) := by omega
          refine (if_neg this).trans ?_
          rw [e1']; rfl
        have hk' := hk k (Nat.le_refl k)
        dsimp only at hk'
        have e4 := hk'.symm.trans e3
        cases e4
        refine fin (G1 := { G1 with H := EList.addTail G1.H G1.grey v, allocs := G1.allocs + 1 }) (loud _ G1.allocsBefore g2) ?_ e2
        intro x hx
        have hx' : (G1.obj x).isSome := hx
        rw [e1'] at hx'
        simp only [effect, View.set]
        split
        · rfl
        · rename_i hne
          simp only [put, if_neg hne] at hx'
          rw [hsome]; exact hx'
      · exact hnil (Prod.mk.inj (Outcome.ok.inj e2)).2.symm
  | unregister v =>
      simp only [execN, unregisterN] at e
      obtain ⟨o, e1, e2⟩ := Outcome.bind_eq_ok.1 e
      split at e2
      · obtain ⟨G2, rel, r2, g2, v2, -⟩ := fine_unregister (quiet (G.allocs + 1)) (v := v) hl.1 hl.2.1 hl.2.2
        obtain ⟨k, hk⟩ := r2
        have e3 : exec k { G with allocsBefore := G.allocs + 1 } (.unregister v) = .ok { put G v none with H := EList.remove G.H v, allocs := G.allocs + 1, allocsBefore := G.allocs + 1 } := by
          simp only [exec, unregister]
          have h1 : load { G with allocsBefore := G.allocs + 1 } v = .ok o := e1
          rw [h1, Outcome.ok_bind]
          have : ¬ (G.allocs + 1 < G.allocs + 1) := by omega
          exact if_neg this
        have hk' := hk k (Nat.le_refl k)
        dsimp only at hk'
        have e4 := hk'.symm.trans e3
        cases e4
        refine fin (G1 := { put G v none with H := EList.remove G.H v, allocs := G.allocs + 1 }) (loud _ G.allocsBefore g2) ?_ e2
        intro x hx
        have hx' : ((put G v none).obj x).isSome := hx
        simp only [effect, View.set]
        split
        · rename_i he
          simp [put, he] at hx'
        · rename_i hne
          simp only [put, if_neg hne] at hx'
          rw [hsome]; exact hx'
      · exact hnil (Prod.mk.inj (Outcome.ok.inj e2)).2.symm
  | root v ks => exact hnil (other e)
  | protect v => exact hnil (other e)
  | unprotect v => exact hnil (other e)
  | store v ks => exact hnil (other e)
  | mark v => exact hnil (other e)
  | disable => exact hnil (other e)

/-- C148: a full collection that starts when no cycle is under way calls mark_fn exactly once for every object that is left afterwards, and for no other. -/
theorem c148_full_exact (H : Heap) {l1 l2 l3 : Addr} (h12 : l1 ≠ l2) (h13 : l1 ≠ l3) (h23 : l2 ≠ l3) (m n : Int) {ops : List Op} {G G' : Gc} (h : Hist (init H l1 l2 l3 m n) ops G) (hen : 0 ≤ G.enabled)
    (hi : Idle G) {fuel : Nat} {log : List Addr} (e : execN fuel G (.collect true) = .ok (G', log)) : log.Nodup ∧ ∀ x, x ∈ log ↔ (view G' x).isSome := by
  have g := hist_good (good_init H h12 h13 h23 m n) h
  obtain ⟨a1, -, a3⟩ := collectN_spec g e
  refine ⟨a1, fun x => ?_⟩
  rw [← a3 rfl hen hi x]
  simp [view]

/-! ### the bound -/

theorem clearWhite_marks {G G' : Gc} {v : Addr} (h : clearWhite G v = .ok G') : G'.marksPerScan = G.marksPerScan := by
  obtain ⟨o, -, h2⟩ := Outcome.bind_eq_ok.1 h
  cases h2; rfl

theorem mark_marks {G G' : Gc} {v : Addr} {b : Bool} (h : mark G v = .ok (b, G')) : G'.marksPerScan = G.marksPerScan := by
  obtain ⟨o, -, h2⟩ := Outcome.bind_eq_ok.1 h
  split at h2
  · obtain ⟨G1, h3, h4⟩ := Outcome.bind_eq_ok.1 h2
    cases h4
    show G1.marksPerScan = _
    exact clearWhite_marks h3
  · cases h2; rfl

theorem markAll_marks : ∀ {ks : List Addr} {G G' : Gc}, markAll G ks = .ok G' → G'.marksPerScan = G.marksPerScan := by
  intro ks
  induction ks with
  | nil => intro G G' h; cases h; rfl
  | cons k ks ih =>
      intro G G' h
      obtain ⟨⟨b, G1⟩, h1, h2⟩ := Outcome.bind_eq_ok.1 h
      exact (ih h2).trans (mark_marks h1)

theorem scanStep_marks {G G' : Gc} (h : scanStep G = .ok G') : G'.marksPerScan = G.marksPerScan := by
  obtain ⟨G1, h1, h⟩ := Outcome.bind_eq_ok.1 h
  obtain ⟨o, -, h⟩ := Outcome.bind_eq_ok.1 h
  obtain ⟨G2, h2, h⟩ := Outcome.bind_eq_ok.1 h
  obtain ⟨o', -, h⟩ := Outcome.bind_eq_ok.1 h
  cases h
  have := (markAll_marks h2).trans (clearWhite_marks h1)
  rw [← this]
  split <;> rfl

theorem scanLoopN_bound : ∀ (n : Nat) {G G' : Gc} {m : Int} {log log' : List Addr}, scanLoopN false n m G log = .ok (G', log') →
    (log'.length : Int) ≤ log.length + max 1 (G.marksPerScan - m) := by
  intro n
  induction n with
  | zero => intro G G' m log log' h; cases h
  | succ n ih =>
      intro G G' m log log' h
      rw [scanLoopN] at h
      split at h
      · obtain ⟨G1, h1, h2⟩ := Outcome.bind_eq_ok.1 h
        cases h2
        omega
      · obtain ⟨G1, h1, h2⟩ := Outcome.bind_eq_ok.1 h
        have hm := scanStep_marks h1
        split at h2
        · cases h2
          simp; omega
        · rename_i hc
          have := ih h2
          simp only [Bool.not_false, Bool.true_and, Bool.and_eq_true, decide_eq_true_eq] at hc
          by_cases hg : G1.scan = G1.grey
          · -- the loop ends at once
            cases n with
            | zero => cases h2
            | succ n =>
                rw [scanLoopN, if_pos hg] at h2
                obtain ⟨G2, -, h3⟩ := Outcome.bind_eq_ok.1 h2
                cases h3
                simp; omega
          · have hlt : m + 1 < G1.marksPerScan := by
              refine Classical.byContradiction fun hh => hc ⟨by omega, hg⟩
            simp at this
            omega

theorem collectN_bound {n : Nat} {G G' : Gc} {log : List Addr} (h : collectN n G false = .ok (G', log)) : (log.length : Int) ≤ max 1 G.marksPerScan := by
  rw [collectN] at h
  split at h
  · cases h; simp; omega
  · have := scanLoopN_bound n h
    have hs : (startScan { G with enabled := G.enabled - 1, allocs := 0 }).marksPerScan = G.marksPerScan := by
      rw [startScan]; split <;> rfl
    rw [hs] at this
    simp at this
    omega

/-- C148: in any state, no call but a full collection hands more objects to mark_fn than the `marks_per_scan` of zt_gc_init (one, if that is less than one). -/
theorem c148_bound (G : Gc) {op : Op} (hop : op ≠ .collect true) {fuel : Nat} {G' : Gc} {log : List Addr} (e : execN fuel G op = .ok (G', log)) : (log.length : Int) ≤ max 1 G.marksPerScan := by
  have other : (do let G1 ← exec fuel G op; pure (G1, ([] : List Addr))) = .ok (G', log) → (log.length : Int) ≤ max 1 G.marksPerScan := by
    intro h
    obtain ⟨G1, -, h2⟩ := Outcome.bind_eq_ok.1 h
    cases h2; simp; omega
  cases op with
  | collect full =>
      cases full with
      | true => exact absurd rfl hop
      | false => exact collectN_bound e
  | enable =>
      simp only [execN, enableN] at e
      split at e
      · split at e
        · exact collectN_bound (G := { G with enabled := G.enabled + 1 }) e
        · cases e; simp; omega
      · cases e
  | register v ks =>
      simp only [execN, registerN] at e
      obtain ⟨G1, e1, e2⟩ := Outcome.bind_eq_ok.1 e
      have hm := clearWhite_marks e1
      have hm' : G1.marksPerScan = G.marksPerScan := hm
      rw [← hm']
      split at e2
      · exact collectN_bound (G := { G1 with H := EList.addTail G1.H G1.grey v, allocs := G1.allocs + 1 }) e2
      · cases e2; simp; omega
  | unregister v =>
      simp only [execN, unregisterN] at e
      obtain ⟨o, e1, e2⟩ := Outcome.bind_eq_ok.1 e
      split at e2
      · exact collectN_bound (G := { put G v none with H := EList.remove G.H v, allocs := G.allocs + 1 }) e2
      · cases e2; simp; omega
  | root v ks => exact other e
  | protect v => exact other e
  | unprotect v => exact other e
  | store v ks => exact other e
  | mark v => exact other e
  | disable => exact other e

theorem freeLoop_scan (h : Addr) : ∀ (n : Nat) {G G' : Gc} {p q : Addr}, freeLoop h n G p q = .ok G' → G'.scan = G.scan ∧ G'.grey = G.grey := by
  intro n
  induction n with
  | zero => intro G G' p q e; cases e
  | succ n ih =>
      intro G G' p q e
      rw [freeLoop] at e
      split at e
      · obtain ⟨o, -, h2⟩ := Outcome.bind_eq_ok.1 e
        have := ih (G := { put { G with H := EList.remove G.H p } p none with freed := G.freed ++ [p] }) h2
        exact this
      · cases e; exact ⟨rfl, rfl⟩

theorem switch_scan {n : Nat} {G G' : Gc} (e : switch n G = .ok G') : G'.scan = G.scan ∧ G'.grey = G.grey := by
  obtain ⟨G1, h1, h2⟩ := Outcome.bind_eq_ok.1 e
  cases h2
  show G1.scan = _ ∧ G1.grey = _
  rw [freeWhite] at h1
  split at h1
  · cases h1; exact ⟨rfl, rfl⟩
  · have := freeLoop_scan _ _ (G := { G with enabled := G.enabled - 1 }) h1
    exact this

theorem scanLoopN_least : ∀ (n : Nat) {G G' : Gc} {m : Int} {log log' : List Addr}, scanLoopN false n m G log = .ok (G', log') → G'.scan ≠ G'.grey →
    (log.length : Int) + max 1 (G.marksPerScan - m) ≤ log'.length := by
  intro n
  induction n with
  | zero => intro G G' m log log' h; cases h
  | succ n ih =>
      intro G G' m log log' h hne
      rw [scanLoopN] at h
      split at h
      · rename_i hg
        obtain ⟨G1, h1, h2⟩ := Outcome.bind_eq_ok.1 h
        cases h2
        obtain ⟨a, b⟩ := switch_scan h1
        exact absurd (by rw [a, b]; exact hg) hne
      · obtain ⟨G1, h1, h2⟩ := Outcome.bind_eq_ok.1 h
        have hm := scanStep_marks h1
        split at h2
        · rename_i hc
          cases h2
          simp only [Bool.not_false, Bool.true_and, Bool.and_eq_true, decide_eq_true_eq] at hc
          simp; omega
        · have := ih h2 hne
          simp at this
          omega

/-- C148: an incremental collection that is due (the collector enabled, enough allocations) and does not end the cycle hands exactly `marks_per_scan` objects to mark_fn (one, if that is less than one). -/
theorem c148_exact (G : Gc) (hen : 0 ≤ G.enabled) (hal : G.allocsBefore ≤ G.allocs) {fuel : Nat} {G' : Gc} {log : List Addr} (e : execN fuel G (.collect false) = .ok (G', log)) (hne : ¬ Idle G') :
    (log.length : Int) = max 1 G.marksPerScan := by
  have hle := c148_bound G (op := .collect false) (by simp) e
  simp only [execN] at e
  rw [collectN, if_neg (by simp; omega)] at e
  have := scanLoopN_least fuel e hne
  have hs : (startScan { G with enabled := G.enabled - 1, allocs := 0 }).marksPerScan = G.marksPerScan := by
    rw [startScan]; split <;> rfl
  rw [hs] at this
  simp at this
  omega

/-! ### concrete cases -/

/-- The log of one more call after a history. -/
def logAfter (G : Gc) (ops : List Op) (op : Op) : Option (List Addr × List Addr) :=
  match go 40 G ops with
  | .ok G => match execN 40 G op with
    | .ok (G', l) => some (l, G'.freed)
    | _ => none
  | _ => none

/-- In the middle of the cycle of `sample` (whose histories are legal: `sample_legal`) an incremental call scans nothing more before enough allocations; the rest of the cycle scans every object not
scanned so far once, and releases none of them; the full collection after it scans exactly the root and what it leads to, and releases the rest. -/
theorem sample_work : logAfter G0 sample (.collect false) = some ([], []) ∧ logAfter G0 sample (.collect true) = some ([11, 20, 21, 12, 22], []) ∧
    logAfter G0 (sample ++ [.collect true]) (.collect true) = some ([10, 11, 12], [22, 21, 20]) := by
  refine ⟨?_, ?_, ?_⟩ <;> decide +kernel

/-- With two objects per call and no allocations needed, a cycle over five objects takes calls of 2, 2 and 1 objects. -/
def threeCalls : List Op := [.disable, .root 10 [], .register 11 [], .register 12 [], .register 13 [], .register 14 [], .enable]

theorem threeCalls_work : logAfter (init H0 1 2 3 2 0) (threeCalls.dropLast) .enable = some ([10, 11], []) ∧ logAfter (init H0 1 2 3 2 0) threeCalls (.collect false) = some ([12, 13], []) ∧
    logAfter (init H0 1 2 3 2 0) (threeCalls ++ [.collect false]) (.collect false) = some ([14], []) ∧
    logAfter (init H0 1 2 3 2 0) (threeCalls ++ [.collect false]) (.register 15 []) = some ([14, 15], []) := by
  refine ⟨?_, ?_, ?_, ?_⟩ <;> decide +kernel

end ZT.Gc
