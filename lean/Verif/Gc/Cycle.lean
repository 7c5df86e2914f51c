import Verif.Gc.Pace

/-!
# C150: in one cycle every object is scanned at most once, however many calls the cycle takes; a complete cycle has scanned exactly the objects that are left
-/

namespace ZT.Gc

open EList (Heap)

/-- Calls that belong to one cycle: from the state `G0` (in or between cycles) the client registers objects, stores references, marks and collects (zt_gc.c 247-268, 317-404), and after the first object has been
scanned no call is made once the cycle is complete. The list collects the objects handed to mark_fn by all calls, in order. -/
inductive CycleRun (G0 : Gc) : List Op → List Nat → Gc → Prop
  | start : CycleRun G0 [] [] G0
  | call {ops log G op fuel G' l} : CycleRun G0 ops log G → (log = [] ∨ ¬ Idle G) → (Mutator op ∨ ∃ full, op = .collect full) → Legal G op → execN fuel G op = .ok (G', l) →
      CycleRun G0 (ops ++ [op]) (log ++ l) G'

/-- What the loop of one call hands over, and that those objects count as scanned afterwards. -/
theorem scanLoopN_part (full : Bool) : ∀ (n : Nat) {G G' : Gc} {bl be ah wh : List Addr} {m : Int} {log log' : List Addr}, Inv G bl be ah wh → G.scan = ah.headD G.grey →
    scanLoopN full n m G log = .ok (G', log') →
    ∃ l, log' = log ++ l ∧ l.Nodup ∧ (∀ x ∈ l, x ∈ ah ∨ x ∈ wh) ∧
      (¬ Idle G' → ∃ bl' be' ah' wh', Top G' bl' be' ah' wh' ∧ ∀ x, x ∈ bl ∨ x ∈ be ∨ x ∈ l ↔ x ∈ bl' ∨ x ∈ be') := by
  intro n
  induction n with
  | zero => intro G G' bl be ah wh m log log' _ _ h; cases h
  | succ n ih =>
      intro G G' bl be ah wh m log log' I hs h
      rw [scanLoopN] at h
      cases ah with
      | nil =>
          have hg : G.scan = G.grey := by rw [hs]; rfl
          rw [if_pos hg] at h
          obtain ⟨G1, h1, h2⟩ := Outcome.bind_eq_ok.1 h
          rw [Outcome.pure_eq] at h2
          obtain ⟨rfl, rfl⟩ := Prod.mk.inj (Outcome.ok.inj h2)
          obtain ⟨a, b⟩ := switch_scan h1
          exact ⟨[], by simp, .nil, by simp, fun hi => absurd (show G1.scan = G1.grey by rw [a, b]; exact hg) hi⟩
      | cons a r =>
          have hsa : G.scan = a := hs
          have hag : a ≠ G.grey := by have := I.lists.grey.2; grind
          obtain ⟨G1, bl1, be1, ah1, wh1, e1, I1, S1, s1, w1, l1, b1, p1, f1⟩ := scanStep_spec I hsa
          obtain ⟨q1, q2⟩ := step_part I I1 S1 l1 b1 (fun x hx => (p1 x hx).imp id And.left)
          rw [if_neg (by rw [hsa]; exact hag), e1] at h
          simp only [Outcome.ok_bind] at h
          split at h
          · rename_i hc
            rw [Outcome.pure_eq] at h
            obtain ⟨rfl, rfl⟩ := Prod.mk.inj (Outcome.ok.inj h)
            simp only [Bool.and_eq_true, decide_eq_true_eq] at hc
            refine ⟨[a], by rw [hsa], by simp, by simp, fun _ => ?_⟩
            cases ah1 with
            | nil => exact absurd s1 hc.2
            | cons a1 r1 =>
                refine ⟨bl1, be1, a1 :: r1, wh1, ⟨⟨I1.lists, I1.dom, I1.colW, I1.colB, I1.colG, I1.closed⟩, .inr ⟨r1, ?_⟩⟩, fun x => by have := q1 x; simp only [List.mem_singleton]; grind⟩
                show a1 :: r1 = G1.scan :: r1
                rw [s1]; rfl
          · obtain ⟨l, rfl, i1, i2, i3⟩ := ih I1 s1 h
            refine ⟨a :: l, by simp [hsa], ?_, ?_, ?_⟩
            · rw [List.nodup_cons]
              exact ⟨fun hc => ((q2 a).1 (i2 a hc)).1 rfl, i1⟩
            · intro x hx
              rcases List.mem_cons.1 hx with rfl | hx
              · simp
              · exact ((q2 x).1 (i2 x hx)).2
            · intro hi
              obtain ⟨bl', be', ah', wh', T', j⟩ := i3 hi
              refine ⟨bl', be', ah', wh', T', fun x => ?_⟩
              have h2 := q1 x
              have h3 := j x
              simp only [List.mem_cons]
              grind

theorem collectN_part {G G' : Gc} {bl be ah wh : List Addr} (T : Top G bl be ah wh) {full : Bool} {n : Nat} {l : List Addr} (h : collectN n G full = .ok (G', l)) :
    l.Nodup ∧ (∀ x ∈ l, x ∈ ah ∨ x ∈ wh) ∧ (¬ Idle G' → ∃ bl' be' ah' wh', Top G' bl' be' ah' wh' ∧ ∀ x, x ∈ bl ∨ x ∈ be ∨ x ∈ l ↔ x ∈ bl' ∨ x ∈ be') ∧
      (¬ Idle G ∨ l ≠ [] → Idle G' → ∀ x, (G'.obj x).isSome ↔ x ∈ bl ∨ x ∈ be ∨ x ∈ l) := by
  rw [collectN] at h
  split at h
  · obtain ⟨rfl, rfl⟩ := Prod.mk.inj (Outcome.ok.inj h)
    exact ⟨.nil, by simp, fun _ => ⟨bl, be, ah, wh, T, by simp⟩, fun h1 h2 => by rcases h1 with h1 | h1; exact absurd h2 h1; exact absurd rfl h1⟩
  · generalize hG0 : startScan { G with enabled := G.enabled - 1, allocs := 0 } = G0 at h
    have h0 : G0.obj = G.obj ∧ G0.H = G.H ∧ G0.black = G.black ∧ G0.grey = G.grey ∧ G0.white = G.white ∧ G0.sense = G.sense ∧ G0.scan = (if G.scan = G.grey then G.H.next G.scan else G.scan) := by
      subst hG0
      rw [startScan]
      split <;> rename_i hh
      · exact ⟨rfl, rfl, rfl, rfl, rfl, rfl, rfl⟩
      · exact ⟨rfl, rfl, rfl, rfl, rfl, rfl, rfl⟩
    obtain ⟨z1, z2, z3, z4, z5, z6, z11⟩ := h0
    have I0 : Inv G0 bl be ah wh := by
      constructor
      · rw [z2, z3, z4, z5]; exact T.inv.lists
      · rw [z1]; exact T.inv.dom
      · rw [z1, z6]; exact T.inv.colW
      · rw [z1, z6]; exact T.inv.colB
      · rw [z1, z6]; exact T.inv.colG
      · rw [z1]; exact T.inv.closed
    have hs0 : G0.scan = ah.headD G0.grey := by
      rw [z11, z4]
      by_cases hg : G.scan = G.grey
      · obtain ⟨h1, h2, _⟩ := T.scan_grey.1 hg
        rw [if_pos hg, hg]
        have := T.inv.lists.next_head
        rw [this, h2]; rfl
      · rw [if_neg hg]
        rcases T.phase with h | ⟨r, h⟩
        · exact absurd h.1 hg
        · rw [h]; rfl
    obtain ⟨l', hl, h1, h2, h3⟩ := scanLoopN_part full n I0 hs0 h
    simp only [List.nil_append] at hl
    subst hl
    obtain ⟨l2, hl2, -, -, h4, h5⟩ := scanLoopN_spec full n I0 hs0 h
    simp only [List.nil_append] at hl2
    subst hl2
    exact ⟨h1, h2, h3, fun _ hi x => ⟨h5 hi x, h4 x⟩⟩

/-- One call of a cycle. -/
theorem call_part {G G' : Gc} {bl be ah wh : List Addr} (T : Top G bl be ah wh) {op : Op} (hop : Mutator op ∨ ∃ full, op = .collect full) (hl : Legal G op) {n : Nat} {l : List Addr}
    (h : execN n G op = .ok (G', l)) :
    l.Nodup ∧ (∀ x ∈ l, x ∉ bl ∧ x ∉ be) ∧ (¬ Idle G' → ∃ bl' be' ah' wh', Top G' bl' be' ah' wh' ∧ ∀ x, x ∈ bl ∨ x ∈ be ∨ x ∈ l ↔ x ∈ bl' ∨ x ∈ be') ∧
      (¬ Idle G ∨ l ≠ [] → Idle G' → ∀ x, (G'.obj x).isSome ↔ x ∈ bl ∨ x ∈ be ∨ x ∈ l) := by
  have quiet : ∀ {G' : Gc}, G'.scan = G.scan → G'.grey = G.grey → (¬ Idle G ∨ ([] : List Addr) ≠ [] → Idle G' → ∀ x, (G'.obj x).isSome ↔ x ∈ bl ∨ x ∈ be ∨ x ∈ ([] : List Addr)) := by
    intro G' h1 h2 h3 h4
    rcases h3 with h3 | h3
    · exact absurd (by rw [Idle, ← h1, ← h2]; exact h4) h3
    · exact absurd rfl h3
  cases op with
  | collect full =>
      obtain ⟨a1, a2, a3⟩ := collectN_part T h
      exact ⟨a1, fun x hx => by have := a2 x hx; have := T.inv.parts x; grind, a3⟩
  | store v ks =>
      obtain ⟨o, ho, hk, hs⟩ := hl
      obtain ⟨G1, h1, h2⟩ := Outcome.bind_eq_ok.1 h
      cases h2
      obtain ⟨o', ho', h1⟩ := Outcome.bind_eq_ok.1 h1
      rw [loadOk ho] at ho'
      cases ho'
      cases h1
      refine ⟨.nil, by simp, fun _ => ⟨bl, be, ah, wh, edit_obj T ho rfl id hk ?_, by simp⟩, quiet rfl rfl⟩
      intro hv k hk'
      rcases T.phase with ⟨_, h2, h3⟩ | ⟨r, h⟩
      · subst h2; subst h3; rcases hv with hv | hv <;> cases hv
      · exact ((hs.resolve_left (idle_iff T h)) k hk').imp id fun h => T.inv.settled h
  | mark v =>
      obtain ⟨hv, hs⟩ := hl
      obtain ⟨o, ho⟩ := Option.isSome_iff_exists.1 hv
      obtain ⟨r, G2, ah', wh', e, I', S, hsc, -, -, hw, hah, -, hlen, -, hd, -⟩ := mark_spec T.inv ho
      obtain ⟨G3, h1, h2⟩ := Outcome.bind_eq_ok.1 h
      cases h2
      obtain ⟨⟨b, G1⟩, h1, h2⟩ := Outcome.bind_eq_ok.1 h1
      rw [e] at h1
      cases h1
      cases h2
      refine ⟨.nil, by simp, fun _ => ⟨bl, be, ah', wh', ⟨I', ?_⟩, by simp⟩, quiet hsc S.grey⟩
      rw [hsc, S.grey]
      rcases T.phase with h | ⟨r, h⟩
      · exact .inl h
      · refine .inr (hd _ r h ?_)
        by_cases he : G.scan = v
        · right; rw [he]; exact hs.resolve_left (by simp [he])
        · exact .inl he
  | register v ks =>
      have hfr : Fresh G v ks := hl
      have hout := T.inv.out hfr.1 hfr.2.1
      generalize hG1 : ({ put G v (some ⟨!G.sense, false, ks⟩) with H := EList.addTail (EList.reset G.H v) G.grey v, allocs := G.allocs + 1 } : Gc) = G1
      have hobj : ∀ x, G1.obj x = if x = v then some ⟨!G.sense, false, ks⟩ else G.obj x := by intro x; subst hG1; rfl
      have L := (T.inv.lists.reset hout).addTailGrey hout
      have I1 : Inv G1 bl be (ah ++ [v]) wh := by
        refine new_obj T hfr ⟨!G.sense, false, ks⟩ rfl hobj (by subst hG1; rfl) ?_ (fun x hx => .inl hx) (fun x => by simp only [List.mem_append, List.mem_singleton]; grind)
        subst hG1
        rw [← List.append_assoc]; exact L
      have hG : G1.scan = G.scan ∧ G1.grey = G.grey := by subst hG1; exact ⟨rfl, rfl⟩
      have T1 : Top G1 bl be (ah ++ [v]) wh := by
        refine ⟨I1, ?_⟩
        rw [hG.1, hG.2]
        rcases T.phase with h | ⟨r, h⟩
        · exact .inl h
        · exact .inr ⟨r ++ [v], by rw [h]; rfl⟩
      have hcl : clearWhite { put G v (some ⟨false, false, ks⟩) with H := EList.reset G.H v } v =
          .ok { put G v (some ⟨!G.sense, false, ks⟩) with H := EList.reset G.H v } := by
        rw [clearWhite_eq (o := ⟨false, false, ks⟩) (by simp [put])]
        congr 1
        simp only [put, Gc.mk.injEq]
        refine ⟨trivial, ?_, trivial, trivial, trivial, trivial, trivial, trivial, trivial, trivial, trivial, trivial⟩
        funext x; split <;> rfl
      have hrun : execN n G (.register v ks) = if G1.allocs ≥ G1.allocsBefore then collectN n G1 false else .ok (G1, []) := by
        show registerN n G v ⟨false, false, ks⟩ = _
        rw [registerN]
        show (clearWhite { put G v (some ⟨false, false, ks⟩) with H := EList.reset G.H v } v >>= _) = _
        rw [hcl]
        simp only [Outcome.ok_bind]
        subst hG1
        rfl
      rw [hrun] at h
      split at h
      · obtain ⟨a1, a2, a3, a4⟩ := collectN_part T1 h
        exact ⟨a1, fun x hx => by have := a2 x hx; have := I1.parts x; grind, a3, fun hn => a4 (by rw [Idle, hG.1, hG.2]; exact hn)⟩
      · obtain ⟨rfl, rfl⟩ := Prod.mk.inj (Outcome.ok.inj h)
        exact ⟨.nil, by simp, fun _ => ⟨bl, be, ah ++ [v], wh, T1, by simp⟩, quiet hG.1 hG.2⟩
  | root v ks => rcases hop with h | ⟨_, h⟩ <;> cases h
  | protect v => rcases hop with h | ⟨_, h⟩ <;> cases h
  | unprotect v => rcases hop with h | ⟨_, h⟩ <;> cases h
  | unregister v => rcases hop with h | ⟨_, h⟩ <;> cases h
  | enable => rcases hop with h | ⟨_, h⟩ <;> cases h
  | disable => rcases hop with h | ⟨_, h⟩ <;> cases h

/-- C150: in one cycle no object is handed to mark_fn twice. -/
theorem c150_once_per_cycle (H : Heap) {l1 l2 l3 : Nat} (h12 : l1 ≠ l2) (h13 : l1 ≠ l3) (h23 : l2 ≠ l3) (m n : Int) {ops : List Op} {G : Gc} (h : Hist (init H l1 l2 l3 m n) ops G)
    {calls : List Op} {log : List Nat} {G' : Gc} (run : CycleRun G calls log G') : log.Nodup := by
  have g := hist_good (good_init H h12 h13 h23 m n) h
  have key : log.Nodup ∧ Good G' ∧ (log = [] ∨ ¬ Idle G' → ∃ bl be ah wh, Top G' bl be ah wh ∧ ∀ x ∈ log, x ∈ bl ∨ x ∈ be) := by
    induction run with
    | start =>
        obtain ⟨bl, be, ah, wh, T⟩ := g
        exact ⟨.nil, ⟨bl, be, ah, wh, T⟩, fun _ => ⟨bl, be, ah, wh, T, by simp⟩⟩
    | @call ops log G1 op fuel G2 l hr hc hop hl e ih =>
        obtain ⟨i1, i0, i2⟩ := ih
        obtain ⟨bl, be, ah, wh, T, i3⟩ := i2 hc
        obtain ⟨a1, a2, a3, -⟩ := call_part T hop hl e
        have g2 : Good G2 := by
          have e' : exec fuel G1 op = .ok G2 := by rw [← c148_log_only, e]; rfl
          obtain ⟨G3, rel, r3, g3, -⟩ := fine i0 hl
          have := Runs.unique r3 (Runs.of (fun n => exec_mono n G1 op) e')
          rw [← this]; exact g3
        refine ⟨?_, g2, ?_⟩
        · rw [List.nodup_append]
          refine ⟨i1, a1, fun x hx y hy hxy => ?_⟩
          subst hxy
          have := i3 x hx
          have := a2 x hy
          grind
        · intro hc2
          by_cases hi2 : Idle G2
          · have hnil : log ++ l = [] := hc2.resolve_right (fun h => h hi2)
            obtain ⟨bl', be', ah', wh', T'⟩ := g2
            exact ⟨bl', be', ah', wh', T', by rw [hnil]; simp⟩
          · obtain ⟨bl', be', ah', wh', T', j⟩ := a3 hi2
            refine ⟨bl', be', ah', wh', T', fun x hx => (j x).1 ?_⟩
            rcases List.mem_append.1 hx with h | h
            · have := i3 x h; grind
            · exact .inr (.inr h)
  exact key.1

/-- C150: a cycle that starts when none is under way and is complete has scanned exactly the objects that are left when it ends. -/
theorem c150_every_object (H : Heap) {l1 l2 l3 : Nat} (h12 : l1 ≠ l2) (h13 : l1 ≠ l3) (h23 : l2 ≠ l3) (m n : Int) {ops : List Op} {G : Gc} (h : Hist (init H l1 l2 l3 m n) ops G) (hi : Idle G)
    {calls : List Op} {log : List Nat} {G' : Gc} (run : CycleRun G calls log G') (hlog : log ≠ []) (hi' : Idle G') (x : Nat) : x ∈ log ↔ (view G' x).isSome := by
  have g := hist_good (good_init H h12 h13 h23 m n) h
  have key : Good G' ∧ (log = [] ∨ ¬ Idle G' → ∃ bl be ah wh, Top G' bl be ah wh ∧ ∀ x, x ∈ log ↔ x ∈ bl ∨ x ∈ be) ∧ (log ≠ [] → Idle G' → ∀ x, (G'.obj x).isSome ↔ x ∈ log) := by
    clear hlog hi'
    induction run with
    | start =>
        obtain ⟨bl, be, ah, wh, T⟩ := g
        obtain ⟨-, h2, h3⟩ : True ∧ bl = [] ∧ be = [] := by
          rcases T.phase with ⟨_, h2, h3⟩ | ⟨r, h⟩
          · exact ⟨trivial, by first | exact h2 | exact h3, by first | exact h3 | exact h2⟩
          · exact absurd hi (idle_iff T h)
        subst h2; subst h3
        exact ⟨⟨[], [], ah, wh, T⟩, fun _ => ⟨[], [], ah, wh, T, by simp⟩, fun h => absurd rfl h⟩
    | @call ops log G1 op fuel G2 l hr hc hop hl e ih =>
        obtain ⟨i0, i2, -⟩ := ih
        obtain ⟨bl, be, ah, wh, T, i3⟩ := i2 hc
        obtain ⟨a1, a2, a3, a4⟩ := call_part T hop hl e
        have g2 : Good G2 := by
          have e' : exec fuel G1 op = .ok G2 := by rw [← c148_log_only, e]; rfl
          obtain ⟨G3, rel, r3, g3, -⟩ := fine i0 hl
          have := Runs.unique r3 (Runs.of (fun n => exec_mono n G1 op) e')
          rw [← this]; exact g3
        refine ⟨g2, ?_, ?_⟩
        · intro hc2
          by_cases hi2 : Idle G2
          · have hnil : log ++ l = [] := hc2.resolve_right (fun h => h hi2)
            obtain ⟨bl', be', ah', wh', T'⟩ := g2
            rcases T'.phase with ⟨_, h2, h3⟩ | ⟨r, h⟩
            · subst h2; subst h3
              exact ⟨_, _, _, _, T', by rw [hnil]; simp⟩
            · exact absurd hi2 (idle_iff T' h)
          · obtain ⟨bl', be', ah', wh', T', j⟩ := a3 hi2
            refine ⟨bl', be', ah', wh', T', fun x => ?_⟩
            have h1 := j x
            have h2 := i3 x
            rw [List.mem_append]
            grind
        · intro hne hi2 x
          have h0 : ¬ Idle G1 ∨ l ≠ [] := by
            rcases hc with hc | hc
            · right; intro hl'; exact hne (by rw [hc, hl']; rfl)
            · exact .inl hc
          have h1 := a4 h0 hi2 x
          have h2 := i3 x
          rw [List.mem_append]
          grind
  rw [← key.2.2 hlog hi' x]
  simp [view]

/-! ## A cycle of three calls -/

/-- The logs of a list of calls and the number of calls that end between cycles. -/
def cycleLog : Gc → List Op → Option (List (List Addr × Bool))
  | _, [] => some []
  | G, op :: ops => match execN 100 G op with
      | .ok (G', l) => (cycleLog G' ops).map ((l, decide (G'.scan = G'.grey)) :: ·)
      | _ => none

/-- With two objects per call and one allocation needed, a cycle over a root, the three objects behind it and two that are registered meanwhile takes three calls of the collector; the calls scan 2, 2 and 2
objects, each object once, and the last of them ends the cycle; the call after it starts the next one. -/
theorem cycle_sample : cycleLog (init H0 1 2 3 2 1) [.disable, .root 10 [], .register 11 [10], .register 12 [], .register 13 [], .enable, .register 14 [10], .register 15 [], .register 16 []] =
    some [([], true), ([], true), ([], true), ([], true), ([], true), ([10, 11], false), ([12, 13], false), ([14, 15], true), ([10, 16], true)] := by decide +kernel

/-- The calls of `CycleRun`. -/
def inCycle : Op → Bool
  | .register _ _ | .store _ _ | .mark _ | .collect _ => true
  | _ => false

/-- `CycleRun` as a computation (the calls are those of `execN`, zt_gc.c 247-268, 317-404). -/
def cycleTrace : Gc → List Op → List Op → List Addr → Option (List Op × List Addr × Gc)
  | G, [], done, log => some (done, log, G)
  | G, op :: ops, done, log =>
      if (log = [] ∨ G.scan ≠ G.grey) ∧ legalB G op = true ∧ inCycle op = true then
        match execN 40 G op with
        | .ok (G', l) => cycleTrace G' ops (done ++ [op]) (log ++ l)
        | _ => none
      else none

theorem cycleTrace_run (G0 : Gc) : ∀ (ops : List Op) {G G' : Gc} {done done' : List Op} {log log' : List Addr}, CycleRun G0 done log G → cycleTrace G ops done log = some (done', log', G') →
    CycleRun G0 done' log' G' := by
  intro ops
  induction ops with
  | nil => intro G G' done done' log log' h e; cases e; exact h
  | cons op ops ih =>
      intro G G' done done' log log' h e
      rw [cycleTrace] at e
      split at e
      · rename_i hc
        split at e
        · rename_i G1 l e1
          exact ih (.call h hc.1 (by cases op <;> first | exact .inl trivial | exact .inr ⟨_, rfl⟩ | exact absurd hc.2.2 (by simp [inCycle])) (legalB_iff hc.2.1) e1) e
        · cases e
      · cases e

/-- The hypotheses of the C150 theorems are met: a cycle of two collector calls, with a registration, a store and a call that has nothing to do between them. -/
theorem cycle_witness : ∃ G0 calls G', Hist (init H0 1 2 3 2 4) [.root 10 [], .register 11 [10], .register 12 [], .register 13 []] G0 ∧ Idle G0 ∧ calls.length = 4 ∧
    CycleRun G0 calls [10, 11, 12, 13, 14] G' ∧ Idle G' := by
  have h : ((trace 40 (init H0 1 2 3 2 4) [.root 10 [], .register 11 [10], .register 12 [], .register 13 []]).any fun G => decide (G.scan = G.grey) &&
      (cycleTrace G [.register 14 [10], .store 12 [13], .collect false, .collect true] [] []).any fun r => decide (r.1.length = 4) && decide (r.2.1 = [10, 11, 12, 13, 14]) && decide (r.2.2.scan = r.2.2.grey)) = true := by
    decide +kernel
  generalize ht : trace 40 _ _ = t at h
  cases t with
  | none => cases h
  | some G0 =>
      simp only [Option.any_some, Bool.and_eq_true, decide_eq_true_eq] at h
      obtain ⟨h1, h⟩ := h
      generalize hr : cycleTrace G0 _ _ _ = r at h
      cases r with
      | none => cases h
      | some r =>
          simp only [Option.any_some, Bool.and_eq_true, decide_eq_true_eq] at h
          obtain ⟨c, l, G'⟩ := r
          refine ⟨G0, c, G', trace_hist .start ht, h1, h.1.1, ?_, h.2⟩
          have h2 : l = _ := h.1.2
          rw [← h2]
          exact cycleTrace_run _ _ .start hr
end ZT.Gc
