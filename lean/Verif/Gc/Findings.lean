import Verif.Gc.History

/-!
# C33: a concrete history, and why each obligation of `Legal` is needed

`go` runs calls without looking at the obligations, `trace` checks them first. Addresses 1, 2, 3 are the list heads.
-/

namespace ZT.Gc

open EList (Heap)

/-- Run the calls, whatever the obligations. -/
def go (fuel : Nat) (G : Gc) : List Op → Outcome Gc
  | [] => .ok G
  | op :: ops => do
      let G ← exec fuel G op
      go fuel G ops

def settledB (G : Gc) (x : Addr) : Bool :=
  match G.obj x with
  | some o => o.prot || o.bit == !G.sense
  | none => false

def freshB (G : Gc) (v : Addr) (ks : List Addr) : Bool := (G.obj v).isNone && v != G.black && v != G.grey && v != G.white && ks.all fun k => k == v || (G.obj k).isSome

/-- A sufficient check of the obligations (unregister left out). -/
def legalB (G : Gc) : Op → Bool
  | .register v ks => freshB G v ks
  | .root v ks => freshB G v ks && (G.scan == G.grey || ks.all fun k => k == v || settledB G k)
  | .protect v => (G.obj v).any fun o => G.scan == G.grey || G.scan == v || o.kids.all fun k => k == v || settledB G k
  | .unprotect v => (G.obj v).isSome
  | .unregister _ => false
  | .store v ks => (G.obj v).any fun o => ks.all (fun k => (G.obj k).isSome) && (G.scan == G.grey || ks.all fun k => o.kids.contains k || settledB G k)
  | .mark v => (G.obj v).isSome && (G.scan != v || settledB G v)
  | .collect _ => true
  | .enable => decide (G.enabled < 0)
  | .disable => true

theorem settledB_iff {G : Gc} {x : Addr} (h : settledB G x = true) : Settled G x := by
  unfold settledB at h
  split at h
  · rename_i o ho
    simp only [Bool.or_eq_true, beq_iff_eq] at h
    exact ⟨o, ho, h⟩
  · cases h

theorem freshB_iff {G : Gc} {v : Addr} {ks : List Addr} (h : freshB G v ks = true) : Fresh G v ks := by
  simp only [freshB, Bool.and_eq_true, bne_iff_ne, List.all_eq_true, Bool.or_eq_true, beq_iff_eq, Option.isNone_iff_eq_none] at h
  obtain ⟨⟨⟨⟨h1, h2⟩, h3⟩, h4⟩, h5⟩ := h
  exact ⟨h1, ⟨h2, h3, h4⟩, h5⟩

theorem legalB_iff {G : Gc} {op : Op} (h : legalB G op = true) : Legal G op := by
  cases op with
  | register v ks => exact freshB_iff h
  | root v ks =>
      simp only [legalB, Bool.and_eq_true, Bool.or_eq_true, beq_iff_eq, List.all_eq_true] at h
      exact ⟨freshB_iff h.1, h.2.imp id fun k x hx => (k x hx).imp id settledB_iff⟩
  | protect v =>
      simp only [legalB, Option.any_eq_true_iff_get] at h
      obtain ⟨hs, h⟩ := h
      simp only [Bool.or_eq_true, beq_iff_eq, List.all_eq_true] at h
      refine ⟨_, (Option.some_get hs).symm, ?_⟩
      rcases h with (h | h) | h
      · exact .inl h
      · exact .inr (.inl h)
      · exact .inr (.inr fun k hk => (h k hk).imp id settledB_iff)
  | unprotect v => exact h
  | unregister v => cases h
  | store v ks =>
      simp only [legalB, Option.any_eq_true_iff_get] at h
      obtain ⟨hs, h⟩ := h
      simp only [Bool.and_eq_true, Bool.or_eq_true, beq_iff_eq, List.all_eq_true, List.contains_iff_mem] at h
      exact ⟨_, (Option.some_get hs).symm, h.1, h.2.imp id fun h k hk => (h k hk).imp id settledB_iff⟩
  | mark v =>
      simp only [legalB, Bool.and_eq_true, Bool.or_eq_true, bne_iff_ne] at h
      exact ⟨h.1, h.2.imp id settledB_iff⟩
  | collect full => trivial
  | enable =>
      have h : decide (G.enabled < 0) = true := h
      have h := of_decide_eq_true h
      exact h
  | disable => trivial

/-- Run the calls, checking the obligations. -/
def trace (fuel : Nat) (G : Gc) : List Op → Option Gc
  | [] => some G
  | op :: ops => if legalB G op then
      match exec fuel G op with
      | .ok G' => trace fuel G' ops
      | _ => none
    else none

theorem trace_hist {G0 : Gc} {fuel : Nat} : ∀ {ops pre : List Op} {G G' : Gc}, Hist G0 pre G → trace fuel G ops = some G' → Hist G0 (pre ++ ops) G' := by
  intro ops
  induction ops with
  | nil => intro pre G G' h e; cases e; simpa using h
  | cons op ops ih =>
      intro pre G G' h e
      simp only [trace] at e
      split at e
      · rename_i hl
        split at e
        · rename_i G1 e1
          have := ih (.call h (legalB_iff hl) (Runs.of (fun n => exec_mono n G op) e1)) e
          simpa using this
        · cases e
      · cases e

def H0 : Heap := ⟨fun _ => 0, fun _ => 0⟩

/-- A collector that scans one object at a time, and starts a cycle at the fourth allocation. -/
def G0 : Gc := init H0 1 2 3 1 4

/-- A root 10 → 11 → 12, garbage 20 ⇄ 21 and a disconnected 22; the fourth registration starts a cycle. -/
def sample : List Op :=
  [.root 10 [], .register 11 [], .register 20 [], .store 10 [11], .register 21 [20], .store 20 [21], .register 12 [], .store 11 [12], .register 22 [], .mark 12, .disable, .enable]

/-- Two complete cycles release exactly the unreachable objects, the second cycle those which were new in the first. -/
theorem sample_runs : (trace 40 G0 (sample ++ [.collect true, .collect true])).map (fun G => (G.freed, decide (G.scan = G.grey))) = some ([22, 21, 20], true) := by decide +kernel

/-- The hypotheses of the C33 theorems are met in the middle of a cycle. -/
theorem sample_legal : ∃ G, Hist G0 sample G ∧ ¬ Idle G ∧ Legal G (.collect false) ∧ Legal G (.store 10 [11, 11]) ∧ (view G 12).isSome := by
  have h : (trace 40 G0 sample).any (fun G => decide (G.scan ≠ G.grey) && legalB G (.store 10 [11, 11]) && (view G 12).isSome) = true := by decide +kernel
  rw [Option.any_eq_true_iff_get] at h
  obtain ⟨hs, h⟩ := h
  simp only [Bool.and_eq_true, decide_eq_true_eq] at h
  exact ⟨_, trace_hist .start (Option.some_get hs).symm, h.1.1, trivial, legalB_iff h.1.2, h.2⟩

/-! ## The obligations are needed -/

/-- A collector that scans one object per call. -/
def G1 : Gc := init H0 1 2 3 1 0

/-- Roots 9, 10 → 11 → 12 and 8, in the grey list in the order 9, 10, 8; everything else white; then one step of a cycle, so that the scan pointer is at 10. -/
def mid : List Op :=
  [.disable, .root 8 [], .register 12 [], .register 11 [12], .register 13 [], .root 10 [11], .root 9 [], .store 8 [13], .enable, .collect true, .collect false]

theorem mid_legal : ∃ G, Hist G1 mid G ∧ G.scan = 10 ∧ [8, 9, 10, 11, 12, 13].all (fun x => (view G x).isSome) = true := by
  have h : (trace 40 G1 mid).any (fun G => decide (G.scan = 10) && [8, 9, 10, 11, 12, 13].all (fun x => (view G x).isSome)) = true := by decide +kernel
  rw [Option.any_eq_true_iff_get] at h
  obtain ⟨hs, h⟩ := h
  simp only [Bool.and_eq_true, decide_eq_true_eq] at h
  exact ⟨_, trace_hist .start (Option.some_get hs).symm, h.1, h.2⟩

/-- What is left: freed objects, and the protection and references of one object. -/
def after (ops : List Op) (x : Addr) : Option (List Addr × Option (Bool × List Addr)) :=
  match go 40 G1 (mid ++ ops) with
  | .ok G => some (G.freed, view G x)
  | _ => none

/-- Obligation on `protect`: protecting the white object 11 in the middle of a cycle puts it behind the scan pointer; its child 12 is released although the protected object 11 still refers to it. -/
theorem protect_mid_cycle_violation : after [.protect 11, .collect true] 11 = some ([12], some (true, [12])) := by decide +kernel

/-- Obligation on `root`: the same for a new root that refers to a white object. -/
theorem root_mid_cycle_violation : after [.root 7 [12], .store 11 [], .collect true] 7 = some ([12], some (true, [12])) := by decide +kernel

/-- Obligation on `store`: moving the only reference to 11 from an object ahead of the scan pointer to one behind it loses 11, although the protected object 9 refers to it. -/
theorem store_mid_cycle_violation : after [.store 9 [11], .store 10 [], .collect true] 9 = some ([11, 12], some (true, [11])) := by decide +kernel

/-- With the barrier (zt_gc_mark before the store) nothing is lost. -/
theorem store_with_mark_safe : after [.mark 11, .store 9 [11], .store 10 [], .collect true] 9 = some ([], some (true, [11])) := by decide +kernel

/-- Obligation on `mark`: 10 is unprotected and white at the scan pointer; zt_gc_mark moves it to the end of the grey list with the scan pointer still on it, so the root 8 is not scanned and its child 13 is
released. -/
theorem mark_at_scan_violation : after [.unprotect 10, .mark 10, .collect true] 8 = some ([13], some (true, [13])) := by decide +kernel

/-- Obligation on `unregister`: after unregistering the object at the scan pointer the next collection goes on with that object, which belongs to the client again. -/
theorem unregister_at_scan_violation : (match go 40 G1 (mid ++ [.unregister 10]) with | .ok G => G.scan == 10 && (view G 10).isNone | _ => false) = true ∧ go 40 G1 (mid ++ [.unregister 10, .collect true]) = .ub := by
  constructor
  · decide +kernel
  · have h : (match go 40 G1 (mid ++ [.unregister 10, .collect true]) with | .ub => true | _ => false) = true := by decide +kernel
    split at h
    · assumption
    · cases h

/-- A client which only calls the collector between complete cycles (full collections, none started by an allocation) has no obligation on protect, store and mark: `Idle` discharges them. -/
theorem idle_legal {G : Gc} (hi : Idle G) (hg : G.obj G.grey = none) {v : Addr} {o : Obj} (ho : G.obj v = some o) (ks : List Addr) (hk : ∀ k ∈ ks, (G.obj k).isSome) :
    Legal G (.protect v) ∧ Legal G (.store v ks) ∧ Legal G (.mark v) :=
  ⟨⟨o, ho, .inl hi⟩, ⟨o, ho, hk, .inl hi⟩, by simp [ho], .inl (by rw [hi]; rintro rfl; rw [hg] at ho; cases ho)⟩

/-- zt_gc_unregister tests the allocation count the wrong way round: here the count reaches the threshold and no collection starts, in zt_gc_register one does. -/
theorem unregister_threshold : (match go 40 (init H0 1 2 3 1 2) [.root 10 [], .register 11 [], .unregister 11] with | .ok G => (G.allocs, G.scan == G.grey) | _ => (0, false)) = (2, true) ∧
    (match go 40 (init H0 1 2 3 1 2) [.root 10 [], .register 11 [], .register 12 []] with | .ok G => (G.allocs, G.scan == G.grey) | _ => (0, false)) = (0, false) := by
  constructor <;> decide +kernel

end ZT.Gc
