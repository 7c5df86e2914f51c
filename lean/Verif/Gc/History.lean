import Verif.Gc.Collect
import Verif.Fuel

/-!
# C33, C64: histories of collector calls
-/

namespace ZT.Gc

open EList (Heap)

/-! ## Specification -/

/-- What the client knows: the objects it has given to the collector, whether each is protected, and the references it holds. -/
abbrev View := Addr → Option (Bool × List Addr)

/-- `y` can be reached from `x` by following references. -/
inductive Path (V : View) : Addr → Addr → Prop
  | refl {x p} : V x = some p → Path V x x
  | step {x p k y} : V x = some p → k ∈ p.2 → Path V k y → Path V x y

/-- The objects `rel` are released: each is known, not protected, not reachable from any object that is not released with it (in particular from no protected object); they are distinct, and all other
objects stay as they are. -/
structure Release (V : View) (rel : List Addr) (V' : View) : Prop where
  unprotected : ∀ x ∈ rel, ∃ ks, V x = some (false, ks)
  unreachable : ∀ x ∈ rel, ∀ y, y ∉ rel → ¬ Path V y x
  once : rel.Nodup
  after : ∀ x, V' x = if x ∈ rel then none else V x

/-- The calls, and the client's own change of the references in an object (`store`). `register` and `root` introduce a new object with the references `ks`. -/
inductive Op where
  | register (v : Addr) (ks : List Addr)
  | root (v : Addr) (ks : List Addr)
  | protect (v : Addr)
  | unprotect (v : Addr)
  | unregister (v : Addr)
  | store (v : Addr) (ks : List Addr)
  | mark (v : Addr)
  | collect (full : Bool)
  | enable
  | disable
  deriving Repr, DecidableEq

def View.set (V : View) (v : Addr) (p : Option (Bool × List Addr)) : View := fun x => if x = v then p else V x

/-- The effect of a call on what the client knows, releases apart. -/
def effect (V : View) : Op → View
  | .register v ks => V.set v (some (false, ks))
  | .root v ks => V.set v (some (true, ks))
  | .protect v => V.set v ((V v).map fun p => (true, p.2))
  | .unprotect v => V.set v ((V v).map fun p => (false, p.2))
  | .unregister v => V.set v none
  | .store v ks => V.set v ((V v).map fun p => (p.1, ks))
  | _ => V

/-! ## The code -/

/-- What the client knows of the collector's objects. -/
def view (G : Gc) : View := fun x => (G.obj x).map fun o => (o.prot, o.kids)

/-- No cycle is under way. -/
def Idle (G : Gc) : Prop := G.scan = G.grey

/-- A call, executed. Objects come from calloc, so their colour is 0. -/
def exec (fuel : Nat) (G : Gc) : Op → Outcome Gc
  | .register v ks => register fuel G v ⟨false, false, ks⟩
  | .root v ks => protectNew G v ⟨false, false, ks⟩
  | .protect v => protect G v
  | .unprotect v => unprotect G v
  | .unregister v => unregister fuel G v
  | .store v ks => store G v ks
  | .mark v => do let (_, G) ← mark G v; pure G
  | .collect full => collect fuel G full
  | .enable => enable fuel G
  | .disable => .ok (disable G)

/-- A new object: not known yet, not one of the list heads, referring to known objects. -/
def Fresh (G : Gc) (v : Addr) (ks : List Addr) : Prop := G.obj v = none ∧ (v ≠ G.black ∧ v ≠ G.grey ∧ v ≠ G.white) ∧ ∀ k ∈ ks, k = v ∨ (G.obj k).isSome

/-- The client's obligations. References lead to known objects. While a cycle is under way: an object newly protected or newly referred to from an old object must be one that zt_gc_mark would
leave alone; the object at the scan pointer must not be unregistered, nor marked while white. Each of these is needed: see the theorems at the end. -/
def Legal (G : Gc) : Op → Prop
  | .register v ks => Fresh G v ks
  | .root v ks => Fresh G v ks ∧ (Idle G ∨ ∀ k ∈ ks, k = v ∨ Settled G k)
  | .protect v => ∃ o, G.obj v = some o ∧ (Idle G ∨ G.scan = v ∨ ∀ k ∈ o.kids, k = v ∨ Settled G k)
  | .unprotect v => (G.obj v).isSome
  | .unregister v => (G.obj v).isSome ∧ G.scan ≠ v ∧ ∀ x o, G.obj x = some o → x ≠ v → v ∉ o.kids
  | .store v ks => ∃ o, G.obj v = some o ∧ (∀ k ∈ ks, (G.obj k).isSome) ∧ (Idle G ∨ ∀ k ∈ ks, k ∈ o.kids ∨ Settled G k)
  | .mark v => (G.obj v).isSome ∧ (G.scan ≠ v ∨ Settled G v)
  | .collect _ => True
  | .enable => G.enabled < 0
  | .disable => True

/-- The states reached from `G0` by legal calls that have returned. -/
inductive Hist (G0 : Gc) : List Op → Gc → Prop
  | start : Hist G0 [] G0
  | call {ops G op G'} : Hist G0 ops G → Legal G op → Runs (fun fuel => exec fuel G op) G' → Hist G0 (ops ++ [op]) G'

/-! ## Larger loop bounds give the same result -/

theorem freeLoop_mono (h : Addr) : ∀ (n : Nat) (G : Gc) (p q : Addr), Le (freeLoop h n G p q) (freeLoop h (n + 1) G p q) := by
  intro n
  induction n with
  | zero => intro G p q; exact Le.ub _
  | succ n ih =>
      intro G p q
      rw [freeLoop, freeLoop]
      refine Le.ite (fun _ => ?_) (fun _ => Le.refl _)
      exact Le.bind (Le.refl _) fun _ => ih _ _ _

theorem freeWhite_mono (n : Nat) (G : Gc) : Le (freeWhite n G) (freeWhite (n + 1) G) := Le.ite (fun _ => Le.refl _) fun _ => freeLoop_mono _ n _ _ _

theorem switch_mono (n : Nat) (G : Gc) : Le (switch n G) (switch (n + 1) G) := Le.bind (freeWhite_mono n _) fun _ => Le.refl _

theorem scanLoop_mono (full : Bool) : ∀ (n : Nat) (m : Int) (G : Gc), Le (scanLoop full n m G) (scanLoop full (n + 1) m G) := by
  intro n
  induction n with
  | zero => intro m G; exact Le.ub _
  | succ n ih =>
      intro m G
      rw [scanLoop, scanLoop]
      refine Le.ite (fun _ => switch_mono n _) (fun _ => ?_)
      refine Le.bind (Le.refl _) fun _ => Le.ite (fun _ => Le.refl _) (fun _ => ih _ _)

theorem collect_mono (n : Nat) (G : Gc) (full : Bool) : Le (collect n G full) (collect (n + 1) G full) := Le.ite (fun _ => Le.refl _) fun _ => scanLoop_mono full n _ _

theorem exec_mono (n : Nat) (G : Gc) (op : Op) : Le (exec n G op) (exec (n + 1) G op) := by
  cases op with
  | register v ks => exact Le.bind (Le.refl _) fun _ => Le.ite (fun _ => collect_mono n _ _) fun _ => Le.refl _
  | root v ks => exact Le.refl _
  | protect v => exact Le.refl _
  | unprotect v => exact Le.refl _
  | unregister v => exact Le.bind (Le.refl _) fun _ => Le.ite (fun _ => collect_mono n _ _) fun _ => Le.refl _
  | store v ks => exact Le.refl _
  | mark v => exact Le.refl _
  | collect full => exact collect_mono n _ _
  | enable => exact Le.ite (fun _ => Le.ite (fun _ => collect_mono n _ _) fun _ => Le.refl _) fun _ => Le.refl _
  | disable => exact Le.refl _

/-! ## Each call -/

/-- Between calls. -/
def Good (G : Gc) : Prop := ∃ bl be ah wh, Top G bl be ah wh

theorem path_reach {G : Gc} {x y : Addr} (h : Path (view G) x y) : Reach G x y := by
  induction h with
  | @refl x p h =>
      simp only [view] at h
      cases ho : G.obj x with
      | none => rw [ho] at h; cases h
      | some o => exact .refl ho
  | @step x p k y h hk _ ih =>
      simp only [view] at h
      cases ho : G.obj x with
      | none => rw [ho] at h; cases h
      | some o =>
          rw [ho] at h; cases h
          exact .step ho hk ih

theorem Safe.release {G G' : Gc} {rel : List Addr} (S : Safe G G' rel) : Release (view G) rel (view G') := by
  refine ⟨fun x hx => ?_, fun x hx y hy h => S.unreach x hx y hy (path_reach h), S.nodup, fun x => ?_⟩
  · obtain ⟨o, ho⟩ := Option.isSome_iff_exists.1 (S.known x hx)
    exact ⟨o.kids, by simp [view, ho, S.unprot x hx o ho]⟩
  · split
    · rename_i hx; simp [view, S.done.gone x hx]
    · rename_i hx; exact S.done.kept x hx

theorem Release.nothing (V : View) : Release V [] V := ⟨by simp, by simp, .nil, by simp⟩

/-- The call returns, in a good state, having released only what may be released. -/
def Fine (G : Gc) (op : Op) : Prop := ∃ G' rel, Runs (fun fuel => exec fuel G op) G' ∧ Good G' ∧ Release (effect (view G) op) rel (view G') ∧ G'.freed = G.freed ++ rel

theorem fine_of {G G' : Gc} {op : Op} (e : ∀ fuel, exec fuel G op = .ok G') (g : Good G') (hv : view G' = effect (view G) op) (hf : G'.freed = G.freed) : Fine G op :=
  ⟨G', [], ⟨0, fun fuel _ => e fuel⟩, g, by rw [hv]; exact Release.nothing _, by simp [hf]⟩

/-- A call that ends in zt_gc_collect. -/
theorem fine_collect {G G1 : Gc} {op : Op} {full : Bool} (e : ∀ fuel, exec fuel G op = collect fuel G1 full) (g : Good G1) (hv : view G1 = effect (view G) op) (hf : G1.freed = G.freed) : Fine G op := by
  obtain ⟨bl, be, ah, wh, T⟩ := g
  obtain ⟨G', bl', be', ah', wh', rel, e', T', S, -, -, -, -⟩ := collect_spec T full (fuel := ah.length + wh.length + 2) (Nat.le_refl _)
  refine ⟨G', rel, Runs.of (fun n => exec_mono n G op) ((e _).trans e'), ⟨_, _, _, _, T'⟩, ?_, ?_⟩
  · rw [← hv]; exact S.release
  · rw [S.done.freed, hf]

theorem loadOk {G : Gc} {v : Addr} {o : Obj} (h : G.obj v = some o) : load G v = .ok o := by simp [load, h]

theorem fresh_not {G : Gc} {bl be ah wh : List Addr} (I : Inv G bl be ah wh) {v : Addr} (h : G.obj v = none) : v ∉ bl ∧ v ∉ be ∧ v ∉ ah ∧ v ∉ wh := by
  have := I.dom v
  rw [h] at this
  simpa using this

/-- The new object, linked into the grey list by either call. -/
theorem new_obj {G : Gc} {bl be ah wh : List Addr} (T : Top G bl be ah wh) {v : Addr} {ks : List Addr} (hfr : Fresh G v ks) {G1 : Gc} {be1 ah1 : List Addr} (o : Obj) (hok : o.kids = ks)
    (hobj : ∀ x, G1.obj x = if x = v then some o else G.obj x) (hse : G1.sense = G.sense)
    (hl : Lists G1.H G1.black G1.grey G1.white bl (be1 ++ ah1) wh) (hb : ∀ x ∈ be1, x ∈ be ∨ x = v ∧ o.bit = !G.sense ∧ ∀ k ∈ ks, k ∉ wh) (hm : ∀ x, x ∈ be1 ∨ x ∈ ah1 ↔ x = v ∨ x ∈ be ∨ x ∈ ah) :
    Inv G1 bl be1 ah1 wh := by
  have hn := fresh_not T.inv hfr.1
  constructor
  · exact hl
  · intro x
    rw [hobj]
    have := T.inv.dom x
    have := hm x
    split
    · rename_i he; subst he; simp; grind
    · grind
  · intro x o' ho' hx
    have hxv : x ≠ v := by rintro rfl; exact hn.2.2.2 hx
    rw [hobj, if_neg hxv] at ho'
    rw [hse]; exact T.inv.colW x o' ho' hx
  · intro x o' ho' hx
    have hxv : x ≠ v := by rintro rfl; exact hn.1 hx
    rw [hobj, if_neg hxv] at ho'
    rw [hse]; exact T.inv.colB x o' ho' hx
  · intro x o' ho' hx
    rw [hse]
    rcases hb x hx with h | ⟨rfl, h1, h2⟩
    · have hxv : x ≠ v := by rintro rfl; exact hn.2.1 h
      rw [hobj, if_neg hxv] at ho'
      exact T.inv.colG x o' ho' h
    · rw [hobj, if_pos rfl] at ho'
      cases ho'
      exact ⟨h1, by rw [hok]; exact h2⟩
  · intro x o' ho' k hk
    rw [hobj] at ho'
    have : k = v ∨ (G.obj k).isSome := by
      split at ho'
      · cases ho'; exact hfr.2.2 k (hok ▸ hk)
      · exact .inr (T.inv.closed x o' ho' k hk)
    rw [hobj]
    split
    · rfl
    · rename_i hkv; exact this.resolve_left hkv

theorem fine_register {G : Gc} (g : Good G) {v : Addr} {ks : List Addr} (hfr : Fresh G v ks) : Fine G (.register v ks) := by
  obtain ⟨bl, be, ah, wh, T⟩ := g
  have hout := T.inv.out hfr.1 hfr.2.1
  have hn := fresh_not T.inv hfr.1
  generalize hG1 : ({ put G v (some ⟨!G.sense, false, ks⟩) with H := EList.addTail (EList.reset G.H v) G.grey v, allocs := G.allocs + 1 } : Gc) = G1
  have hobj : ∀ x, G1.obj x = if x = v then some ⟨!G.sense, false, ks⟩ else G.obj x := by intro x; subst hG1; rfl
  have L := (T.inv.lists.reset hout).addTailGrey hout
  have I1 : Inv G1 bl be (ah ++ [v]) wh := by
    refine new_obj T hfr ⟨!G.sense, false, ks⟩ rfl hobj (by subst hG1; rfl) ?_ (fun x hx => .inl hx) (fun x => by simp only [List.mem_append, List.mem_singleton]; grind)
    subst hG1
    rw [← List.append_assoc]; exact L
  have T1 : Top G1 bl be (ah ++ [v]) wh := by
    refine ⟨I1, ?_⟩
    have hs : G1.scan = G.scan := by subst hG1; rfl
    have hg : G1.grey = G.grey := by subst hG1; rfl
    rw [hs, hg]
    rcases T.phase with h | ⟨r, h⟩
    · exact .inl h
    · exact .inr ⟨r ++ [v], by rw [h]; rfl⟩
  have hv : view G1 = effect (view G) (.register v ks) := by
    funext x
    simp only [view, effect, View.set, hobj]
    split <;> rfl
  have hf : G1.freed = G.freed := by subst hG1; rfl
  have hcl : clearWhite { put G v (some ⟨false, false, ks⟩) with H := EList.reset G.H v } v =
      .ok { put G v (some ⟨!G.sense, false, ks⟩) with H := EList.reset G.H v } := by
    rw [clearWhite_eq (o := ⟨false, false, ks⟩) (by simp [put])]
    congr 1
    simp only [put, Gc.mk.injEq]
    refine ⟨trivial, ?_, trivial, trivial, trivial, trivial, trivial, trivial, trivial, trivial, trivial, trivial⟩
    funext x; split <;> rfl
  have hrun : ∀ fuel, exec fuel G (.register v ks) = if G1.allocs ≥ G1.allocsBefore then collect fuel G1 false else .ok G1 := by
    intro fuel
    show register fuel G v ⟨false, false, ks⟩ = _
    rw [register]
    show (clearWhite { put G v (some ⟨false, false, ks⟩) with H := EList.reset G.H v } v >>= _) = _
    rw [hcl]
    simp only [Outcome.ok_bind]
    subst hG1
    rfl
  by_cases hc : G1.allocs ≥ G1.allocsBefore
  · exact fine_collect (full := false) (fun fuel => by rw [hrun, if_pos hc]) ⟨_, _, _, _, T1⟩ hv hf
  · exact fine_of (fun fuel => by rw [hrun, if_neg hc]) ⟨_, _, _, _, T1⟩ hv hf

/-- zt_gc_protect, computed. -/
theorem protect_eq {G : Gc} {v : Addr} {o : Obj} (ho : G.obj v = some o) :
    protect G v = .ok { put G v (some { o with bit := !G.sense, prot := true }) with H := EList.add (EList.remove G.H v) G.grey v } := by
  rw [protect, clearWhite_eq ho]
  simp only [Outcome.ok_bind]
  refine Outcome.bind_eq_ok.2 ⟨{ o with bit := !G.sense }, by simp [load, put], ?_⟩
  rw [Outcome.pure_eq]
  congr 1
  simp only [put, Gc.mk.injEq]
  refine ⟨trivial, ?_, trivial, trivial, trivial, trivial, trivial, trivial, trivial, trivial, trivial, trivial⟩
  funext x; split <;> rfl

theorem fine_root {G : Gc} (g : Good G) {v : Addr} {ks : List Addr} (hfr : Fresh G v ks) (hs : Idle G ∨ ∀ k ∈ ks, k = v ∨ Settled G k) : Fine G (.root v ks) := by
  obtain ⟨bl, be, ah, wh, T⟩ := g
  have hout := T.inv.out hfr.1 hfr.2.1
  have hn := fresh_not T.inv hfr.1
  generalize hG1 : ({ put G v (some ⟨!G.sense, true, ks⟩) with H := EList.add (EList.remove (EList.reset G.H v) v) G.grey v } : Gc) = G1
  have hobj : ∀ x, G1.obj x = if x = v then some ⟨!G.sense, true, ks⟩ else G.obj x := by intro x; subst hG1; rfl
  have hrun : ∀ fuel, exec fuel G (.root v ks) = .ok G1 := by
    intro fuel
    show protectNew G v ⟨false, false, ks⟩ = _
    rw [protectNew]
    show protect { put G v (some ⟨false, false, ks⟩) with H := EList.reset G.H v } v = _
    rw [protect_eq (o := ⟨false, false, ks⟩) (by simp [put])]
    congr 1
    subst hG1
    simp only [put, Gc.mk.injEq]
    refine ⟨trivial, ?_, trivial, trivial, trivial, trivial, trivial, trivial, trivial, trivial, trivial, trivial⟩
    funext x; split <;> rfl
  have L := ((T.inv.lists.reset hout).remove_self (x := v) (by simp [EList.reset, EList.Heap.setNext, EList.Heap.setPrev]) (by simp [EList.reset, EList.Heap.setNext, EList.Heap.setPrev])).addGrey hout
  have hsc : G1.scan = G.scan := by subst hG1; rfl
  have hgr : G1.grey = G.grey := by subst hG1; rfl
  have hv : view G1 = effect (view G) (.root v ks) := by
    funext x
    simp only [view, effect, View.set, hobj]
    split <;> rfl
  refine fine_of hrun ?_ hv (by subst hG1; rfl)
  rcases T.phase with ⟨h1, h2, h3⟩ | ⟨r, h1⟩
  · subst h2; subst h3
    refine ⟨[], [], v :: ah, wh, ?_, .inl ⟨by rw [hsc, hgr]; exact h1, rfl, rfl⟩⟩
    refine new_obj T hfr ⟨!G.sense, true, ks⟩ rfl hobj (by subst hG1; rfl) ?_ (fun x hx => by cases hx) (fun x => by simp)
    subst hG1
    exact L
  · have hni : ¬ Idle G := by
      intro hi
      have := (T.scan_grey.1 hi).2.2
      have hg := T.inv.lists.grey.2
      rw [h1, this] at hg
      grind
    have hks : ∀ k ∈ ks, k ∉ wh := by
      intro k hk
      rcases (hs.resolve_left hni) k hk with rfl | h
      · exact hn.2.2.2
      · exact T.inv.settled h
    refine ⟨bl, v :: be, ah, wh, ?_, .inr ⟨r, by rw [hsc]; exact h1⟩⟩
    refine new_obj T hfr ⟨!G.sense, true, ks⟩ rfl hobj (by subst hG1; rfl) ?_ ?_ (fun x => by simp only [List.mem_cons]; grind)
    · subst hG1; exact L
    · intro x hx
      rcases List.mem_cons.1 hx with rfl | h
      · exact .inr ⟨rfl, rfl, hks⟩
      · exact .inl h

theorem idle_iff {G : Gc} {bl be ah wh : List Addr} (T : Top G bl be ah wh) {r : List Addr} (h : ah = G.scan :: r) : ¬ Idle G := by
  intro hi
  have := (T.scan_grey.1 hi).2.2
  have hg := T.inv.lists.grey.2
  rw [h, this] at hg
  grind

theorem fine_protect {G : Gc} (g : Good G) {v : Addr} {o : Obj} (ho : G.obj v = some o) (hs : Idle G ∨ G.scan = v ∨ ∀ k ∈ o.kids, k = v ∨ Settled G k) : Fine G (.protect v) := by
  obtain ⟨bl, be, ah, wh, T⟩ := g
  generalize hG1 : ({ put G v (some { o with bit := !G.sense, prot := true }) with H := EList.add (EList.remove G.H v) G.grey v } : Gc) = G1
  have hrun : ∀ fuel, exec fuel G (.protect v) = .ok G1 := fun fuel => by
    show protect G v = _
    rw [protect_eq ho, hG1]
  have hobj : ∀ x, G1.obj x = if x = v then some { o with bit := !G.sense, prot := true } else G.obj x := by intro x; subst hG1; rfl
  have hse : G1.sense = G.sense := by subst hG1; rfl
  have hsc : G1.scan = G.scan := by subst hG1; rfl
  have hgr : G1.grey = G.grey := by subst hG1; rfl
  have hh := T.inv.heads ho
  have hin := (T.inv.dom v).1 (by simp [ho])
  have L := (T.inv.lists.remove (x := v) (by simp only [List.mem_append]; grind)).addGrey (x := v) (by simp only [Lists.Out, List.mem_cons, mem_del]; grind)
  have L1 : Lists G1.H G1.black G1.grey G1.white (del v bl) (v :: del v (be ++ ah)) (del v wh) := by subst hG1; exact L
  have hv : view G1 = effect (view G) (.protect v) := by
    funext x
    simp only [view, effect, View.set, hobj]
    split
    · rename_i he; subst he; simp [ho]
    · rfl
  refine fine_of hrun ?_ hv (by subst hG1; rfl)
  have build : ∀ be1 ah1, v :: del v (be ++ ah) = be1 ++ ah1 → (∀ x ∈ be1, (x ∈ be ∧ x ≠ v) ∨ x = v ∧ ∀ k ∈ o.kids, k = v ∨ k ∉ wh) → Inv G1 (del v bl) be1 ah1 (del v wh) := by
    intro be1 ah1 hl hb
    constructor
    · rw [← hl]; exact L1
    · intro x
      have hm : x ∈ be1 ∨ x ∈ ah1 ↔ x = v ∨ (x ∈ be ∨ x ∈ ah) ∧ x ≠ v := by
        rw [← List.mem_append, ← hl, List.mem_cons, mem_del, List.mem_append]
      rw [hobj]
      have := T.inv.dom x
      simp only [mem_del]
      split
      · rename_i he; subst he; simp; grind
      · grind
    · intro x o' ho' hx
      rw [mem_del] at hx
      rw [hobj, if_neg hx.2] at ho'
      rw [hse]; exact T.inv.colW x o' ho' hx.1
    · intro x o' ho' hx
      rw [mem_del] at hx
      rw [hobj, if_neg hx.2] at ho'
      rw [hse]
      obtain ⟨h1, h2, h3⟩ := T.inv.colB x o' ho' hx.1
      exact ⟨h1, h2, fun k hk hw => h3 k hk (mem_del.1 hw).1⟩
    · intro x o' ho' hx
      rw [hse]
      rcases hb x hx with ⟨h, hxv⟩ | ⟨rfl, h2⟩
      · rw [hobj, if_neg hxv] at ho'
        obtain ⟨h1, h3⟩ := T.inv.colG x o' ho' h
        exact ⟨h1, fun k hk hw => h3 k hk (mem_del.1 hw).1⟩
      · rw [hobj, if_pos rfl] at ho'
        cases ho'
        refine ⟨rfl, fun k hk hw => ?_⟩
        rw [mem_del] at hw
        rcases h2 k hk with h | h
        · exact hw.2 h
        · exact h hw.1
    · intro x o' ho' k hk
      have : (G.obj k).isSome := by
        rw [hobj] at ho'
        split at ho'
        · cases ho'; exact T.inv.closed v o ho k hk
        · exact T.inv.closed x o' ho' k hk
      rw [hobj]; split <;> simp [this]
  rcases T.phase with ⟨h1, h2, h3⟩ | ⟨r, h1⟩
  · subst h2; subst h3
    exact ⟨del v [], [], v :: del v ah, del v wh, build [] (v :: del v ah) (by simp) (fun x hx => by cases hx), .inl ⟨by rw [hsc, hgr]; exact h1, rfl, rfl⟩⟩
  · have hni := idle_iff T h1
    by_cases hsv : G.scan = v
    · refine ⟨del v bl, [], v :: del v (be ++ ah), del v wh, build [] _ rfl (fun x hx => by cases hx), .inr ⟨del v (be ++ ah), by rw [hsc, hsv]⟩⟩
    · have hks := (hs.resolve_left hni).resolve_left hsv
      refine ⟨del v bl, v :: del v be, del v ah, del v wh, build _ _ (by rw [del_append]; rfl) ?_, .inr ⟨del v r, by rw [hsc, h1, del_cons_ne hsv]⟩⟩
      intro x hx
      rcases List.mem_cons.1 hx with rfl | h
      · exact .inr ⟨rfl, fun k hk => (hks k hk).imp id fun h => T.inv.settled h⟩
      · exact .inl (mem_del.1 h)

/-- Changing protection or references of one object in place. -/
theorem edit_obj {G : Gc} {bl be ah wh : List Addr} (T : Top G bl be ah wh) {v : Addr} {o o1 : Obj} (ho : G.obj v = some o) (hb : o1.bit = o.bit)
    (hp : o.prot = false → o1.prot = false) (hk : ∀ k ∈ o1.kids, (G.obj k).isSome) (hw : v ∈ bl ∨ v ∈ be → ∀ k ∈ o1.kids, k ∈ o.kids ∨ k ∉ wh) : Top (put G v (some o1)) bl be ah wh := by
  have hobj : ∀ x, (put G v (some o1)).obj x = if x = v then some o1 else G.obj x := fun _ => rfl
  refine ⟨⟨T.inv.lists, ?_, ?_, ?_, ?_, ?_⟩, T.phase⟩
  · intro x
    rw [← T.inv.dom x, hobj]
    split
    · rename_i he; subst he; simp [ho]
    · rfl
  · intro x o' ho' hx
    rw [hobj] at ho'
    split at ho'
    · rename_i he; subst he; cases ho'
      obtain ⟨h1, h2⟩ := T.inv.colW x o ho hx
      exact ⟨hb.trans h1, hp h2⟩
    · exact T.inv.colW x o' ho' hx
  · intro x o' ho' hx
    rw [hobj] at ho'
    split at ho'
    · rename_i he; subst he; cases ho'
      obtain ⟨h1, h2, h3⟩ := T.inv.colB x o ho hx
      exact ⟨hb.trans h1, hp h2, fun k hk' => (hw (.inl hx) k hk').elim (h3 k) id⟩
    · exact T.inv.colB x o' ho' hx
  · intro x o' ho' hx
    rw [hobj] at ho'
    split at ho'
    · rename_i he; subst he; cases ho'
      obtain ⟨h1, h3⟩ := T.inv.colG x o ho hx
      exact ⟨hb.trans h1, fun k hk' => (hw (.inr hx) k hk').elim (h3 k) id⟩
    · exact T.inv.colG x o' ho' hx
  · intro x o' ho' k hk'
    have : (G.obj k).isSome := by
      rw [hobj] at ho'
      split at ho'
      · cases ho'; exact hk k hk'
      · exact T.inv.closed x o' ho' k hk'
    rw [hobj]; split <;> simp [this]

theorem fine_unprotect {G : Gc} (g : Good G) {v : Addr} (hv : (G.obj v).isSome) : Fine G (.unprotect v) := by
  obtain ⟨bl, be, ah, wh, T⟩ := g
  obtain ⟨o, ho⟩ := Option.isSome_iff_exists.1 hv
  refine fine_of (G' := put G v (some { o with prot := false })) (fun fuel => ?_) ⟨bl, be, ah, wh, edit_obj T ho rfl (fun _ => rfl) (T.inv.closed v o ho) (fun _ k hk => .inl hk)⟩ ?_ rfl
  · show unprotect G v = _
    rw [unprotect, loadOk ho]; rfl
  · funext x
    simp only [view, effect, View.set, put_obj]
    split
    · rename_i he; subst he; simp [ho]
    · rfl

theorem fine_store {G : Gc} (g : Good G) {v : Addr} {ks : List Addr} {o : Obj} (ho : G.obj v = some o) (hk : ∀ k ∈ ks, (G.obj k).isSome) (hs : Idle G ∨ ∀ k ∈ ks, k ∈ o.kids ∨ Settled G k) :
    Fine G (.store v ks) := by
  obtain ⟨bl, be, ah, wh, T⟩ := g
  refine fine_of (G' := put G v (some { o with kids := ks })) (fun fuel => ?_) ⟨bl, be, ah, wh, edit_obj T ho rfl id hk ?_⟩ ?_ rfl
  · show store G v ks = _
    rw [store, loadOk ho]; rfl
  · intro hv k hk'
    rcases T.phase with ⟨_, h2, h3⟩ | ⟨r, h⟩
    · subst h2; subst h3; rcases hv with hv | hv <;> cases hv
    · exact ((hs.resolve_left (idle_iff T h)) k hk').imp id fun h => T.inv.settled h
  · funext x
    simp only [view, effect, View.set, put_obj]
    split
    · rename_i he; subst he; simp [ho]
    · rfl

theorem fine_mark {G : Gc} (g : Good G) {v : Addr} (hv : (G.obj v).isSome) (hs : G.scan ≠ v ∨ Settled G v) : Fine G (.mark v) := by
  obtain ⟨bl, be, ah, wh, T⟩ := g
  obtain ⟨o, ho⟩ := Option.isSome_iff_exists.1 hv
  obtain ⟨r, G', ah', wh', e, I', S, hsc, -, -, -, -, -, -, -, hd, -⟩ := mark_spec T.inv ho
  refine fine_of (G' := G') (fun fuel => ?_) ⟨bl, be, ah', wh', I', ?_⟩ ?_ S.freed
  · show (mark G v >>= _) = _
    rw [e]; rfl
  · rw [hsc, S.grey]
    rcases T.phase with h | ⟨r, h⟩
    · exact .inl h
    · refine .inr (hd _ r h ?_)
      by_cases he : G.scan = v
      · right; rw [he]; exact hs.resolve_left (by simp [he])
      · exact .inl he
  · funext x; exact S.objs x

theorem fine_unregister {G : Gc} (g : Good G) {v : Addr} (hv : (G.obj v).isSome) (hsv : G.scan ≠ v) (hin : ∀ x o, G.obj x = some o → x ≠ v → v ∉ o.kids) : Fine G (.unregister v) := by
  obtain ⟨bl, be, ah, wh, T⟩ := g
  obtain ⟨o, ho⟩ := Option.isSome_iff_exists.1 hv
  generalize hG1 : ({ put G v none with H := EList.remove G.H v, allocs := G.allocs + 1 } : Gc) = G1
  have hobj : ∀ x, G1.obj x = if x = v then none else G.obj x := by intro x; subst hG1; rfl
  have hse : G1.sense = G.sense := by subst hG1; rfl
  have hrun : ∀ fuel, exec fuel G (.unregister v) = .ok G1 := by
    intro fuel
    show unregister fuel G v = _
    rw [unregister, loadOk ho]
    show (if G.allocs + 1 < G.allocsBefore then collect fuel ({ put G v none with H := EList.remove G.H v, allocs := G.allocs + 1 } : Gc) false else .ok _) = _
    rw [hG1]
    split
    · rename_i h
      rw [collect, if_pos]
      have h1 : G1.allocs = G.allocs + 1 := by subst hG1; rfl
      have h2 : G1.allocsBefore = G.allocsBefore := by subst hG1; rfl
      simp [h1, h2, h]
    · rfl
  have hmem := (T.inv.dom v).1 (by simp [ho])
  have L := T.inv.lists.remove (x := v) (by simp only [List.mem_append]; grind)
  refine fine_of hrun ⟨del v bl, del v be, del v ah, del v wh, ⟨?_, ?_, ?_, ?_, ?_, ?_⟩, ?_⟩ ?_ (by subst hG1; rfl)
  · subst hG1; rw [← del_append]; exact L
  · intro x
    rw [hobj]
    have := T.inv.dom x
    simp only [mem_del]
    split
    · rename_i he; simp [he]
    · rename_i he; simp [he, this]
  · intro x o' ho' hx
    rw [mem_del] at hx
    rw [hobj, if_neg hx.2] at ho'
    rw [hse]; exact T.inv.colW x o' ho' hx.1
  · intro x o' ho' hx
    rw [mem_del] at hx
    rw [hobj, if_neg hx.2] at ho'
    rw [hse]
    obtain ⟨h1, h2, h3⟩ := T.inv.colB x o' ho' hx.1
    exact ⟨h1, h2, fun k hk hw => h3 k hk (mem_del.1 hw).1⟩
  · intro x o' ho' hx
    rw [mem_del] at hx
    rw [hobj, if_neg hx.2] at ho'
    rw [hse]
    obtain ⟨h1, h3⟩ := T.inv.colG x o' ho' hx.1
    exact ⟨h1, fun k hk hw => h3 k hk (mem_del.1 hw).1⟩
  · intro x o' ho' k hk
    rw [hobj] at ho'
    split at ho'
    · cases ho'
    · rename_i hxv
      have hkv : k ≠ v := by rintro rfl; exact hin x o' ho' hxv hk
      rw [hobj, if_neg hkv]; exact T.inv.closed x o' ho' k hk
  · have h1 : G1.scan = G.scan := by subst hG1; rfl
    have h2 : G1.grey = G.grey := by subst hG1; rfl
    rw [h1, h2]
    rcases T.phase with ⟨i1, i2, i3⟩ | ⟨r, h⟩
    · exact .inl ⟨i1, by rw [i2]; rfl, by rw [i3]; rfl⟩
    · exact .inr ⟨del v r, by rw [h, del_cons_ne hsv]⟩
  · funext x
    simp only [view, effect, View.set, hobj]
    split <;> rfl

theorem good_enabled {G : Gc} (g : Good G) (e : Int) : Good { G with enabled := e } := by
  obtain ⟨bl, be, ah, wh, T⟩ := g
  exact ⟨bl, be, ah, wh, ⟨T.inv.lists, T.inv.dom, T.inv.colW, T.inv.colB, T.inv.colG, T.inv.closed⟩, T.phase⟩

/-- Every legal call in a good state. -/
theorem fine {G : Gc} (g : Good G) {op : Op} (hl : Legal G op) : Fine G op := by
  cases op with
  | register v ks => exact fine_register g hl
  | root v ks => exact fine_root g hl.1 hl.2
  | protect v => obtain ⟨o, ho, hs⟩ := hl; exact fine_protect g ho hs
  | unprotect v => exact fine_unprotect g hl
  | unregister v => exact fine_unregister g hl.1 hl.2.1 hl.2.2
  | store v ks => obtain ⟨o, ho, hk, hs⟩ := hl; exact fine_store g ho hk hs
  | mark v => exact fine_mark g hl.1 hl.2
  | collect full => exact fine_collect (full := full) (fun _ => rfl) g rfl rfl
  | enable =>
      have hl : G.enabled < 0 := hl
      have h1 : ({ G with enabled := G.enabled + 1 } : Gc).enabled ≤ 0 := by show G.enabled + 1 ≤ 0; omega
      by_cases hc : (decide (G.enabled + 1 = 0) && decide (G.allocs ≥ G.allocsBefore)) = true
      · refine fine_collect (full := false) (G1 := { G with enabled := G.enabled + 1 }) (fun fuel => ?_) (good_enabled g _) rfl rfl
        show enable fuel G = _
        rw [enable]
        simp only
        rw [if_pos h1, if_pos hc]
      · refine fine_of (G' := { G with enabled := G.enabled + 1 }) (fun fuel => ?_) (good_enabled g _) rfl rfl
        show enable fuel G = _
        rw [enable]
        simp only
        rw [if_pos h1, if_neg hc]
  | disable => exact fine_of (G' := disable G) (fun _ => rfl) (good_enabled g _) rfl rfl

theorem good_init (H : Heap) {l1 l2 l3 : Addr} (h12 : l1 ≠ l2) (h13 : l1 ≠ l3) (h23 : l2 ≠ l3) (m n : Int) : Good (init H l1 l2 l3 m n) := by
  refine ⟨[], [], [], [], ⟨⟨h12, h13, h23, ?_⟩, by simp [init], by simp, by simp, by simp, by simp [init]⟩, .inl ⟨rfl, rfl, rfl⟩⟩
  have e : ∀ x y : Addr, x ≠ y → ∀ H' : Heap, EList.IsList H' x [] → EList.IsList (EList.reset H' y) x [] := fun x y hxy H' h => EList.isList_frame H' _ x [] h fun z hz => by
    have hzx : z = x := by simpa using hz
    exact EList.reset_outside H' y z (by rw [hzx]; exact hxy)
  constructor
  · intro h xs hx
    have hx : (if h = l1 then some [] else if h = l2 then some [] else if h = l3 then some [] else none) = some xs := hx
    show EList.IsList (EList.reset (EList.reset (EList.reset H l1) l2) l3) h xs
    split at hx
    · rename_i he; cases hx; subst he; exact e _ _ h13 _ (e _ _ h12 _ (EList.reset_isList _ _))
    · split at hx
      · rename_i he; cases hx; subst he; exact e _ _ h23 _ (EList.reset_isList _ _)
      · by_cases he : h = l3
        · rw [if_pos he] at hx; cases hx; rw [he]; exact EList.reset_isList _ _
        · rw [if_neg he] at hx; cases hx
  · intro h h' xs ys hx hy hne
    simp only [three, init, List.append_nil] at hx hy
    have hx' : xs = [] := by grind
    have hy' : ys = [] := by grind
    subst hx'; subst hy'
    simpa using hne

theorem hist_good {G0 : Gc} (g0 : Good G0) {ops : List Op} {G : Gc} (h : Hist G0 ops G) : Good G := by
  induction h with
  | start => exact g0
  | call _ hl hr ih =>
      obtain ⟨G1, rel, e, g1, _, _⟩ := fine ih hl
      rw [Runs.unique hr e]; exact g1

/-- C33: after every legal history the next legal call terminates without undefined behaviour or a failed assertion. -/
theorem c33_total_partial (H : Heap) {l1 l2 l3 : Addr} (h12 : l1 ≠ l2) (h13 : l1 ≠ l3) (h23 : l2 ≠ l3) (m n : Int) {ops : List Op} {G : Gc} (h : Hist (init H l1 l2 l3 m n) ops G) {op : Op}
    (hl : Legal G op) : ∃ G', Runs (fun fuel => exec fuel G op) G' := by
  obtain ⟨G', _, e, _⟩ := fine (hist_good (good_init H h12 h13 h23 m n) h) hl
  exact ⟨G', e⟩

/-- C33: after every legal history, whatever the next legal call releases (through release_fn) was known, not protected, and not reachable from any object that stays, in particular from no protected object; each is
released once; and everything else is as the client left it. -/
theorem c33_safe_partial (H : Heap) {l1 l2 l3 : Addr} (h12 : l1 ≠ l2) (h13 : l1 ≠ l3) (h23 : l2 ≠ l3) (m n : Int) {ops : List Op} {G G' : Gc} (h : Hist (init H l1 l2 l3 m n) ops G) {op : Op}
    (hl : Legal G op) (hr : Runs (fun fuel => exec fuel G op) G') : ∃ rel, G'.freed = G.freed ++ rel ∧ Release (effect (view G) op) rel (view G') := by
  obtain ⟨G1, rel, e, _, r, f⟩ := fine (hist_good (good_init H h12 h13 h23 m n) h) hl
  rw [Runs.unique hr e]
  exact ⟨rel, f, r⟩

/-- A protected object survives every legal call except its own unregistration. -/
theorem c33_protected_stays_partial (H : Heap) {l1 l2 l3 : Addr} (h12 : l1 ≠ l2) (h13 : l1 ≠ l3) (h23 : l2 ≠ l3) (m n : Int) {ops : List Op} {G G' : Gc} (h : Hist (init H l1 l2 l3 m n) ops G) {op : Op}
    (hl : Legal G op) (hr : Runs (fun fuel => exec fuel G op) G') {r x : Addr} {ks : List Addr} (hp : effect (view G) op r = some (true, ks)) (hx : Path (effect (view G) op) r x) :
    view G' x = effect (view G) op x := by
  obtain ⟨rel, _, R⟩ := c33_safe_partial H h12 h13 h23 m n h hl hr
  rw [R.after]
  by_cases hc : x ∈ rel
  · exfalso
    have hrr : r ∉ rel := fun hrr => by
      obtain ⟨ks', h'⟩ := R.unprotected r hrr
      rw [hp] at h'; cases h'
    exact R.unreachable x hc r hrr hx
  · rw [if_neg hc]

/-! ## C64: completeness -/

/-- C64: two full collections in a row (nothing happening in between) leave exactly the objects that can be reached from a protected one. -/
theorem c64_two_collections (H : Heap) {l1 l2 l3 : Addr} (h12 : l1 ≠ l2) (h13 : l1 ≠ l3) (h23 : l2 ≠ l3) (m n : Int) {ops : List Op} {G G1 G2 : Gc} (h : Hist (init H l1 l2 l3 m n) ops G)
    (hen : 0 ≤ G.enabled) (hidle : Idle G) (r1 : Runs (fun fuel => exec fuel G (.collect true)) G1) (r2 : Runs (fun fuel => exec fuel G1 (.collect true)) G2) :
    ∀ x, (view G2 x).isSome ↔ ∃ r ks, view G r = some (true, ks) ∧ Path (view G) r x := by
  obtain ⟨bl, be, ah, wh, T⟩ := hist_good (good_init H h12 h13 h23 m n) h
  have hidl := T.scan_grey.1 hidle
  obtain ⟨rfl, rfl, -⟩ := hidl
  obtain ⟨G1', bl1, be1, ah1, wh1, rel1, e1, T1, S1, C1, en1, sub1, x1⟩ := collect_spec T true (fuel := ah.length + wh.length + 2) (Nat.le_refl _)
  have hG1 : G1 = G1' := Runs.unique r1 (Runs.of (fun n => exec_mono n G (.collect true)) e1)
  subst hG1
  obtain ⟨i1, p1, q1⟩ := x1 rfl hen
  obtain ⟨rfl, rfl, -⟩ := T1.scan_grey.1 i1
  obtain ⟨G2', bl2, be2, ah2, wh2, rel2, e2, T2, S2, C2, en2, sub2, x2⟩ := collect_spec T1 true (fuel := ah1.length + wh1.length + 2) (Nat.le_refl _)
  have hG2 : G2 = G2' := Runs.unique r2 (Runs.of (fun n => exec_mono n G1 (.collect true)) e2)
  subst hG2
  obtain ⟨i2, p2, q2⟩ := x2 rfl (by rw [en1]; exact hen)
  have R1 := S1.release
  have R2 := S2.release
  have path1 : ∀ {a b}, Path (view G1) a b → Path (view G) a b := by
    intro a b hp
    have up : ∀ {z p}, view G1 z = some p → view G z = some p := by
      intro z p hz
      rw [R1.after] at hz
      split at hz
      · cases hz
      · exact hz
    induction hp with
    | refl h => exact .refl (up h)
    | step h hk _ ih => exact .step (up h) hk ih
  intro x
  constructor
  · intro hx
    have hx' : (G2.obj x).isSome := by simpa [view] using hx
    obtain ⟨r, ks, hr, hp⟩ := q2 (fun x => ∃ r ks, view G1 r = some (true, ks) ∧ Path (view G1) r x) (by
      rintro y o ho ⟨r, ks, hr, hp⟩ k hk
      refine ⟨r, ks, hr, ?_⟩
      have hky : (G1.obj k).isSome := T1.inv.closed y o ho k hk
      obtain ⟨ok, hok⟩ := Option.isSome_iff_exists.1 hky
      have trans : ∀ {a b c}, Path (view G1) a b → Path (view G1) b c → Path (view G1) a c := by
        intro a b c h1 h2
        induction h1 with
        | refl _ => exact h2
        | step u v _ ih => exact .step u v (ih h2)
      exact trans hp (.step (p := (o.prot, o.kids)) (by simp [view, ho]) hk (.refl (p := (ok.prot, ok.kids)) (by simp [view, hok])))) (by
      rintro y (hy | hy | hy)
      · cases hy
      · cases hy
      · rcases p1 y hy with hc | ⟨o, ho, hpr⟩
        · cases hc
        · obtain ⟨oy, hoy⟩ := Option.isSome_iff_exists.1 ((T1.inv.dom y).2 (.inr (.inr (.inl hy))))
          have hyr : y ∉ rel1 := fun hc => by
            have := S1.unprot y hc o ho
            rw [hpr] at this; cases this
          have := R1.after y
          rw [if_neg hyr] at this
          have hv : view G1 y = some (true, o.kids) := by rw [this]; simp [view, ho, hpr]
          exact ⟨y, o.kids, hv, .refl hv⟩) x hx'
    refine ⟨r, ks, ?_, path1 hp⟩
    rw [R1.after] at hr
    split at hr
    · cases hr
    · exact hr
  · rintro ⟨r, ks, hr, hp⟩
    have notrel : ∀ {V V' : View} {rel}, Release V rel V' → ∀ {a b ks}, V a = some (true, ks) → Path V a b → b ∉ rel := by
      intro V V' rel R a b ks ha hab hb
      have har : a ∉ rel := fun hc => by
        obtain ⟨ks', h'⟩ := R.unprotected a hc
        rw [ha] at h'; cases h'
      exact R.unreachable b hb a har hab
    have dst : ∀ {V : View} {a b}, Path V a b → (V b).isSome := by
      intro V a b hab
      induction hab with
      | refl h => simp [h]
      | step _ _ _ ih => exact ih
    have down : ∀ {a b}, Path (view G) a b → (∀ c, Path (view G) a c → c ∉ rel1) → Path (view G1) a b := by
      intro a b hab
      induction hab with
      | @refl a p ha =>
          intro hno
          exact .refl (p := p) (by rw [R1.after, if_neg (hno a (.refl ha))]; exact ha)
      | @step a p k b ha hk hkb ih =>
          intro hno
          refine .step (p := p) (by rw [R1.after, if_neg (hno a (.refl ha))]; exact ha) hk (ih fun c hc => hno c (.step ha hk hc))
    have h1 : view G1 r = some (true, ks) := by
      rw [R1.after, if_neg (notrel R1 hr (.refl hr))]; exact hr
    have h2 : Path (view G1) r x := down hp fun c hc => notrel R1 hr hc
    rw [R2.after, if_neg (notrel R2 h1 h2)]
    exact dst h2

/-- C64: zt_gc_destroy releases every object the collector still knows exactly once, protected or not. -/
theorem c64_destroy (H : Heap) {l1 l2 l3 : Addr} (h12 : l1 ≠ l2) (h13 : l1 ≠ l3) (h23 : l2 ≠ l3) (m n : Int) {ops : List Op} {G : Gc} (h : Hist (init H l1 l2 l3 m n) ops G) :
    ∃ k, ∀ fuel, k ≤ fuel → ∃ G' rel, destroy fuel G = .ok G' ∧ G'.freed = G.freed ++ rel ∧ rel.Nodup ∧ (∀ x, x ∈ rel ↔ (G.obj x).isSome) ∧ ∀ x, G'.obj x = none := by
  obtain ⟨bl, be, ah, wh, T⟩ := hist_good (good_init H h12 h13 h23 m n) h
  have T0 : Top { G with enabled := 0 } bl be ah wh := ⟨⟨T.inv.lists, T.inv.dom, T.inv.colW, T.inv.colB, T.inv.colG, T.inv.closed⟩, T.phase⟩
  obtain ⟨G1, bl1, be1, ah1, wh1, rel, e1, T1, S, C, en, sub, x1⟩ := collect_spec T0 true (fuel := ah.length + wh.length + 2) (Nat.le_refl _)
  have hmono : ∀ fuel, ah.length + wh.length + 2 ≤ fuel → collect fuel { G with enabled := 0 } true = .ok G1 := by
    intro fuel hf
    obtain ⟨k, rfl⟩ : ∃ k, fuel = ah.length + wh.length + 2 + k := ⟨fuel - (ah.length + wh.length + 2), by omega⟩
    clear hf
    induction k with
    | zero => exact e1
    | succ k ih => exact collect_mono _ _ _ _ ih
  refine ⟨ah.length + wh.length + 2 + (bl1 ++ (be1 ++ ah1) ++ wh1).length + 1, fun fuel hf => ?_⟩
  simp only [List.length_append] at hf
  have L1 := T1.inv.lists
  have hd : ∀ (H : Heap) (h : Addr) (xs : List Addr), EList.IsList H h xs → H.next h = xs.headD h := by
    intro H h xs L
    have h1 := L.1
    cases xs with
    | nil => simp only [EList.Linked] at h1; exact h1.1
    | cons y ys => simp only [EList.Linked] at h1; exact h1.1
  have hpt := T1.inv.parts
  -- white
  obtain ⟨A, ea, La, fa, oa, b1, b2, b3, -⟩ := freeLoop_spec wh1 (G := G1) (fuel := fuel) L1 (fun x hx => (T1.inv.dom x).2 (.inr (.inr (.inr hx)))) (hd _ _ _ L1.white) (by omega)
  -- grey: rotate the roles of the heads
  have rot : ∀ {H : Heap} {b g w : Addr} {x y z : List Addr}, Lists H b g w x y z → Lists H w b g z x y := by
    intro H b g w x y z L
    refine ⟨L.bw.symm, L.gw.symm, L.bg, ?_⟩
    have h1 := L.bg; have h2 := L.bw; have h3 := L.gw
    have e : three w b g z x y = three b g w x y z := by
      funext h; simp only [three]; grind
    rw [e]; exact L.rep
  have La' := rot La
  obtain ⟨B, eb, Lb, fb, ob, c1, c2, c3, -⟩ := freeLoop_spec (be1 ++ ah1) (G := A) (fuel := fuel) La' (fun x hx => by
    rw [oa, if_neg]
    · exact (T1.inv.dom x).2 (by grind)
    · have := hpt x; grind) (hd _ _ _ La'.white) (by simp only [List.length_append]; omega)
  have Lb' := rot Lb
  obtain ⟨D, ed, Ld, fd, od, -⟩ := freeLoop_spec bl1 (G := B) (fuel := fuel) Lb' (fun x hx => by
    rw [ob, if_neg, oa, if_neg]
    · exact (T1.inv.dom x).2 (.inl hx)
    · have := hpt x; grind
    · have := hpt x; grind) (hd _ _ _ Lb'.white) (by omega)
  refine ⟨{ D with enabled := 1 }, rel ++ (wh1 ++ ((be1 ++ ah1) ++ bl1)), ?_, ?_, ?_, ?_, ?_⟩
  · have h0 : (if G.enabled ≠ 0 then { G with enabled := 0 } else G) = { G with enabled := 0 } := by
      split
      · rfl
      · rename_i hz
        have hz : G.enabled = 0 := Decidable.not_not.1 hz
        cases G; simp only at hz; subst hz; rfl
    rw [destroy]
    rw [h0, hmono fuel (by omega)]
    simp only [Outcome.ok_bind]
    rw [ea]
    simp only [Outcome.ok_bind]
    rw [b2, eb]
    simp only [Outcome.ok_bind]
    rw [c1, b1, ed]
    rfl
  · show D.freed = _
    rw [fd, fb, fa, S.done.freed]
    simp
  · have gone : ∀ x ∈ rel, G1.obj x = none := S.done.gone
    have d := T1.inv.dom
    have n1 := T1.inv.nd_black; have n2 := T1.inv.nd_grey; have n3 := T1.inv.nd_white
    have nr := S.nodup
    have hdis : ∀ x ∈ rel, x ∉ bl1 ∧ x ∉ be1 ∧ x ∉ ah1 ∧ x ∉ wh1 := by
      intro x hx
      have := d x
      rw [gone x hx] at this
      simpa using this
    rw [List.nodup_append, List.nodup_append, List.nodup_append]
    refine ⟨nr, ⟨n3, ⟨n2, n1, ?_⟩, ?_⟩, ?_⟩
    · intro a ha b hb hab
      subst hab
      have := hpt a
      grind
    · intro a ha b hb hab
      subst hab
      have := hpt a
      grind
    · intro a ha b hb hab
      subst hab
      have := hdis a ha
      grind
  · intro x
    have hk := S.done.kept x
    have d := T1.inv.dom x
    simp only [List.mem_append]
    constructor
    · intro hx
      by_cases hr : x ∈ rel
      · exact S.known x hr
      · have hs : (G1.obj x).isSome := d.2 (by grind)
        have := hk hr
        obtain ⟨o, ho⟩ := Option.isSome_iff_exists.1 hs
        rw [ho] at this
        cases hc : G.obj x with
        | none => rw [hc] at this; cases this
        | some _ => rfl
    · intro hx
      by_cases hr : x ∈ rel
      · exact .inl hr
      · have := hk hr
        obtain ⟨o, ho⟩ := Option.isSome_iff_exists.1 hx
        have ho' : ({ G with enabled := 0 } : Gc).obj x = some o := ho
        rw [ho'] at this
        have hs : (G1.obj x).isSome := by
          cases hc : G1.obj x with
          | none => rw [hc] at this; cases this
          | some _ => rfl
        have := d.1 hs
        grind
  · intro x
    show D.obj x = none
    rw [od, ob, oa]
    have d := T1.inv.dom x
    by_cases hx : (G1.obj x).isSome
    · have := d.1 hx
      grind
    · have : G1.obj x = none := by
        cases hc : G1.obj x with
        | none => rfl
        | some _ => rw [hc] at hx; exact absurd rfl hx
      rw [this]; grind

end ZT.Gc
