import Verif.Gc.Findings
import Verif.Numeral

/-!
# C122: visiting and printing the objects of a collector (zt_gc.c 114-139, 406-440)

`ptr` is the text the C library prints for an address (%p).
-/

namespace ZT.Gc

open EList (Heap Abs Rep IsList)

/-! ## Specification -/

/-- What a visit of all objects shows: `vs` lists the objects with the kind handed to the callback (0 black, 1 grey, 2 white). Every known object comes exactly once, by kind; objects of the kinds
0 and 2 are not protected; no object of kind 0 refers to one of kind 2. -/
structure Tour (V : View) (vs : List (Addr × Nat)) : Prop where
  once : (vs.map (·.1)).Nodup
  all : ∀ x, x ∈ vs.map (·.1) ↔ (V x).isSome
  kinds : ∀ v ∈ vs, v.2 ≤ 2
  order : (vs.map (·.2)).Pairwise (· ≤ ·)
  protection : ∀ v ∈ vs, ∀ p, V v.1 = some p → p.1 = true → v.2 = 1
  tricolour : ∀ x p k, (x, 0) ∈ vs → V x = some p → k ∈ p.2 → (k, 2) ∉ vs

/-- The objects of one kind. -/
def ofKind (ty : Nat) (vs : List (Addr × Nat)) : List Addr := (vs.filter fun v => v.2 == ty).map (·.1)

/-- Bytes of a literal. -/
def lit (s : String) : List Byte := s.toList.map Num.byte

/-- The text for a list of objects: the name, the head, and the objects in brackets; protected ones as p(...), a comma and a blank after each but the last, a line break after each tenth and
then as many blanks as the name is long and two more. -/
def listText (ptr : Nat → List Byte) (V : View) (name : List Byte) (head : Addr) (xs : List Addr) : List Byte :=
  name ++ lit " " ++ ptr head ++ lit " [" ++
    (xs.mapIdx fun i x => (if (V x).map (·.1) = some true then lit "p(" ++ ptr x ++ lit ")" else ptr x) ++ (if i + 1 < xs.length then lit ", " else []) ++
      (if (i + 1) % 10 = 0 then lit "\n" ++ List.replicate (name.length + 2) 32 else [])).flatten ++ lit "]\n"

/-! ## Model -/

/-- zt_list.h 47-49 `zt_elist_for_each_safe` as used in zt_gc.c 426-440: `p` is `elt`, `n` is `dont_use`; the head is read from the collector at each test. The callback gets its data, the
collector, the object and the kind. -/
def eachLoop {σ : Type} (cb : σ → Gc → Addr → Nat → Outcome (σ × Gc)) (hd : Gc → Addr) (ty : Nat) : (fuel : Nat) → σ → Gc → (p n : Addr) → Outcome (σ × Gc)
  | 0, _, _, _, _ => .ub
  | fuel + 1, s, G, p, n => if p ≠ hd G then cb s G p ty >>= fun r => eachLoop cb hd ty fuel r.1 r.2 n (r.2.H.next n) else .ok (s, G)

/-- The loop over one list, from its first element (zt_gc.c 426, 431, 436). -/
def eachList {σ : Type} (cb : σ → Gc → Addr → Nat → Outcome (σ × Gc)) (hd : Gc → Addr) (ty fuel : Nat) (s : σ) (G : Gc) : Outcome (σ × Gc) :=
  eachLoop cb hd ty fuel s G (G.H.next (hd G)) (G.H.next (G.H.next (hd G)))

/-- zt_gc.c 420-440 `zt_gc_for_each`. -/
def forEach {σ : Type} (fuel : Nat) (cb : σ → Gc → Addr → Nat → Outcome (σ × Gc)) (s : σ) (G : Gc) : Outcome (σ × Gc) :=
  eachList cb Gc.black 0 fuel s G >>= fun r => eachList cb Gc.grey 1 fuel r.1 r.2 >>= fun r => eachList cb Gc.white 2 fuel r.1 r.2

/-- A client's callback (the `cb` of zt_gc.c 420): it reads the object, takes the objects chosen by `drop` back from the collector with zt_gc_unregister (zt_gc.c 235-245), and updates its data. -/
def visitCb {σ : Type} (f : σ → Addr → Nat → σ) (drop : Addr → Bool) (fuel : Nat) (s : σ) (G : Gc) (x : Addr) (ty : Nat) : Outcome (σ × Gc) :=
  load G x >>= fun _ => if drop x then unregister fuel G x >>= fun G => .ok (f s x ty, G) else .ok (f s x ty, G)

/-- zt_gc.c 124-137: the loop of `dump_elist`; `name` has `len` bytes (INDENT_TO with step 1 and start 0 gives its target, zt_macros.h 127-137); `c` and `count` are the local variables. -/
def dumpLoop (ptr : Nat → List Byte) (len : Nat) (p : Addr) (G : Gc) : (fuel : Nat) → (tmp : Addr) → (c : Bool) → (count : Nat) → Outcome (List Byte)
  | 0, _, _, _ => .ub
  | fuel + 1, tmp, c, count =>
      if tmp = p then .ok []
      else
        let c := if G.H.next tmp = p then false else c
        load G tmp >>= fun o =>
          let out := if o.prot then lit "p(" ++ ptr tmp ++ lit ")" ++ (if c then lit ", " else []) else ptr tmp ++ (if c then lit ", " else [])
          let brk := if count + 1 ≥ 10 then lit "\n" ++ List.replicate (len + 2) 32 else []
          dumpLoop ptr len p G fuel (G.H.next tmp) c (if count + 1 ≥ 10 then 0 else count + 1) >>= fun rest => .ok (out ++ brk ++ rest)

/-- zt_gc.c 114-139 `dump_elist`. -/
def dumpList (ptr : Nat → List Byte) (name : List Byte) (p : Addr) (fuel : Nat) (G : Gc) : Outcome (List Byte) :=
  dumpLoop ptr name.length p G fuel (G.H.next p) true 0 >>= fun body => .ok (name ++ lit " " ++ ptr p ++ lit " [" ++ body ++ lit "]\n")

/-- zt_gc.c 406-417 `zt_gc_print_heap`; `l1`, `l2`, `l3` are the addresses of the three list heads of the collector. -/
def printHeap (ptr : Nat → List Byte) (l1 l2 l3 : Addr) (fuel : Nat) (G : Gc) : Outcome (List Byte) :=
  dumpList ptr (lit "Black") G.black fuel G >>= fun b => dumpList ptr (lit "Grey") G.grey fuel G >>= fun g => dumpList ptr (lit "White") G.white fuel G >>= fun w =>
    .ok (lit "l1: " ++ ptr l1 ++ lit " l2: " ++ ptr l2 ++ lit " l3: " ++ ptr l3 ++ lit "\nblack: " ++ ptr G.black ++ lit " grey: " ++ ptr G.grey ++ lit " white: " ++ ptr G.white ++
      lit "\nscan: " ++ ptr G.scan ++ lit "\n" ++ b ++ g ++ w)

/-! ## Proofs -/

/-- The state after zt_gc_unregister. -/
def dropped (G : Gc) (v : Addr) : Gc := { put G v none with H := EList.remove G.H v, allocs := G.allocs + 1 }

theorem unregister_eq {G : Gc} {v : Addr} (hv : (G.obj v).isSome) (fuel : Nat) : unregister fuel G v = .ok (dropped G v) := by
  obtain ⟨o, ho⟩ := Option.isSome_iff_exists.1 hv
  rw [unregister, loadOk ho]
  show (if G.allocs + 1 < G.allocsBefore then collect fuel (dropped G v) false else .ok (dropped G v)) = _
  split
  · rename_i h
    rw [collect, if_pos]
    have h1 : (dropped G v).allocs = G.allocs + 1 := rfl
    have h2 : (dropped G v).allocsBefore = G.allocsBefore := rfl
    simp [h1, h2, h]
  · rfl

/-- The objects chosen by `drop` may be unregistered, at any time and in any order. -/
def Droppable (G : Gc) (drop : Addr → Bool) : Prop := ∀ x, drop x = true → G.scan ≠ x ∧ ∀ y o, G.obj y = some o → y ≠ x → x ∉ o.kids

theorem next_of {H : Heap} {h x : Addr} {pre rest : List Addr} (L : IsList H h (pre ++ x :: rest)) : H.next x = rest.headD h := by
  have h1 := ((EList.linked_append H h h x pre rest).mp L.1).2
  cases rest with
  | nil => simp only [EList.Linked] at h1; exact h1.1
  | cons y ys => simp only [EList.Linked] at h1; exact h1.1

theorem next_first {H : Heap} {h : Addr} {xs : List Addr} (L : IsList H h xs) : H.next h = xs.headD h := by
  have h1 := L.1
  cases xs with
  | nil => simp only [EList.Linked] at h1; exact h1.1
  | cons y ys => simp only [EList.Linked] at h1; exact h1.1

/-- What a visit changes. -/
structure After (G0 : Gc) (ops : List Op) (drop : Addr → Bool) (G : Gc) (xs : List Addr) (G' : Gc) : Prop where
  hist : Hist G0 (ops ++ (xs.filter drop).map .unregister) G'
  obj : ∀ x, G'.obj x = if x ∈ xs ∧ drop x = true then none else G.obj x
  black : G'.black = G.black
  grey : G'.grey = G.grey
  white : G'.white = G.white
  scan : G'.scan = G.scan

theorem After.droppable {G0 : Gc} {ops : List Op} {drop : Addr → Bool} {G G' : Gc} {xs : List Addr} (a : After G0 ops drop G xs G') (d : Droppable G drop) : Droppable G' drop := by
  intro x hx
  obtain ⟨h1, h2⟩ := d x hx
  refine ⟨by rw [a.scan]; exact h1, fun y o ho => h2 y o ?_⟩
  rw [a.obj] at ho
  split at ho
  · cases ho
  · exact ho

theorem After.trans {G0 : Gc} {ops : List Op} {drop : Addr → Bool} {G G1 G2 : Gc} {xs ys : List Addr} (a : After G0 ops drop G xs G1)
    (b : After G0 (ops ++ (xs.filter drop).map .unregister) drop G1 ys G2) : After G0 ops drop G (xs ++ ys) G2 := by
  refine ⟨?_, ?_, b.black.trans a.black, b.grey.trans a.grey, b.white.trans a.white, b.scan.trans a.scan⟩
  · rw [List.filter_append, List.map_append, ← List.append_assoc]; exact b.hist
  · intro x
    rw [b.obj, a.obj]
    have := List.mem_append (a := x) (s := xs) (t := ys)
    grind

theorem hist_drop {G0 : Gc} {ops : List Op} {G : Gc} (h : Hist G0 ops G) {x : Addr} (hx : (G.obj x).isSome) (hs : G.scan ≠ x) (hk : ∀ y o, G.obj y = some o → y ≠ x → x ∉ o.kids) :
    Hist G0 (ops ++ [.unregister x]) (dropped G x) :=
  .call h ⟨hx, hs, hk⟩ ⟨0, fun fuel _ => unregister_eq hx fuel⟩

theorem each_spec (drop : Addr → Bool) (hd : Gc → Addr) (hhd : ∀ G v, hd (dropped G v) = hd G) (ty : Nat) {G0 : Gc} : ∀ (rest pre : List Addr) {G : Gc} {ops : List Op} {A : Abs},
    Hist G0 ops G → Rep G.H A → A (hd G) = some (pre ++ rest) → (∀ x ∈ rest, (G.obj x).isSome) → Droppable G drop →
    ∃ G', (∀ (σ : Type) (f : σ → Addr → Nat → σ) (s : σ) (fu fuel : Nat), rest.length < fuel →
        eachLoop (visitCb f drop fu) hd ty fuel s G (rest.headD (hd G)) (G.H.next (rest.headD (hd G))) = .ok (rest.foldl (fun s x => f s x ty) s, G')) ∧
      After G0 ops drop G rest G' ∧ Rep G'.H (A.set (hd G) (some (pre ++ rest.filter fun x => !drop x))) ∧ ((∀ x ∈ rest, drop x = false) → G' = G) := by
  intro rest
  induction rest with
  | nil =>
      intro pre G ops A h R hA hx D
      refine ⟨G, fun σ f s fu fuel hf => ?_, ⟨by simpa using h, by simp, rfl, rfl, rfl, rfl⟩, ?_, fun _ => rfl⟩
      · obtain ⟨n, rfl⟩ : ∃ n, fuel = n + 1 := ⟨fuel - 1, by simp at hf; omega⟩
        rw [eachLoop, if_neg (by simp)]; rfl
      · refine Eq.mp (congrArg _ ?_) R
        funext y; rw [EList.set_eq]; split
        · rename_i he; rw [he, hA]; simp
        · rfl
  | cons x rest ih =>
      intro pre G ops A h R hA hx D
      have L := R.lists _ _ hA
      have hne : x ≠ hd G := by
        rintro he
        have := L.2
        rw [← he] at this
        simp at this
      obtain ⟨o, ho⟩ := Option.isSome_iff_exists.1 (hx x (by simp))
      have hnx : x ∉ rest := by have := L.2; grind
      have hnext := next_of L
      cases hdr : drop x with
      | false =>
          obtain ⟨G', e, a, R', id⟩ := ih (pre ++ [x]) h R (by rw [hA]; simp) (fun y hy => hx y (by simp [hy])) D
          refine ⟨G', fun σ f s fu fuel hf => ?_, ?_, ?_, fun hall => id fun y hy => hall y (by simp [hy])⟩
          · obtain ⟨n, rfl⟩ : ∃ n, fuel = n + 1 := ⟨fuel - 1, by simp at hf; omega⟩
            have hcb : visitCb f drop fu s G x ty = .ok (f s x ty, G) := by simp [visitCb, loadOk ho, hdr]
            rw [List.headD_cons, eachLoop, if_pos hne, hcb, Outcome.ok_bind, hnext]
            exact e σ f (f s x ty) fu n (by simp at hf; omega)
          · refine ⟨?_, ?_, a.black, a.grey, a.white, a.scan⟩
            · rw [List.filter_cons, if_neg (by simp [hdr])]; exact a.hist
            · intro y
              rw [a.obj]
              grind
          · refine Eq.mp (congrArg _ ?_) R'
            rw [List.filter_cons, if_pos (by simp [hdr])]; simp
      | true =>
          have hD := D x hdr
          have h1 := hist_drop h (by simp [ho]) hD.1 hD.2
          have R1 : Rep (dropped G x).H (A.set (hd G) (some (pre ++ rest))) := EList.step_rep G.H _ _ (.remove x) R (.remove hA)
          have hobj : ∀ y, (dropped G x).obj y = if y = x then none else G.obj y := fun y => rfl
          have a1 : After G0 ops drop G [x] (dropped G x) := by
            refine ⟨by simpa [hdr] using h1, fun y => ?_, rfl, rfl, rfl, rfl⟩
            rw [hobj]; simp only [List.mem_singleton]; grind
          obtain ⟨G', e, a, R', -⟩ := ih pre (G := dropped G x) (ops := ops ++ [.unregister x]) h1 R1 (by rw [hhd, EList.set_eq, if_pos rfl]) (fun y hy => by
            rw [hobj, if_neg (by rintro rfl; exact hnx hy)]; exact hx y (by simp [hy])) (a1.droppable D)
          rw [hhd] at e R'
          refine ⟨G', fun σ f s fu fuel hf => ?_, ?_, ?_, fun hall => ?_⟩
          · obtain ⟨n, rfl⟩ : ∃ n, fuel = n + 1 := ⟨fuel - 1, by simp at hf; omega⟩
            have hcb : visitCb f drop fu s G x ty = .ok (f s x ty, dropped G x) := by simp [visitCb, loadOk ho, hdr, unregister_eq (fuel := fu) (by simp [ho] : (G.obj x).isSome)]
            rw [List.headD_cons, eachLoop, if_pos hne, hcb, Outcome.ok_bind, hnext]
            exact e σ f (f s x ty) fu n (by simp at hf; omega)
          · have := After.trans a1 (ys := rest) (G2 := G') (by simpa [hdr] using a)
            simpa using this
          · refine Eq.mp (congrArg _ ?_) R'
            rw [List.filter_cons, if_neg (by simp [hdr])]
            funext y; simp only [EList.set_eq]; split <;> rfl
          · have := hall x (by simp)
            rw [hdr] at this; cases this

/-- The objects of three lists with their kinds. -/
def tour (bl gr wh : List Addr) : List (Addr × Nat) := bl.map (·, 0) ++ gr.map (·, 1) ++ wh.map (·, 2)

theorem forEach_spec {G0 : Gc} {ops : List Op} {G : Gc} (h : Hist G0 ops G) {bl be ah wh : List Addr} (T : Top G bl be ah wh) (drop : Addr → Bool) (D : Droppable G drop) :
    ∃ G', (∀ (σ : Type) (f : σ → Addr → Nat → σ) (s : σ), Runs (fun fuel => forEach fuel (visitCb f drop fuel) s G)
        ((tour bl (be ++ ah) wh).foldl (fun s v => f s v.1 v.2) s, G')) ∧ After G0 ops drop G (bl ++ (be ++ ah) ++ wh) G' ∧
      ((∀ x, drop x = false) → G' = G) := by
  have I := T.inv
  have L := I.lists
  have bg := L.bg; have bw := L.bw; have gw := L.gw
  have hsome : ∀ x, x ∈ bl ∨ x ∈ be ++ ah ∨ x ∈ wh → (G.obj x).isSome := fun x hx => (I.dom x).2 (by simp only [List.mem_append] at hx; grind)
  have P := I.parts
  obtain ⟨G1, e1, a1, R1, i1⟩ := each_spec drop Gc.black (fun _ _ => rfl) 0 bl [] h L.rep (by simp [three]) (fun x hx => hsome x (.inl hx)) D
  have D1 := a1.droppable D
  obtain ⟨G2, e2, a2, R2, i2⟩ := each_spec drop Gc.grey (fun _ _ => rfl) 1 (be ++ ah) [] a1.hist R1 (by
      rw [a1.grey, EList.set_eq, if_neg bg.symm]; simp [three, bg.symm]) (fun x hx => by
      rw [a1.obj, if_neg]
      · exact hsome x (.inr (.inl hx))
      · rw [List.mem_append] at hx; have := P x; grind) D1
  have D2 := a2.droppable D1
  obtain ⟨G3, e3, a3, R3, i3⟩ := each_spec drop Gc.white (fun _ _ => rfl) 2 wh [] a2.hist R2 (by
      rw [a2.white, a1.white, a1.grey, EList.set_eq, if_neg gw.symm, EList.set_eq, if_neg bw.symm]; simp [three, bw.symm, gw.symm]) (fun x hx => by
      rw [a2.obj, if_neg, a1.obj, if_neg]
      · exact hsome x (.inr (.inr hx))
      · have := P x; grind
      · rw [List.mem_append]; have := P x; grind) D2
  refine ⟨G3, fun σ f s => ⟨bl.length + (be ++ ah).length + wh.length + 1, fun fuel hf => ?_⟩, (a1.trans a2).trans (by simpa [List.append_assoc] using a3), fun hall => ?_⟩
  · have f1 := next_first L.black
    have f2 : G1.H.next G1.grey = (be ++ ah).headD G1.grey := next_first (R1.lists _ _ (by rw [a1.grey, EList.set_eq, if_neg bg.symm]; simp [three, bg.symm]))
    have f3 : G2.H.next G2.white = wh.headD G2.white := next_first (R2.lists _ _ (by
      rw [a2.white, a1.white, a1.grey, EList.set_eq, if_neg gw.symm, EList.set_eq, if_neg bw.symm]; simp [three, bw.symm, gw.symm]))
    have q1 := e1 σ f s fuel fuel (by omega)
    have q2 := fun s => e2 σ f s fuel fuel (by omega)
    have q3 := fun s => e3 σ f s fuel fuel (by omega)
    show forEach fuel (visitCb f drop fuel) s G = _
    rw [forEach, eachList, f1, q1, Outcome.ok_bind, eachList]
    dsimp only
    rw [f2, q2, Outcome.ok_bind, eachList]
    dsimp only
    rw [f3, q3]
    simp only [tour, List.foldl_append, List.foldl_map]
  · rw [i3 (fun x _ => hall x), i2 (fun x _ => hall x), i1 (fun x _ => hall x)]

theorem tour_fst (bl gr wh : List Addr) : (tour bl gr wh).map (·.1) = bl ++ gr ++ wh := by
  simp [tour, Function.comp_def]

theorem mem_tour {bl gr wh : List Addr} {x : Addr} {t : Nat} : (x, t) ∈ tour bl gr wh ↔ t = 0 ∧ x ∈ bl ∨ t = 1 ∧ x ∈ gr ∨ t = 2 ∧ x ∈ wh := by
  simp only [tour, List.mem_append, List.mem_map, Prod.mk.injEq]
  grind

theorem tour_kind (bl gr wh : List Addr) : ofKind 0 (tour bl gr wh) = bl ∧ ofKind 1 (tour bl gr wh) = gr ∧ ofKind 2 (tour bl gr wh) = wh := by
  have ht : ∀ l : List Addr, l.filter (fun _ => true) = l := fun l => List.filter_eq_self.2 (by simp)
  have hf : ∀ l : List Addr, l.filter (fun _ => false) = [] := fun l => List.filter_eq_nil_iff.2 (by simp)
  simp [ofKind, tour, List.filter_append, List.filter_map, Function.comp_def, ht, hf]

theorem tour_spec {G : Gc} {bl be ah wh : List Addr} (I : Inv G bl be ah wh) : Tour (view G) (tour bl (be ++ ah) wh) := by
  have P := I.parts
  have n1 := I.nd_black; have n2 := I.nd_grey; have n3 := I.nd_white
  refine ⟨?_, fun x => ?_, ?_, ?_, ?_, ?_⟩
  · rw [tour_fst, List.nodup_append, List.nodup_append]
    refine ⟨⟨n1, n2, ?_⟩, n3, ?_⟩
    · intro x hx y hy he
      subst he
      have := P x
      grind
    · intro x hx y hy he
      subst he
      have := P x
      grind
  · rw [tour_fst]
    have := I.dom x
    simp only [view, Option.isSome_map, List.mem_append, this]
    grind
  · rintro ⟨x, t⟩ h
    rw [mem_tour] at h
    show t ≤ 2
    omega
  · generalize be ++ ah = gr
    simp only [tour, List.map_append, List.map_map, Function.comp_def, List.pairwise_append, List.mem_append, List.mem_map]
    refine ⟨⟨?_, ?_, ?_⟩, ?_, ?_⟩
    · exact List.pairwise_map.2 (List.pairwise_of_forall (fun _ _ => Nat.le_refl _))
    · exact List.pairwise_map.2 (List.pairwise_of_forall (fun _ _ => Nat.le_refl _))
    · grind
    · exact List.pairwise_map.2 (List.pairwise_of_forall (fun _ _ => Nat.le_refl _))
    · grind
  · rintro ⟨x, t⟩ h p hp hp1
    rw [mem_tour] at h
    simp only [view, Option.map_eq_some_iff] at hp
    obtain ⟨o, ho, rfl⟩ := hp
    show t = 1
    rcases h with ⟨h0, h⟩ | ⟨h0, _⟩ | ⟨h0, h⟩
    · have := (I.colB x o ho h).2.1
      simp only at hp1; rw [this] at hp1; cases hp1
    · exact h0
    · have := (I.colW x o ho h).2
      simp only at hp1; rw [this] at hp1; cases hp1
  · intro x p k hx hp hk
    rw [mem_tour] at hx ⊢
    simp only [view, Option.map_eq_some_iff] at hp
    obtain ⟨o, ho, rfl⟩ := hp
    have hb : x ∈ bl := by grind
    have := (I.colB x o ho hb).2.2 k hk
    grind

/-- **C122** After every legal history zt_gc_for_each hands each known object to the callback exactly once, the black ones first, then the grey and the white ones; the callback may take the object
it is given back from the collector (if nothing else refers to it and it is not the next to be scanned). The calls see the same objects in the same order whatever the callback does, and the
collector is afterwards as if the dropped objects had been unregistered one by one. Without dropping nothing changes. When no cycle is under way no object is black. -/
theorem c122_each (H : Heap) {l1 l2 l3 : Addr} (h12 : l1 ≠ l2) (h13 : l1 ≠ l3) (h23 : l2 ≠ l3) (m n : Int) {ops : List Op} {G : Gc} (h : Hist (init H l1 l2 l3 m n) ops G) :
    ∃ vs, Tour (view G) vs ∧ (Idle G → ∀ v ∈ vs, v.2 ≠ 0) ∧
      ∀ drop : Addr → Bool, (∀ x, drop x = true → G.scan ≠ x ∧ ∀ y ks p, view G y = some (p, ks) → y ≠ x → x ∉ ks) →
        ∃ G', (∀ (σ : Type) (f : σ → Addr → Nat → σ) (s : σ), Runs (fun fuel => forEach fuel (visitCb f drop fuel) s G) (vs.foldl (fun s v => f s v.1 v.2) s, G')) ∧
          Hist (init H l1 l2 l3 m n) (ops ++ ((vs.map (·.1)).filter drop).map .unregister) G' ∧ (∀ x, view G' x = if drop x then none else view G x) ∧ ((∀ x, drop x = false) → G' = G) := by
  obtain ⟨bl, be, ah, wh, T⟩ := hist_good (good_init H h12 h13 h23 m n) h
  refine ⟨tour bl (be ++ ah) wh, tour_spec T.inv, ?_, fun drop hd => ?_⟩
  · rintro hi ⟨x, t⟩ hv h0
    have hb := (T.scan_grey.1 hi).1
    rw [mem_tour, hb] at hv
    have h0 : t = 0 := h0
    simp at hv
    omega
  · have D : Droppable G drop := fun x hx => ⟨(hd x hx).1, fun y o ho => (hd x hx).2 y o.kids o.prot (by simp [view, ho])⟩
    obtain ⟨G', e, a, i⟩ := forEach_spec h T drop D
    refine ⟨G', e, by rw [tour_fst]; exact a.hist, fun x => ?_, i⟩
    have hdm := T.inv.dom x
    rw [view, a.obj]
    by_cases hx : drop x = true
    · rw [if_pos hx]
      split
      · rfl
      · rename_i hn
        have : ¬ (G.obj x).isSome = true := by rw [hdm]; simp only [List.mem_append] at hn; grind
        cases hc : G.obj x with
        | none => rfl
        | some _ => rw [hc] at this; simp at this
    · rw [if_neg hx, if_neg (by simp [hx])]; rfl

/-- The list of all calls of the callback. -/
def visits (fuel : Nat) (G : Gc) : Outcome (List (Addr × Nat) × Gc) := forEach fuel (visitCb (fun s x ty => s ++ [(x, ty)]) (fun _ => false) fuel) [] G

theorem foldl_snoc (vs acc : List (Addr × Nat)) : vs.foldl (fun s v => s ++ [(v.1, v.2)]) acc = acc ++ vs := by
  induction vs generalizing acc with
  | nil => simp
  | cons v vs ih => rw [List.foldl_cons, ih]; simp

theorem visits_tour {G0 : Gc} {ops : List Op} {G : Gc} (h : Hist G0 ops G) {bl be ah wh : List Addr} (T : Top G bl be ah wh) : Runs (fun fuel => visits fuel G) (tour bl (be ++ ah) wh, G) := by
  obtain ⟨G', e, -, i⟩ := forEach_spec h T (fun _ => false) (fun x hx => by cases hx)
  have := e _ (fun s x ty => s ++ [(x, ty)]) []
  rw [foldl_snoc, i fun _ => rfl] at this
  exact this

/-- **C122** The kinds predict the next full collection (if collecting is enabled): it releases exactly the objects of kind 2 that cannot be reached from an object of kind 0 or 1. -/
theorem c122_collect (H : Heap) {l1 l2 l3 : Addr} (h12 : l1 ≠ l2) (h13 : l1 ≠ l3) (h23 : l2 ≠ l3) (m n : Int) {ops : List Op} {G G1 G2 : Gc} (h : Hist (init H l1 l2 l3 m n) ops G)
    {vs : List (Addr × Nat)} (hv : Runs (fun fuel => visits fuel G) (vs, G1)) (hen : 0 ≤ G.enabled) (hc : Runs (fun fuel => exec fuel G (.collect true)) G2) :
    ∀ x, ((view G x).isSome ∧ view G2 x = none) ↔ (x, 2) ∈ vs ∧ ∀ y t, (y, t) ∈ vs → t ≤ 1 → ¬ Path (view G) y x := by
  obtain ⟨bl, be, ah, wh, T⟩ := hist_good (good_init H h12 h13 h23 m n) h
  have hvs := Runs.unique hv (visits_tour h T)
  cases hvs
  obtain ⟨G2', bl', be', ah', wh', rel, e, T', S, C, en, sub, fin⟩ := collect_spec T true (fuel := ah.length + wh.length + 2) (Nat.le_refl _)
  have hG2 : G2 = G2' := Runs.unique hc (Runs.of (fun n => exec_mono n G (.collect true)) e)
  subst hG2
  obtain ⟨-, -, q⟩ := fin rfl hen
  have R := S.release
  have P := T.inv.parts
  intro x
  constructor
  · rintro ⟨h1, h2⟩
    have hx : x ∈ rel := by
      rw [R.after] at h2
      split at h2
      · assumption
      · rw [h2] at h1; cases h1
    refine ⟨mem_tour.2 (.inr (.inr ⟨rfl, sub x hx⟩)), fun y t hy ht => R.unreachable x hx y fun hr => ?_⟩
    have hyw := sub y hr
    rw [mem_tour, List.mem_append] at hy
    have := P y
    grind
  · rintro ⟨h1, h2⟩
    have hxw : x ∈ wh := by rw [mem_tour] at h1; grind
    have hs : (G.obj x).isSome := (T.inv.dom x).2 (.inr (.inr (.inr hxw)))
    refine ⟨by simpa [view] using hs, ?_⟩
    cases hg : view G2 x with
    | none => rfl
    | some p =>
        exfalso
        have hsome : (G2.obj x).isSome := by
          simp only [view, Option.map_eq_some_iff] at hg
          obtain ⟨o, ho, -⟩ := hg
          simp [ho]
        obtain ⟨y, t, hy, ht, hp⟩ := q (fun z => ∃ y t, (y, t) ∈ tour bl (be ++ ah) wh ∧ t ≤ 1 ∧ Path (view G) y z) (by
          rintro z o ho ⟨y, t, hy, ht, hp⟩ k hk
          refine ⟨y, t, hy, ht, ?_⟩
          obtain ⟨ok, hok⟩ := Option.isSome_iff_exists.1 (T.inv.closed z o ho k hk)
          clear hy
          induction hp with
          | refl _ => exact .step (p := (o.prot, o.kids)) (by simp [view, ho]) hk (.refl (p := (ok.prot, ok.kids)) (by simp [view, hok]))
          | step h1 h2 _ ih => exact .step h1 h2 (ih ho)) (by
          intro z hz
          have hzs : (G.obj z).isSome := (T.inv.dom z).2 (by grind)
          obtain ⟨oz, hoz⟩ := Option.isSome_iff_exists.1 hzs
          have hr : Path (view G) z z := .refl (p := (oz.prot, oz.kids)) (by simp [view, hoz])
          rcases hz with hz | hz | hz
          · exact ⟨z, 0, mem_tour.2 (.inl ⟨rfl, hz⟩), by omega, hr⟩
          · exact ⟨z, 1, mem_tour.2 (.inr (.inl ⟨rfl, List.mem_append.2 (.inl hz)⟩)), by omega, hr⟩
          · exact ⟨z, 1, mem_tour.2 (.inr (.inl ⟨rfl, List.mem_append.2 (.inr hz)⟩)), by omega, hr⟩) x hsome
        exact h2 y t hy ht hp

theorem dumpLoop_spec (ptr : Nat → List Byte) (len : Nat) (h : Addr) (G : Gc) : ∀ (rest pre : List Addr) (fuel : Nat), IsList G.H h (pre ++ rest) → (∀ x ∈ rest, (G.obj x).isSome) → rest.length < fuel →
    dumpLoop ptr len h G fuel (rest.headD h) true (pre.length % 10) = .ok (rest.mapIdx fun i x =>
      (if (view G x).map (·.1) = some true then lit "p(" ++ ptr x ++ lit ")" else ptr x) ++ (if pre.length + i + 1 < pre.length + rest.length then lit ", " else []) ++
      (if (pre.length + i + 1) % 10 = 0 then lit "\n" ++ List.replicate (len + 2) 32 else [])).flatten := by
  intro rest
  induction rest with
  | nil =>
      intro pre fuel L hs hf
      obtain ⟨n, rfl⟩ : ∃ n, fuel = n + 1 := ⟨fuel - 1, by simp at hf; omega⟩
      rw [List.headD_nil, dumpLoop, if_pos rfl]; rfl
  | cons x rest ih =>
      intro pre fuel L hs hf
      obtain ⟨n, rfl⟩ : ∃ n, fuel = n + 1 := ⟨fuel - 1, by simp at hf; omega⟩
      have hne : x ≠ h := by
        rintro he
        have := L.2
        rw [← he] at this
        simp at this
      obtain ⟨o, ho⟩ := Option.isSome_iff_exists.1 (hs x (by simp))
      have hnext := next_of L
      have hih := ih (pre ++ [x]) n (by simpa using L) (fun y hy => hs y (by simp [hy])) (by simp at hf; omega)
      have hview : (view G x).map (·.1) = some true ↔ o.prot = true := by simp [view, ho]
      rw [List.headD_cons, dumpLoop, if_neg hne]
      dsimp only
      rw [loadOk ho, Outcome.ok_bind, hnext]
      have hlast : rest.headD h = h ↔ rest = [] := by
        cases rest with
        | nil => simp
        | cons y ys =>
            have : y ≠ h := by
              rintro rfl
              have := L.2
              simp at this
            simp [this]
      have hcount : (if pre.length % 10 + 1 ≥ 10 then 0 else pre.length % 10 + 1) = (pre ++ [x]).length % 10 := by
        rw [List.length_append, List.length_singleton]; split <;> omega
      have hbrk : (pre.length % 10 + 1 ≥ 10) ↔ (pre.length + 0 + 1) % 10 = 0 := by omega
      have hflat : ∀ (c : Bool), rest = [] ∨ c = true → dumpLoop ptr len h G n (rest.headD h) c ((pre ++ [x]).length % 10) = dumpLoop ptr len h G n (rest.headD h) true ((pre ++ [x]).length % 10) := by
        intro c hc
        rcases hc with hc | hc
        · rw [hc, List.headD_nil]
          obtain ⟨n', rfl⟩ : ∃ n', n = n' + 1 := ⟨n - 1, by simp at hf; omega⟩
          rw [dumpLoop, dumpLoop, if_pos rfl, if_pos rfl]
        · rw [hc]
      rw [hcount, hflat (if rest.headD h = h then false else true) (by
        by_cases hr : rest = []
        · exact .inl hr
        · exact .inr (if_neg fun he => hr (hlast.1 he))), hih, Outcome.ok_bind, List.mapIdx_cons, List.flatten_cons]
      have hsh : ∀ i, (pre ++ [x]).length + i = pre.length + (i + 1) := by intro i; simp; omega
      have hlen : (pre ++ [x]).length + rest.length = pre.length + (x :: rest).length := by simp; omega
      simp only [hlen, hsh]
      have hc2 : (if rest.headD h = h then false else true) = decide (pre.length + 0 + 1 < pre.length + (x :: rest).length) := by
        cases rest with
        | nil => simp
        | cons y ys =>
            rw [if_neg (by rw [hlast]; simp)]
            symm
            simp
      rw [hc2]
      simp only [hbrk, hview, decide_eq_true_eq]
      congr 1
      by_cases hp : o.prot = true
      · rw [if_pos hp, if_pos hp]
      · rw [if_neg hp, if_neg hp]

theorem dumpList_spec (ptr : Nat → List Byte) (name : List Byte) {h : Addr} {G : Gc} {xs : List Addr} (L : IsList G.H h xs) (hs : ∀ x ∈ xs, (G.obj x).isSome) {fuel : Nat} (hf : xs.length < fuel) :
    dumpList ptr name h fuel G = .ok (listText ptr (view G) name h xs) := by
  have e := dumpLoop_spec ptr name.length h G xs [] fuel L hs hf
  rw [dumpList, next_first L]
  simp only [List.length_nil, Nat.zero_mod, Nat.zero_add] at e
  rw [e]
  rfl

/-- **C122** zt_gc_print_heap prints, after every legal history, the addresses of the collector's parts and then exactly the objects zt_gc_for_each visits, by kind and in the same order. -/
theorem c122_print (ptr : Nat → List Byte) (H : Heap) {l1 l2 l3 : Addr} (h12 : l1 ≠ l2) (h13 : l1 ≠ l3) (h23 : l2 ≠ l3) (m n : Int) {ops : List Op} {G G1 : Gc}
    (h : Hist (init H l1 l2 l3 m n) ops G) {vs : List (Addr × Nat)} (hv : Runs (fun fuel => visits fuel G) (vs, G1)) :
    Runs (fun fuel => printHeap ptr l1 l2 l3 fuel G)
      (lit "l1: " ++ ptr l1 ++ lit " l2: " ++ ptr l2 ++ lit " l3: " ++ ptr l3 ++ lit "\nblack: " ++ ptr G.black ++ lit " grey: " ++ ptr G.grey ++ lit " white: " ++ ptr G.white ++
        lit "\nscan: " ++ ptr G.scan ++ lit "\n" ++ listText ptr (view G) (lit "Black") G.black (ofKind 0 vs) ++ listText ptr (view G) (lit "Grey") G.grey (ofKind 1 vs) ++
        listText ptr (view G) (lit "White") G.white (ofKind 2 vs)) := by
  obtain ⟨bl, be, ah, wh, T⟩ := hist_good (good_init H h12 h13 h23 m n) h
  have hvs := Runs.unique hv (visits_tour h T)
  cases hvs
  obtain ⟨k0, k1, k2⟩ := tour_kind bl (be ++ ah) wh
  rw [k0, k1, k2]
  have I := T.inv
  have hsome : ∀ x, x ∈ bl ∨ x ∈ be ++ ah ∨ x ∈ wh → (G.obj x).isSome := fun x hx => (I.dom x).2 (by simp only [List.mem_append] at hx; grind)
  refine ⟨bl.length + (be ++ ah).length + wh.length + 1, fun fuel hf => ?_⟩
  show printHeap ptr l1 l2 l3 fuel G = _
  rw [printHeap, dumpList_spec ptr _ I.lists.black (fun x hx => hsome x (.inl hx)) (by omega), Outcome.ok_bind,
    dumpList_spec ptr _ I.lists.grey (fun x hx => hsome x (.inr (.inl hx))) (by omega), Outcome.ok_bind,
    dumpList_spec ptr _ I.lists.white (fun x hx => hsome x (.inr (.inr hx))) (by omega), Outcome.ok_bind]

/-! ## The list heads -/

/-- The heads are the same, the black and the white one possibly exchanged. -/
def Heads (G G' : Gc) : Prop := G'.grey = G.grey ∧ (G'.black = G.black ∧ G'.white = G.white ∨ G'.black = G.white ∧ G'.white = G.black)

theorem Heads.refl (G : Gc) : Heads G G := ⟨rfl, .inl ⟨rfl, rfl⟩⟩

theorem Heads.trans {A B C : Gc} (h : Heads A B) (k : Heads B C) : Heads A C := by
  unfold Heads at *
  grind

theorem heads_clearWhite {G G' : Gc} {v : Addr} (h : clearWhite G v = .ok G') : Heads G G' := by
  obtain ⟨o, -, h⟩ := Outcome.bind_eq_ok.1 h
  cases h
  exact Heads.refl G

theorem heads_mark {G G' : Gc} {v : Addr} {r : Bool} (h : mark G v = .ok (r, G')) : Heads G G' := by
  obtain ⟨o, -, h⟩ := Outcome.bind_eq_ok.1 h
  split at h
  · obtain ⟨G1, h1, h⟩ := Outcome.bind_eq_ok.1 h
    cases h
    have k := heads_clearWhite h1; exact k
  · cases h; exact Heads.refl G

theorem heads_markAll : ∀ {ks : List Addr} {G G' : Gc}, markAll G ks = .ok G' → Heads G G' := by
  intro ks
  induction ks with
  | nil => intro G G' h; cases h; exact Heads.refl G
  | cons k ks ih =>
      intro G G' h
      obtain ⟨⟨r, G1⟩, h1, h⟩ := Outcome.bind_eq_ok.1 h
      exact (heads_mark h1).trans (ih h)

theorem heads_freeLoop {hd : Addr} : ∀ {fuel : Nat} {G G' : Gc} {p n : Addr}, freeLoop hd fuel G p n = .ok G' → Heads G G' := by
  intro fuel
  induction fuel with
  | zero => intro G G' p n h; cases h
  | succ fuel ih =>
      intro G G' p n h
      rw [freeLoop] at h
      split at h
      · obtain ⟨o, -, h⟩ := Outcome.bind_eq_ok.1 h
        have := ih h
        exact this
      · cases h; exact Heads.refl G

theorem heads_switch {fuel : Nat} {G G' : Gc} (h : switch fuel G = .ok G') : Heads G G' := by
  obtain ⟨G1, h1, h⟩ := Outcome.bind_eq_ok.1 h
  cases h
  have k : Heads G G1 := by
    unfold freeWhite at h1
    split at h1
    · cases h1; exact Heads.refl G
    · have := heads_freeLoop h1; exact this
  exact k.trans ⟨rfl, .inr ⟨rfl, rfl⟩⟩

theorem heads_scanStep {G G' : Gc} (h : scanStep G = .ok G') : Heads G G' := by
  obtain ⟨G1, h1, h⟩ := Outcome.bind_eq_ok.1 h
  obtain ⟨o, -, h⟩ := Outcome.bind_eq_ok.1 h
  obtain ⟨G2, h2, h⟩ := Outcome.bind_eq_ok.1 h
  obtain ⟨o2, -, h⟩ := Outcome.bind_eq_ok.1 h
  cases h
  refine ((heads_clearWhite h1).trans (heads_markAll h2)).trans ?_
  split <;> exact ⟨rfl, .inl ⟨rfl, rfl⟩⟩

theorem heads_scanLoop {full : Bool} : ∀ {fuel : Nat} {m : Int} {G G' : Gc}, scanLoop full fuel m G = .ok G' → Heads G G' := by
  intro fuel
  induction fuel with
  | zero => intro m G G' h; cases h
  | succ fuel ih =>
      intro m G G' h
      rw [scanLoop] at h
      split at h
      · have := heads_switch h; exact this
      · obtain ⟨G1, h1, h⟩ := Outcome.bind_eq_ok.1 h
        split at h
        · cases h; have k := heads_scanStep h1; exact k
        · exact (heads_scanStep h1).trans (ih h)

theorem heads_collect {fuel : Nat} {G G' : Gc} {full : Bool} (h : collect fuel G full = .ok G') : Heads G G' := by
  rw [collect] at h
  split at h
  · cases h; exact Heads.refl G
  · have k := heads_scanLoop h
    refine Heads.trans (B := startScan { G with enabled := G.enabled - 1, allocs := 0 }) ?_ k
    unfold startScan
    split <;> exact ⟨rfl, .inl ⟨rfl, rfl⟩⟩

theorem heads_protect {G G' : Gc} {v : Addr} (h : protect G v = .ok G') : Heads G G' := by
  obtain ⟨G1, h1, h⟩ := Outcome.bind_eq_ok.1 h
  obtain ⟨o, -, h⟩ := Outcome.bind_eq_ok.1 h
  cases h
  have k := heads_clearWhite h1; exact k

theorem heads_exec {fuel : Nat} {G G' : Gc} {op : Op} (h : exec fuel G op = .ok G') : Heads G G' := by
  cases op with
  | register v ks =>
      obtain ⟨G1, h1, h⟩ := Outcome.bind_eq_ok.1 h
      have k := heads_clearWhite h1
      refine Heads.trans (B := G1) k ?_
      dsimp only at h
      split at h
      · have := heads_collect h; exact this
      · cases h; exact ⟨rfl, .inl ⟨rfl, rfl⟩⟩
  | root v ks => have k := heads_protect h; exact k
  | protect v => exact heads_protect h
  | unprotect v => obtain ⟨o, -, h⟩ := Outcome.bind_eq_ok.1 h; cases h; exact Heads.refl G
  | unregister v =>
      obtain ⟨o, -, h⟩ := Outcome.bind_eq_ok.1 h
      dsimp only at h
      split at h
      · have := heads_collect h; exact this
      · cases h; exact Heads.refl G
  | store v ks => obtain ⟨o, -, h⟩ := Outcome.bind_eq_ok.1 h; cases h; exact Heads.refl G
  | mark v => obtain ⟨⟨r, G1⟩, h1, h⟩ := Outcome.bind_eq_ok.1 h; cases h; exact heads_mark h1
  | collect full => exact heads_collect h
  | enable =>
      have h : enable fuel G = .ok G' := h
      unfold enable at h
      dsimp only at h
      split at h
      · split at h
        · have := heads_collect h; exact this
        · cases h; exact Heads.refl G
      · cases h
  | disable => cases h; exact Heads.refl G

/-- **C122** The three heads printed are always those of the collector: grey is list 2, black and white are the lists 1 and 3 in one of the two orders. -/
theorem c122_heads {H : Heap} {l1 l2 l3 : Addr} {m n : Int} {ops : List Op} {G : Gc} (h : Hist (init H l1 l2 l3 m n) ops G) :
    G.grey = l2 ∧ (G.black = l1 ∧ G.white = l3 ∨ G.black = l3 ∧ G.white = l1) := by
  have k : Heads (init H l1 l2 l3 m n) G := by
    induction h with
    | start => exact Heads.refl _
    | call _ _ hr ih =>
        obtain ⟨N, hr⟩ := hr
        exact ih.trans (heads_exec (hr N (Nat.le_refl N)))
  exact k

/-! ## A case -/

theorem eachLoop_mono {σ : Type} (cb : σ → Gc → Addr → Nat → Outcome (σ × Gc)) (hd : Gc → Addr) (ty : Nat) : ∀ (n : Nat) (s : σ) (G : Gc) (p q : Addr),
    Le (eachLoop cb hd ty n s G p q) (eachLoop cb hd ty (n + 1) s G p q) := by
  intro n
  induction n with
  | zero => intro s G p q; exact Le.ub _
  | succ n ih =>
      intro s G p q
      rw [eachLoop, eachLoop]
      exact Le.ite (fun _ => Le.bind (Le.refl _) fun _ => ih _ _ _ _) fun _ => Le.refl _

theorem visits_mono (n : Nat) (G : Gc) : Le (visits n G) (visits (n + 1) G) := by
  have e : ∀ k, visits k G = forEach k (fun s G x ty => load G x >>= fun _ => .ok (s ++ [(x, ty)], G)) [] G := fun k => rfl
  rw [e, e]
  exact Le.bind (eachLoop_mono _ _ _ n _ _ _ _) fun _ => Le.bind (eachLoop_mono _ _ _ n _ _ _ _) fun _ => eachLoop_mono _ _ _ n _ _ _ _

/-- In the middle of a cycle: 10 has been scanned, 9, 8 and 11 are grey, 13 and 12 white. -/
def midway : List Op := mid ++ [.unprotect 10, .collect false]

/-- The hypotheses of the C122 theorems are met in the middle of a cycle; a callback may drop 9. -/
theorem visit_case : ∃ G, Hist G1 midway G ∧ ¬ Idle G ∧ 0 ≤ G.enabled ∧ (∃ G', Runs (fun fuel => visits fuel G) ([(10, 0), (9, 1), (8, 1), (11, 1), (13, 2), (12, 2)], G')) ∧
    ∀ x, decide (x = 9) = true → G.scan ≠ x ∧ ∀ y ks p, view G y = some (p, ks) → y ≠ x → x ∉ ks := by
  have h : (trace 40 G1 midway).any (fun G => decide (G.scan ≠ G.grey) && decide (0 ≤ G.enabled) && decide (G.scan ≠ 9) &&
      (match visits 40 G with | .ok r => r.1 == [(10, 0), (9, 1), (8, 1), (11, 1), (13, 2), (12, 2)] | _ => false) &&
      [10, 9, 8, 11, 13, 12].all fun x => (view G x).all fun p => !p.2.contains 9) = true := by decide +kernel
  rw [Option.any_eq_true_iff_get] at h
  obtain ⟨hs, h⟩ := h
  generalize hG : (trace 40 G1 midway).get hs = G at h
  have hist : Hist G1 ([] ++ midway) G := trace_hist .start (by rw [← hG]; exact (Option.some_get hs).symm)
  rw [List.nil_append] at hist
  simp only [Bool.and_eq_true, decide_eq_true_eq, List.all_eq_true] at h
  obtain ⟨⟨⟨⟨h1, h2⟩, h3⟩, h4⟩, h5⟩ := h
  split at h4
  · rename_i r hr
    obtain ⟨vs, G'⟩ := r
    have hvs : vs = _ := eq_of_beq h4
    subst hvs
    have hrun : Runs (fun fuel => visits fuel G) _ := Runs.of (fun n => visits_mono n G) hr
    refine ⟨G, hist, h1, h2, ⟨G', hrun⟩, fun x hx => ?_⟩
    have hx : x = 9 := by simpa using hx
    subst hx
    refine ⟨h3, fun y ks p hy _ => ?_⟩
    obtain ⟨bl, be, ah, wh, T⟩ := hist_good (good_init H0 (by decide) (by decide) (by decide) 1 0) hist
    have hv := Runs.unique hrun (visits_tour hist T)
    have hall := (tour_spec T.inv).all y
    rw [← (Prod.mk.inj hv).1] at hall
    have := h5 y (hall.2 (by rw [hy]; rfl))
    rw [hy] at this
    simpa using this
  · cases h4

end ZT.Gc
