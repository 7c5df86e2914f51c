import Verif.Gc.Inv

/-!
# One round of the scan, the end of a cycle, and zt_gc_collect
-/

namespace ZT.Gc

open EList (Heap)

/-- `y` can be reached from `x` by following references between known objects. -/
inductive Reach (G : Gc) : Addr → Addr → Prop
  | refl {x o} : G.obj x = some o → Reach G x x
  | step {x k y o} : G.obj x = some o → k ∈ o.kids → Reach G k y → Reach G x y

theorem Reach.trans {G : Gc} {x y z : Addr} (h : Reach G x y) (k : Reach G y z) : Reach G x z := by
  induction h with
  | refl _ => exact k
  | step h1 h2 _ ih => exact .step h1 h2 (ih k)

theorem Same.reach {G G' : Gc} (S : Same G G') {x y : Addr} (h : Reach G x y) : Reach G' x y := by
  induction h with
  | refl h =>
      obtain ⟨o', h1, _⟩ := S.obj h
      exact .refl h1
  | step h1 h2 _ ih =>
      obtain ⟨o', h3, _, h4⟩ := S.obj h1
      exact .step h3 (h4 ▸ h2) ih

theorem Same.reach' {G G' : Gc} (S : Same G G') {x y : Addr} (h : Reach G' x y) : Reach G x y := by
  induction h with
  | refl h =>
      obtain ⟨o', h1, _⟩ := S.obj' h
      exact .refl h1
  | step h1 h2 _ ih =>
      obtain ⟨o', h3, _, h4⟩ := S.obj' h1
      exact .step h3 (h4 ▸ h2) ih

/-- One round of the loop. -/
theorem scanStep_spec {G : Gc} {bl be r wh : List Addr} {a : Addr} (I : Inv G bl be (a :: r) wh) (hs : G.scan = a) :
    ∃ G' bl' be' ah' wh', scanStep G = .ok G' ∧ Inv G' bl' be' ah' wh' ∧ Same G G' ∧ G'.scan = ah'.headD G'.grey ∧ (∀ x ∈ wh', x ∈ wh) ∧
      ah'.length + wh'.length + 1 = (a :: r).length + wh.length ∧ (∀ x ∈ bl', x ∈ bl ∨ x = a) ∧ (∀ x ∈ be', x ∈ be ∨ x = a ∧ ∃ o, G.obj a = some o ∧ o.prot = true) ∧
      (∀ x ∈ ah', x ∈ r ∨ ∃ o, G.obj a = some o ∧ x ∈ o.kids) := by
  obtain ⟨o, ho⟩ := Option.isSome_iff_exists.1 ((I.dom a).2 (by simp))
  generalize hG1 : put G a (some { o with bit := !G.sense }) = G1
  have hobj1 : ∀ x, G1.obj x = if x = a then some { o with bit := !G.sense } else G.obj x := by intro x; subst hG1; rfl
  have S1 : Same G G1 := by
    subst hG1
    refine ⟨rfl, rfl, rfl, rfl, rfl, rfl, rfl, rfl, rfl, fun x => ?_⟩
    rw [hobj1]; split
    · rename_i he; rw [he, ho]; rfl
    · rfl
  have hpt := I.parts a
  have I1 : Inv G1 bl be (a :: r) wh := by
    have hH : G1.H = G.H := by subst hG1; rfl
    constructor
    · rw [hH, S1.black, S1.grey, S1.white]; exact I.lists
    · intro x
      rw [← I.dom x, hobj1]; split
      · rename_i he; rw [he, ho]; simp
      · rfl
    · intro x o' ho' hx
      have hxa : x ≠ a := fun he => hpt.2.2 (by simp) (he ▸ hx)
      rw [hobj1, if_neg hxa] at ho'
      rw [S1.sense]; exact I.colW x o' ho' hx
    · intro x o' ho' hx
      have hxa : x ≠ a := fun he => (hpt.1 (he ▸ hx)).2.1 (by simp)
      rw [hobj1, if_neg hxa] at ho'
      rw [S1.sense]; exact I.colB x o' ho' hx
    · intro x o' ho' hx
      have hxa : x ≠ a := fun he => (hpt.2.1 (he ▸ hx)).1 (by simp)
      rw [hobj1, if_neg hxa] at ho'
      rw [S1.sense]; exact I.colG x o' ho' hx
    · intro x o' ho' k hk
      obtain ⟨o'', h1, _, h2⟩ := S1.obj' ho'
      obtain ⟨ok, hok⟩ := Option.isSome_iff_exists.1 (I.closed x o'' h1 k (h2 ▸ hk))
      obtain ⟨ok', hok', _⟩ := S1.obj hok
      simp [hok']
  have hnw1 : NonWhite G1 a := ⟨_, by rw [hobj1, if_pos rfl], by rw [S1.sense]⟩
  have ho1 : G1.obj a = some { o with bit := !G.sense } := by rw [hobj1, if_pos rfl]
  obtain ⟨G2, ah2, wh2, e2, I2, S2, s2, n2, w2, a2, -, l2, nw2, hd2⟩ := markAll_spec o.kids I1 (fun k hk => I1.closed a _ ho1 k hk)
  obtain ⟨r2, rfl⟩ := hd2 a r rfl hnw1
  obtain ⟨o2, ho2, hb2⟩ := nw2 a hnw1
  obtain ⟨ox, hox, hop, hok⟩ := (S1.trans S2).obj' ho2
  rw [ho] at hox; cases hox
  have hscan2 : G2.scan = a := by rw [s2]; subst hG1; exact hs
  have hnext : G2.H.next a = r2.headD G2.grey := I2.lists.next_grey
  have hl1 : load G2 a = .ok o2 := by simp [load, ho2]
  have hr2 : ∀ x ∈ r2, x ∈ r ∨ x ∈ o.kids := by
    intro x hx
    have hxa : x ≠ a := by
      rintro rfl
      have := I2.nd_grey
      grind
    rcases a2 x (by simp [hx]) with h | h
    · rcases List.mem_cons.1 h with h | h
      · exact absurd h hxa
      · exact .inl h
    · exact .inr h
  have hrun : scanStep G = .ok { (if !o2.prot then { G2 with H := EList.add (EList.remove G2.H a) G2.black a } else G2) with scan := r2.headD G2.grey } := by
    rw [scanStep, hs, clearWhite_eq ho, hG1]
    have hl0 : load G1 a = .ok { o with bit := !G.sense } := by simp [load, ho1]
    simp only [Outcome.ok_bind, hl0, e2, hl1, hscan2, hnext]
    rfl
  have hpt2 := I2.parts a
  have hlen : r2.length + wh2.length + 1 = (a :: r).length + wh.length := by rw [← l2, List.length_cons]; omega
  cases hp : o2.prot with
  | true =>
      rw [hp] at hrun
      refine ⟨_, bl, be ++ [a], r2, wh2, hrun, ?_, ?_, rfl, w2, hlen, fun x hx => .inl hx, ?_, fun x hx => (hr2 x hx).imp id fun h => ⟨o, ho, h⟩⟩
      · constructor
        · have := I2.lists; simpa using this
        · intro x
          have := I2.dom x
          simp only [List.mem_append, List.mem_cons, List.not_mem_nil, or_false] at this ⊢
          refine Iff.trans ?_ (this.trans ?_)
          · exact Iff.rfl
          · grind
        · exact I2.colW
        · exact I2.colB
        · intro x o' ho' hx
          rcases List.mem_append.1 hx with h | h
          · exact I2.colG x o' ho' h
          · rw [List.mem_singleton] at h; subst h
            have ho'' : G2.obj x = some o' := ho'
            rw [ho2] at ho''; cases ho''
            exact ⟨hb2, fun k hk => n2 k (hok ▸ hk)⟩
        · exact I2.closed
      · exact S1.trans ⟨S2.black, S2.grey, S2.white, S2.sense, S2.enabled, S2.allocs, S2.marks, S2.before, S2.freed, S2.objs⟩
      · intro x hx
        rcases List.mem_append.1 hx with h | h
        · exact .inl h
        · rw [List.mem_singleton] at h
          exact .inr ⟨h, o, ho, by rw [hop, hp]⟩
  | false =>
      rw [hp] at hrun
      have hh := I2.heads ho2
      have hna : a ∉ bl ∧ a ∉ be ∧ a ∉ r2 ∧ a ∉ wh2 := by
        refine ⟨fun h => (hpt2.1 h).2.1 (by simp), fun h => (hpt2.2.1 h).1 (by simp), ?_, hpt2.2.2 (by simp)⟩
        have := I2.nd_grey
        grind
      have L1 := I2.lists.remove (x := a) (by simp)
      have L2 := L1.addBlack (x := a) (by simp only [Lists.Out, List.mem_cons, mem_del]; grind)
      rw [del_of_not_mem hna.1, del_append, del_of_not_mem hna.2.1, del_cons_self, del_of_not_mem hna.2.2.1, del_of_not_mem hna.2.2.2] at L2
      refine ⟨_, a :: bl, be, r2, wh2, hrun, ?_, ?_, rfl, w2, hlen, ?_, fun x hx => .inl hx, fun x hx => (hr2 x hx).imp id fun h => ⟨o, ho, h⟩⟩
      · constructor
        · exact L2
        · intro x
          have := I2.dom x
          simp only [List.mem_cons] at this ⊢
          refine Iff.trans ?_ (this.trans ?_)
          · exact Iff.rfl
          · grind
        · exact I2.colW
        · intro x o' ho' hx
          rcases List.mem_cons.1 hx with h | h
          · subst h
            have ho'' : G2.obj x = some o' := ho'
            rw [ho2] at ho''; cases ho''
            exact ⟨hb2, hp, fun k hk => n2 k (hok ▸ hk)⟩
          · exact I2.colB x o' ho' h
        · exact I2.colG
        · exact I2.closed
      · exact S1.trans ⟨S2.black, S2.grey, S2.white, S2.sense, S2.enabled, S2.allocs, S2.marks, S2.before, S2.freed, S2.objs⟩
      · intro x hx
        rcases List.mem_cons.1 hx with h | h
        · exact .inr h
        · exact .inl h

/-! ### releasing a list -/

/-- The loop that releases the list at `w`. -/
theorem freeLoop_spec {b g w : Addr} {bl gr : List Addr} (wh : List Addr) : ∀ {G : Gc} {p : Addr} {fuel : Nat}, Lists G.H b g w bl gr wh → (∀ x ∈ wh, (G.obj x).isSome) → p = wh.headD w → wh.length < fuel →
    ∃ G', freeLoop w fuel G p (G.H.next p) = .ok G' ∧ Lists G'.H b g w bl gr [] ∧ G'.freed = G.freed ++ wh ∧ (∀ x, G'.obj x = if x ∈ wh then none else G.obj x) ∧
      G'.black = G.black ∧ G'.grey = G.grey ∧ G'.white = G.white ∧ G'.scan = G.scan ∧ G'.sense = G.sense ∧ G'.enabled = G.enabled ∧ G'.allocs = G.allocs ∧ G'.marksPerScan = G.marksPerScan ∧
      G'.allocsBefore = G.allocsBefore := by
  induction wh with
  | nil =>
      intro G p fuel L _ hp hf
      obtain ⟨f, rfl⟩ : ∃ f, fuel = f + 1 := ⟨fuel - 1, by simp at hf; omega⟩
      refine ⟨G, ?_, L, by simp, by simp, rfl, rfl, rfl, rfl, rfl, rfl, rfl, rfl, rfl⟩
      rw [freeLoop, if_neg (by rw [hp]; simp)]
  | cons x xs ih =>
      intro G p fuel L hob hp hf
      obtain ⟨f, rfl⟩ : ∃ f, fuel = f + 1 := ⟨fuel - 1, by simp at hf; omega⟩
      have hpx : p = x := hp
      subst hpx
      have hw := L.white
      have hnp : p ∉ xs := by have := hw.2; grind
      have hpw : p ≠ w := by have := hw.2; grind
      have hnx : G.H.next p = xs.headD w := by
        have h1 := ((EList.linked_append G.H w w p [] xs).mp hw.1).2
        cases xs with
        | nil => simp only [EList.Linked] at h1; exact h1.1
        | cons y ys => simp only [EList.Linked] at h1; exact h1.1
      have d2 := L.black_white p; have d3 := L.grey_white p
      have hnb : p ∉ bl := by grind
      have hng : p ∉ gr := by grind
      have L1 := L.remove (x := p) (by simp)
      rw [del_of_not_mem hnb, del_of_not_mem hng, del_cons_self, del_of_not_mem hnp] at L1
      generalize hG1 : ({ put { G with H := EList.remove G.H p } p none with freed := G.freed ++ [p] } : Gc) = G1
      have hH1 : G1.H = EList.remove G.H p := by subst hG1; rfl
      have hobj1 : ∀ x, G1.obj x = if x = p then none else G.obj x := by intro x; subst hG1; rfl
      obtain ⟨G', e, h1, h2, h3, h4⟩ := ih (G := G1) (p := G.H.next p) (fuel := f) (by rw [hH1]; exact L1)
        (fun y hy => by 
          have hyp : y ≠ p := by rintro rfl; exact hnp hy
          rw [hobj1, if_neg hyp]; exact hob y (by simp [hy])) hnx (by simpa using hf)
      refine ⟨G', ?_, h1, ?_, ?_, ?_⟩
      · rw [freeLoop, if_pos hpw]
        have hl : load { G with H := EList.remove G.H p } p = .ok ((G.obj p).get (hob p (by simp))) := by
          obtain ⟨o, ho⟩ := Option.isSome_iff_exists.1 (hob p (by simp))
          simp [load, ho]
        refine Outcome.bind_eq_ok.2 ⟨_, hl, ?_⟩
        rw [← hG1] at e; exact e
      · rw [h2]; subst hG1; simp
      · intro x
        rw [h3, hobj1]
        simp only [List.mem_cons]
        grind
      · subst hG1; exact h4

theorem headD_append_cons (l : List Addr) (a g : Addr) (r : List Addr) : (l ++ a :: r).headD g = l.headD a := by cases l <;> rfl

/-- What a completed cycle does: the unseen objects `wh` are released, everything else stays. -/
structure Done (G G' : Gc) (wh : List Addr) : Prop where
  freed : G'.freed = G.freed ++ wh
  gone : ∀ x ∈ wh, G'.obj x = none
  kept : ∀ x, x ∉ wh → (G'.obj x).map (fun o => (o.prot, o.kids)) = (G.obj x).map (fun o => (o.prot, o.kids))

theorem switch_spec {G : Gc} {bl be wh : List Addr} {fuel : Nat} (I : Inv G bl be [] wh) (hf : wh.length < fuel) :
    ∃ G', switch fuel G = .ok G' ∧ Inv G' [] [] be bl ∧ Done G G' wh ∧ G'.grey = G.grey ∧ G'.scan = G.scan ∧ G'.enabled = G.enabled ∧ G'.allocs = G.allocs ∧ G'.marksPerScan = G.marksPerScan ∧
      G'.allocsBefore = G.allocsBefore ∧ (G'.black = G.white ∧ G'.white = G.black) := by
  have hfree : ∃ G1, freeWhite fuel { G with enabled := G.enabled - 1 } = .ok G1 ∧ Lists G1.H G.black G.grey G.white bl (be ++ []) [] ∧ G1.freed = G.freed ++ wh ∧ (∀ x, G1.obj x = if x ∈ wh then none else G.obj x) ∧
      G1.black = G.black ∧ G1.grey = G.grey ∧ G1.white = G.white ∧ G1.scan = G.scan ∧ G1.sense = G.sense ∧ G1.enabled = G.enabled - 1 ∧ G1.allocs = G.allocs ∧ G1.marksPerScan = G.marksPerScan ∧
      G1.allocsBefore = G.allocsBefore := by
    have hhead : G.H.next G.white = wh.headD G.white := by
      have h1 := I.lists.white.1
      cases wh with
      | nil => simp only [EList.Linked] at h1; exact h1.1
      | cons y ys => simp only [EList.Linked] at h1; exact h1.1
    rw [freeWhite]
    cases wh with
    | nil =>
        rw [if_pos (by simpa [EList.empty] using hhead)]
        exact ⟨_, rfl, I.lists, by simp, by simp, rfl, rfl, rfl, rfl, rfl, rfl, rfl, rfl, rfl⟩
    | cons y ys =>
        have hyw : y ≠ G.white := by have := I.lists.white.2; grind
        rw [if_neg (by simpa [EList.empty, hhead] using hyw)]
        exact freeLoop_spec (y :: ys) (G := { G with enabled := G.enabled - 1 }) I.lists (fun x hx => (I.dom x).2 (by grind)) hhead hf
  obtain ⟨G1, e, L, h1, h2, h3, h4, h5, h6, h7, h8, h9, h10, h11⟩ := hfree
  refine ⟨{ G1 with white := G1.black, black := G1.white, sense := !G1.sense, enabled := G1.enabled + 1 }, ?_, ?_, ?_, h4, h6, ?_, h9, h10, h11, h5, h3⟩
  · rw [switch, e]; rfl
  · have hpt := I.parts
    constructor
    · show Lists G1.H G1.white G1.grey G1.black [] ([] ++ be) bl
      rw [h3, h4, h5]
      have := L.swap
      simpa using this
    · intro x
      show (G1.obj x).isSome ↔ _
      rw [h2]
      have := I.dom x
      have := hpt x
      split
      · simp; grind
      · grind
    · intro x o ho hx
      have ho' : G1.obj x = some o := ho
      rw [h2] at ho'
      split at ho'
      · cases ho'
      · obtain ⟨i1, i2, _⟩ := I.colB x o ho' hx
        exact ⟨by show o.bit = !G1.sense; rw [h7]; exact i1, i2⟩
    · intro x o _ hx; cases hx
    · intro x o _ hx; cases hx
    · intro x o ho k hk
      have ho' : G1.obj x = some o := ho
      show (G1.obj k).isSome
      rw [h2] at ho' ⊢
      split at ho'
      · cases ho'
      · rename_i hxw
        have hkk := I.closed x o ho' k hk
        have hx := (I.dom x).1 (by simp [ho'])
        have hkw : k ∉ wh := by
          rcases hx with h | h | h | h
          · exact (I.colB x o ho' h).2.2 k hk
          · exact (I.colG x o ho' h).2 k hk
          · cases h
          · exact absurd h hxw
        rw [if_neg hkw]; exact hkk
  · refine ⟨h1, fun x hx => ?_, fun x hx => ?_⟩
    · show G1.obj x = none
      rw [h2, if_pos hx]
    · show (G1.obj x).map _ = _
      rw [h2, if_neg hx]
  · show G1.enabled + 1 = _
    rw [h8]; omega

/-! ### the loop and zt_gc_collect -/

/-- The references and protection of all objects are the same. -/
def Objs (G G' : Gc) : Prop := ∀ x, (G'.obj x).map (fun o => (o.prot, o.kids)) = (G.obj x).map (fun o => (o.prot, o.kids))

/-- Settings that no collection changes. -/
structure Conf (G G' : Gc) : Prop where
  grey : G'.grey = G.grey
  heads : G'.black = G.black ∧ G'.white = G.white ∨ G'.black = G.white ∧ G'.white = G.black
  marks : G'.marksPerScan = G.marksPerScan
  before : G'.allocsBefore = G.allocsBefore

/-- How the loop can end. -/
inductive Ended (full : Bool) (G G' : Gc) (bl be ah wh : List Addr) : Prop
  | part (bl' be' a r wh') (hfull : full = false) (inv : Inv G' bl' be' (a :: r) wh') (scan : G'.scan = a) (objs : Objs G G') (freed : G'.freed = G.freed)
      (len : (a :: r).length + wh'.length ≤ ah.length + wh.length)
  | done (bl' be' wh') (inv : Inv G' [] [] be' bl') (scan : G'.scan = G'.grey) (done : Done G G' wh') (sub : ∀ x ∈ wh', x ∈ wh) (nodup : wh'.Nodup)
      (unprot : ∀ x ∈ wh', ∀ o, G.obj x = some o → o.prot = false) (prot : ∀ x ∈ be', x ∈ be ∨ ∃ o, G.obj x = some o ∧ o.prot = true)
      (from_ : ∀ P : Addr → Prop, (∀ x o, G.obj x = some o → P x → ∀ k ∈ o.kids, P k) → (∀ x, x ∈ bl ∨ x ∈ be ∨ x ∈ ah → P x) → ∀ x, x ∈ be' ∨ x ∈ bl' → P x)

theorem scanLoop_spec (full : Bool) : ∀ (n : Nat) {G : Gc} {bl be ah wh : List Addr} {m : Int} {fuel : Nat}, Inv G bl be ah wh → G.scan = ah.headD G.grey → ah.length + wh.length = n → n + 2 ≤ fuel →
    ∃ G', scanLoop full fuel m G = .ok G' ∧ Ended full G G' bl be ah wh ∧ Conf G G' ∧ G'.enabled = G.enabled + 1 ∧ G'.allocs = G.allocs := by
  intro n
  induction n with
  | zero =>
      intro G bl be ah wh m fuel I hs hn hf
      obtain ⟨f, rfl⟩ : ∃ f, fuel = f + 1 := ⟨fuel - 1, by omega⟩
      have h1 : ah = [] := List.length_eq_zero_iff.1 (by omega)
      have h2 : wh = [] := List.length_eq_zero_iff.1 (by omega)
      subst h1; subst h2
      have I' : Inv { G with enabled := G.enabled + 1 } bl be [] [] := ⟨I.lists, I.dom, I.colW, I.colB, I.colG, I.closed⟩
      obtain ⟨G', e, J, D, g1, g2, g3, g4, g5, g6, g7⟩ := switch_spec (fuel := f) I' (by simp; omega)
      refine ⟨G', ?_, .done bl be [] J ?_ ⟨D.freed, D.gone, D.kept⟩ (by simp) .nil (by simp) (fun x hx => .inl hx) (fun P _ h x hx => h x (by grind)), ⟨g1, .inr g7, g5, g6⟩, g3, g4⟩
      · rw [scanLoop, if_pos (by rw [hs]; rfl)]; exact e
      · rw [g2, g1]; exact hs
  | succ n ih =>
      intro G bl be ah wh m fuel I hs hn hf
      obtain ⟨f, rfl⟩ : ∃ f, fuel = f + 1 := ⟨fuel - 1, by omega⟩
      cases ah with
      | nil =>
          have I' : Inv { G with enabled := G.enabled + 1 } bl be [] wh := ⟨I.lists, I.dom, I.colW, I.colB, I.colG, I.closed⟩
          obtain ⟨G', e, J, D, g1, g2, g3, g4, g5, g6, g7⟩ := switch_spec (fuel := f) I' (by simp at hn; omega)
          refine ⟨G', ?_, .done bl be wh J ?_ ⟨D.freed, D.gone, D.kept⟩ (fun _ h => h) I.nd_white (fun x hx o ho => (I.colW x o ho hx).2) (fun x hx => .inl hx) (fun P _ h x hx => h x (by grind)),
            ⟨g1, .inr g7, g5, g6⟩, g3, g4⟩
          · rw [scanLoop, if_pos (by rw [hs]; rfl)]; exact e
          · rw [g2, g1]; exact hs
      | cons a r =>
          have hsa : G.scan = a := hs
          have hag : a ≠ G.grey := by have := I.lists.grey.2; grind
          obtain ⟨G1, bl1, be1, ah1, wh1, e1, I1, S1, s1, w1, l1, b1, p1, f1⟩ := scanStep_spec I hsa
          by_cases hc : (!full && decide (m + 1 ≥ G1.marksPerScan) && decide (G1.scan ≠ G1.grey)) = true
          · refine ⟨{ G1 with enabled := G1.enabled + 1 }, ?_, ?_, ⟨S1.grey, .inl ⟨S1.black, S1.white⟩, S1.marks, S1.before⟩, by rw [← S1.enabled], S1.allocs⟩
            · rw [scanLoop, if_neg (by rw [hsa]; exact hag), e1]
              simp only [Outcome.ok_bind, hc]; rfl
            · simp only [Bool.and_eq_true, decide_eq_true_eq, Bool.not_eq_true'] at hc
              cases ah1 with
              | nil => exact absurd s1 hc.2
              | cons a1 r1 =>
                  refine .part bl1 be1 a1 r1 wh1 hc.1.1 ⟨I1.lists, I1.dom, I1.colW, I1.colB, I1.colG, I1.closed⟩ s1 S1.objs S1.freed ?_
                  omega
          · obtain ⟨G2, e2, E2, C2, en2, al2⟩ := ih (m := m + 1) (fuel := f) I1 s1 (by omega) (by omega)
            refine ⟨G2, ?_, ?_, ?_, by rw [en2, S1.enabled], by rw [al2, S1.allocs]⟩
            · rw [scanLoop, if_neg (by rw [hsa]; exact hag), e1]
              simp only [Outcome.ok_bind, hc]
              exact e2
            · cases E2 with
              | part bl' be' a' r' wh' hfull inv scan objs freed len =>
                  exact .part bl' be' a' r' wh' hfull inv scan (fun x => (objs x).trans (S1.objs x)) (freed.trans S1.freed) (by omega)
              | done bl' be' wh' inv scan D sub nodup unprot prot from_ =>
                  refine .done bl' be' wh' inv scan ⟨by rw [D.freed, S1.freed], D.gone, fun x hx => (D.kept x hx).trans (S1.objs x)⟩ (fun x hx => w1 x (sub x hx)) nodup ?_ ?_ ?_
                  · intro x hx o ho
                    obtain ⟨o', ho', h1, _⟩ := S1.obj ho
                    rw [← h1]; exact unprot x hx o' ho'
                  · intro x hx
                    rcases prot x hx with h | ⟨o, ho, h⟩
                    · rcases p1 x h with h | ⟨rfl, h⟩
                      · exact .inl h
                      · exact .inr h
                    · obtain ⟨o', ho', h1, _⟩ := S1.obj' ho
                      exact .inr ⟨o', ho', h1.trans h⟩
                  · intro P hP h0
                    refine from_ P ?_ ?_
                    · intro x o ho hx k hk
                      obtain ⟨o', ho', _, h1⟩ := S1.obj' ho
                      exact hP x o' ho' hx k (h1 ▸ hk)
                    · intro x hx
                      rcases hx with h | h | h
                      · rcases b1 x h with h | rfl
                        · exact h0 x (.inl h)
                        · exact h0 x (by simp)
                      · rcases p1 x h with h | ⟨rfl, _⟩
                        · exact h0 x (by simp [h])
                        · exact h0 x (by simp)
                      · rcases f1 x h with h | ⟨o, ho, h⟩
                        · exact h0 x (by simp [h])
                        · exact hP a o ho (h0 a (by simp)) x h
            · refine ⟨C2.grey.trans S1.grey, ?_, C2.marks.trans S1.marks, C2.before.trans S1.before⟩
              have := C2.heads
              rw [S1.black, S1.white] at this
              exact this

/-- Between calls: no cycle under way, or the scan pointer at an element of the grey list. -/
structure Top (G : Gc) (bl be ah wh : List Addr) : Prop where
  inv : Inv G bl be ah wh
  phase : (G.scan = G.grey ∧ bl = [] ∧ be = []) ∨ ∃ r, ah = G.scan :: r

theorem Top.scan_grey {G : Gc} {bl be ah wh : List Addr} (T : Top G bl be ah wh) : G.scan = G.grey ↔ bl = [] ∧ be = [] ∧ G.scan = G.grey := by
  constructor
  · intro h
    rcases T.phase with h' | ⟨r, h'⟩
    · exact ⟨h'.2.1, h'.2.2, h⟩
    · have := T.inv.lists.grey.2
      rw [h', h] at this
      grind
  · exact fun h => h.2.2

theorem Done.none (G G' : Gc) (h : Objs G G') (hf : G'.freed = G.freed) : Done G G' [] := ⟨by simp [hf], by simp, fun x _ => h x⟩

/-- What a call may release: objects that are known, not protected, and not reachable from any object that stays. -/
structure Safe (G G' : Gc) (rel : List Addr) : Prop where
  done : Done G G' rel
  nodup : rel.Nodup
  known : ∀ x ∈ rel, (G.obj x).isSome
  unprot : ∀ x ∈ rel, ∀ o, G.obj x = some o → o.prot = false
  unreach : ∀ x ∈ rel, ∀ y, y ∉ rel → ¬ Reach G y x

theorem Safe.none {G G' : Gc} (h : Objs G G') (hf : G'.freed = G.freed) : Safe G G' [] := ⟨Done.none G G' h hf, .nil, by simp, by simp, by simp⟩

theorem safe_of_done {G G' : Gc} {rel bl be ah wh : List Addr} (I : Inv G' bl be ah wh) (D : Done G G' rel) (hn : rel.Nodup) (hk : ∀ x ∈ rel, (G.obj x).isSome)
    (hp : ∀ x ∈ rel, ∀ o, G.obj x = some o → o.prot = false) : Safe G G' rel := by
  refine ⟨D, hn, hk, hp, ?_⟩
  intro x hx y hy hr
  have key : ∀ {a b}, Reach G a b → (G'.obj a).isSome → (G'.obj b).isSome := by
    intro a b h
    induction h with
    | refl _ => exact id
    | @step a k b o ho hk _ ih =>
        intro ha
        apply ih
        obtain ⟨o', ho'⟩ := Option.isSome_iff_exists.1 ha
        have hax : a ∉ rel := fun hc => by rw [D.gone a hc] at ha; cases ha
        have := D.kept a hax
        rw [ho, ho'] at this
        simp only [Option.map_some, Option.some.injEq, Prod.mk.injEq] at this
        exact I.closed a o' ho' k (by rw [this.2]; exact hk)
  have hy' : (G'.obj y).isSome := by
    have hyG : ∃ o, G.obj y = some o := by cases hr with
      | refl h => exact ⟨_, h⟩
      | step h _ _ => exact ⟨_, h⟩
    obtain ⟨o, ho⟩ := hyG
    have := D.kept y hy
    rw [ho] at this
    cases hc : G'.obj y with
    | none => rw [hc] at this; cases this
    | some _ => rfl
  have := key hr hy'
  rw [D.gone x hx] at this
  cases this

/-- zt_gc_collect in any state between calls. -/
theorem collect_spec {G : Gc} {bl be ah wh : List Addr} (T : Top G bl be ah wh) (full : Bool) {fuel : Nat} (hf : ah.length + wh.length + 2 ≤ fuel) :
    ∃ G' bl' be' ah' wh' rel, collect fuel G full = .ok G' ∧ Top G' bl' be' ah' wh' ∧ Safe G G' rel ∧ Conf G G' ∧ G'.enabled = G.enabled ∧ (∀ x ∈ rel, x ∈ wh) ∧
      (full = true → 0 ≤ G.enabled → G'.scan = G'.grey ∧ (∀ x ∈ ah', x ∈ be ∨ ∃ o, G.obj x = some o ∧ o.prot = true) ∧
        ∀ P : Addr → Prop, (∀ x o, G.obj x = some o → P x → ∀ k ∈ o.kids, P k) → (∀ x, x ∈ bl ∨ x ∈ be ∨ x ∈ ah → P x) → ∀ x, (G'.obj x).isSome → P x) := by
  rw [collect]
  by_cases hc : (decide (G.enabled < 0) || (!full && decide (G.allocs < G.allocsBefore))) = true
  · rw [if_pos hc]
    refine ⟨G, bl, be, ah, wh, [], rfl, T, Safe.none (fun _ => rfl) rfl, ⟨rfl, .inl ⟨rfl, rfl⟩, rfl, rfl⟩, rfl, by simp, ?_⟩
    intro h1 h2
    rw [h1] at hc
    simp at hc
    omega
  · rw [if_neg hc]
    generalize hG0 : startScan { G with enabled := G.enabled - 1, allocs := 0 } = G0
    have h0 : G0.obj = G.obj ∧ G0.H = G.H ∧ G0.black = G.black ∧ G0.grey = G.grey ∧ G0.white = G.white ∧ G0.sense = G.sense ∧ G0.enabled = G.enabled - 1 ∧ G0.marksPerScan = G.marksPerScan ∧
        G0.allocsBefore = G.allocsBefore ∧ G0.freed = G.freed ∧ G0.scan = (if G.scan = G.grey then G.H.next G.scan else G.scan) := by
      subst hG0
      rw [startScan]
      split <;> rename_i hh
      · exact ⟨rfl, rfl, rfl, rfl, rfl, rfl, rfl, rfl, rfl, rfl, rfl⟩
      · exact ⟨rfl, rfl, rfl, rfl, rfl, rfl, rfl, rfl, rfl, rfl, rfl⟩
    obtain ⟨z1, z2, z3, z4, z5, z6, z7, z8, z9, z10, z11⟩ := h0
    have I0 : Inv G0 bl be ah wh := by
      constructor
      · rw [z2, z3, z4, z5]; exact T.inv.lists
      · rw [z1]; exact T.inv.dom
      · rw [z1, z6]; exact T.inv.colW
      · rw [z1, z6]; exact T.inv.colB
      · rw [z1, z6]; exact T.inv.colG
      · rw [z1]; exact T.inv.closed
    have hs0 : G0.scan = ah.headD G0.grey := by
      rw [z11, z4]
      by_cases hg : G.scan = G.grey
      · obtain ⟨h1, h2, _⟩ := T.scan_grey.1 hg
        rw [if_pos hg, hg]
        have := T.inv.lists.next_head
        rw [this, h2]; rfl
      · rw [if_neg hg]
        rcases T.phase with h | ⟨r, h⟩
        · exact absurd h.1 hg
        · rw [h]; rfl
    obtain ⟨G', e, E, C, en, -⟩ := scanLoop_spec full _ (m := 0) (fuel := fuel) I0 hs0 rfl hf
    have C' : Conf G G' := by
      refine ⟨C.grey.trans z4, ?_, C.marks.trans z8, C.before.trans z9⟩
      have := C.heads
      rw [z3, z5] at this; exact this
    have hen : G'.enabled = G.enabled := by rw [en, z7]; omega
    have hobj : ∀ x, G0.obj x = G.obj x := fun x => by rw [z1]
    cases E with
    | part bl' be' a r wh' hfull inv scan objs freed len =>
        refine ⟨G', bl', be', a :: r, wh', [], e, ⟨inv, .inr ⟨r, by rw [scan]⟩⟩, Safe.none (fun x => by rw [← hobj]; exact objs x) (by rw [freed, z10]), C', hen, by simp, ?_⟩
        intro h; rw [hfull] at h; cases h
    | done bl' be' wh' inv scan D sub nodup unprot prot from_ =>
        have D' : Done G G' wh' := ⟨by rw [D.freed, z10], D.gone, fun x hx => by rw [← hobj]; exact D.kept x hx⟩
        refine ⟨G', [], [], be', bl', wh', e, ⟨inv, .inl ⟨scan, rfl, rfl⟩⟩,
          safe_of_done inv D' nodup (fun x hx => (T.inv.dom x).2 (by have := sub x hx; grind)) (fun x hx o ho => unprot x hx o (by rw [hobj]; exact ho)), C', hen, sub, ?_⟩
        intro _ _
        refine ⟨scan, fun x hx => ?_, fun P hP h x hx => ?_⟩
        · have := prot x hx
          rw [hobj] at this; exact this
        · refine from_ P (fun x o ho => hP x o (by rw [← hobj]; exact ho)) h x ?_
          have := (inv.dom x).1 hx
          grind

end ZT.Gc
