import Verif.Gc.Lists

/-!
# The invariant of the collector and the marking calls
-/

namespace ZT.Gc

open EList (Heap)

/-- `bl`: scanned, `be`: the part of the grey list before the scan pointer (scanned or protected), `ah`: the rest of the grey list, `wh`: not seen. -/
structure Inv (G : Gc) (bl be ah wh : List Addr) : Prop where
  lists : Lists G.H G.black G.grey G.white bl (be ++ ah) wh
  dom : ∀ x, (G.obj x).isSome ↔ x ∈ bl ∨ x ∈ be ∨ x ∈ ah ∨ x ∈ wh
  colW : ∀ x o, G.obj x = some o → x ∈ wh → o.bit = G.sense ∧ o.prot = false
  colB : ∀ x o, G.obj x = some o → x ∈ bl → o.bit = !G.sense ∧ o.prot = false ∧ ∀ k ∈ o.kids, k ∉ wh
  colG : ∀ x o, G.obj x = some o → x ∈ be → o.bit = !G.sense ∧ ∀ k ∈ o.kids, k ∉ wh
  closed : ∀ x o, G.obj x = some o → ∀ k ∈ o.kids, (G.obj k).isSome

namespace Inv

variable {G : Gc} {bl be ah wh : List Addr}

theorem nd_grey (I : Inv G bl be ah wh) : (be ++ ah).Nodup := (List.nodup_cons.1 I.lists.grey.2).2
theorem nd_white (I : Inv G bl be ah wh) : wh.Nodup := (List.nodup_cons.1 I.lists.white.2).2
theorem nd_black (I : Inv G bl be ah wh) : bl.Nodup := (List.nodup_cons.1 I.lists.black.2).2

/-- Every object is in exactly one of the four. -/
theorem parts (I : Inv G bl be ah wh) (x : Addr) : (x ∈ bl → x ∉ be ∧ x ∉ ah ∧ x ∉ wh) ∧ (x ∈ be → x ∉ ah ∧ x ∉ wh) ∧ (x ∈ ah → x ∉ wh) := by
  have d1 := I.lists.black_grey x; have d2 := I.lists.black_white x; have d3 := I.lists.grey_white x
  have d4 := I.nd_grey
  simp only [List.mem_cons, List.mem_append, not_or] at d1 d2 d3
  grind

theorem out {x : Addr} (I : Inv G bl be ah wh) (hx : G.obj x = none) (hh : x ≠ G.black ∧ x ≠ G.grey ∧ x ≠ G.white) :
    Lists.Out G.black G.grey G.white bl (be ++ ah) wh x := by
  have := I.dom x
  rw [hx] at this
  simp only [Option.isSome_none, Bool.false_eq_true, false_iff, not_or] at this
  simp only [Lists.Out, List.mem_cons, List.mem_append, not_or]
  exact ⟨⟨hh.1, this.1⟩, ⟨hh.2.1, this.2.1, this.2.2.1⟩, hh.2.2, this.2.2.2⟩

theorem heads (I : Inv G bl be ah wh) {x : Addr} {o : Obj} (hx : G.obj x = some o) : x ≠ G.black ∧ x ≠ G.grey ∧ x ≠ G.white := by
  have h := (I.dom x).1 (by simp [hx])
  have d1 := I.lists.black_grey; have d2 := I.lists.black_white; have d3 := I.lists.grey_white
  have n1 := I.lists.black.2; have n2 := I.lists.grey.2; have n3 := I.lists.white.2
  simp only [List.mem_cons, List.mem_append, List.nodup_cons, not_or] at d1 d2 d3 n1 n2 n3
  grind

end Inv

/-- Everything but the links and the colours is the same. -/
structure Same (G G' : Gc) : Prop where
  black : G'.black = G.black
  grey : G'.grey = G.grey
  white : G'.white = G.white
  sense : G'.sense = G.sense
  enabled : G'.enabled = G.enabled
  allocs : G'.allocs = G.allocs
  marks : G'.marksPerScan = G.marksPerScan
  before : G'.allocsBefore = G.allocsBefore
  freed : G'.freed = G.freed
  objs : ∀ x, (G'.obj x).map (fun o => (o.prot, o.kids)) = (G.obj x).map (fun o => (o.prot, o.kids))

theorem Same.refl (G : Gc) : Same G G := ⟨rfl, rfl, rfl, rfl, rfl, rfl, rfl, rfl, rfl, fun _ => rfl⟩

theorem Same.trans {A B C : Gc} (h : Same A B) (k : Same B C) : Same A C :=
  ⟨k.black.trans h.black, k.grey.trans h.grey, k.white.trans h.white, k.sense.trans h.sense, k.enabled.trans h.enabled, k.allocs.trans h.allocs, k.marks.trans h.marks,
    k.before.trans h.before, k.freed.trans h.freed, fun x => (k.objs x).trans (h.objs x)⟩

theorem Same.obj {A B : Gc} (h : Same A B) {x : Addr} {o : Obj} (hx : A.obj x = some o) : ∃ o', B.obj x = some o' ∧ o'.prot = o.prot ∧ o'.kids = o.kids := by
  have := h.objs x
  rw [hx] at this
  cases hb : B.obj x with
  | none => rw [hb] at this; cases this
  | some o' => rw [hb] at this; simp at this; exact ⟨o', rfl, this.1, this.2⟩

theorem Same.obj' {A B : Gc} (h : Same A B) {x : Addr} {o : Obj} (hx : B.obj x = some o) : ∃ o', A.obj x = some o' ∧ o'.prot = o.prot ∧ o'.kids = o.kids := by
  have := h.objs x
  rw [hx] at this
  cases hb : A.obj x with
  | none => rw [hb] at this; cases this
  | some o' => rw [hb] at this; simp at this; exact ⟨o', rfl, this.1.symm, this.2.symm⟩

/-- The object would be left alone by zt_gc_mark: protected, or not white. -/
def Settled (G : Gc) (x : Addr) : Prop := ∃ o, G.obj x = some o ∧ (o.prot = true ∨ o.bit = !G.sense)

theorem Inv.settled {G : Gc} {bl be ah wh : List Addr} (I : Inv G bl be ah wh) {x : Addr} (h : Settled G x) : x ∉ wh := by
  obtain ⟨o, ho, h⟩ := h
  intro hw
  obtain ⟨h1, h2⟩ := I.colW x o ho hw
  rcases h with h | h
  · rw [h2] at h; cases h
  · rw [h1] at h; cases hs : G.sense <;> simp [hs] at h

/-- The object is not white. -/
def NonWhite (G : Gc) (x : Addr) : Prop := ∃ o, G.obj x = some o ∧ o.bit = !G.sense

theorem NonWhite.settled {G : Gc} {x : Addr} (h : NonWhite G x) : Settled G x := by
  obtain ⟨o, h1, h2⟩ := h; exact ⟨o, h1, .inr h2⟩

theorem clearWhite_eq {G : Gc} {v : Addr} {o : Obj} (hv : G.obj v = some o) : clearWhite G v = .ok (put G v (some { o with bit := !G.sense })) := by
  simp [clearWhite, load, hv]

theorem put_obj (G : Gc) (v : Addr) (o : Option Obj) (x : Addr) : (put G v o).obj x = if x = v then o else G.obj x := rfl

/-- zt_gc_mark on a registered object. -/
theorem mark_spec {G : Gc} {bl be ah wh : List Addr} (I : Inv G bl be ah wh) {v : Addr} {o : Obj} (hv : G.obj v = some o) :
    ∃ r G' ah' wh', mark G v = .ok (r, G') ∧ Inv G' bl be ah' wh' ∧ Same G G' ∧ G'.scan = G.scan ∧ v ∉ wh' ∧ Settled G' v ∧ (∀ x ∈ wh', x ∈ wh) ∧ (∀ x ∈ ah', x ∈ ah ∨ x = v) ∧ (∀ x ∈ ah, x ∈ ah') ∧
      ah'.length + wh'.length = ah.length + wh.length ∧ (∀ x, x ≠ v → G'.obj x = G.obj x) ∧ (∀ a r, ah = a :: r → (a ≠ v ∨ Settled G a) → ∃ r', ah' = a :: r') ∧ (r = true ↔ ¬ Settled G v) ∧ (NonWhite G v → NonWhite G' v) := by
  by_cases hm : o.prot = false ∧ o.bit = G.sense
  · obtain ⟨hp, hb⟩ := hm
    have hG' : mark G v = .ok (true, { put G v (some { o with bit := !G.sense }) with H := EList.addTail (EList.remove G.H v) G.grey v }) := by
      rw [mark]
      have hl : load G v = .ok o := by simp [load, hv]
      rw [hl]
      simp only [Outcome.ok_bind, hp, isWhite, hb, Bool.not_false, Bool.true_and, beq_self_eq_true, if_true, clearWhite_eq hv]
      rfl
    have hns : ¬ Settled G v := by
      rintro ⟨o', ho', h⟩
      rw [hv] at ho'; cases ho'
      rcases h with h | h
      · rw [hp] at h; cases h
      · rw [hb] at h; cases hs : G.sense <;> simp [hs] at h
    generalize hGe : ({ put G v (some { o with bit := !G.sense }) with H := EList.addTail (EList.remove G.H v) G.grey v } : Gc) = G' at hG'
    have hobj : ∀ x, G'.obj x = if x = v then some { o with bit := !G.sense } else G.obj x := by intro x; subst hGe; rfl
    have hH : G'.H = EList.addTail (EList.remove G.H v) G.grey v := by subst hGe; rfl
    have hbk : G'.black = G.black := by subst hGe; rfl
    have hgr : G'.grey = G.grey := by subst hGe; rfl
    have hwt : G'.white = G.white := by subst hGe; rfl
    have hse : G'.sense = G.sense := by subst hGe; rfl
    have hnb : v ∉ bl := fun h => by have := (I.colB v o hv h).1; rw [hb] at this; cases hs : G.sense <;> simp [hs] at this
    have hne : v ∉ be := fun h => by have := (I.colG v o hv h).1; rw [hb] at this; cases hs : G.sense <;> simp [hs] at this
    have hin : v ∈ ah ∨ v ∈ wh := by have := (I.dom v).1 (by simp [hv]); grind
    have hh := I.heads hv
    have L1 := I.lists.remove (x := v) (by simp only [List.mem_append]; grind)
    have L2 := L1.addTailGrey (x := v) (by simp only [Lists.Out, List.mem_cons, mem_del]; grind)
    rw [del_of_not_mem hnb, del_append, del_of_not_mem hne, List.append_assoc] at L2
    refine ⟨true, G', del v ah ++ [v], del v wh, hG', ?_, ?_, by subst hGe; rfl, by simp [mem_del], ⟨_, by rw [hobj, if_pos rfl], by rw [hse]; exact .inr rfl⟩,
      fun x hx => (mem_del.1 hx).1, ?_, ?_, ?_, fun x hx => by rw [hobj, if_neg hx], ?_, by simp [hns], fun _ => ⟨_, by rw [hobj, if_pos rfl], by rw [hse]⟩⟩
    · constructor
      · rw [hH, hbk, hgr, hwt]; exact L2
      · intro x
        have hd := I.dom x
        have hd' := I.dom v
        rw [hobj]
        simp only [List.mem_append, List.mem_singleton, mem_del]
        by_cases hx : x = v
        · subst hx; simp
        · rw [if_neg hx, hd]; simp [hx]
      · intro x o' ho' hx
        rw [mem_del] at hx
        rw [hobj, if_neg hx.2] at ho'
        rw [hse]; exact I.colW x o' ho' hx.1
      · intro x o' ho' hx
        have hxv : x ≠ v := fun he => hnb (he ▸ hx)
        rw [hobj, if_neg hxv] at ho'
        rw [hse]
        obtain ⟨h1, h2, h3⟩ := I.colB x o' ho' hx
        exact ⟨h1, h2, fun k hk hw => h3 k hk (mem_del.1 hw).1⟩
      · intro x o' ho' hx
        have hxv : x ≠ v := fun he => hne (he ▸ hx)
        rw [hobj, if_neg hxv] at ho'
        rw [hse]
        obtain ⟨h1, h3⟩ := I.colG x o' ho' hx
        exact ⟨h1, fun k hk hw => h3 k hk (mem_del.1 hw).1⟩
      · intro x o' ho' k hk
        have hkk : (G.obj k).isSome := by
          rw [hobj] at ho'
          split at ho'
          · cases ho'; exact I.closed v o hv k hk
          · exact I.closed x o' ho' k hk
        rw [hobj]; split <;> simp [hkk]
    · subst hGe
      refine ⟨rfl, rfl, rfl, rfl, rfl, rfl, rfl, rfl, rfl, fun x => ?_⟩
      rw [hobj]
      split
      · rename_i he; rw [he, hv]; rfl
      · rfl
    · intro x hx
      simp only [List.mem_append, List.mem_singleton, mem_del] at hx
      grind
    · intro x hx
      simp only [List.mem_append, List.mem_singleton, mem_del]
      grind
    · have hpt := I.parts v
      rw [List.length_append, List.length_singleton]
      rcases hin with h | h
      · have h1 := length_del (List.nodup_append.1 I.nd_grey).2.1 h
        rw [del_of_not_mem (hpt.2.2 h)]
        omega
      · have h1 := length_del I.nd_white h
        rw [del_of_not_mem (fun ha => hpt.2.2 ha h)]
        omega
    · intro a r har hs
      have hav : a ≠ v := by
        rcases hs with h | h
        · exact h
        · intro he; rw [he] at h; exact hns h
      rw [har, del_cons_ne hav]
      exact ⟨_, rfl⟩
  · have hs : Settled G v := ⟨o, hv, by
      cases hp : o.prot with
      | true => exact .inl rfl
      | false => right; cases hb : o.bit <;> cases hs : G.sense <;> simp_all⟩
    have hG' : mark G v = .ok (false, G) := by
      rw [mark]
      have hl : load G v = .ok o := by simp [load, hv]
      rw [hl]
      have hc : (!o.prot && isWhite G o) = false := by
        rw [Bool.eq_false_iff]; intro h; apply hm; simpa [isWhite] using h
      simp only [Outcome.ok_bind, hc]
      rfl
    exact ⟨false, G, ah, wh, hG', I, Same.refl G, rfl, I.settled hs, hs, fun _ h => h, fun _ h => .inl h, fun _ h => h, rfl, fun _ _ => rfl, fun a r h _ => ⟨r, h⟩, by simp [hs], fun h => h⟩

/-- The client's mark function. -/
theorem markAll_spec (ks : List Addr) : ∀ {G : Gc} {bl be ah wh : List Addr}, Inv G bl be ah wh → (∀ k ∈ ks, (G.obj k).isSome) →
    ∃ G' ah' wh', markAll G ks = .ok G' ∧ Inv G' bl be ah' wh' ∧ Same G G' ∧ G'.scan = G.scan ∧ (∀ k ∈ ks, k ∉ wh') ∧ (∀ x ∈ wh', x ∈ wh) ∧ (∀ x ∈ ah', x ∈ ah ∨ x ∈ ks) ∧ (∀ x ∈ ah, x ∈ ah') ∧
      ah'.length + wh'.length = ah.length + wh.length ∧ (∀ x, NonWhite G x → NonWhite G' x) ∧ (∀ a r, ah = a :: r → NonWhite G a → ∃ r', ah' = a :: r') := by
  induction ks with
  | nil =>
      intro G bl be ah wh I _
      exact ⟨G, ah, wh, rfl, I, Same.refl G, rfl, by simp, fun _ h => h, fun _ h => .inl h, fun _ h => h, rfl, fun _ h => h, fun a r h _ => ⟨r, h⟩⟩
  | cons k ks ih =>
      intro G bl be ah wh I hk
      obtain ⟨o, ho⟩ := Option.isSome_iff_exists.1 (hk k (by simp))
      obtain ⟨r, G1, ah1, wh1, e1, I1, S1, s1, n1, t1, w1, a1, a1', l1, f1, hd1, -, nw1⟩ := mark_spec I ho
      have hk1 : ∀ k ∈ ks, (G1.obj k).isSome := fun x hx => by
        obtain ⟨o, ho⟩ := Option.isSome_iff_exists.1 (hk x (by simp [hx]))
        obtain ⟨o', ho', _⟩ := S1.obj ho
        simp [ho']
      obtain ⟨G2, ah2, wh2, e2, I2, S2, s2, n2, w2, a2, a2', l2, f2, hd2⟩ := ih I1 hk1
      have hset : ∀ x, NonWhite G x → NonWhite G1 x := by
        intro x hx
        by_cases hxk : x = k
        · rw [hxk] at hx ⊢; exact nw1 hx
        · obtain ⟨ox, hox, h⟩ := hx
          exact ⟨ox, by rw [f1 x hxk]; exact hox, by rw [S1.sense]; exact h⟩
      refine ⟨G2, ah2, wh2, ?_, I2, S1.trans S2, s2.trans s1, ?_, fun x hx => w1 x (w2 x hx), ?_, fun x hx => a2' x (a1' x hx), l2.trans l1, ?_, ?_⟩
      · rw [markAll, e1]; exact e2
      · intro x hx
        rcases List.mem_cons.1 hx with rfl | hx
        · exact fun h => n1 (w2 _ h)
        · exact n2 x hx
      · intro x hx
        rcases a2 x hx with h | h
        · rcases a1 x h with h | h
          · exact .inl h
          · exact .inr (by simp [h])
        · exact .inr (by simp [h])
      · exact fun x hx => f2 x (hset x hx)
      · intro a r har hs
        obtain ⟨r1, hr1⟩ := hd1 a r har (.inr hs.settled)
        exact hd2 a r1 hr1 (hset a hs)

end ZT.Gc
