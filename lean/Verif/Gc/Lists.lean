import Verif.Gc.Model
import Verif.EList.Props

/-!
# The three lists of the collector
-/

namespace ZT.Gc

open EList (Heap Abs Rep IsList)

/-- The abstract state with three lists. -/
def three (b g w : Addr) (bl gr wh : List Addr) : Abs := fun h => if h = b then some bl else if h = g then some gr else if h = w then some wh else none

/-- The heads `b`, `g`, `w` hold the lists. -/
structure Lists (H : Heap) (b g w : Addr) (bl gr wh : List Addr) : Prop where
  bg : b ≠ g
  bw : b ≠ w
  gw : g ≠ w
  rep : Rep H (three b g w bl gr wh)

/-- Without `x`. -/
def del (x : Addr) (l : List Addr) : List Addr := l.filter (fun y => decide (y ≠ x))

theorem mem_del {x y : Addr} {l : List Addr} : y ∈ del x l ↔ y ∈ l ∧ y ≠ x := by simp [del]
theorem del_of_not_mem {x : Addr} {l : List Addr} (h : x ∉ l) : del x l = l := List.filter_eq_self.2 fun y hy => by
  have : y ≠ x := by rintro rfl; exact h hy
  simpa using this
theorem del_append {x : Addr} {l r : List Addr} : del x (l ++ r) = del x l ++ del x r := by simp [del]
theorem del_cons_self {x : Addr} {l : List Addr} : del x (x :: l) = del x l := by simp [del]
theorem del_cons_ne {x y : Addr} {l : List Addr} (h : y ≠ x) : del x (y :: l) = y :: del x l := by simp [del, h]
theorem del_split {x : Addr} {l r : List Addr} (h : (l ++ x :: r).Nodup) : del x (l ++ x :: r) = l ++ r := by
  rw [del_append, del_cons_self, del_of_not_mem, del_of_not_mem]
  · grind
  · grind
theorem length_del {x : Addr} {l : List Addr} (hn : l.Nodup) (h : x ∈ l) : (del x l).length + 1 = l.length := by
  obtain ⟨a, b, rfl⟩ := List.append_of_mem h
  rw [del_split hn]; simp; omega

namespace Lists

variable {H : Heap} {b g w : Addr} {bl gr wh : List Addr}

theorem swap (L : Lists H b g w bl gr wh) : Lists H w g b wh gr bl := by
  refine ⟨L.gw.symm, L.bw.symm, L.bg.symm, ?_⟩
  have h1 := L.bg; have h2 := L.bw; have h3 := L.gw
  have e : three w g b wh gr bl = three b g w bl gr wh := by
    funext h; simp only [three]; grind
  rw [e]; exact L.rep

theorem black (L : Lists H b g w bl gr wh) : IsList H b bl := L.rep.lists b bl (by simp [three])
theorem grey (L : Lists H b g w bl gr wh) : IsList H g gr := L.rep.lists g gr (by simp [three, L.bg.symm])
theorem white (L : Lists H b g w bl gr wh) : IsList H w wh := L.rep.lists w wh (by simp [three, L.bw.symm, L.gw.symm])

theorem black_grey (L : Lists H b g w bl gr wh) : ∀ y ∈ b :: bl, y ∉ g :: gr := L.rep.disjoint b g bl gr (by simp [three]) (by simp [three, L.bg.symm]) L.bg
theorem black_white (L : Lists H b g w bl gr wh) : ∀ y ∈ b :: bl, y ∉ w :: wh := L.rep.disjoint b w bl wh (by simp [three]) (by simp [three, L.bw.symm, L.gw.symm]) L.bw
theorem grey_white (L : Lists H b g w bl gr wh) : ∀ y ∈ g :: gr, y ∉ w :: wh := L.rep.disjoint g w gr wh (by simp [three, L.bg.symm]) (by simp [three, L.bw.symm, L.gw.symm]) L.gw

/-- `y` is in none of the lists. -/
def Out (b g w : Addr) (bl gr wh : List Addr) (y : Addr) : Prop := y ∉ b :: bl ∧ y ∉ g :: gr ∧ y ∉ w :: wh

theorem free {y : Addr} (h : Out b g w bl gr wh y) : EList.Free (three b g w bl gr wh) y := by
  obtain ⟨h1, h2, h3⟩ := h
  refine ⟨by simp only [three]; grind, fun h xs hx => ?_⟩
  simp only [three] at hx
  grind

theorem addGrey (L : Lists H b g w bl gr wh) {x : Addr} (hx : Out b g w bl gr wh x) : Lists (EList.add H g x) b g w bl (x :: gr) wh := by
  refine ⟨L.bg, L.bw, L.gw, ?_⟩
  have h1 := L.bg; have h2 := L.bw; have h3 := L.gw
  have := EList.step_rep H _ _ (.add g x) L.rep (.add (xs := gr) (by simp [three, L.bg.symm]) (free hx))
  refine Eq.mp (congrArg _ ?_) this
  funext h; simp only [EList.set_eq, three]; grind

theorem addTailGrey (L : Lists H b g w bl gr wh) {x : Addr} (hx : Out b g w bl gr wh x) : Lists (EList.addTail H g x) b g w bl (gr ++ [x]) wh := by
  refine ⟨L.bg, L.bw, L.gw, ?_⟩
  have h1 := L.bg; have h2 := L.bw; have h3 := L.gw
  have := EList.step_rep H _ _ (.addTail g x) L.rep (.addTail (xs := gr) (by simp [three, L.bg.symm]) (free hx))
  refine Eq.mp (congrArg _ ?_) this
  funext h; simp only [EList.set_eq, three]; grind

theorem addBlack (L : Lists H b g w bl gr wh) {x : Addr} (hx : Out b g w bl gr wh x) : Lists (EList.add H b x) b g w (x :: bl) gr wh := by
  refine ⟨L.bg, L.bw, L.gw, ?_⟩
  have h1 := L.bg; have h2 := L.bw; have h3 := L.gw
  have := EList.step_rep H _ _ (.add b x) L.rep (.add (xs := bl) (by simp [three]) (free hx))
  refine Eq.mp (congrArg _ ?_) this
  funext h; simp only [EList.set_eq, three]; grind

theorem remove_aux (L : Lists H b g w bl gr wh) {h x : Addr} {xs : List Addr} (hh : three b g w bl gr wh h = some xs) (hx : x ∈ xs) :
    Rep (EList.remove H x) (EList.Abs.set (three b g w bl gr wh) h (some (del x xs))) := by
  have hn := (L.rep.lists h xs hh).2
  obtain ⟨l, r, rfl⟩ := List.append_of_mem hx
  rw [del_split (List.nodup_cons.1 hn).2]
  exact EList.step_rep H _ _ (.remove x) L.rep (.remove hh)

theorem remove (L : Lists H b g w bl gr wh) {x : Addr} (hx : x ∈ bl ∨ x ∈ gr ∨ x ∈ wh) : Lists (EList.remove H x) b g w (del x bl) (del x gr) (del x wh) := by
  refine ⟨L.bg, L.bw, L.gw, ?_⟩
  have h1 := L.bg; have h2 := L.bw; have h3 := L.gw
  have d1 := L.black_grey; have d2 := L.black_white; have d3 := L.grey_white
  rcases hx with hx | hx | hx
  · have e2 : del x gr = gr := del_of_not_mem (by grind)
    have e3 : del x wh = wh := del_of_not_mem (by grind)
    rw [e2, e3]
    have := L.remove_aux (h := b) (by simp [three]) hx
    refine Eq.mp (congrArg _ ?_) this
    funext h; simp only [EList.set_eq, three]; grind
  · have e2 : del x bl = bl := del_of_not_mem (by grind)
    have e3 : del x wh = wh := del_of_not_mem (by grind)
    rw [e2, e3]
    have := L.remove_aux (h := g) (by simp [three, L.bg.symm]) hx
    refine Eq.mp (congrArg _ ?_) this
    funext h; simp only [EList.set_eq, three]; grind
  · have e2 : del x bl = bl := del_of_not_mem (by grind)
    have e3 : del x gr = gr := del_of_not_mem (by grind)
    rw [e2, e3]
    have := L.remove_aux (h := w) (by simp [three, L.bw.symm, L.gw.symm]) hx
    refine Eq.mp (congrArg _ ?_) this
    funext h; simp only [EList.set_eq, three]; grind

/-- A node that is its own list of one: removing it changes nothing. -/
theorem remove_self (L : Lists H b g w bl gr wh) {x : Addr} (hn : H.next x = x) (hp : H.prev x = x) : Lists (EList.remove H x) b g w bl gr wh := by
  have e1 : (EList.remove H x).next = H.next := by funext y; rw [EList.remove_n]; grind
  have e2 : (EList.remove H x).prev = H.prev := by funext y; rw [EList.remove_p]; grind
  have : EList.remove H x = H := by
    rcases hr : EList.remove H x with ⟨p, n⟩
    rcases H with ⟨p', n'⟩
    rw [hr] at e1 e2
    simp only at e1 e2
    rw [e1, e2]
  rw [this]; exact L

/-- Resetting a node outside the lists. -/
theorem reset (L : Lists H b g w bl gr wh) {x : Addr} (hx : Out b g w bl gr wh x) : Lists (EList.reset H x) b g w bl gr wh := by
  refine ⟨L.bg, L.bw, L.gw, fun h xs hh => ?_, L.rep.disjoint⟩
  refine EList.isList_frame H _ h xs (L.rep.lists h xs hh) ?_
  intro y hy
  have : y ≠ x := by
    rintro rfl
    simp only [three] at hh
    obtain ⟨i1, i2, i3⟩ := hx
    grind
  first
    | exact EList.reset_outside H x y this
    | exact (EList.reset_outside H x y this).1

/-- The successor of an element of the grey list. -/
theorem next_grey {be a r} (L : Lists H b g w bl (be ++ a :: r) wh) : H.next a = r.headD g := by
  have h1 := ((EList.linked_append H g g a be r).mp L.grey.1).2
  cases r with
  | nil => simp only [EList.Linked] at h1; exact h1.1
  | cons y ys => simp only [EList.Linked] at h1; exact h1.1

theorem next_head (L : Lists H b g w bl gr wh) : H.next g = gr.headD g := by
  have h1 := L.grey.1
  cases gr with
  | nil => simp only [EList.Linked] at h1; exact h1.1
  | cons y ys => simp only [EList.Linked] at h1; exact h1.1

end Lists

end ZT.Gc
