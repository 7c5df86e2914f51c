import Verif.PtrArray.Props
import Verif.Array.Own

/-!
# C118: the memory of pointer arrays (zt_ptr_array.c)

The functions of Verif.PtrArray.Model with the heap of Verif.Array.Own. The pointer to block `b` is `b + 1` (0 is NULL). A pointer array is a structure and a block of pointers; the members are blocks of their own.
zt_malloc and zt_calloc end the program instead of returning NULL (zt_malloc.c 21-31), so allocations here succeed.
-/

namespace ZT.PtrArray.Own

open ZT.Arr.Own

/-! ## Model -/

/-- zt_ptr_array.h 8-14: the block of the structure, the block `array` points to, and their contents. -/
structure PAM where
  self : Nat
  block : Nat
  pa : PA

/-- free of a list of pointers, one after the other; free(NULL) has no effect. -/
def freeAll : Heap → List Ptr → Outcome Heap
  | h, [] => .ok h
  | h, p :: ps => (if p = 0 then .ok h else h.free (p - 1)) >>= fun h => freeAll h ps

/-- zt_ptr_array.c 9-27 `zt_ptr_array_init` -/
def initM (junk : Nat → Ptr) (h : Heap) (cb : Bool) : PAM × Heap :=
  let s := h.alloc []
  let b := s.2.alloc []
  (⟨s.1, b.1, init junk cb⟩, b.2)

/-- zt_ptr_array.c 44-78 `zt_ptr_array_resize`: the new block is allocated, then the old one is freed. -/
def resizeM (junk : Nat → Ptr) (h : Heap) (m : PAM) (expand : Int) : Outcome (Int × PAM × Heap) :=
  h.load m.self >>= fun _ =>
  resize junk m.pa expand >>= fun r =>
  if r.1 < 0 then .ok (-1, m, h)
  else
    let b := h.alloc []
    b.2.load m.block >>= fun _ =>
    b.2.free m.block >>= fun h => .ok (0, ⟨m.self, b.1, r.2⟩, h)

/-- zt_ptr_array.c 142-146: growing a full array. -/
def growM (junk : Nat → Ptr) (h : Heap) (m : PAM) : Outcome (Int × PAM × Heap) := if m.pa.count ≥ m.pa.size then resizeM junk h m 0 else .ok (0, m, h)

/-- zt_ptr_array.c 136-152 `zt_ptr_array_add` -/
def addM (junk : Nat → Ptr) (h : Heap) (m : PAM) (data : Ptr) : Outcome (Int × PAM × Heap) :=
  if data = 0 then .ok (0, m, h)
  else
    h.load m.self >>= fun _ =>
    growM junk h m >>= fun g =>
    if g.1 < 0 then .ok (-1, g.2.1, g.2.2)
    else
      g.2.2.load g.2.1.block >>= fun _ =>
      wr g.2.1.pa.arr g.2.1.pa.count data >>= fun a => .ok (0, { g.2.1 with pa := { g.2.1.pa with arr := a, count := g.2.1.pa.count + 1 } }, g.2.2)

/-- zt_ptr_array.c 95-116 `zt_ptr_array_del` with `free` as `free_cb` or none. The calls of free do not touch the array; they are made behind the loop here. -/
def delM (h : Heap) (m : PAM) (data : Ptr) : Outcome (PAM × Heap) :=
  if data = 0 then .ok (m, h)
  else
    h.load m.self >>= fun _ =>
    h.load m.block >>= fun _ =>
    del m.pa data >>= fun r =>
    freeAll h r.2.2 >>= fun h => .ok ({ m with pa := r.2.1 }, h)

/-- zt_ptr_array.c 154-182 `zt_ptr_array_free` with `free` as `free_cb` or none. -/
def freeM (h : Heap) (m : PAM) (freeMembers : Int) : Outcome Heap :=
  h.load m.self >>= fun _ =>
  h.load m.block >>= fun _ =>
  free m.pa freeMembers >>= fun r =>
  freeAll h r.2 >>= fun h =>
  h.free m.block >>= fun h => h.free m.self

/-- A call of a program with one array: it adds a new block with contents `c`, deletes the `i`-th member, resizes. -/
inductive Op where
  | add (c : List Byte)
  | del (i : Nat)
  | resize (expand : Int)

/-- The calls: zt_ptr_array.c 136-152, 184-196 with 95-116, and 44-78. -/
def execM (junk : Nat → Ptr) (h : Heap) (m : PAM) : Op → Outcome (PAM × Heap)
  | .add c => addM junk (h.alloc c).2 m ((h.alloc c).1 + 1) >>= fun r => .ok r.2
  | .del i => getIdx m.pa i >>= fun p => delM h m p
  | .resize e => resizeM junk h m e >>= fun r => .ok r.2

def runM (junk : Nat → Ptr) : Heap → PAM → List Op → Outcome (PAM × Heap)
  | h, m, [] => .ok (m, h)
  | h, m, o :: os => execM junk h m o >>= fun r => runM junk r.2 r.1 os

/-! ## Specification -/

/-- The `i`-th is replaced by the last, which is dropped. -/
def swapOut {α : Type} (l : List α) (i : Nat) : List α := (match l.getLast? with | some x => l.set i x | none => l).dropLast

/-- The members in order and the members taken out. -/
def spec : List (List Byte) × List (List Byte) → Op → List (List Byte) × List (List Byte)
  | (l, out), .add c => (l ++ [c], out)
  | (l, out), .del i => if i < l.length then (swapOut l i, out ++ (l[i]?).toList) else (l, out)
  | s, .resize _ => s

/-- The room a call takes. -/
def Op.room : Op → Nat
  | .add _ => 32
  | .del _ => 0
  | .resize e => max e.toNat 32

/-- The array `m` with the members `ids` in the heap `h`. -/
structure Owns (h : Heap) (m : PAM) (ids : List Nat) : Prop where
  holds : Holds m.pa (ids.map (· + 1))
  nodup : (m.self :: m.block :: ids).Nodup
  live : ∀ b ∈ m.self :: m.block :: ids, b ∈ h.live

/-! ## Lemmas -/

theorem _root_.ZT.Arr.Own.Upd.congr {h h' : Heap} {o o1 o' o1' l : List Nat} (u : Upd h o h' o' l) (p : o.Perm o1) (q : o'.Perm o1') : Upd h o1 h' o1' l := by
  refine ⟨fun rest pr => ?_, u.good, fun b hb hn => ?_, u.mono, u.fresh⟩
  · exact (u.perm rest (pr.trans (p.symm.append_right rest))).trans (q.append_right _)
  · obtain ⟨a1, a2, a3⟩ := u.keep b hb (fun hm => hn (p.mem_iff.1 hm))
    exact ⟨a1, fun hm => a2 (q.mem_iff.2 hm), a3⟩

theorem freeAll_upd {own : List Nat} : ∀ (ids : List Nat) {h : Heap}, Good h → ids.Nodup → (∀ b ∈ ids, b ∈ h.live) → (∀ b ∈ own, b ∉ ids) →
    ∃ h', freeAll h (ids.map (· + 1)) = .ok h' ∧ h'.cont = h.cont ∧ Upd h (ids ++ own) h' own [] ∧ (∀ b ∈ h.live, b ∉ ids → b ∈ h'.live) := by
  intro ids
  induction ids with
  | nil => intro h G _ _ _; exact ⟨h, rfl, rfl, Upd.refl G own, fun b hb _ => hb⟩
  | cons x ids ih =>
      intro h G nd hl ho
      obtain ⟨hx, nd⟩ := List.nodup_cons.1 nd
      obtain ⟨h1, e1, c1, u1⟩ := free_upd G (hl x (by simp)) (ids ++ own)
      have k1 : ∀ b ∈ h.live, b ≠ x → b ∈ h1.live := by
        intro b hb hne
        have e2 := e1
        unfold Heap.free at e2
        rw [if_pos (hl x (by simp))] at e2
        cases e2
        exact (List.mem_erase_of_ne hne).2 hb
      obtain ⟨h2, e2, c2, u2, k2⟩ := ih u1.good nd (fun b hb => k1 b (hl b (by simp [hb])) (fun e => hx (e ▸ hb))) (fun b hb hm => ho b hb (by simp [hm]))
      refine ⟨h2, ?_, c2.trans c1, u1.trans u2, fun b hb hn => k2 b (k1 b hb (fun e => hn (by simp [e]))) (fun hm => hn (by simp [hm]))⟩
      rw [List.map_cons, freeAll, if_neg (Nat.succ_ne_zero _)]
      show (h.free (x + 1 - 1) >>= fun h => freeAll h (ids.map (· + 1))) = _
      rw [Nat.add_sub_cancel, e1, Outcome.ok_bind]
      exact e2

theorem initM_owns {h : Heap} (G : Good h) (junk : Nat → Ptr) (cb : Bool) : Owns (initM junk h cb).2 (initM junk h cb).1 [] ∧ Upd h [] (initM junk h cb).2 [(initM junk h cb).1.self, (initM junk h cb).1.block] [] := by
  have u1 := alloc_upd G [] []
  have u2 := alloc_upd u1.good [] [(h.alloc []).1]
  refine ⟨⟨c29_init junk cb, ?_, ?_⟩, (u1.trans u2).congr (List.Perm.refl _) (List.Perm.swap _ _ _)⟩
  · show [h.next, h.next + 1].Nodup
    simp
  · intro b hb
    show b ∈ (h.next + 1) :: h.next :: h.live
    have hb' : b ∈ [h.next, h.next + 1] := hb
    simp at hb' ⊢
    omega

theorem resizeM_owns {h : Heap} (G : Good h) {m : PAM} {ids : List Nat} (O : Owns h m ids) (junk : Nat → Ptr) (e : Int) (hs : m.pa.size + max e.toNat 32 < 2 ^ 31) :
    ∃ r m' h', resizeM junk h m e = .ok (r, m', h') ∧ (0 ≤ e → r = 0) ∧ Owns h' m' ids ∧ Upd h (m.self :: m.block :: ids) h' (m'.self :: m'.block :: ids) [] ∧ m'.pa.size ≤ m.pa.size + max e.toNat 32 ∧ m'.pa.cb = m.pa.cb ∧
      (∀ b ∈ ids, h'.cont b = h.cont b) ∧ m'.self = m.self := by
  have hself : m.self ∈ h.live := O.live _ (by simp)
  unfold resizeM
  rw [load_ok hself, Outcome.ok_bind]
  by_cases hneg : e < 0
  · rw [(c29_resize O.holds junk).2 e hneg (by omega), Outcome.ok_bind]
    exact ⟨-1, m, h, if_pos (show (-1 : Int) < 0 by decide), fun h0 => by omega, O, Upd.refl G _, by omega, rfl, fun _ _ => rfl, rfl⟩
  · obtain ⟨n, rfl⟩ : ∃ n : Nat, e = (n : Int) := ⟨e.toNat, by omega⟩
    have hn : m.pa.size + (if n = 0 then 32 else n) < 2 ^ 31 := by
      split <;> omega
    obtain ⟨a', e1, e2, e3, e4⟩ := resize_spec O.holds junk hn
    rw [e1, Outcome.ok_bind, if_neg (show ¬ (0 : Int) < 0 by decide)]
    have u0 := alloc_upd G [] (m.self :: m.block :: ids)
    have hne := List.nodup_cons.1 O.nodup
    have hnb := List.nodup_cons.1 hne.2
    have hblk : m.block ∈ (h.alloc []).2.live := List.mem_cons_of_mem _ (O.live _ (by simp))
    obtain ⟨h', f1, f2, u1⟩ := free_upd u0.good hblk ((h.alloc []).1 :: m.self :: ids)
    have hlt : ∀ b ∈ h.live, b ≠ (h.alloc []).1 := fun b hb => Nat.ne_of_lt (G.lt b hb)
    have hlive' : h'.live = (h.alloc []).2.live.erase m.block := by
      unfold Heap.free at f1
      rw [if_pos hblk] at f1
      cases f1; rfl
    refine ⟨0, ⟨m.self, (h.alloc []).1, a'⟩, h', ?_, fun _ => rfl, ⟨e2, ?_, ?_⟩, ?_, ?_, e4, ?_, rfl⟩
    · simp only [load_ok hblk, Outcome.ok_bind]
      rw [f1]; rfl
    · refine List.nodup_cons.2 ⟨?_, List.nodup_cons.2 ⟨?_, hnb.2⟩⟩
      · intro hm
        rcases List.mem_cons.1 hm with e | hm
        · exact hlt _ hself e
        · exact hne.1 (by simp [hm])
      · intro hm
        exact hlt _ (O.live _ (by simp [hm])) rfl
    · intro b hb
      rw [hlive']
      have hnotb : b ≠ m.block := by
        rcases List.mem_cons.1 hb with rfl | hb
        · intro (e : m.self = m.block); exact hne.1 (by simp [e])
        · rcases List.mem_cons.1 hb with rfl | hb
          · exact fun e => hlt _ (O.live m.block (by simp)) e.symm
          · intro e; exact hnb.1 (e ▸ hb)
      refine (List.mem_erase_of_ne hnotb).2 ?_
      rcases List.mem_cons.1 hb with rfl | hb
      · exact List.mem_cons_of_mem _ hself
      · rcases List.mem_cons.1 hb with rfl | hb
        · exact List.mem_cons_self
        · exact List.mem_cons_of_mem _ (O.live _ (by simp [hb]))
    · refine ((u0.congr (List.Perm.refl _) ?_).trans u1).congr (List.Perm.refl _) (List.Perm.swap _ _ _)
      exact List.perm_iff_count.2 fun a => by simp only [List.count_cons]; omega
    · show a'.size ≤ _
      rw [e3]; split <;> omega
    · intro b hb
      rw [f2]
      exact if_neg (hlt b (O.live b (by simp [hb])))

theorem addM_owns {h : Heap} (G : Good h) {m : PAM} {ids : List Nat} (O : Owns h m ids) (junk : Nat → Ptr) {b : Nat} (hb : b ∈ h.live) (hn : b ∉ m.self :: m.block :: ids) (hs : m.pa.size + 32 < 2 ^ 31) :
    ∃ m' h', addM junk h m (b + 1) = .ok (0, m', h') ∧ Owns h' m' (ids ++ [b]) ∧ Upd h (b :: m.self :: m.block :: ids) h' (m'.self :: m'.block :: (ids ++ [b])) [] ∧ m'.pa.size ≤ m.pa.size + 32 ∧ m'.pa.cb = m.pa.cb ∧
      (∀ x ∈ ids ++ [b], h'.cont x = h.cont x) := by
  have hself : m.self ∈ h.live := O.live _ (by simp)
  obtain ⟨a2, e2, k2, s2, c2⟩ := c29_add O.holds junk (p := b + 1) (Nat.succ_ne_zero _) hs
  -- growing
  have hg : ∃ m1 h1, growM junk h m = .ok (0, m1, h1) ∧ Owns h1 m1 ids ∧ Upd h (m.self :: m.block :: ids) h1 (m1.self :: m1.block :: ids) [] ∧ m1.pa.cb = m.pa.cb ∧ (∀ b ∈ ids, h1.cont b = h.cont b) ∧
      grow junk m.pa = .ok (0, m1.pa) := by
    unfold growM grow
    by_cases hf : m.pa.count ≥ m.pa.size
    · rw [if_pos hf, if_pos hf]
      obtain ⟨r, m1, h1, e1, r0, O1, u1, _, c1, k1, _⟩ := resizeM_owns G O junk 0 (by simpa using hs)
      obtain rfl : r = 0 := r0 (by decide)
      refine ⟨m1, h1, e1, O1, u1, c1, k1, ?_⟩
      unfold resizeM at e1
      rw [load_ok hself, Outcome.ok_bind] at e1
      obtain ⟨x, x1, x2⟩ := Outcome.bind_eq_ok.1 e1
      by_cases hx : x.1 < 0
      · rw [if_pos hx] at x2
        cases x2
      · rw [if_neg hx] at x2
        obtain ⟨_, _, x3⟩ := Outcome.bind_eq_ok.1 x2
        obtain ⟨_, _, x4⟩ := Outcome.bind_eq_ok.1 x3
        cases x4
        obtain ⟨a', e3, _⟩ := resize_spec O.holds junk (e := 0) (by simpa using hs)
        rw [show ((0 : Nat) : Int) = 0 from rfl, x1] at e3
        cases e3
        exact x1
    · rw [if_neg hf, if_neg hf]
      exact ⟨m, h, rfl, O, Upd.refl G _, rfl, fun _ _ => rfl, rfl⟩
  obtain ⟨m1, h1, g1, O1, u1, c1, k1, g2⟩ := hg
  have hadd : ∃ arr, wr m1.pa.arr m1.pa.count (b + 1) = .ok arr ∧ a2 = { m1.pa with arr := arr, count := m1.pa.count + 1 } := by
    unfold add at e2
    rw [if_neg (Nat.succ_ne_zero _), g2] at e2
    simp only [Outcome.ok_bind] at e2
    rw [if_neg (by decide)] at e2
    obtain ⟨arr, w1, w2⟩ := Outcome.bind_eq_ok.1 e2
    cases w2
    exact ⟨arr, w1, rfl⟩
  obtain ⟨arr, w1, rfl⟩ := hadd
  have hblk : m1.block ∈ h1.live := O1.live _ (by simp)
  obtain ⟨kb1, kb2, kb3⟩ := u1.keep b hb hn
  refine ⟨{ m1 with pa := { m1.pa with arr := arr, count := m1.pa.count + 1 } }, h1, ?_, ⟨?_, ?_, ?_⟩, ?_, s2, c1, ?_⟩
  · rw [addM, if_neg (Nat.succ_ne_zero _), load_ok hself, Outcome.ok_bind, g1, Outcome.ok_bind, if_neg (show ¬ (0 : Int) < 0 by decide)]
    show (h1.load m1.block >>= fun _ => _) = _
    rw [load_ok hblk, Outcome.ok_bind]
    show (wr m1.pa.arr m1.pa.count (b + 1) >>= fun _ => _) = _
    rw [w1]; rfl
  · show Holds _ ((ids ++ [b]).map (· + 1))
    rw [List.map_append]; exact k2
  · have : (m1.self :: m1.block :: (ids ++ [b])).Perm (b :: m1.self :: m1.block :: ids) := List.perm_iff_count.2 fun a => by simp only [List.count_cons, List.count_append, List.count_nil]; omega
    exact this.nodup_iff.2 (List.nodup_cons.2 ⟨kb2, O1.nodup⟩)
  · intro x hx
    simp only [List.mem_cons, List.mem_append, List.not_mem_nil, or_false] at hx
    rcases hx with h' | h' | h' | h'
    · exact O1.live x (by simp [h'])
    · exact O1.live x (by simp [h'])
    · exact O1.live x (by simp [h'])
    · rw [h']; exact kb1
  · -- the new member was owned by the caller
    refine ⟨fun rest p => ?_, u1.good, fun x hx hnx => ?_, u1.mono, u1.fresh⟩
    · have p2 : h.live.Perm ((m.self :: m.block :: ids) ++ (b :: rest)) := p.trans (by
        show (b :: (m.self :: m.block :: ids ++ rest)).Perm _
        exact List.perm_middle.symm)
      refine (u1.perm _ p2).trans (List.perm_iff_count.2 fun a => ?_)
      simp only [List.count_cons, List.count_append, List.count_nil]; omega
    · obtain ⟨a1, a2, a3⟩ := u1.keep x hx (fun hm => hnx (by exact List.mem_cons_of_mem _ hm))
      refine ⟨a1, fun hm => ?_, a3⟩
      simp only [List.mem_cons, List.mem_append, List.not_mem_nil, or_false] at hm a2
      rcases hm with h' | h' | h' | h'
      · exact a2 (.inl h')
      · exact a2 (.inr (.inl h'))
      · exact a2 (.inr (.inr h'))
      · exact hnx (by simp [h'])
  · intro x hx
    rcases List.mem_append.1 hx with hx | hx
    · exact k1 x hx
    · rw [List.mem_singleton] at hx
      rw [hx]; exact kb3

theorem map_swapOut {α β : Type} (f : α → β) (l : List α) (i : Nat) : (swapOut l i).map f = swapOut (l.map f) i := by
  unfold swapOut
  rw [List.getLast?_map]
  cases l.getLast? with
  | none => simp
  | some x => simp [List.map_set]

theorem swapOut_spec {L : List Ptr} {i : Nat} (hi : i < L.length) : Spec.swapOut L i = swapOut L i := by
  have hne : L ≠ [] := by rintro rfl; simp at hi
  unfold Spec.swapOut swapOut
  rw [List.getLast?_eq_some_getLast hne]
  simp only [List.getLastD_eq_getLast?, List.getLast?_eq_some_getLast hne, Option.getD_some]

theorem swapOut_perm {l : List Nat} {i : Nat} (hi : i < l.length) : l.Perm (l[i] :: swapOut l i) := by
  have := set_dropLast_perm hi
  rw [swapOut_spec hi] at this
  exact this.symm.trans (List.perm_append_comm)

/-- One deletion of a member that occurs once. -/
theorem del_member {a : PA} {L : List Ptr} (h : Holds a L) {j : Nat} (hj : j < L.length) (nd : L.Nodup) :
    ∃ a', del a L[j] = .ok (-1, a', if a.cb then [L[j]] else []) ∧ Holds a' (swapOut L j) ∧ a'.size = a.size ∧ a'.cb = a.cb := by
  have hone : L.count L[j] = 1 := by rw [nd.count, if_pos (List.getElem_mem hj)]
  obtain ⟨a1, e1, k1, _⟩ := c29_del_once h hj hone
  obtain ⟨a', L', m, e, h1, h2, h3, h4, h5, h6, h7⟩ := delLoop_spec L[j] (a.count + 1) a L 0 [] h (by rw [h.count]; omega) (by omega)
  have hp : L[j] ≠ 0 := h.nonnull _ (List.getElem_mem _)
  have e2 : del a L[j] = .ok (-1, a', [] ++ List.replicate (if a.cb then m else 0) L[j]) := by
    rw [del, if_neg hp, e]; rfl
  rw [e1] at e2
  simp only [Outcome.ok.injEq, Prod.mk.injEq] at e2
  refine ⟨a1, e1, ?_, ?_, ?_⟩
  · rw [← swapOut_spec hj]; exact k1
  · rw [e2.2.1]; exact h5
  · rw [e2.2.1]; exact h6

theorem delM_owns {h : Heap} (G : Good h) {m : PAM} {ids : List Nat} (O : Owns h m ids) {i : Nat} (hi : i < ids.length) :
    ∃ m' h', delM h m (ids[i] + 1) = .ok (m', h') ∧ Owns h' m' (swapOut ids i) ∧
      Upd h (m.self :: m.block :: ids) h' (m'.self :: m'.block :: swapOut ids i) (if m.pa.cb then [] else [ids[i]]) ∧ m'.pa.size = m.pa.size ∧ m'.pa.cb = m.pa.cb ∧ h'.cont = h.cont ∧
      (m.pa.cb = false → h' = h) ∧ m'.self = m.self ∧ m'.block = m.block := by
  have hself : m.self ∈ h.live := O.live _ (by simp)
  have hblk : m.block ∈ h.live := O.live _ (by simp)
  have ndi : ids.Nodup := (List.nodup_cons.1 (List.nodup_cons.1 O.nodup).2).2
  have ndm : (ids.map (· + 1)).Nodup := List.Pairwise.map (· + 1) (fun a b (hne : a ≠ b) (e : a + 1 = b + 1) => hne (by omega)) ndi
  have hj : i < (ids.map (· + 1)).length := by simpa using hi
  have hge : (ids.map (· + 1))[i] = ids[i] + 1 := by simp
  obtain ⟨a', e, k, s, c⟩ := del_member O.holds hj ndm
  rw [hge] at e
  have hp := swapOut_perm hi
  have hown : (m.self :: m.block :: ids).Perm (ids[i] :: m.self :: m.block :: swapOut ids i) := List.perm_iff_count.2 fun a => by
    have := List.perm_iff_count.1 hp a
    simp only [List.count_cons] at this ⊢; omega
  have nd2 := hown.nodup_iff.1 O.nodup
  have hmem : ∀ b ∈ m.self :: m.block :: swapOut ids i, b ∈ h.live ∧ b ≠ ids[i] := fun b hb =>
    ⟨O.live b (hown.mem_iff.2 (List.mem_cons_of_mem _ hb)), fun e => (List.nodup_cons.1 nd2).1 (e ▸ hb)⟩
  have hH : Holds a' ((swapOut ids i).map (· + 1)) := by rw [map_swapOut]; exact k
  unfold delM
  rw [if_neg (Nat.succ_ne_zero _), load_ok hself, Outcome.ok_bind, load_ok hblk, Outcome.ok_bind, e, Outcome.ok_bind]
  cases hcb : m.pa.cb with
  | true =>
      obtain ⟨h', f1, f2, u⟩ := free_upd G (O.live ids[i] (by simp)) (m.self :: m.block :: swapOut ids i)
      have hlive' : h'.live = h.live.erase ids[i] := by
        unfold Heap.free at f1
        rw [if_pos (O.live ids[i] (by simp))] at f1
        cases f1; rfl
      refine ⟨{ m with pa := a' }, h', ?_, ⟨hH, (List.nodup_cons.1 nd2).2, fun b hb => ?_⟩, u.congr hown.symm (List.Perm.refl _), s, c.trans hcb, f2, (fun h => by cases h), rfl, rfl⟩
      · show (freeAll h [ids[i] + 1] >>= _) = _
        rw [freeAll, if_neg (Nat.succ_ne_zero _), Nat.add_sub_cancel, f1]
        rfl
      · rw [hlive']
        exact (List.mem_erase_of_ne (hmem b hb).2).2 (hmem b hb).1
  | false =>
      refine ⟨{ m with pa := a' }, h, rfl, ⟨hH, (List.nodup_cons.1 nd2).2, fun b hb => (hmem b hb).1⟩, ⟨fun rest p => ?_, G, fun b hb hn => ?_, Nat.le_refl _, fun b hb => .inl hb⟩, s, c.trans hcb, rfl, fun _ => rfl, rfl, rfl⟩
      · refine p.trans ((hown.append_right rest).trans (List.perm_iff_count.2 fun a => ?_))
        simp only [List.count_cons, List.count_append, Bool.false_eq_true, if_false, List.count_nil]; omega
      · exact ⟨hb, fun hm => hn (hown.mem_iff.2 (List.mem_cons_of_mem _ hm)), rfl⟩

theorem freeM_owns {h : Heap} (G : Good h) {m : PAM} {ids : List Nat} (O : Owns h m ids) (f : Int) :
    ∃ h', freeM h m f = .ok h' ∧ h'.cont = h.cont ∧ Upd h (m.self :: m.block :: ids) h' (if f > 0 then [] else ids) [] := by
  have hself : m.self ∈ h.live := O.live _ (by simp)
  have hblk : m.block ∈ h.live := O.live _ (by simp)
  have n1 := List.nodup_cons.1 O.nodup
  have n2 := List.nodup_cons.1 n1.2
  unfold freeM
  rw [load_ok hself, Outcome.ok_bind, load_ok hblk, Outcome.ok_bind, c29_free O.holds f, Outcome.ok_bind]
  -- the structure and the block
  have last : ∀ (h1 : Heap) (own : List Nat), Good h1 → m.self ∈ h1.live → m.block ∈ h1.live →
      ∃ h', (h1.free m.block >>= fun h => h.free m.self) = .ok h' ∧ h'.cont = h1.cont ∧ Upd h1 (m.block :: m.self :: own) h' own [] := by
    intro h1 own G1 s1 b1
    obtain ⟨h2, e2, c2, u2⟩ := free_upd G1 b1 (m.self :: own)
    have hs2 : m.self ∈ h2.live := by
      unfold Heap.free at e2
      rw [if_pos b1] at e2
      cases e2
      exact (List.mem_erase_of_ne (fun e => n1.1 (by simp [e]))).2 s1
    obtain ⟨h3, e3, c3, u3⟩ := free_upd u2.good hs2 own
    exact ⟨h3, by rw [e2]; exact e3, c3.trans c2, u2.trans u3⟩
  by_cases hf : f > 0
  · simp only [if_pos hf]
    obtain ⟨h1, e1, c1, u1, k1⟩ := freeAll_upd (own := [m.block, m.self]) ids G n2.2 (fun b hb => O.live b (by simp [hb])) (by
      intro b hb hm
      simp only [List.mem_cons, List.not_mem_nil, or_false] at hb
      rcases hb with rfl | rfl
      · exact n2.1 hm
      · exact n1.1 (by simp [hm]))
    rw [e1, Outcome.ok_bind]
    obtain ⟨h2, e2, c2, u2⟩ := last h1 [] u1.good (k1 _ hself (fun hm => n1.1 (by simp [hm]))) (k1 _ hblk n2.1)
    refine ⟨h2, e2, c2.trans c1, (u1.trans u2).congr ?_ (List.Perm.refl _)⟩
    exact List.perm_iff_count.2 fun a => by simp only [List.count_cons, List.count_append, List.count_nil]; omega
  · simp only [if_neg hf, freeAll, Outcome.ok_bind]
    obtain ⟨h2, e2, c2, u2⟩ := last h ids G hself hblk
    exact ⟨h2, e2, c2, u2.congr (List.Perm.swap _ _ _) (List.Perm.refl _)⟩

/-! ## Histories -/

/-- One call: the array holds what the specification says, and the members taken out are free or still with the caller. -/
theorem execM_owns {h : Heap} (G : Good h) {m : PAM} {ids : List Nat} (O : Owns h m ids) (junk : Nat → Ptr) (o : Op) (hs : m.pa.size + o.room < 2 ^ 31) (out : List (List Byte)) :
    ∃ m' h' ids' lost, execM junk h m o = .ok (m', h') ∧ Owns h' m' ids' ∧ Upd h (m.self :: m.block :: ids) h' (m'.self :: m'.block :: ids') (if m.pa.cb then [] else lost) ∧ m'.pa.size ≤ m.pa.size + o.room ∧ m'.pa.cb = m.pa.cb ∧
      (ids'.map h'.cont, out ++ lost.map h.cont) = spec (ids.map h.cont, out) o ∧ (m.pa.cb = false → ∀ b ∈ lost, b ∈ h'.live ∧ b ∉ m'.self :: m'.block :: ids' ∧ h'.cont b = h.cont b) := by
  cases o with
  | add c =>
      have u0 := alloc_upd G c (m.self :: m.block :: ids)
      have hfresh : (h.alloc c).1 ∉ m.self :: m.block :: ids := fun hm => Nat.lt_irrefl _ (G.lt _ (O.live _ hm))
      have O1 : Owns (h.alloc c).2 m ids := ⟨O.holds, O.nodup, fun b hb => List.mem_cons_of_mem _ (O.live b hb)⟩
      obtain ⟨m', h', e, O', u, s, cb, k⟩ := addM_owns u0.good O1 junk (alloc_mem h c) hfresh hs
      refine ⟨m', h', ids ++ [(h.alloc c).1], [], ?_, O', ?_, s, cb, ?_, by simp⟩
      · rw [execM, e]; rfl
      · have := u0.trans u
        simpa using this
      · simp only [spec, List.map_nil, List.append_nil, Prod.mk.injEq, and_true]
        rw [List.map_append]
        congr 1
        · refine List.map_congr_left fun b hb => ?_
          rw [k b (by simp [hb])]
          exact if_neg (Nat.ne_of_lt (G.lt b (O.live b (by simp [hb]))))
        · simp only [List.map_cons, List.map_nil]
          rw [k _ (by simp), alloc_cont]
  | del i =>
      by_cases hi : i < ids.length
      · obtain ⟨m', h', e, O', u, s, cb, k, kk, ks, kb⟩ := delM_owns G O hi
        have hg : getIdx m.pa i = .ok (ids[i] + 1) := by
          have := (c29_get O.holds).1 i (by simpa using hi)
          rw [this]; simp
        refine ⟨m', h', swapOut ids i, [ids[i]], ?_, O', u, by show m'.pa.size ≤ m.pa.size + 0; omega, cb, ?_, ?_⟩
        · rw [execM, hg, Outcome.ok_bind, e]
        · simp only [spec, List.length_map, if_pos hi, Prod.mk.injEq]
          refine ⟨?_, ?_⟩
          · rw [k, map_swapOut]
          · simp [hi]
        · intro hcb b hb
          rw [List.mem_singleton] at hb
          subst hb
          refine ⟨by rw [kk hcb]; exact O.live _ (by simp), ?_, by rw [k]⟩
          have hown : (m.self :: m.block :: ids).Perm (ids[i] :: m.self :: m.block :: swapOut ids i) := List.perm_iff_count.2 fun a => by
            have := List.perm_iff_count.1 (swapOut_perm hi) a
            simp only [List.count_cons] at this ⊢; omega
          rw [ks, kb]
          exact (List.nodup_cons.1 (hown.nodup_iff.1 O.nodup)).1
      · have hg : getIdx m.pa i = .ok 0 := (c29_get O.holds).2.1 i (by simpa using Nat.le_of_not_lt hi)
        refine ⟨m, h, ids, [], ?_, O, ?_, by show m.pa.size ≤ m.pa.size + 0; omega, rfl, ?_, by simp⟩
        · rw [execM, hg, Outcome.ok_bind, delM, if_pos rfl]
        · have := Upd.refl G (m.self :: m.block :: ids)
          simpa using this
        · simp [spec, hi]
  | resize e =>
      obtain ⟨r, m', h', e1, _, O', u, s, cb, k, _⟩ := resizeM_owns G O junk e hs
      refine ⟨m', h', ids, [], ?_, O', by simpa using u, s, cb, ?_, by simp⟩
      · rw [execM, e1]; rfl
      · simp only [spec, List.map_nil, List.append_nil, Prod.mk.injEq, and_true]
        exact List.map_congr_left fun b hb => k b hb

theorem runM_owns (junk : Nat → Ptr) : ∀ (os : List Op) {h : Heap} {m : PAM} {ids : List Nat} (out : List (List Byte)), Good h → Owns h m ids → m.pa.size + (os.map Op.room).sum < 2 ^ 31 →
    ∃ m' h' ids' lost, runM junk h m os = .ok (m', h') ∧ Owns h' m' ids' ∧ Upd h (m.self :: m.block :: ids) h' (m'.self :: m'.block :: ids') (if m.pa.cb then [] else lost) ∧
      ids'.map h'.cont = (os.foldl spec (ids.map h.cont, out)).1 ∧ (m.pa.cb = false → out ++ lost.map h'.cont = (os.foldl spec (ids.map h.cont, out)).2) := by
  intro os
  induction os with
  | nil =>
      intro h m ids out G O _
      refine ⟨m, h, ids, [], rfl, O, ?_, rfl, fun _ => by simp⟩
      have := Upd.refl G (m.self :: m.block :: ids)
      simpa using this
  | cons o os ih =>
      intro h m ids out G O hs
      simp only [List.map_cons, List.sum_cons] at hs
      obtain ⟨m1, h1, ids1, l1, e1, O1, u1, s1, c1, v1, k1⟩ := execM_owns G O junk o (by omega) out
      obtain ⟨m2, h2, ids2, l2, e2, O2, u2, v2, w2⟩ := ih (out ++ l1.map h.cont) u1.good O1 (by omega)
      rw [v1] at v2 w2
      refine ⟨m2, h2, ids2, l1 ++ l2, by rw [runM, e1]; exact e2, O2, ?_, v2, fun hcb => ?_⟩
      · have := u1.trans u2
        rw [c1] at this
        cases hcb : m.pa.cb with
        | true => simpa [hcb] using this
        | false =>
            simp only [hcb, Bool.false_eq_true, if_false] at this ⊢
            refine ⟨fun rest p => (this.perm rest p).trans ?_, this.good, this.keep, this.mono, this.fresh⟩
            exact (List.perm_append_comm.append_right rest).append_left _
      · rw [List.foldl_cons, ← w2 (c1.trans hcb), List.map_append, List.append_assoc]
        congr 2
        refine List.map_congr_left fun b hb => ?_
        obtain ⟨q1, q2, q3⟩ := k1 hcb b hb
        rw [(u2.keep b q1 q2).2.2, q3]

/-- C118: any number of additions of new blocks, deletions and resizes of a new array: the members are what the specification says (their blocks in use and unchanged, no two the same), deleted members are freed by
an array with `free` and still the caller's (unchanged) otherwise, and nothing else has changed. Releasing the array with its members gives back everything, exactly once; without them, exactly the members are left. -/
theorem c118_history (junk : Nat → Ptr) {h : Heap} (G : Good h) (cb : Bool) (os : List Op) (hs : (os.map Op.room).sum + 32 < 2 ^ 31) :
    ∃ m h' ids lost, runM junk (initM junk h cb).2 (initM junk h cb).1 os = .ok (m, h') ∧
      (∀ (i : Nat) (b : Nat), ids[i]? = some b → getIdx m.pa i = .ok (b + 1)) ∧ m.pa.count = ids.length ∧ ids.map h'.cont = (os.foldl spec ([], [])).1 ∧
      (cb = true → lost = []) ∧ (cb = false → lost.map h'.cont = (os.foldl spec ([], [])).2) ∧
      h'.live.Nodup ∧ h'.live.Perm (m.self :: m.block :: (ids ++ lost ++ h.live)) ∧ (∀ b ∈ h.live, h'.cont b = h.cont b) ∧
      (∀ f : Int, ∃ h'', freeM h' m f = .ok h'' ∧ h''.live.Perm ((if f > 0 then [] else ids) ++ lost ++ h.live) ∧ ∀ b ∈ h''.live, h''.cont b = h'.cont b) := by
  obtain ⟨O0, u0⟩ := initM_owns G junk cb
  obtain ⟨m, h', ids, lost, e, O, u, v, w⟩ := runM_owns junk os [] u0.good O0 (by show 32 + _ < _; omega)
  have hcb : (initM junk h cb).1.pa.cb = cb := rfl
  rw [hcb] at u w
  have uu := u0.trans u
  have hp : h'.live.Perm ((m.self :: m.block :: ids) ++ ((if cb then [] else lost) ++ h.live)) := by
    have := uu.perm h.live (List.Perm.refl _)
    simpa using this
  refine ⟨m, h', ids, if cb then [] else lost, e, ?_, ?_, v, ?_, ?_, uu.good.nodup, ?_, fun b hb => (uu.keep b hb (by simp)).2.2, fun f => ?_⟩
  · intro i b hi
    have hlt : i < ids.length := (List.getElem?_eq_some_iff.1 hi).1
    have := (c29_get O.holds).1 i (by simpa using hlt)
    rw [this]
    have hb := (List.getElem?_eq_some_iff.1 hi).2
    simp [hb]
  · have := O.holds.count
    simpa using this
  · intro h0; simp [h0]
  · intro h0
    rw [h0] at w ⊢
    simpa using w rfl
  · refine hp.trans ?_
    simp
  · obtain ⟨h'', f1, f2, u3⟩ := freeM_owns uu.good O f
    refine ⟨h'', f1, ?_, fun b _ => by rw [f2]⟩
    have := u3.perm _ hp
    simpa [List.append_assoc] using this

/-! ## Concatenation -/

/-- The blocks beside those of a list. -/
theorem rest_of : ∀ {own live : List Nat}, own.Nodup → (∀ b ∈ own, b ∈ live) → ∃ rest, live.Perm (own ++ rest) := by
  intro own
  induction own with
  | nil => intro live _ _; exact ⟨live, List.Perm.refl _⟩
  | cons x own ih =>
      intro live nd hl
      obtain ⟨hx, nd⟩ := List.nodup_cons.1 nd
      obtain ⟨rest, hr⟩ := ih (live := live.erase x) nd (fun b hb => (List.mem_erase_of_ne (fun (e : b = x) => hx (e ▸ hb))).2 (hl b (by simp [hb])))
      exact ⟨rest, (List.perm_cons_erase (hl x (by simp))).trans (hr.cons x)⟩

/-- Not C118: zt_ptr_array_cat copies the pointers, so both arrays have the members of the source: if both are released with their members, those blocks are freed twice. For every source that is not empty. -/
theorem c118_cat_violation {h : Heap} (G : Good h) {src dst : PAM} {ids : List Nat} (S : Owns h src ids) (hne : ids ≠ []) (D : Owns h dst []) (hd : dst.self ∉ src.self :: src.block :: ids ∧ dst.block ∉ src.self :: src.block :: ids)
    (junk : Nat → Ptr) (hs : dst.pa.size + 32 * ids.length < 2 ^ 31) : ∃ d, cat junk dst.pa src.pa = .ok (0, d) ∧ (freeM h { dst with pa := d } 1 >>= fun h => freeM h src 1) = .ub := by
  have D0 : Holds dst.pa [] := D.holds
  obtain ⟨d, e, hd2⟩ := c29_cat junk D0 S.holds (by simpa using hs)
  rw [List.nil_append] at hd2
  refine ⟨d, e, ?_⟩
  have n1 := List.nodup_cons.1 D.nodup
  have nds := (List.nodup_cons.1 (List.nodup_cons.1 S.nodup).2).2
  have O : Owns h { dst with pa := d } ids := by
    refine ⟨hd2, List.nodup_cons.2 ⟨fun hm => ?_, List.nodup_cons.2 ⟨fun hm => hd.2 (by simp [hm]), nds⟩⟩, fun b hb => ?_⟩
    · rcases List.mem_cons.1 hm with h1 | h1
      · exact n1.1 (by show dst.self ∈ [dst.block]; rw [List.mem_singleton]; exact h1)
      · exact hd.1 (by simp [h1])
    · rcases List.mem_cons.1 hb with rfl | hb
      · exact D.live _ (by simp)
      · rcases List.mem_cons.1 hb with rfl | hb
        · exact D.live _ (by simp)
        · exact S.live b (by simp [hb])
  obtain ⟨h1, f1, _, u⟩ := freeM_owns G O 1
  rw [f1, Outcome.ok_bind]
  cases ids with
  | nil => exact absurd rfl hne
  | cons x xs =>
      have hx : x ∉ h1.live := by
        intro hx
        obtain ⟨rest, hr⟩ : ∃ rest, h.live.Perm ((dst.self :: dst.block :: x :: xs) ++ rest) := by
          exact rest_of O.nodup O.live
        have p1 := u.perm rest hr
        have nd := hr.nodup_iff.1 G.nodup
        have hx2 : x ∈ rest := by
          have := p1.mem_iff.1 hx
          simpa using this
        have := (List.nodup_append.1 nd).2.2 x (by simp) x hx2
        exact this rfl
      unfold freeM
      by_cases hl : src.self ∈ h1.live
      · rw [load_ok hl, Outcome.ok_bind]
        by_cases hb : src.block ∈ h1.live
        · rw [load_ok hb, Outcome.ok_bind, c29_free S.holds 1, Outcome.ok_bind]
          show (freeAll h1 ((x + 1) :: xs.map (· + 1)) >>= _) = _
          rw [freeAll, if_neg (Nat.succ_ne_zero _), Nat.add_sub_cancel]
          have : h1.free x = .ub := if_neg hx
          rw [this]; rfl
        · have : h1.load src.block = .ub := if_neg hb
          rw [this]; rfl
      · have : h1.load src.self = .ub := if_neg hl
        rw [this]; rfl

/-! ## Cases -/

/-- Two blocks added, the first deleted; an array with `free`. -/
def demo : List Op := [.add [1], .add [2, 3], .resize 5, .del 0, .del 7]

example : (demo.map Op.room).sum + 32 < 2 ^ 31 := by decide
example : demo.foldl spec ([], []) = ([[2, 3]], [[1]]) := rfl
example : Good ⟨[3], fun _ => [9], 4⟩ := ⟨by simp, by simp⟩

theorem resize_cases {junk : Nat → Ptr} {a : PA} {x : Int} {q : Int × PA} (e : resize junk a x = .ok q) : q = (-1, a) ∨ q.1 = 0 := by
  unfold resize at e
  dsimp only at e
  generalize (if x = 0 then (32 : Int) else x) = s at e
  by_cases h1 : (a.size : Int) + s > 2 ^ 31 - 1
  · rw [if_pos h1] at e; exact nomatch e
  · rw [if_neg h1] at e
    by_cases h2 : (a.size : Int) + s < a.size
    · rw [if_pos h2] at e; cases e; exact .inl rfl
    · rw [if_neg h2] at e
      obtain ⟨_, _, e⟩ := Outcome.bind_eq_ok.1 e
      cases e; exact .inr rfl
/-- **C118, the values**: zt_ptr_array_resize, zt_ptr_array_add and zt_ptr_array_del return, and leave in the array, what C29 says of them: the memory underneath is all that is added here. -/
theorem c118_values {junk : Nat → Ptr} {h h' : Heap} {m m' : PAM} {r : Int} :
    (∀ {x}, resizeM junk h m x = .ok (r, m', h') → resize junk m.pa x = .ok (r, m'.pa)) ∧
    (∀ {d}, addM junk h m d = .ok (r, m', h') → add junk m.pa d = .ok (r, m'.pa)) ∧
    (∀ {d}, delM h m d = .ok (m', h') → ∃ f, del m.pa d = .ok (-1, m'.pa, f)) := by
  have res : ∀ {h h' : Heap} {m m' : PAM} {r : Int} {x}, resizeM junk h m x = .ok (r, m', h') → resize junk m.pa x = .ok (r, m'.pa) := by
    intro h h' m m' r x e
    rw [resizeM] at e
    obtain ⟨_, _, e⟩ := Outcome.bind_eq_ok.1 e
    obtain ⟨q, e1, e⟩ := Outcome.bind_eq_ok.1 e
    rw [e1]
    rcases resize_cases e1 with k | k
    · subst k
      rw [if_pos (show (-1 : Int) < 0 by decide)] at e
      cases e; rfl
    · rw [k, if_neg (by decide)] at e
      obtain ⟨_, _, e⟩ := Outcome.bind_eq_ok.1 e
      obtain ⟨_, _, e⟩ := Outcome.bind_eq_ok.1 e
      cases e
      rw [← k]
  refine ⟨res, ?_, ?_⟩
  · intro d e
    rw [addM] at e
    rw [add]
    by_cases h0 : d = 0
    · rw [if_pos h0] at e ⊢; cases e; rfl
    · rw [if_neg h0] at e ⊢
      obtain ⟨_, _, e⟩ := Outcome.bind_eq_ok.1 e
      obtain ⟨⟨i, m1, h1⟩, e1, e⟩ := Outcome.bind_eq_ok.1 e
      have g : grow junk m.pa = .ok (i, m1.pa) := by
        rw [growM] at e1
        rw [grow]
        split at e1
        · rw [if_pos (by assumption)]; exact res e1
        · rw [if_neg (by assumption)]; cases e1; rfl
      rw [g, Outcome.ok_bind]
      dsimp only at e ⊢
      by_cases hi : i < 0
      · rw [if_pos hi] at e ⊢; cases e; rfl
      · rw [if_neg hi] at e ⊢
        obtain ⟨_, _, e⟩ := Outcome.bind_eq_ok.1 e
        obtain ⟨a, e2, e⟩ := Outcome.bind_eq_ok.1 e
        rw [e2]; cases e; rfl
  · intro d e
    rw [delM] at e
    by_cases h0 : d = 0
    · rw [if_pos h0] at e; cases e
      exact ⟨[], by rw [del, if_pos h0]⟩
    · rw [if_neg h0] at e
      obtain ⟨_, _, e⟩ := Outcome.bind_eq_ok.1 e
      obtain ⟨_, _, e⟩ := Outcome.bind_eq_ok.1 e
      obtain ⟨q, e1, e⟩ := Outcome.bind_eq_ok.1 e
      obtain ⟨_, _, e⟩ := Outcome.bind_eq_ok.1 e
      cases e
      refine ⟨q.2.2, ?_⟩
      rw [e1]
      have : q.1 = -1 := by
        rw [del, if_neg h0] at e1
        obtain ⟨_, _, e1⟩ := Outcome.bind_eq_ok.1 e1
        cases e1; rfl
      rw [← this]

end ZT.PtrArray.Own
