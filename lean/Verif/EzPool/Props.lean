import Verif.EzPool.Model

/-!
# C32: the easy memory pools

`Forest` is what a client knows: pools with the blocks attached to them (newest first) and their sub-pools (newest first).
-/

namespace ZT.EzPool

/-- One block attached to a pool: the address of its record, the data pointer and the callback. -/
structure Item where
  node : Nat
  data : Nat
  cb : Option Nat
  deriving Repr, DecidableEq

/-- Pools with their blocks, sub-pools, and the remaining pools. -/
inductive Forest where
  | nil
  | cons (a : Nat) (items : List Item) (kids rest : Forest)
  deriving Repr, DecidableEq

namespace Forest

/-- The pools. -/
def pools : Forest → List Nat
  | nil => []
  | cons a _ kids rest => a :: (kids.pools ++ rest.pools)

/-- The blocks, each pool before its sub-pools. -/
def items : Forest → List Item
  | nil => []
  | cons _ cs kids rest => cs ++ (kids.items ++ rest.items)

/-- All addresses of pools and records. -/
def addrs : Forest → List Nat
  | nil => []
  | cons a cs kids rest => a :: (cs.map (·.node) ++ (kids.addrs ++ rest.addrs))

/-- Enough loop iterations. -/
def size : Forest → Nat
  | nil => 1
  | cons _ cs kids rest => cs.length + kids.size + rest.size + 3

/-- Attach a block to the pool `p`. -/
def addItem (p : Nat) (it : Item) : Forest → Forest
  | nil => nil
  | cons a cs kids rest => if a = p then cons a (it :: cs) kids rest else cons a cs (addItem p it kids) (addItem p it rest)

/-- Add a sub-pool to the pool `p`. -/
def addKid (p b : Nat) : Forest → Forest
  | nil => nil
  | cons a cs kids rest => if a = p then cons a cs (cons b [] nil kids) rest else cons a cs (addKid p b kids) (addKid p b rest)

/-- Remove the pool `p`, found among the pools of this level, with everything below it. -/
def remove (p : Nat) : Forest → Forest
  | nil => nil
  | cons a cs kids rest => if a = p then rest else cons a cs kids (remove p rest)

/-- The pool `p` of this level, alone. -/
def only (p : Nat) : Forest → Forest
  | nil => nil
  | cons a cs kids rest => if a = p then cons a cs kids nil else only p rest

/-- The pools of this level. -/
def tops : Forest → List Nat
  | nil => []
  | cons a _ _ rest => a :: rest.tops

end Forest

/-- The chain of records at `p` holds the items. -/
def Chain (M : Mem) : Ptr → List Item → Prop
  | p, [] => p = none
  | p, it :: its => p = some it.node ∧ ∃ nx, M.obj it.node = some (.chunk ⟨it.data, it.cb, nx⟩) ∧ Chain M nx its

/-- The list of pools at `p`, with parent `par`, is the forest. -/
def Rep (M : Mem) (par : Ptr) : Ptr → Forest → Prop
  | p, .nil => p = none
  | p, .cons a cs kids rest => p = some a ∧ ∃ sub nx ch, M.obj a = some (.pool ⟨par, sub, nx, ch⟩) ∧ Chain M ch cs ∧ Rep M (some a) sub kids ∧ Rep M par nx rest

theorem chain_frame {M M' : Mem} {cs : List Item} : ∀ {p}, Chain M p cs → (∀ it ∈ cs, M'.obj it.node = M.obj it.node) → Chain M' p cs := by
  induction cs with
  | nil => intro p h _; exact h
  | cons it its ih =>
      rintro p ⟨h1, nx, h2, h3⟩ hf
      exact ⟨h1, nx, by rw [hf it (by simp)]; exact h2, ih h3 fun x hx => hf x (by simp [hx])⟩

theorem rep_frame {M M' : Mem} {F : Forest} : ∀ {par p}, Rep M par p F → (∀ x ∈ F.addrs, M'.obj x = M.obj x) → Rep M' par p F := by
  induction F with
  | nil => intro par p h _; exact h
  | cons a cs kids rest ih1 ih2 =>
      rintro par p ⟨h1, sub, nx, ch, h2, h3, h4, h5⟩ hf
      refine ⟨h1, sub, nx, ch, by rw [hf a (by simp [Forest.addrs])]; exact h2, chain_frame h3 fun it hit => hf _ ?_, ih1 h4 fun x hx => hf x ?_, ih2 h5 fun x hx => hf x ?_⟩
      · simp only [Forest.addrs, List.mem_cons, List.mem_append, List.mem_map]; exact .inr (.inl ⟨it, hit, rfl⟩)
      · simp [Forest.addrs, hx]
      · simp [Forest.addrs, hx]

theorem put_obj (M : Mem) (a : Nat) (o : Option Obj) (x : Nat) : (M.put a o).obj x = if x = a then o else M.obj x := rfl
theorem put_same (M : Mem) (a : Nat) (o : Option Obj) : (M.put a o).obj a = o := by simp [put_obj]
theorem put_ne (M : Mem) {a x : Nat} (o : Option Obj) (h : x ≠ a) : (M.put a o).obj x = M.obj x := by simp [put_obj, h]

theorem freeChunks_spec {cs : List Item} : ∀ {M : Mem} {p : Ptr} {fuel : Nat}, Chain M p cs → (cs.map (·.node)).Nodup → cs.length < fuel →
    ∃ M', freeChunks fuel M p = .ok M' ∧ M'.log = M.log ++ cs.map (fun it => (it.data, it.cb)) ∧ M'.brk = M.brk ∧ (∀ it ∈ cs, M'.obj it.node = none) ∧
      ∀ x, x ∉ cs.map (·.node) → M'.obj x = M.obj x := by
  induction cs with
  | nil =>
      intro M p fuel h _ hf
      obtain ⟨f, rfl⟩ : ∃ f, fuel = f + 1 := ⟨fuel - 1, by simp at hf; omega⟩
      have : p = none := h
      subst this
      exact ⟨M, rfl, by simp, rfl, by simp, fun _ _ => rfl⟩
  | cons it its ih =>
      rintro M p fuel ⟨rfl, nx, h2, h3⟩ hnd hf
      obtain ⟨f, rfl⟩ : ∃ f, fuel = f + 1 := ⟨fuel - 1, by simp at hf; omega⟩
      obtain ⟨hn1, hn2⟩ := List.nodup_cons.1 (by simpa using hnd : (it.node :: its.map (·.node)).Nodup)
      have hc : Chain ({ M with log := M.log ++ [(it.data, it.cb)] }.put it.node none) nx its := by
        refine chain_frame h3 fun x hx => ?_
        have hne : x.node ≠ it.node := fun he => hn1 (he ▸ List.mem_map.2 ⟨x, hx, rfl⟩)
        rw [put_ne _ _ hne]
      obtain ⟨M', e, h4, h5, h6, h7⟩ := ih (fuel := f) hc hn2 (by simp at hf; omega)
      refine ⟨M', ?_, ?_, h5, ?_, ?_⟩
      · rw [freeChunks]
        simp only [loadC, h2, Outcome.ok_bind]
        exact e
      · rw [h4]; simp [Mem.put]
      · intro x hx
        rcases List.mem_cons.1 hx with rfl | hx
        · rw [h7 _ hn1, put_same]
        · exact h6 x hx
      · intro x hx
        simp only [List.map_cons, List.mem_cons, not_or] at hx
        rw [h7 x hx.2, put_ne _ _ hx.1]

/-- What the destruction of the pools of `F` (with parent `par`) does. -/
structure Gone (M M' : Mem) (par : Ptr) (F : Forest) : Prop where
  log : M'.log = M.log ++ F.items.map (fun it => (it.data, it.cb))
  brk : M'.brk = M.brk
  dead : ∀ x ∈ F.addrs, M'.obj x = none
  frame : ∀ x, x ∉ F.addrs → par ≠ some x → M'.obj x = M.obj x
  parent : ∀ q Q, par = some q → M.obj q = some (.pool Q) → M'.obj q = if F = .nil then M.obj q else some (.pool { Q with subpools := none })

/-- The parent is a live pool outside the forest. -/
def ParOk (M : Mem) (par : Ptr) (F : Forest) : Prop := ∀ q, par = some q → q ∉ F.addrs ∧ ∃ Q, M.obj q = some (.pool Q)

theorem cut_spec {M : Mem} {par : Ptr} (h : ∀ q, par = some q → ∃ Q, M.obj q = some (.pool Q)) : ∃ M1, cut M par = .ok M1 ∧ M1.log = M.log ∧ M1.brk = M.brk ∧
    (∀ x, par ≠ some x → M1.obj x = M.obj x) ∧ ∀ q Q, par = some q → M.obj q = some (.pool Q) → M1.obj q = some (.pool { Q with subpools := none }) := by
  cases par with
  | none => exact ⟨M, rfl, rfl, rfl, fun _ _ => rfl, fun _ _ h => by cases h⟩
  | some q =>
      obtain ⟨Q, hQ⟩ := h q rfl
      refine ⟨M.put q (some (.pool { Q with subpools := none })), by simp [cut, loadP, hQ], rfl, rfl, ?_, ?_⟩
      · intro x hx; exact put_ne _ _ (fun he => hx (by rw [he]))
      · rintro q' Q' ⟨⟩ hQ'
        rw [hQ] at hQ'; cases hQ'
        exact put_same _ _ _

/-- Destroying one pool, given that the loop over its sub-pools works. -/
theorem destroy_one {a : Nat} {cs : List Item} {kids : Forest}
    (ih : ∀ {M : Mem} {par p : Ptr} {fuel : Nat}, Rep M par p kids → kids.addrs.Nodup → ParOk M par kids → kids.size ≤ fuel →
      ∃ M', destroyLoop fuel M p = .ok M' ∧ Gone M M' par kids)
    {M : Mem} {par : Ptr} {sub nx ch : Ptr} {fuel : Nat} (h2 : M.obj a = some (.pool ⟨par, sub, nx, ch⟩)) (h3 : Chain M ch cs) (h4 : Rep M (some a) sub kids)
    (hnd : (a :: (cs.map (·.node) ++ kids.addrs)).Nodup) (hpar : ParOk M par (.cons a cs kids .nil)) (hf : cs.length + kids.size + 1 ≤ fuel) :
    ∃ M', destroy fuel M a = .ok M' ∧ Gone M M' par (.cons a cs kids .nil) := by
  obtain ⟨f, rfl⟩ : ∃ f, fuel = f + 1 := ⟨fuel - 1, by omega⟩
  have hks : 0 < kids.size := by cases kids <;> simp [Forest.size]
  have hsub : ∀ q, par = some q → q ≠ a ∧ q ∉ cs.map (·.node) ∧ q ∉ kids.addrs := by
    intro q hq
    have := (hpar q hq).1
    simp only [Forest.addrs, List.mem_cons, List.mem_append, List.append_nil, not_or] at this
    exact this
  obtain ⟨hna, hnd'⟩ := List.nodup_cons.1 hnd
  rw [List.nodup_append] at hnd'
  obtain ⟨hndc, hndk, hdis⟩ := hnd'
  simp only [List.mem_append, not_or] at hna
  obtain ⟨M1, e1, hl1, hb1, hfr1, hq1⟩ := cut_spec fun q hq => (hpar q hq).2
  have hM1 : ∀ x, x = a ∨ x ∈ cs.map (·.node) ∨ x ∈ kids.addrs → M1.obj x = M.obj x := by
    intro x hx
    apply hfr1
    intro hp
    obtain ⟨i1, i2, i3⟩ := hsub x hp
    rcases hx with h | h | h
    · exact i1 h
    · exact i2 h
    · exact i3 h
  obtain ⟨M2, e2, hl2, hb2, hd2, hfr2⟩ := freeChunks_spec (fuel := f) (chain_frame (M' := M1) h3 fun it hit => hM1 _ (.inr (.inl (List.mem_map.2 ⟨it, hit, rfl⟩)))) hndc (by omega)
  have h4' : Rep M2 (some a) sub kids := rep_frame h4 fun x hx => by
    rw [hfr2 x (fun hc => hdis x hc x hx rfl), hM1 x (.inr (.inr hx))]
  have ha2 : M2.obj a = some (.pool ⟨par, sub, nx, ch⟩) := by rw [hfr2 a hna.1, hM1 a (.inl rfl), h2]
  obtain ⟨M3, e3, g⟩ := ih (fuel := f) h4' hndk (fun q hq => by cases hq; exact ⟨hna.2, _, ha2⟩) (by omega)
  have ha3 : ∃ P, M3.obj a = some (.pool P) := by
    have := g.parent a _ rfl ha2
    split at this
    · exact ⟨_, by rw [this, ha2]⟩
    · exact ⟨_, this⟩
  obtain ⟨P, ha3⟩ := ha3
  refine ⟨M3.put a none, ?_, ?_⟩
  · rw [destroy]
    have l1 : loadP M a = .ok ⟨par, sub, nx, ch⟩ := by simp [loadP, h2]
    have l2 : loadP M1 a = .ok ⟨par, sub, nx, ch⟩ := by simp [loadP, hM1 a (.inl rfl), h2]
    have l3 : loadP M3 a = .ok P := by simp [loadP, ha3]
    rw [l1]; simp only [Outcome.ok_bind, e1, l2, e2, e3, l3]; rfl
  · constructor
    · show M3.log = _
      rw [g.log, hl2, hl1]; simp [Forest.items, List.map_append]
    · show M3.brk = _
      rw [g.brk, hb2, hb1]
    · intro x hx
      simp only [Forest.addrs, List.mem_cons, List.mem_append, List.append_nil] at hx
      by_cases hxa : x = a
      · rw [hxa, put_same]
      · rw [put_ne _ _ hxa]
        rcases hx with h | h | h
        · exact absurd h hxa
        · rw [g.frame x (fun hk => hdis x h x hk rfl) (by simpa using fun h => hxa h.symm)]
          obtain ⟨it, hit, rfl⟩ := List.mem_map.1 h
          exact hd2 it hit
        · exact g.dead x h
    · intro x hx hp
      simp only [Forest.addrs, List.mem_cons, List.mem_append, List.append_nil, not_or] at hx
      rw [put_ne _ _ hx.1, g.frame x hx.2.2 (by simpa using fun h => hx.1 h.symm), hfr2 x hx.2.1, hfr1 x hp]
    · intro q Q hq hQ
      obtain ⟨i1, i2, i3⟩ := hsub q hq
      rw [if_neg (by simp), put_ne _ _ i1, g.frame q i3 (by simpa using fun h => i1 h.symm), hfr2 q i2, hq1 q Q hq hQ]

theorem destroyLoop_spec (F : Forest) : ∀ {M : Mem} {par p : Ptr} {fuel : Nat}, Rep M par p F → F.addrs.Nodup → ParOk M par F → F.size ≤ fuel →
    ∃ M', destroyLoop fuel M p = .ok M' ∧ Gone M M' par F := by
  induction F with
  | nil =>
      intro M par p fuel h _ _ hf
      obtain ⟨f, rfl⟩ : ∃ f, fuel = f + 1 := ⟨fuel - 1, by simp [Forest.size] at hf; omega⟩
      have : p = none := h
      subst this
      exact ⟨M, by rw [destroyLoop], ⟨by simp [Forest.items], rfl, by simp [Forest.addrs], fun _ _ _ => rfl, fun _ _ _ h => by simp⟩⟩
  | cons a cs kids rest ih1 ih2 =>
      rintro M par p fuel ⟨rfl, sub, nx, ch, h2, h3, h4, h5⟩ hnd hpar hf
      simp only [Forest.size] at hf
      obtain ⟨f, rfl⟩ : ∃ f, fuel = f + 1 := ⟨fuel - 1, by omega⟩
      have hnd1 : (a :: (cs.map (·.node) ++ kids.addrs)).Nodup := by
        simp only [Forest.addrs] at hnd; grind
      have hnd2 : rest.addrs.Nodup := by simp only [Forest.addrs] at hnd; grind
      have hdis : ∀ x, x ∈ (Forest.cons a cs kids .nil).addrs → x ∉ rest.addrs := by
        simp only [Forest.addrs] at hnd ⊢; grind
      have hmem : ∀ x, x ∈ (Forest.cons a cs kids rest).addrs ↔ x ∈ (Forest.cons a cs kids .nil).addrs ∨ x ∈ rest.addrs := by
        intro x; simp only [Forest.addrs]; grind
      have hp1 : ParOk M par (.cons a cs kids .nil) := fun q hq => ⟨fun h => (hpar q hq).1 ((hmem q).2 (.inl h)), (hpar q hq).2⟩
      obtain ⟨M1, e1, g1⟩ := destroy_one (fun {M par p fuel} => ih1 (M := M) (par := par) (p := p) (fuel := fuel)) (fuel := f) h2 h3 h4 hnd1 hp1 (by omega)
      have hr : Rep M1 par nx rest := rep_frame h5 fun x hx => g1.frame x (fun h => hdis x h hx) (fun hp => (hpar x hp).1 ((hmem x).2 (.inr hx)))
      have hp2 : ParOk M1 par rest := by
        intro q hq
        obtain ⟨hq1, Q, hQ⟩ := hpar q hq
        exact ⟨fun h => hq1 ((hmem q).2 (.inr h)), _, by rw [g1.parent q Q hq hQ, if_neg (by simp)]⟩
      obtain ⟨M2, e2, g2⟩ := ih2 (fuel := f) hr hnd2 hp2 (by omega)
      refine ⟨M2, ?_, ?_⟩
      · rw [destroyLoop]
        simp only [loadP, h2, Outcome.ok_bind, e1, e2]
      · constructor
        · rw [g2.log, g1.log]; simp [Forest.items]
        · rw [g2.brk, g1.brk]
        · intro x hx
          rcases (hmem x).1 hx with h | h
          · rw [g2.frame x (hdis x h) (fun hp => (hpar x hp).1 hx)]; exact g1.dead x h
          · exact g2.dead x h
        · intro x hx hp
          rw [hmem, not_or] at hx
          rw [g2.frame x hx.2 hp, g1.frame x hx.1 hp]
        · intro q Q hq hQ
          have := g1.parent q Q hq hQ
          rw [if_neg (by simp)] at this
          rw [if_neg (by simp)]
          have h3 := g2.parent q _ hq this
          rw [h3, this]
          split <;> rfl

/-- The roots: each a list of one pool without parent. -/
def Roots (M : Mem) : Forest → Prop
  | .nil => True
  | .cons a cs kids rest => Rep M none (some a) (.cons a cs kids .nil) ∧ Roots M rest

/-- Memory and the client's view. -/
structure Inv (M : Mem) (F : Forest) : Prop where
  roots : Roots M F
  nodup : F.addrs.Nodup
  below : ∀ x ∈ F.addrs, x < M.brk
  only : ∀ x, M.obj x ≠ none → x ∈ F.addrs

/-! ### finding a pool in the forest -/

theorem mem_addrs_of_pool {F : Forest} {p : Nat} : p ∈ F.pools → p ∈ F.addrs := by
  induction F with
  | nil => intro h; cases h
  | cons a cs kids rest ih1 ih2 =>
      intro h
      simp only [Forest.pools, Forest.addrs, List.mem_cons, List.mem_append] at h ⊢
      rcases h with h | h | h
      · exact .inl h
      · exact .inr (.inr (.inl (ih1 h)))
      · exact .inr (.inr (.inr (ih2 h)))

theorem addItem_of_not_mem {F : Forest} {p : Nat} {it : Item} (h : p ∉ F.pools) : F.addItem p it = F := by
  induction F with
  | nil => rfl
  | cons a cs kids rest ih1 ih2 =>
      simp only [Forest.pools, List.mem_cons, List.mem_append, not_or] at h
      simp only [Forest.addItem]
      rw [if_neg (fun he => h.1 he.symm), ih1 h.2.1, ih2 h.2.2]

theorem addKid_of_not_mem {F : Forest} {p b : Nat} (h : p ∉ F.pools) : F.addKid p b = F := by
  induction F with
  | nil => rfl
  | cons a cs kids rest ih1 ih2 =>
      simp only [Forest.pools, List.mem_cons, List.mem_append, not_or] at h
      simp only [Forest.addKid]
      rw [if_neg (fun he => h.1 he.symm), ih1 h.2.1, ih2 h.2.2]

theorem mem_addItem {F : Forest} {p : Nat} {it : Item} (hnd : F.addrs.Nodup) (hp : p ∈ F.pools) (x : Nat) : x ∈ (F.addItem p it).addrs ↔ x = it.node ∨ x ∈ F.addrs := by
  induction F with
  | nil => cases hp
  | cons a cs kids rest ih1 ih2 =>
      have hndk : kids.addrs.Nodup := by simp only [Forest.addrs] at hnd; grind
      have hndr : rest.addrs.Nodup := by simp only [Forest.addrs] at hnd; grind
      simp only [Forest.addItem]
      split
      · simp only [Forest.addrs, List.map_cons]; grind
      · rename_i hne
        simp only [Forest.pools, List.mem_cons, List.mem_append] at hp
        rcases hp with h | h | h
        · exact absurd h.symm hne
        · have hr : p ∉ rest.pools := fun hr => by
            have h1 := mem_addrs_of_pool h
            have h2 := mem_addrs_of_pool hr
            simp only [Forest.addrs] at hnd; grind
          rw [addItem_of_not_mem hr]
          simp only [Forest.addrs, List.mem_cons, List.mem_append, ih1 hndk h]; grind
        · have hr : p ∉ kids.pools := fun hr => by
            have h1 := mem_addrs_of_pool h
            have h2 := mem_addrs_of_pool hr
            simp only [Forest.addrs] at hnd; grind
          rw [addItem_of_not_mem hr]
          simp only [Forest.addrs, List.mem_cons, List.mem_append, ih2 hndr h]; grind


/-! ### the allocating calls keep the invariant -/

theorem chain_obj {M : Mem} {cs : List Item} : ∀ {p}, Chain M p cs → ∀ it ∈ cs, ∃ c, M.obj it.node = some (.chunk c) := by
  induction cs with
  | nil => intro p _ it h; cases h
  | cons i is ih =>
      rintro p ⟨_, nx, h2, h3⟩ it h
      rcases List.mem_cons.1 h with rfl | h
      · exact ⟨_, h2⟩
      · exact ih h3 it h

/-- Linking a new record in front of the records of pool `q`. -/
structure Linked (M M' : Mem) (q : Nat) (it : Item) : Prop where
  pool : ∃ P, M.obj q = some (.pool P) ∧ M'.obj q = some (.pool { P with chunks := some it.node }) ∧ M'.obj it.node = some (.chunk ⟨it.data, it.cb, P.chunks⟩)
  frame : ∀ x, x ≠ q → x ≠ it.node → M'.obj x = M.obj x

theorem rep_addItem {M M' : Mem} {q : Nat} {it : Item} (L : Linked M M' q it) {F : Forest} : ∀ {par p}, Rep M par p F → F.addrs.Nodup → it.node ∉ F.addrs →
    Rep M' par p (F.addItem q it) := by
  obtain ⟨⟨P, hP, hP', hc⟩, hfr⟩ := L
  induction F with
  | nil => intro par p h _ _; exact h
  | cons a cs kids rest ih1 ih2 =>
      rintro par p ⟨rfl, sub, nx, ch, h2, h3, h4, h5⟩ hnd hn
      have hndk : kids.addrs.Nodup := by simp only [Forest.addrs] at hnd; grind
      have hndr : rest.addrs.Nodup := by simp only [Forest.addrs] at hnd; grind
      have hch : Chain M' ch cs := chain_frame h3 fun i hi => hfr _ (fun he => by
          obtain ⟨c, hc'⟩ := chain_obj h3 i hi
          rw [he, hP] at hc'; cases hc') (fun he => hn (by
            simp only [Forest.addrs, List.mem_cons, List.mem_append, List.mem_map]; exact .inr (.inl ⟨i, hi, he⟩)))
      simp only [Forest.addItem]
      split
      · rename_i he
        subst he
        rw [h2] at hP; cases hP
        refine ⟨rfl, sub, nx, some it.node, hP', ⟨rfl, ch, hc, hch⟩, rep_frame h4 fun x hx => ?_, rep_frame h5 fun x hx => ?_⟩
        · exact hfr x (by simp only [Forest.addrs] at hnd; grind) (by simp only [Forest.addrs] at hn; grind)
        · exact hfr x (by simp only [Forest.addrs] at hnd; grind) (by simp only [Forest.addrs] at hn; grind)
      · rename_i hne
        refine ⟨rfl, sub, nx, ch, ?_, hch, ih1 h4 hndk ?_, ih2 h5 hndr ?_⟩
        · rw [hfr a hne (by simp only [Forest.addrs] at hn; grind), h2]
        · simp only [Forest.addrs] at hn; grind
        · simp only [Forest.addrs] at hn; grind

theorem roots_addItem {M M' : Mem} {q : Nat} {it : Item} (L : Linked M M' q it) {F : Forest} : Roots M F → F.addrs.Nodup → it.node ∉ F.addrs → Roots M' (F.addItem q it) := by
  induction F with
  | nil => intro h _ _; exact h
  | cons a cs kids rest ih1 ih2 =>
      rintro ⟨h1, h2⟩ hnd hn
      have h3 := rep_addItem L h1 (by simp only [Forest.addrs] at hnd ⊢; grind) (by simp only [Forest.addrs] at hn ⊢; grind)
      have hndr : rest.addrs.Nodup := by simp only [Forest.addrs] at hnd; grind
      have hnr : it.node ∉ rest.addrs := by simp only [Forest.addrs] at hn; grind
      have h4 := ih2 h2 hndr hnr
      simp only [Forest.addItem] at h3 ⊢
      split
      · rename_i he
        rw [if_pos he] at h3
        refine ⟨h3, ?_⟩
        rw [addItem_of_not_mem] at h4
        · exact h4
        · intro hm
          have := mem_addrs_of_pool hm
          simp only [Forest.addrs] at hnd; grind
      · rename_i hne
        rw [if_neg hne] at h3
        exact ⟨h3, h4⟩

theorem nodup_addItem {F : Forest} {p : Nat} {it : Item} (hnd : F.addrs.Nodup) (hn : it.node ∉ F.addrs) : (F.addItem p it).addrs.Nodup := by
  induction F with
  | nil => exact hnd
  | cons a cs kids rest ih1 ih2 =>
      have hndk : kids.addrs.Nodup := by simp only [Forest.addrs] at hnd; grind
      have hndr : rest.addrs.Nodup := by simp only [Forest.addrs] at hnd; grind
      have hnk : it.node ∉ kids.addrs := by simp only [Forest.addrs] at hn; grind
      have hnr : it.node ∉ rest.addrs := by simp only [Forest.addrs] at hn; grind
      have i1 := ih1 hndk hnk
      have i2 := ih2 hndr hnr
      simp only [Forest.addItem]
      split
      · simp only [Forest.addrs, List.map_cons] at hnd hn ⊢; grind
      · by_cases hk : p ∈ kids.pools
        · have hr : p ∉ rest.pools := fun hr => by
            have h1 := mem_addrs_of_pool hk
            have h2 := mem_addrs_of_pool hr
            simp only [Forest.addrs] at hnd; grind
          rw [addItem_of_not_mem hr]
          have hm := mem_addItem (it := it) hndk hk
          simp only [Forest.addrs] at hnd hn ⊢; grind
        · rw [addItem_of_not_mem hk]
          by_cases hr : p ∈ rest.pools
          · have hm := mem_addItem (it := it) hndr hr
            simp only [Forest.addrs] at hnd hn ⊢; grind
          · rw [addItem_of_not_mem hr]; exact hnd

theorem roots_pool {M : Mem} {F : Forest} (h : Roots M F) {p : Nat} (hp : p ∈ F.pools) : ∃ P, M.obj p = some (.pool P) := by
  have rp : ∀ {F : Forest} {par q}, Rep M par q F → ∀ p ∈ F.pools, ∃ P, M.obj p = some (.pool P) := by
    intro F
    induction F with
    | nil => intro _ _ _ p h; cases h
    | cons a cs kids rest ih1 ih2 =>
        rintro par q ⟨rfl, sub, nx, ch, h2, _, h4, h5⟩ p hp
        simp only [Forest.pools, List.mem_cons, List.mem_append] at hp
        rcases hp with rfl | hp | hp
        · exact ⟨_, h2⟩
        · exact ih1 h4 p hp
        · exact ih2 h5 p hp
  induction F with
  | nil => cases hp
  | cons a cs kids rest _ ih2 =>
      obtain ⟨h1, h2⟩ := h
      simp only [Forest.pools, List.mem_cons, List.mem_append] at hp
      rcases hp with hp | hp | hp
      · exact rp h1 p (by simp [Forest.pools, hp])
      · exact rp h1 p (by simp [Forest.pools, hp])
      · exact ih2 h2 hp

theorem addChunk_spec {M : Mem} {F : Forest} (I : Inv M F) {p : Nat} (hp : p ∈ F.pools) (data : Nat) (cb : Option Nat) :
    ∃ M', addChunk M p data cb = .ok M' ∧ Inv M' (F.addItem p ⟨M.brk, data, cb⟩) ∧ M'.log = M.log ∧ ∀ x, x ≠ p → x ≠ M.brk → M'.obj x = M.obj x := by
  obtain ⟨P, hP⟩ := roots_pool I.roots hp
  have hbrk : M.brk ∉ F.addrs := fun h => Nat.lt_irrefl _ (I.below _ h)
  have hpa := mem_addrs_of_pool hp
  have hpb : p ≠ M.brk := fun h => hbrk (h ▸ hpa)
  generalize hM' : ({ (M.put M.brk (some (.chunk ⟨data, cb, P.chunks⟩))).put p (some (.pool { P with chunks := some M.brk })) with brk := M.brk + 1 } : Mem) = M'
  have ho : ∀ x, M'.obj x = if x = p then some (.pool { P with chunks := some M.brk }) else if x = M.brk then some (.chunk ⟨data, cb, P.chunks⟩) else M.obj x := by
    intro x; subst hM'; rfl
  have hb : M'.brk = M.brk + 1 := by subst hM'; rfl
  have L : Linked M M' p ⟨M.brk, data, cb⟩ := ⟨⟨P, hP, by simp [ho], by simp [ho, Ne.symm hpb]⟩, fun x h1 h2 => by rw [ho, if_neg h1, if_neg h2]⟩
  refine ⟨M', ?_, ?_, by subst hM'; rfl, L.frame⟩
  · rw [addChunk]; simp only [loadP, hP, Outcome.ok_bind]; rw [← hM']; rfl
  · constructor
    · exact roots_addItem L I.roots I.nodup hbrk
    · exact nodup_addItem I.nodup hbrk
    · intro x hx
      rw [hb]
      rcases (mem_addItem I.nodup hp x).1 hx with rfl | h
      · exact Nat.lt_succ_self _
      · exact Nat.lt_succ_of_lt (I.below x h)
    · intro x hx
      rw [mem_addItem I.nodup hp]
      by_cases h1 : x = p
      · exact .inr (h1 ▸ hpa)
      · by_cases h2 : x = M.brk
        · exact .inl h2
        · rw [ho, if_neg h1, if_neg h2] at hx
          exact .inr (I.only x hx)

/-! ### sub-pools -/

theorem mem_addKid {F : Forest} {p b : Nat} (hnd : F.addrs.Nodup) (hp : p ∈ F.pools) (x : Nat) : x ∈ (F.addKid p b).addrs ↔ x = b ∨ x ∈ F.addrs := by
  induction F with
  | nil => cases hp
  | cons a cs kids rest ih1 ih2 =>
      have hndk : kids.addrs.Nodup := by simp only [Forest.addrs] at hnd; grind
      have hndr : rest.addrs.Nodup := by simp only [Forest.addrs] at hnd; grind
      simp only [Forest.addKid]
      split
      · simp only [Forest.addrs, List.map_nil]; grind
      · rename_i hne
        simp only [Forest.pools, List.mem_cons, List.mem_append] at hp
        rcases hp with h | h | h
        · exact absurd h.symm hne
        · have hr : p ∉ rest.pools := fun hr => by
            have h1 := mem_addrs_of_pool h
            have h2 := mem_addrs_of_pool hr
            simp only [Forest.addrs] at hnd; grind
          rw [addKid_of_not_mem hr]
          simp only [Forest.addrs, List.mem_cons, List.mem_append, ih1 hndk h]; grind
        · have hr : p ∉ kids.pools := fun hr => by
            have h1 := mem_addrs_of_pool h
            have h2 := mem_addrs_of_pool hr
            simp only [Forest.addrs] at hnd; grind
          rw [addKid_of_not_mem hr]
          simp only [Forest.addrs, List.mem_cons, List.mem_append, ih2 hndr h]; grind

theorem nodup_addKid {F : Forest} {p b : Nat} (hnd : F.addrs.Nodup) (hn : b ∉ F.addrs) : (F.addKid p b).addrs.Nodup := by
  induction F with
  | nil => exact hnd
  | cons a cs kids rest ih1 ih2 =>
      have hndk : kids.addrs.Nodup := by simp only [Forest.addrs] at hnd; grind
      have hndr : rest.addrs.Nodup := by simp only [Forest.addrs] at hnd; grind
      have hnk : b ∉ kids.addrs := by simp only [Forest.addrs] at hn; grind
      have hnr : b ∉ rest.addrs := by simp only [Forest.addrs] at hn; grind
      have i1 := ih1 hndk hnk
      have i2 := ih2 hndr hnr
      simp only [Forest.addKid]
      split
      · simp only [Forest.addrs, List.map_nil] at hnd hn ⊢; grind
      · by_cases hk : p ∈ kids.pools
        · have hr : p ∉ rest.pools := fun hr => by
            have h1 := mem_addrs_of_pool hk
            have h2 := mem_addrs_of_pool hr
            simp only [Forest.addrs] at hnd; grind
          rw [addKid_of_not_mem hr]
          have hm := mem_addKid (b := b) hndk hk
          simp only [Forest.addrs] at hnd hn ⊢; grind
        · rw [addKid_of_not_mem hk]
          by_cases hr : p ∈ rest.pools
          · have hm := mem_addKid (b := b) hndr hr
            simp only [Forest.addrs] at hnd hn ⊢; grind
          · rw [addKid_of_not_mem hr]; exact hnd

/-- Linking a new sub-pool `b` in front of the sub-pools of `q`. -/
structure Kidded (M M' : Mem) (q b : Nat) : Prop where
  pool : ∃ P, M.obj q = some (.pool P) ∧ M'.obj q = some (.pool { P with subpools := some b }) ∧ M'.obj b = some (.pool ⟨some q, none, P.subpools, none⟩)
  frame : ∀ x, x ≠ q → x ≠ b → M'.obj x = M.obj x

theorem rep_addKid {M M' : Mem} {q b : Nat} (L : Kidded M M' q b) {F : Forest} : ∀ {par p}, Rep M par p F → F.addrs.Nodup → b ∉ F.addrs → Rep M' par p (F.addKid q b) := by
  obtain ⟨⟨P, hP, hP', hc⟩, hfr⟩ := L
  induction F with
  | nil => intro par p h _ _; exact h
  | cons a cs kids rest ih1 ih2 =>
      rintro par p ⟨rfl, sub, nx, ch, h2, h3, h4, h5⟩ hnd hn
      have hndk : kids.addrs.Nodup := by simp only [Forest.addrs] at hnd; grind
      have hndr : rest.addrs.Nodup := by simp only [Forest.addrs] at hnd; grind
      have hch : Chain M' ch cs := chain_frame h3 fun i hi => hfr _ (fun he => by
          obtain ⟨c, hc'⟩ := chain_obj h3 i hi
          rw [he, hP] at hc'; cases hc') (fun he => hn (by
            simp only [Forest.addrs, List.mem_cons, List.mem_append, List.mem_map]; exact .inr (.inl ⟨i, hi, he⟩)))
      simp only [Forest.addKid]
      split
      · rename_i he
        subst he
        rw [h2] at hP; cases hP
        refine ⟨rfl, some b, nx, ch, hP', hch, ⟨rfl, none, sub, none, hc, rfl, rfl, rep_frame h4 fun x hx => ?_⟩, rep_frame h5 fun x hx => ?_⟩
        · exact hfr x (by simp only [Forest.addrs] at hnd; grind) (by simp only [Forest.addrs] at hn; grind)
        · exact hfr x (by simp only [Forest.addrs] at hnd; grind) (by simp only [Forest.addrs] at hn; grind)
      · rename_i hne
        refine ⟨rfl, sub, nx, ch, ?_, hch, ih1 h4 hndk ?_, ih2 h5 hndr ?_⟩
        · rw [hfr a hne (by simp only [Forest.addrs] at hn; grind), h2]
        · simp only [Forest.addrs] at hn; grind
        · simp only [Forest.addrs] at hn; grind

theorem roots_addKid {M M' : Mem} {q b : Nat} (L : Kidded M M' q b) {F : Forest} : Roots M F → F.addrs.Nodup → b ∉ F.addrs → Roots M' (F.addKid q b) := by
  induction F with
  | nil => intro h _ _; exact h
  | cons a cs kids rest ih1 ih2 =>
      rintro ⟨h1, h2⟩ hnd hn
      have h3 := rep_addKid L h1 (by simp only [Forest.addrs] at hnd ⊢; grind) (by simp only [Forest.addrs] at hn ⊢; grind)
      have hndr : rest.addrs.Nodup := by simp only [Forest.addrs] at hnd; grind
      have hnr : b ∉ rest.addrs := by simp only [Forest.addrs] at hn; grind
      have h4 := ih2 h2 hndr hnr
      simp only [Forest.addKid] at h3 ⊢
      split
      · rename_i he
        rw [if_pos he] at h3
        refine ⟨h3, ?_⟩
        rw [addKid_of_not_mem] at h4
        · exact h4
        · intro hm
          have := mem_addrs_of_pool hm
          simp only [Forest.addrs] at hnd; grind
      · rename_i hne
        rw [if_neg hne] at h3
        exact ⟨h3, h4⟩

theorem init_sub_spec {M : Mem} {F : Forest} (I : Inv M F) {p : Nat} (hp : p ∈ F.pools) :
    ∃ M', init M (some p) = .ok (M.brk, M') ∧ Inv M' (F.addKid p M.brk) ∧ M'.log = M.log ∧ ∀ x, x ≠ p → x ≠ M.brk → M'.obj x = M.obj x := by
  obtain ⟨P, hP⟩ := roots_pool I.roots hp
  have hbrk : M.brk ∉ F.addrs := fun h => Nat.lt_irrefl _ (I.below _ h)
  have hpa := mem_addrs_of_pool hp
  have hpb : p ≠ M.brk := fun h => hbrk (h ▸ hpa)
  generalize hM' : ({ (M.put M.brk (some (.pool ⟨some p, none, P.subpools, none⟩))).put p (some (.pool { P with subpools := some M.brk })) with brk := M.brk + 1 } : Mem) = M'
  have ho : ∀ x, M'.obj x = if x = p then some (.pool { P with subpools := some M.brk }) else if x = M.brk then some (.pool ⟨some p, none, P.subpools, none⟩) else M.obj x := by
    intro x; subst hM'; rfl
  have hb : M'.brk = M.brk + 1 := by subst hM'; rfl
  have L : Kidded M M' p M.brk := ⟨⟨P, hP, by simp [ho], by simp [ho, Ne.symm hpb]⟩, fun x h1 h2 => by rw [ho, if_neg h1, if_neg h2]⟩
  refine ⟨M', ?_, ?_, by subst hM'; rfl, L.frame⟩
  · rw [init]; simp only [loadP, hP, Outcome.ok_bind]; rw [← hM']; rfl
  · constructor
    · exact roots_addKid L I.roots I.nodup hbrk
    · exact nodup_addKid I.nodup hbrk
    · intro x hx
      rw [hb]
      rcases (mem_addKid I.nodup hp x).1 hx with rfl | h
      · exact Nat.lt_succ_self _
      · exact Nat.lt_succ_of_lt (I.below x h)
    · intro x hx
      rw [mem_addKid I.nodup hp]
      by_cases h1 : x = p
      · exact .inr (h1 ▸ hpa)
      · by_cases h2 : x = M.brk
        · exact .inl h2
        · rw [ho, if_neg h1, if_neg h2] at hx
          exact .inr (I.only x hx)

theorem roots_frame {M M' : Mem} {F : Forest} (h : Roots M F) (hf : ∀ x ∈ F.addrs, M'.obj x = M.obj x) : Roots M' F := by
  induction F with
  | nil => trivial
  | cons a cs kids rest _ ih2 =>
      exact ⟨rep_frame h.1 fun x hx => hf x (by simp only [Forest.addrs] at hx ⊢; grind), ih2 h.2 fun x hx => hf x (by simp [Forest.addrs, hx])⟩

theorem init_root_spec {M : Mem} {F : Forest} (I : Inv M F) :
    ∃ M', init M none = .ok (M.brk, M') ∧ Inv M' (.cons M.brk [] .nil F) ∧ M'.log = M.log ∧ ∀ x, x ≠ M.brk → M'.obj x = M.obj x := by
  have hbrk : M.brk ∉ F.addrs := fun h => Nat.lt_irrefl _ (I.below _ h)
  refine ⟨{ M.put M.brk (some (.pool ⟨none, none, none, none⟩)) with brk := M.brk + 1 }, rfl, ?_, rfl, fun x hx => put_ne _ _ hx⟩
  constructor
  · exact ⟨⟨rfl, none, none, none, put_same _ _ _, rfl, rfl, rfl⟩, roots_frame I.roots fun x hx => put_ne _ _ (fun h => hbrk (h ▸ hx))⟩
  · simpa [Forest.addrs] using ⟨hbrk, I.nodup⟩
  · intro x hx
    simp only [Forest.addrs, List.map_nil, List.nil_append, List.mem_cons] at hx
    rcases hx with rfl | h
    · exact Nat.lt_succ_self _
    · exact Nat.lt_succ_of_lt (I.below x h)
  · intro x hx
    simp only [Forest.addrs, List.map_nil, List.nil_append, List.mem_cons]
    by_cases h : x = M.brk
    · exact .inl h
    · exact .inr (I.only x (by rw [← put_ne M _ h]; exact hx))

end ZT.EzPool
