import Verif.MemPool.Extra

/-!
# Pool groups (zt_mem.c 540-610)

The two blocks of the group itself (zt_calloc, which aborts when it fails) are not modelled; a group is the contents of its `pools` array.
-/

namespace ZT.MemPool

/-- zt_mem.h `zt_mem_pool_desc`; `name = none` is NULL, the terminator. -/
structure Desc where
  name : Option (List Byte)
  elts : Int
  size : Nat
  test : Nat → Nat → Nat → Nat → Nat → Bool
  flags : Nat

/-- zt_mem.c 564-566: destroying pools, given in the order of destruction; the results are ignored. -/
def undoLoop (fuel : Nat) : List Addr → Mem → Outcome Mem
  | [], M => .ok M
  | p :: ps, M => do
      let (_, M) ← destroy M p fuel
      undoLoop fuel ps M

/-- zt_mem.c 563-567: a pool could not be made, `acc` being the pools made before. `while (--i)` leaves out the first one; if there is none, `i` wraps around and an entry
outside of the array is used. -/
def groupUndo (fuel : Nat) (acc : List Addr) (M : Mem) : Outcome Mem :=
  match acc with
  | [] => .ub
  | _ :: ps => undoLoop fuel ps.reverse M

/-- zt_mem.c 556-570: the loop of zt_mem_pool_group_init over the descriptions that are left, `acc` being the pools made; `none` when a pool could not be made. -/
def groupLoop (al : Alloc) (fuel : Nat) : List Desc → List Addr → Mem → Outcome (Option (List Addr) × Mem)
  | [], acc, M => .ok (some acc, M)
  | d :: ds, acc, M =>
      match d.name with
      | none => .ok (some acc, M)
      | some nm => do
          let (r, M) ← init al M nm d.elts d.size d.test d.flags
          match r with
          | none => do
              let M ← groupUndo fuel acc M
              .ok (none, M)
          | some p => groupLoop al fuel ds (acc ++ [p]) M

/-- zt_mem.c 540-573 `zt_mem_pool_group_init`, `len` being the length of `descs`: the array has `len` entries, those after the first description without a name stay NULL. -/
def groupInit (al : Alloc) (fuel : Nat) (descs : List Desc) (M : Mem) : Outcome (Option (List (Option Addr)) × Mem) := do
  let (r, M) ← groupLoop al fuel descs [] M
  match r with
  | none => .ok (none, M)
  | some ps => .ok (some (ps.map some ++ List.replicate (descs.length - ps.length) none), M)

/-- zt_mem.c 575-591 `zt_mem_pool_group_alloc`. -/
def groupAlloc (al : Alloc) : List (Option Addr) → Nat → Mem → Outcome (Addr × Mem)
  | [], _, _ => .abort
  | none :: _, _, _ => .ub
  | some p :: ps, size, M => do
      chk M p 160
      if size ≤ (M.pool p).eltSize then alloc al M p else groupAlloc al ps size M

/-- zt_mem.c 593-611 `zt_mem_pool_group_destroy`; `true` is the return value 0. zt_mem_pool_destroy dereferences `*pool`. -/
def groupDestroy (fuel : Nat) : List (Option Addr) → Mem → Outcome (Bool × Mem)
  | [], M => .ok (true, M)
  | none :: _, _ => .ub
  | some p :: ps, M => do
      let (b, M) ← destroy M p fuel
      let (b', M) ← groupDestroy fuel ps M
      pure (b && b', M)

/-- The pools of a group are existing pools of the client. -/
def IsGroup (c : Client) (g : List (Addr × Nat × List Byte)) : Prop := ∀ q ∈ g, q ∈ c.pools

/-- **C63 (group creation).** For descriptions that all have a name, the group consists of one new pool per description, with its size and name, in order. -/
theorem c63_init {al : Alloc} (G : Good al) : ∀ (ds : List Desc) (acc : List Addr) {c : Client} {M : Mem}, Hist al c M → (∀ d ∈ ds, d.name ≠ none ∧ Fits d.elts d.size) →
    ∃ (ps : List Addr) (M' : Mem), (∀ fuel, groupLoop al fuel ds acc M = .ok (some (acc ++ ps), M')) ∧ ps.length = ds.length ∧
      Hist al { c with pools := c.pools ++ ps.zip (ds.map fun d => (d.size, d.name.getD [])) } M' := by
  intro ds
  induction ds with
  | nil => intro acc c M h _; exact ⟨[], M, fun _ => by simp [groupLoop], rfl, by simpa using h⟩
  | cons d ds ih =>
      intro acc c M h hd
      obtain ⟨hn, hf⟩ := hd d (by simp)
      obtain ⟨nm, hnm⟩ := Option.ne_none_iff_exists'.1 hn
      obtain ⟨p, M1, e1⟩ := (c30_total G h).1 nm d.elts d.size d.test d.flags hf
      have h1 := Hist.init h hf e1
      obtain ⟨ps, M', e2, hl, h2⟩ := ih (acc ++ [p]) h1 (fun d' hd' => hd d' (by simp [hd']))
      refine ⟨p :: ps, M', ?_, by simp [hl], ?_⟩
      · intro fuel
        rw [groupLoop, hnm]
        simp only [e1, Outcome.ok_bind, e2]; simp
      · simpa [hnm] using h2

/-- **C63.** zt_mem_pool_group_init on descriptions that all have a name: no NULL entry, one pool each. -/
theorem c63_group_init {al : Alloc} (G : Good al) {ds : List Desc} {c : Client} {M : Mem} (h : Hist al c M) (hd : ∀ d ∈ ds, d.name ≠ none ∧ Fits d.elts d.size) :
    ∃ (ps : List Addr) (M' : Mem), (∀ fuel, groupInit al fuel ds M = .ok (some (ps.map some), M')) ∧ ps.length = ds.length ∧
      Hist al { c with pools := c.pools ++ ps.zip (ds.map fun d => (d.size, d.name.getD [])) } M' := by
  obtain ⟨ps, M', e, hl, h'⟩ := c63_init G ds [] h hd
  refine ⟨ps, M', fun fuel => ?_, hl, h'⟩
  simp only [List.nil_append] at e
  rw [groupInit, e fuel]
  simp [hl]

/-- **C63 (group allocation).** The element comes from the first pool of the group whose elements are large enough; when there is none the program stops with a failed
assertion. -/
theorem c63_group_alloc {al : Alloc} (G : Good al) {c : Client} {M : Mem} (h : Hist al c M) (size : Nat) : ∀ {g : List (Addr × Nat × List Byte)}, IsGroup c g →
    groupAlloc al (g.map fun q => some q.1) size M = match g.find? (fun q => size ≤ q.2.1) with
      | some q => alloc al M q.1
      | none => .abort := by
  obtain ⟨A, S, R⟩ := rel_of_hist G h
  intro g
  induction g with
  | nil => intro _; rfl
  | cons q qs ih =>
      intro hg
      have hq := hg q (by simp)
      rw [List.map_cons, groupAlloc, chk_pool R.inv (R.mem hq).2]
      simp only [Outcome.ok_bind, (R.sizes q hq).1, List.find?_cons]
      by_cases hs : size ≤ q.2.1
      · simp [hs]
      · simp only [hs, if_false, decide_false]
        exact ih fun x hx => hg x (by simp [hx])

/-- **C63 (large enough).** A group allocation that returns gives an element with room for the bytes asked for, inside a live block and overlapping no element held. -/
theorem c63_group_room {al : Alloc} (G : Good al) {c : Client} {M M' : Mem} (h : Hist al c M) {size d : Nat} {g : List (Addr × Nat × List Byte)} (hg : IsGroup c g)
    (e : groupAlloc al (g.map fun q => some q.1) size M = .ok (d, M')) :
    ∃ q ∈ g, Hist al { c with live := (d, q.1) :: c.live } M' ∧ (∃ b ∈ M'.blocks, b.1 ≤ d ∧ d + size ≤ b.1 + b.2) ∧
      ∀ y ∈ c.live, ∀ sy ny, (y.2, sy, ny) ∈ c.pools → d + size ≤ y.1 ∨ y.1 + sy ≤ d := by
  rw [c63_group_alloc G h size hg] at e
  cases hf : g.find? (fun q => size ≤ q.2.1) with
  | none => rw [hf] at e; cases e
  | some q =>
      rw [hf] at e
      have hs : size ≤ q.2.1 := by simpa using List.find?_some hf
      have hqg := List.mem_of_find?_eq_some hf
      have hq : (q.1, q.2.1, q.2.2) ∈ c.pools := hg q hqg
      have h' := Hist.alloc h hq e
      refine ⟨q, hqg, h', ?_, ?_⟩
      · obtain ⟨sz, nm, hm, b, hb, h1, h2⟩ := (c30_disjoint G h').2.1 (d, q.1) (by simp)
        obtain ⟨A, S, R⟩ := rel_of_hist G h'
        have e1 := (R.sizes _ hm).1
        have e2 := (R.sizes _ hq).1
        simp only at e1 e2 h1 h2
        exact ⟨b, hb, h1, by omega⟩
      · intro y hy sy ny hpy
        rcases (c30_alloc G h hq e).2 y hy sy ny hpy with h1 | h1
        · left; omega
        · exact .inr h1

/-- **C63 (group destruction).** With distinct pools, the destruction ends without undefined behaviour, reports success exactly when the client holds no element of any pool
of the group, and leaves exactly the pools outside the group and those with elements held, in the same order. -/
theorem c63_group_destroy {al : Alloc} (G : Good al) : ∀ (g : List (Addr × Nat × List Byte)) {c : Client} {M : Mem}, Hist al c M → IsGroup c g → g.Nodup →
    ∃ n b M' c', (∀ fuel, n ≤ fuel → groupDestroy fuel (g.map fun q => some q.1) M = .ok (b, M')) ∧ Hist al c' M' ∧ c'.live = c.live ∧
      (∀ q, q ∈ c'.pools ↔ q ∈ c.pools ∧ (q ∈ g → held c q = true)) ∧ (b = true ↔ ∀ q ∈ g, held c q = false) ∧ c'.pools.Sublist c.pools := by
  intro g
  induction g with
  | nil => intro c M h _ _; exact ⟨0, true, M, c, fun _ _ => rfl, h, rfl, by simp, by simp, List.Sublist.refl _⟩
  | cons q g ih =>
      intro c M h hg hnd
      have hq : (q.1, q.2.1, q.2.2) ∈ c.pools := hg q (by simp)
      obtain ⟨hqn, hnd⟩ := List.nodup_cons.1 hnd
      obtain ⟨b, M1, ⟨n1, hr⟩, hb⟩ := c31_destroy G h hq
      have hheld : held c q = false ↔ ∀ x ∈ c.live, x.2 ≠ q.1 := by simp [held]
      have hinj : ∀ x ∈ c.pools, x.1 = q.1 → x = q := by
        obtain ⟨A, S, R⟩ := rel_of_hist G h
        intro x hx hxq
        have := R.nodupPools
        have hq' : q ∈ c.pools := hq
        generalize c.pools = l at this hx hq'
        clear hq hr hb hheld
        induction l with
        | nil => cases hx
        | cons y ys ih => grind
      cases b with
      | true =>
          have h1 := Hist.destroyed h (p := q.1) hq ⟨n1, hr⟩
          have hg1 : IsGroup { c with pools := c.pools.filter (fun x => decide (x.1 ≠ q.1)) } g := by
            intro x hx
            have := hg x (by simp [hx])
            refine List.mem_filter.2 ⟨this, ?_⟩
            have : x ≠ q := by rintro rfl; exact hqn hx
            simp only [decide_eq_true_eq]
            exact fun he => this (hinj x (hg x (by simp [hx])) he)
          obtain ⟨n, b', M', c', e, h2, h3, h4, h5, hsub⟩ := ih h1 hg1 hnd
          refine ⟨max n1 n, b', M', c', ?_, h2, h3, ?_, ?_, hsub.trans List.filter_sublist⟩
          · intro fuel hf
            rw [List.map_cons, groupDestroy, hr fuel (by omega)]
            simp only [Outcome.ok_bind, e fuel (by omega)]; rfl
          · have hq0 := hheld.2 (hb.1 rfl)
            intro x
            rw [h4]
            simp only [List.mem_filter, decide_eq_true_eq, List.mem_cons, held]
            constructor
            · rintro ⟨⟨h6, h7⟩, h8⟩
              refine ⟨h6, ?_⟩
              rintro (rfl | h9)
              · exact absurd rfl h7
              · exact h8 h9
            · rintro ⟨h6, h7⟩
              refine ⟨⟨h6, fun he => ?_⟩, fun h8 => h7 (.inr h8)⟩
              have := hinj x h6 he
              subst this
              have := h7 (.inl rfl)
              simp only [held] at hq0
              rw [hq0] at this; cases this
          · rw [h5]
            have hq0 := hheld.2 (hb.1 rfl)
            simp only [List.mem_cons, held] at hq0 ⊢
            constructor
            · rintro hh x (rfl | hx)
              · exact hq0
              · exact hh x hx
            · exact fun hh x hx => hh x (.inr hx)
      | false =>
          have h1 := Hist.refused h (p := q.1) hq ⟨n1, hr⟩
          have hq1 : held c q = true := by
            cases hx : held c q with
            | true => rfl
            | false => have := hb.2 (hheld.1 hx); cases this
          obtain ⟨n, b', M', c', e, h2, h3, h4, h5, hsub⟩ := ih (c := { c with odd := true }) h1 (fun x hx => hg x (by simp [hx])) hnd
          refine ⟨max n1 n, false, M', c', ?_, h2, h3, ?_, ?_, hsub⟩
          · intro fuel hf
            rw [List.map_cons, groupDestroy, hr fuel (by omega)]
            simp only [Outcome.ok_bind, e fuel (by omega)]; rfl
          · intro x
            rw [h4]
            refine and_congr Iff.rfl ?_
            simp only [List.mem_cons, held] at hq1 ⊢
            constructor
            · rintro h6 (rfl | h7)
              · exact hq1
              · exact h6 h7
            · exact fun h6 h7 => h6 (.inr h7)
          · simp only [List.mem_cons]
            constructor
            · intro h; cases h
            · intro hh; have := hh q (.inl rfl); rw [hq1] at this; cases this

/-- A group of two pools as in the theorems above exists. -/
example : ∃ c M g, Hist bump c M ∧ IsGroup c g ∧ g.Nodup ∧ g.length = 2 := by
  have h0 : Hist bump ⟨[], [], false⟩ start := .start rfl rfl rfl
  obtain ⟨ps, M', e, hl, h'⟩ := c63_group_init bump_good (ds := [⟨some [97], 4, 8, defaultTest, 0⟩, ⟨some [98], 4, 64, defaultTest, 0⟩]) h0 (by simp [Fits])
  refine ⟨_, M', _, h', fun q hq => hq, ?_, by simp [hl]⟩
  obtain ⟨A, S, R⟩ := rel_of_hist bump_good h'
  have := R.nodupPools
  exact List.Pairwise.of_map (f := fun x : Nat × Nat × List Byte => x.1) (fun a b hab he => hab (he ▸ rfl)) this

/-- A description without a name ends the group early and leaves NULL entries; allocating a size no earlier pool satisfies, or destroying the group, then dereferences NULL
(zt_mem.c 556, 584, 603). -/
theorem group_null_entries : ((groupInit bump 9 [⟨some [97], 4, 8, defaultTest, 0⟩, ⟨none, 0, 0, defaultTest, 0⟩] start).bind fun r =>
    .ok ((r.1.map fun g => (g.map Option.isSome, (groupAlloc bump g 9 r.2).bind fun _ => .ok (), (groupDestroy 9 g r.2).bind fun _ => .ok ())))) =
    .ok (some ([true, false], .ub, .ub)) := by decide +kernel

end ZT.MemPool
