import Verif.MemPool.Group

/-!
# C89: pools when memory runs out

The allocator may refuse any request. What it gives is as before: not NULL and overlapping nothing that is live.
-/

namespace ZT.MemPool

/-- An allocator that may fail, but gives only memory that is not in use. -/
def Sound (al : Alloc) : Prop := ∀ t bs n a, al t bs n = some a → 0 < a ∧ ∀ b ∈ bs, Disj (a, n) b

/-! ### from allocators that may fail to those that do not -/

/-- Where `al` fails, `bump` steps in. -/
def total (al : Alloc) : Alloc := fun t bs n => (al t bs n).or (bump t bs n)

theorem total_good {al : Alloc} (S : Sound al) : Good (total al) := by
  intro t bs n
  cases h : al t bs n with
  | none => simpa [total, h] using bump_good t bs n
  | some a => exact ⟨a, by simp [total, h], S t bs n a h⟩

theorem malloc_total {al : Alloc} {M : Mem} {n : Nat} {r : Addr × Mem} (h : malloc al M n = some r) : malloc (total al) M n = some r := by
  unfold malloc at *
  cases ha : al M.tick M.blocks n with
  | none => rw [ha] at h; cases h
  | some a => rw [ha] at h; simpa [total, ha] using h

theorem pageAlloc_total {al : Alloc} {M M' : Mem} {p g : Addr} (h : pageAlloc al M p = .ok (some g, M')) : pageAlloc (total al) M p = .ok (some g, M') := by
  unfold pageAlloc at *
  cases hm : malloc al M (M.pool p).pageSize with
  | none => simp only [hm] at h; cases h
  | some r => simp only [hm] at h; simp only [malloc_total hm]; exact h

theorem addPage_total {al : Alloc} {M M' : Mem} {p : Addr} (h : addPage al M p = .ok M') : addPage (total al) M p = .ok M' := by
  unfold addPage at *
  obtain ⟨⟨r, M1⟩, h1, h2⟩ := Outcome.bind_eq_ok.1 h
  cases r with
  | none => cases h2
  | some g => exact Outcome.bind_eq_ok.2 ⟨_, pageAlloc_total h1, h2⟩

theorem addPages_total {al : Alloc} {p : Addr} : ∀ (n : Nat) {M M' : Mem}, addPages al p n M = .ok M' → addPages (total al) p n M = .ok M' := by
  intro n
  induction n with
  | zero => intro M M' h; exact h
  | succ n ih =>
      intro M M' h
      rw [addPages] at h ⊢
      obtain ⟨M1, h1, h2⟩ := Outcome.bind_eq_ok.1 h
      exact Outcome.bind_eq_ok.2 ⟨_, addPage_total h1, ih h2⟩

theorem init_total {al : Alloc} {M M' : Mem} {name : List Byte} {n : Int} {size : Nat} {test : Nat → Nat → Nat → Nat → Nat → Bool} {flags : Nat} {p : Addr}
    (h : init al M name n size test flags = .ok (some p, M')) : init (total al) M name n size test flags = .ok (some p, M') := by
  unfold init at *
  cases hm : malloc al M 160 with
  | none => simp only [hm] at h; cases h
  | some r =>
      simp only [hm] at h
      simp only [malloc_total hm]
      obtain ⟨M1, h1, h2⟩ := Outcome.bind_eq_ok.1 h
      exact Outcome.bind_eq_ok.2 ⟨_, addPages_total _ h1, h2⟩

theorem alloc_total {al : Alloc} {M M' : Mem} {p d : Addr} (h : alloc al M p = .ok (d, M')) : alloc (total al) M p = .ok (d, M') := by
  unfold alloc at *
  obtain ⟨_, h1, h2⟩ := Outcome.bind_eq_ok.1 h
  refine Outcome.bind_eq_ok.2 ⟨_, h1, ?_⟩
  by_cases he : EList.empty M.H (freeHead p) = true
  · rw [if_pos he] at h2 ⊢
    obtain ⟨M1, h3, h4⟩ := Outcome.bind_eq_ok.1 h2
    exact Outcome.bind_eq_ok.2 ⟨M1, addPage_total h3, h4⟩
  · rw [if_neg he] at h2 ⊢
    exact h2

theorem hist_total {al : Alloc} {c : Client} {M : Mem} (h : Hist al c M) : Hist (total al) c M := by
  induction h with
  | start h1 h2 h3 => exact .start h1 h2 h3
  | init _ h1 h2 ih => exact .init ih h1 (init_total h2)
  | alloc _ h1 h2 ih => exact .alloc ih h1 (alloc_total h2)
  | release _ h1 h2 ih => exact .release ih h1 h2
  | releaseFree _ h1 h2 ih => exact .releaseFree ih h1 h2
  | destroyed _ h1 h2 ih => exact .destroyed ih h1 h2
  | refused _ h1 h2 ih => exact .refused ih h1 h2

/-! ### C89 -/

/-- **C89 (no damage).** Whatever requests the system allocator refused in the course of a history: the elements held are distinct, lie in blocks of the pools they were taken from and do not overlap. -/
theorem c89_disjoint {al : Alloc} (S : Sound al) {c : Client} {M : Mem} (h : Hist al c M) :
    c.live.Nodup ∧ (∀ x ∈ c.live, ∃ sz name, (x.2, sz, name) ∈ c.pools ∧ ∃ b ∈ M.blocks, b.1 ≤ x.1 ∧ x.1 + sz ≤ b.1 + b.2) ∧
    (∀ x ∈ c.live, ∀ y ∈ c.live, ∀ sx nx sy ny, (x.2, sx, nx) ∈ c.pools → (y.2, sy, ny) ∈ c.pools → x ≠ y → x.1 + sx ≤ y.1 ∨ y.1 + sy ≤ x.1) :=
  c30_disjoint (total_good S) (hist_total h)

/-- **C89 (no leak).** Also then everything is given back when all pools are destroyed, and a pool can be destroyed exactly when no element of it is held. -/
theorem c89_no_leak {al : Alloc} (S : Sound al) {c : Client} {M : Mem} (h : Hist al c M) :
    (c.pools = [] → M.blocks = [(poolsHead, 16)] ∧ c.live = []) ∧ ∀ q ∈ c.pools, ∃ b M', Runs (destroy M q.1) (b, M') ∧ (b = true ↔ ∀ x ∈ c.live, x.2 ≠ q.1) :=
  ⟨fun he => c31_no_leak (total_good S) (hist_total h) he, fun _ hq => c31_destroy (total_good S) (hist_total h) hq⟩

/-- **C89 (zt_mem_pool_init returns NULL)** exactly if the pool itself could not be allocated, and then nothing has changed. -/
theorem c89_init_null {al : Alloc} {M : Mem} {name : List Byte} {n : Int} {size : Nat} {test : Nat → Nat → Nat → Nat → Nat → Bool} {flags : Nat} :
    (∀ M', init al M name n size test flags = .ok (none, M') → M' = M) ∧ (init al M name n size test flags = .ok (none, M) ↔ al M.tick M.blocks 160 = none) := by
  have key : ∀ M', init al M name n size test flags = .ok (none, M') → al M.tick M.blocks 160 = none := by
    intro M' h
    unfold init malloc at h
    cases ha : al M.tick M.blocks 160 with
    | none => rfl
    | some a =>
        simp only [ha] at h
        obtain ⟨M1, _, h2⟩ := Outcome.bind_eq_ok.1 h
        cases h2
  have key2 : al M.tick M.blocks 160 = none → init al M name n size test flags = .ok (none, M) := by
    intro ha
    unfold init malloc
    simp only [ha]
  refine ⟨fun M' h => ?_, key M, key2⟩
  have := key2 (key M' h)
  rw [h] at this
  cases this; rfl

/-- **C89 (zt_mem_pool_alloc).** After any history a pool gives an element exactly if it has a free one or the page it then needs is granted. -/
theorem c89_alloc {al : Alloc} (S : Sound al) {c : Client} {M : Mem} (h : Hist al c M) {q : Addr × Nat × List Byte} (hq : q ∈ c.pools) :
    (∃ d M', alloc al M q.1 = .ok (d, M')) ↔ EList.empty M.H (freeHead q.1) = false ∨ al M.tick M.blocks (M.pool q.1).pageSize ≠ none := by
  constructor
  · rintro ⟨d, M', e⟩
    cases he : EList.empty M.H (freeHead q.1) with
    | false => exact .inl rfl
    | true =>
        refine .inr fun ha => ?_
        rw [alloc_oom al M q.1 he ha] at e
        cases e
  · intro hh
    obtain ⟨d, M', e⟩ := ((c30_total (total_good S) (hist_total h)).2.1 q hq).1
    refine ⟨d, M', ?_⟩
    rw [← e]
    unfold alloc
    cases he : EList.empty M.H (freeHead q.1) with
    | false => rfl
    | true =>
        have ha : al M.tick M.blocks (M.pool q.1).pageSize ≠ none := by
          rcases hh with h1 | h1
          · rw [he] at h1; cases h1
          · exact h1
        obtain ⟨a, ha⟩ := Option.ne_none_iff_exists'.1 ha
        have hm : malloc (total al) M (M.pool q.1).pageSize = malloc al M (M.pool q.1).pageSize := by simp [malloc, total, ha]
        have hp : addPage (total al) M q.1 = addPage al M q.1 := by unfold addPage pageAlloc; rw [hm]
        simp only [hp]

theorem pageData_pos (n : Int) (size : Nat) : 0 < (pageData (if n = 0 then 1 else n) size).2.2 := by
  unfold pageData
  generalize (if n = 0 then 1 else n) = k
  simp only
  split
  · rename_i hs
    have he : 0 < (4096 - 32) / (24 + size) := Nat.div_pos (by omega) (by omega)
    split
    · exact Nat.div_pos (by omega) he
    · exact Nat.one_pos
  · exact Nat.one_pos

/-- Violation of C89: a page that is refused is used nevertheless, by zt_mem_pool_alloc after every history in which the pool has no free element left … -/
theorem c89_alloc_violation {al : Alloc} {M : Mem} {p : Addr} (he : EList.empty M.H (freeHead p) = true) (ha : al M.tick M.blocks (M.pool p).pageSize = none) : alloc al M p = .ub :=
  alloc_oom al M p he ha

/-- … and by zt_mem_pool_init in any state, if the pool was granted and the first page was not. -/
theorem c89_init_violation {al : Alloc} {M : Mem} {name : List Byte} {n : Int} {size : Nat} {test : Nat → Nat → Nat → Nat → Nat → Bool} {flags : Nat} {p : Addr}
    (h1 : al M.tick M.blocks 160 = some p) (h2 : al (M.tick + 1) ((p, 160) :: M.blocks) (pageData (if n = 0 then 1 else n) size).1 = none) : init al M name n size test flags = .ub := by
  unfold init malloc
  simp only [h1]
  have hpos : 0 < (pageData (if n = 0 then 1 else n) size).2.2 := pageData_pos n size
  obtain ⟨k, hk⟩ : ∃ k, (pageData (if n = 0 then 1 else n) size).2.2 = k + 1 := ⟨_, (Nat.succ_pred_eq_of_pos hpos).symm⟩
  rw [hk, addPages]
  simp [addPage, pageAlloc, malloc, upd, h2]

/-! ### groups -/

theorem groupLoop_append {al : Alloc} {fuel : Nat} : ∀ (pre ds : List Desc) {acc acc' : List Addr} {M M1 : Mem}, (∀ d ∈ pre, d.name ≠ none) → groupLoop al fuel pre acc M = .ok (some acc', M1) →
    groupLoop al fuel (pre ++ ds) acc M = groupLoop al fuel ds acc' M1 := by
  intro pre
  induction pre with
  | nil => intro ds acc acc' M M1 _ h; cases h; rfl
  | cons d pre ih =>
      intro ds acc acc' M M1 hn h
      obtain ⟨nm, hnm⟩ := Option.ne_none_iff_exists'.1 (hn d (by simp))
      rw [groupLoop, hnm] at h
      rw [List.cons_append, groupLoop, hnm]
      simp only at h ⊢
      obtain ⟨⟨r, M2⟩, h1, h2⟩ := Outcome.bind_eq_ok.1 h
      rw [h1]
      simp only [Outcome.ok_bind]
      cases r with
      | none =>
          simp only at h2
          obtain ⟨_, _, h3⟩ := Outcome.bind_eq_ok.1 h2
          cases h3
      | some p => exact ih ds (fun d' hd' => hn d' (by simp [hd'])) h2

theorem groupLoop_hist {al : Alloc} {fuel : Nat} : ∀ (pre : List Desc) {acc acc' : List Addr} {c : Client} {M M1 : Mem}, (∀ d ∈ pre, d.name ≠ none ∧ Fits d.elts d.size) → Hist al c M →
    groupLoop al fuel pre acc M = .ok (some acc', M1) → ∃ g : List (Addr × Nat × List Byte), acc' = acc ++ g.map (·.1) ∧ g.map (·.2) = pre.map (fun d => (d.size, d.name.getD [])) ∧
      Hist al { c with pools := c.pools ++ g } M1 := by
  intro pre
  induction pre with
  | nil => intro acc acc' c M M1 _ hh h; cases h; exact ⟨[], by simp, rfl, by simpa using hh⟩
  | cons d pre ih =>
      intro acc acc' c M M1 hn hh h
      obtain ⟨hn1, hf⟩ := hn d (by simp)
      obtain ⟨nm, hnm⟩ := Option.ne_none_iff_exists'.1 hn1
      rw [groupLoop, hnm] at h
      simp only at h
      obtain ⟨⟨r, M2⟩, h1, h2⟩ := Outcome.bind_eq_ok.1 h
      cases r with
      | none =>
          simp only at h2
          obtain ⟨_, _, h3⟩ := Outcome.bind_eq_ok.1 h2
          cases h3
      | some p =>
          obtain ⟨g, hg1, hg2, hg3⟩ := ih (fun d' hd' => hn d' (by simp [hd'])) (Hist.init hh hf h1) h2
          exact ⟨(p, d.size, nm) :: g, by simp [hg1], by simp [hg2, hnm], by simpa using hg3⟩

theorem filter_last {l : List (Addr × Nat × List Byte)} {q : Addr × Nat × List Byte} (h : ((l ++ [q]).map (·.1)).Nodup) : (l ++ [q]).filter (fun x => decide (x.1 ≠ q.1)) = l := by
  rw [List.map_append, List.nodup_append] at h
  rw [List.filter_append, List.filter_eq_self.2, List.filter_eq_nil_iff.2, List.append_nil]
  · simp
  · intro x hx
    have := h.2.2 x.1 (List.mem_map.2 ⟨x, hx, rfl⟩) q.1 (by simp)
    simpa using this

theorem undo_spec {al : Alloc} (S : Sound al) : ∀ (g : List (Addr × Nat × List Byte)) {c : Client} {M : Mem}, Hist al { c with pools := c.pools ++ g.reverse } M → (∀ x ∈ c.live, ∃ y ∈ c.pools, y.1 = x.2) →
    ∃ M', Runs (fun fuel => undoLoop fuel (g.map (·.1)) M) M' ∧ Hist al c M' := by
  intro g
  induction g with
  | nil => intro c M h _; exact ⟨M, ⟨0, fun _ _ => rfl⟩, by simpa using h⟩
  | cons q g ih =>
      intro c M h hl
      have hG := total_good S
      obtain ⟨A, S', R⟩ := rel_of_hist hG (hist_total h)
      have hnd := R.nodupPools
      simp only [List.reverse_cons, ← List.append_assoc] at hnd h
      have hnq : ∀ x ∈ c.live, x.2 ≠ q.1 := by
        intro x hx he
        obtain ⟨y, hy, hy1⟩ := hl x hx
        rw [List.map_append, List.nodup_append] at hnd
        exact hnd.2.2 y.1 (List.mem_map.2 ⟨y, by simp [hy], rfl⟩) q.1 (by simp) (hy1.trans he)
      have hqm : (q.1, q.2.1, q.2.2) ∈ c.pools ++ g.reverse ++ [q] := by simp
      obtain ⟨b, M1, ⟨n1, e1⟩, hb⟩ := c31_destroy hG (hist_total h) (q := q) hqm
      have hbt : b = true := hb.2 hnq
      subst hbt
      have h1 := Hist.destroyed h hqm ⟨n1, e1⟩
      rw [show (c.pools ++ g.reverse ++ [q]).filter (fun x => decide (x.1 ≠ q.1)) = c.pools ++ g.reverse from filter_last hnd] at h1
      obtain ⟨M', ⟨n2, e2⟩, h2⟩ := ih (c := c) h1 hl
      refine ⟨M', ⟨max n1 n2, fun fuel hf => ?_⟩, h2⟩
      show undoLoop fuel (q.1 :: g.map (·.1)) M = _
      rw [undoLoop, e1 fuel (by omega)]
      exact e2 fuel (by omega)

/-- Violation of C89: if the pool of a later description cannot be made, zt_mem_pool_group_init returns NULL, and the pool of the first description stays, unreachable through the group. -/
theorem c89_group_left_violation {al : Alloc} (S : Sound al) {c : Client} {M M1 : Mem} (h : Hist al c M) {first : Desc} {pre post : List Desc} {d : Desc} {ps : List Addr}
    (hd : ∀ x ∈ first :: pre, x.name ≠ none ∧ Fits x.elts x.size) (hn : d.name ≠ none) (hmade : ∀ fuel, groupLoop al fuel (first :: pre) [] M = .ok (some ps, M1)) (hfail : al M1.tick M1.blocks 160 = none) :
    ∃ M' p, Runs (fun fuel => groupInit al fuel (first :: pre ++ d :: post) M) (none, M') ∧ Hist al { c with pools := c.pools ++ [(p, first.size, first.name.getD [])] } M' := by
  obtain ⟨g, hg1, hg2, hg3⟩ := groupLoop_hist (first :: pre) hd h (hmade 0)
  obtain ⟨nm, hnm⟩ := Option.ne_none_iff_exists'.1 hn
  cases g with
  | nil => simp at hg2
  | cons q g =>
      obtain ⟨A, S', R⟩ := rel_of_hist (total_good S) (hist_total h)
      have hl : ∀ x ∈ c.live, ∃ y ∈ c.pools ++ [q], y.1 = x.2 := by
        intro x hx
        obtain ⟨y, hy, e⟩ := R.pool_of_live (d := x.1) (p := x.2) hx
        exact ⟨y, by simp [hy], e⟩
      obtain ⟨M', ⟨n, e⟩, h2⟩ := undo_spec S g.reverse (c := { c with pools := c.pools ++ [q] }) (M := M1) (by simpa using hg3) hl
      have hq : q = (q.1, first.size, first.name.getD []) := by
        simp only [List.map_cons, List.cons.injEq] at hg2
        rw [← hg2.1]
      refine ⟨M', q.1, ⟨n, fun fuel hf => ?_⟩, by rw [← hq]; exact h2⟩
      show groupInit al fuel (first :: pre ++ d :: post) M = _
      rw [groupInit, groupLoop_append (first :: pre) (d :: post) (fun x hx => (hd x hx).1) (hmade fuel), groupLoop, hnm]
      simp only [(c89_init_null (al := al) (M := M1)).2.2 hfail, Outcome.ok_bind, hg1, List.nil_append, List.map_cons, groupUndo]
      have e' : undoLoop fuel (g.reverse.map (·.1)) M1 = .ok M' := e fuel hf
      rw [← List.map_reverse, e']
      rfl

/-- Violation of C89: if the pool of the first description cannot be made, zt_mem_pool_group_init counts below 0 and uses entries outside of its array. -/
theorem c89_group_first_violation {al : Alloc} {M : Mem} {d : Desc} {ds : List Desc} (hn : d.name ≠ none) (hfail : al M.tick M.blocks 160 = none) : ∀ fuel, groupInit al fuel (d :: ds) M = .ub := by
  intro fuel
  obtain ⟨nm, hnm⟩ := Option.ne_none_iff_exists'.1 hn
  rw [groupInit, groupLoop, hnm]
  simp only [(c89_init_null (al := al) (M := M)).2.2 hfail, Outcome.ok_bind, groupUndo, Outcome.ub_bind]

/-- An allocator that fails once three blocks are live (the list head and a pool with a page). -/
def small (t : Nat) (bs : List Block) (n : Nat) : Option Addr := if bs.length < 3 then bump t bs n else none

theorem small_sound : Sound small := by
  intro t bs n a h
  unfold small at h
  split at h
  · obtain ⟨a', h1, h2⟩ := bump_good t bs n
    rw [h1] at h
    cases h
    exact h2
  · cases h

/-- The hypotheses of `c89_group_left_violation` and of the theorems on histories are met: the first pool is made, the second is not. -/
example : ∃ M1 ps, (∀ fuel, groupLoop small fuel [⟨some [97], 4, 8, defaultTest, 0⟩] [] start = .ok (some ps, M1)) ∧ small M1.tick M1.blocks 160 = none ∧ Hist small ⟨[(80, 8, [97])], [], false⟩ M1 := by
  have hi : ∃ p M1, init small start [97] 4 8 defaultTest 0 = .ok (some p, M1) ∧ p = 80 ∧ small M1.tick M1.blocks 160 = none := by
    have h : ((init small start [97] 4 8 defaultTest 0).bind fun r => .ok (r.1, small r.2.tick r.2.blocks 160)) = .ok (some 80, none) := by decide +kernel
    obtain ⟨⟨r, M1⟩, h1, h2⟩ := Outcome.bind_eq_ok.1 h
    simp only [Outcome.ok.injEq, Prod.mk.injEq] at h2
    exact ⟨80, M1, by rw [h1, h2.1], rfl, h2.2⟩
  obtain ⟨p, M1, h1, rfl, h2⟩ := hi
  refine ⟨M1, [80], fun fuel => ?_, h2, ?_⟩
  · rw [groupLoop]
    simp only [h1, Outcome.ok_bind, List.nil_append, groupLoop]
  · exact Hist.init (c := ⟨[], [], false⟩) (.start rfl rfl rfl) (by simp [Fits]) h1

end ZT.MemPool
