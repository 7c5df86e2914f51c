import Verif.MemPool.Props

/-!
# Exit handler, examples and defects of the memory pools
-/

namespace ZT.MemPool

open EList (Rep IsList)

theorem destroy_mono (M : Mem) (p : Addr) (fuel : Nat) : Le (destroy M p fuel) (destroy M p (fuel + 1)) := by
  have ml : ∀ fuel cur nxt M, Le (destroyLoop p fuel cur nxt M) (destroyLoop p (fuel + 1) cur nxt M) := by
    intro fuel
    induction fuel with
    | zero => intro _ _ _; exact Le.ub _
    | succ n ih =>
        intro cur nxt M
        rw [destroyLoop, destroyLoop]
        refine Le.ite (fun _ => Le.refl _) fun _ => Le.bind (Le.refl _) fun _ => Le.ite (fun _ => Le.refl _) fun _ => Le.bind (Le.refl _) fun r => ?_
        exact Le.bind (Le.refl _) fun _ => ih _ _ _
  rw [destroy, destroy]
  exact Le.bind (Le.refl _) fun _ => Le.bind (Le.refl _) fun _ => Le.bind (ml _ _ _ _) fun _ => Le.refl _

/-- Whether the client holds an element of the pool. -/
def held (c : Client) (q : Addr × Nat × List Byte) : Bool := c.live.any (fun x => x.2 = q.1)

theorem next_of_hist {al : Alloc} (G : Good al) {c : Client} {M : Mem} (h : Hist al c M) {pre rest : List (Addr × Nat × List Byte)} {q : Addr × Nat × List Byte}
    (e : c.pools = pre ++ q :: rest) : M.H.next q.1 = (rest.map (·.1) ++ [poolsHead]).head (by simp) ∧ q.1 ≠ poolsHead := by
  obtain ⟨A, S, R⟩ := rel_of_hist G h
  have L := R.inv.rep.lists _ _ R.inv.aroot
  rw [R.linked, e, List.map_append, List.map_cons] at L
  have h1 := (EList.linked_append _ _ _ _ _ _).1 L.1
  refine ⟨?_, ?_⟩
  · cases rest with
    | nil => exact h1.2.1
    | cons r rs => exact h1.2.1
  · have := L.2
    rw [List.nodup_cons] at this
    intro hq; apply this.1; simp [hq]

theorem releaseAllLoop_spec {al : Alloc} (G : Good al) : ∀ (rest : List (Addr × Nat × List Byte)) (pre : List (Addr × Nat × List Byte)) (c : Client) (M : Mem),
    Hist al c M → c.pools = pre ++ rest → ∀ cur, cur = (rest.map (·.1) ++ [poolsHead]).head (by simp) →
    ∃ n M' c', (∀ fuel fuel2, n ≤ fuel → n ≤ fuel2 → releaseAllLoop fuel2 fuel cur (M.H.next cur) M = .ok M') ∧ Hist al c' M' ∧
      c'.pools = pre ++ rest.filter (held c) ∧ c'.live = c.live := by
  intro rest
  induction rest with
  | nil =>
      intro pre c M h e cur hc
      refine ⟨1, M, c, ?_, h, by simpa using e, rfl⟩
      intro fuel fuel2 hf _
      obtain ⟨f, rfl⟩ : ∃ f, fuel = f + 1 := ⟨fuel - 1, by omega⟩
      rw [releaseAllLoop, if_pos (by simpa using hc)]
  | cons q rest ih =>
      intro pre c M h e cur hc
      have hcur : cur = q.1 := by simpa using hc
      subst hcur
      obtain ⟨hnx, hne⟩ := next_of_hist G h e
      have hq : q ∈ c.pools := by rw [e]; simp
      obtain ⟨b, M1, hr, hb⟩ := c31_destroy G h hq
      obtain ⟨n1, hr'⟩ := hr
      have hhead : ∀ (c' : Client) (M' : Mem) (pre' : List (Addr × Nat × List Byte)), Hist al c' M' → c'.pools = pre' ++ rest →
          chk M' ((rest.map (·.1) ++ [poolsHead]).head (by simp)) 16 = .ok () := by
        intro c' M' pre' h' e'
        obtain ⟨A, S, R⟩ := rel_of_hist G h'
        cases rest with
        | nil => exact chk_ok R.inv.broot (by simp) (by simp)
        | cons r rs =>
            have : r ∈ c'.pools := by rw [e']; simp
            exact chk_ok (R.inv.bpool _ (R.mem this).2) (by simp) (by simp)
      have hnd : (c.pools.map (·.1)).Nodup := by obtain ⟨A, S, R⟩ := rel_of_hist G h; exact R.nodupPools
      rw [e, List.map_append, List.map_cons] at hnd
      cases b with
      | true =>
          have h1 := Hist.destroyed h (p := q.1) (sz := q.2.1) (name := q.2.2) hq ⟨n1, hr'⟩
          have hpl : c.pools.filter (fun x => decide (x.1 ≠ q.1)) = pre ++ rest := by
            rw [e, List.filter_append, List.filter_cons]
            simp only [ne_eq, not_true, decide_false]
            congr 1
            · rw [List.filter_eq_self]
              intro a ha
              have := hnd; grind
            · rw [if_neg (by simp), List.filter_eq_self]
              intro a ha
              have := hnd; grind
          have hh : held c q = false := by
            have := hb.1 rfl
            simp only [held, List.any_eq_false, decide_eq_true_eq]; exact this
          obtain ⟨n, M', c', h2, h3, h4, h5⟩ := ih pre _ M1 h1 hpl _ rfl
          refine ⟨max n1 n + 1, M', c', ?_, h3, ?_, h5⟩
          · intro fuel fuel2 hf hf2
            obtain ⟨f, rfl⟩ : ∃ f, fuel = f + 1 := ⟨fuel - 1, by omega⟩
            rw [releaseAllLoop, if_neg hne, hr' fuel2 (by omega)]
            simp only [Outcome.ok_bind, hnx]
            rw [hhead _ M1 pre h1 hpl]
            simp only [Outcome.ok_bind]
            exact h2 f fuel2 (by omega) (by omega)
          · rw [h4, List.filter_cons, hh]; rfl
      | false =>
          have h1 := Hist.refused h (p := q.1) (sz := q.2.1) (name := q.2.2) hq ⟨n1, hr'⟩
          have hpl : ({ c with odd := true } : Client).pools = (pre ++ [q]) ++ rest := by simp [e]
          have hh : held c q = true := by
            by_cases hx : ∀ x ∈ c.live, x.2 ≠ q.1
            · exact absurd (hb.2 hx) (by simp)
            · simp only [held, List.any_eq_true, decide_eq_true_eq]
              apply Classical.byContradiction
              intro hk; apply hx; intro x hx2 hx3; exact hk ⟨x, hx2, hx3⟩
          obtain ⟨n, M', c', h2, h3, h4, h5⟩ := ih (pre ++ [q]) _ M1 h1 hpl _ rfl
          refine ⟨max n1 n + 1, M', c', ?_, h3, ?_, h5⟩
          · intro fuel fuel2 hf hf2
            obtain ⟨f, rfl⟩ : ∃ f, fuel = f + 1 := ⟨fuel - 1, by omega⟩
            rw [releaseAllLoop, if_neg hne, hr' fuel2 (by omega)]
            simp only [Outcome.ok_bind, hnx]
            rw [hhead _ M1 _ h1 hpl]
            simp only [Outcome.ok_bind]
            exact h2 f fuel2 (by omega) (by omega)
          · rw [h4, List.filter_cons, hh, List.append_assoc]; rfl

/-- **C62 (exit handler).** After any history the exit handler ends without undefined behaviour and leaves exactly the pools of which the client still holds elements, in
order; the elements held stay valid (the resulting state is again reached by a history with the same elements held). -/
theorem c62_exit {al : Alloc} (G : Good al) {c : Client} {M : Mem} (h : Hist al c M) :
    ∃ M' c', Runs (releaseAll M) M' ∧ Hist al c' M' ∧ c'.pools = c.pools.filter (held c) ∧ c'.live = c.live := by
  obtain ⟨A, S, R⟩ := rel_of_hist G h
  have L := R.inv.rep.lists _ _ R.inv.aroot
  have hn : M.H.next poolsHead = (c.pools.map (·.1) ++ [poolsHead]).head (by simp) := by
    rw [R.linked] at L
    cases hc : c.pools with
    | nil => rw [hc] at L; exact L.1.1
    | cons q qs => rw [hc] at L; exact L.1.1
  obtain ⟨n, M', c', h1, h2, h3, h4⟩ := releaseAllLoop_spec G c.pools [] c M h rfl _ rfl
  refine ⟨M', c', ⟨n, fun fuel hf => ?_⟩, h2, by simpa using h3, h4⟩
  rw [releaseAll, hn]
  have hk : chk M ((c.pools.map (·.1) ++ [poolsHead]).head (by simp)) 16 = .ok () := by
    cases hc : c.pools with
    | nil => exact chk_ok R.inv.broot (by simp) (by simp)
    | cons q qs => exact chk_ok (R.inv.bpool q.1 (R.mem (x := q) (by rw [hc]; simp)).2) (by simp) (by simp)
  simp only [hk, Outcome.ok_bind]
  exact h1 fuel fuel hf hf

/-- **C62.** When the client holds nothing, the exit handler returns every block. -/
theorem c62_exit_clean {al : Alloc} (G : Good al) {c : Client} {M : Mem} (h : Hist al c M) (he : c.live = []) :
    ∃ M', Runs (releaseAll M) M' ∧ M'.blocks = [(poolsHead, 16)] := by
  obtain ⟨M', c', h1, h2, h3, h4⟩ := c62_exit G h
  refine ⟨M', h1, (c31_no_leak G h2 ?_).1⟩
  rw [h3, List.filter_eq_nil_iff]
  intro q _; simp [held, he]

/-! ### examples -/

/-- An allocator that places a block after all live ones, aligned to 16. -/
def bump (_ : Nat) (bs : List Block) (_ : Nat) : Option Addr := some ((bs.foldl (fun m b => max m (b.1 + b.2)) 16 + 15) / 16 * 16)

theorem foldl_max_le (bs : List Block) : ∀ m, m ≤ bs.foldl (fun m b => max m (b.1 + b.2)) m ∧ ∀ b ∈ bs, b.1 + b.2 ≤ bs.foldl (fun m b => max m (b.1 + b.2)) m := by
  induction bs with
  | nil => intro m; simp
  | cons b bs ih =>
      intro m
      obtain ⟨h1, h2⟩ := ih (max m (b.1 + b.2))
      simp only [List.foldl_cons, List.mem_cons]
      refine ⟨by omega, ?_⟩
      rintro c (rfl | hc)
      · omega
      · exact h2 c hc

theorem bump_good : Good bump := by
  intro t bs n
  obtain ⟨h1, h2⟩ := foldl_max_le bs 16
  refine ⟨_, rfl, by omega, fun b hb => .inr ?_⟩
  have := h2 b hb
  simp only; omega

/-- The state at program start. -/
def start : Mem := ⟨⟨fun x => x, fun x => x⟩, fun _ => 0, fun _ => 0, fun _ => 0, fun _ => ⟨[], 0, 0, 0, 0, 0, 0, 0, 0, 0, 0, defaultTest, 0⟩, [(poolsHead, 16)], 0⟩

/-- The hypotheses of the theorems above are met by a state with two pools and two elements held, one from each. -/
example : ∃ c M, Hist bump c M ∧ c.pools.length = 2 ∧ c.live.length = 2 ∧ (c.live.map (·.2)).Nodup := by
  have h0 : Hist bump ⟨[], [], false⟩ start := .start rfl rfl rfl
  obtain ⟨p, M1, e1⟩ := (c30_total bump_good h0).1 [97] 10 16 defaultTest 0 (by simp [Fits])
  have h1 := Hist.init h0 (by simp [Fits]) e1
  obtain ⟨q, M2, e2⟩ := (c30_total bump_good h1).1 [98] 3 5000 defaultTest 1 (by simp [Fits])
  have h2 := Hist.init h1 (by simp [Fits]) e2
  obtain ⟨d, M3, e3⟩ := ((c30_total bump_good h2).2.1 (p, 16, [97]) (by simp)).1
  have h3 := Hist.alloc h2 (p := p) (sz := 16) (name := [97]) (by simp) e3
  obtain ⟨d', M4, e4⟩ := ((c30_total bump_good h3).2.1 (q, 5000, [98]) (by simp)).1
  have h4 := Hist.alloc h3 (p := q) (sz := 5000) (name := [98]) (by simp) e4
  refine ⟨_, _, h4, rfl, rfl, ?_⟩
  obtain ⟨A, S, R⟩ := rel_of_hist bump_good h4
  have := R.nodupPools
  simp at this ⊢
  exact fun h => this h.symm

/-- The same runs are observable by computation: a pool for 10 elements of 16 bytes has one page of 4096 bytes holding 101 elements, all free. -/
example : ((init bump start [97] 10 16 defaultTest 0).bind fun r => getStats r.2 (r.1.getD 0)).bind
    (fun s => .ok [s.pages, s.freePages, s.pageAllocs, s.pageFrees, s.eltsPerPage, s.eltSize, s.pageSize]) = .ok [1, 1, 1, 0, 101, 16, 4096] := by decide +kernel

/-! ### defects -/

/-- Out of memory is not handled: when a new page is needed and the system allocator returns NULL, zt_mem_pool_alloc dereferences NULL (zt_mem.c 267-270). -/
theorem alloc_oom (al : Alloc) (M : Mem) (p : Addr) (he : EList.empty M.H (freeHead p) = true) (ha : al M.tick M.blocks (M.pool p).pageSize = none) :
    alloc al M p = .ub := by
  have : addPage al M p = .ub := by simp [addPage, pageAlloc, malloc, ha]
  unfold alloc chk
  split <;> simp [he, this]

/-- A fresh pool of 1 page, all its elements taken: the next allocation meets the hypothesis of `alloc_oom` for an allocator that fails. -/
example : ((init bump start [97] 1 3000 defaultTest 0).bind fun r => (alloc bump r.2 (r.1.getD 0)).bind fun s =>
    .ok (EList.empty s.2.H (freeHead (r.1.getD 0)))) = .ok true := by decide +kernel

/-- The page size computation wraps (zt_mem.c 166): for 2^61 elements of 2032 bytes a page of 32 bytes is requested and then filled with elements beyond its end. -/
theorem init_overflow : (pageData (2 ^ 61) 2032).1 = 32 ∧ init bump start [97] (2 ^ 61) 2032 defaultTest 0 = .ub := by
  constructor
  · decide +kernel
  · rfl

/-- Page counters disagree after zt_mem_pool_release_free_pages (zt_mem.c 327-343 does not count the pages it frees): one page was obtained, none is left and none
is reported as freed. -/
theorem stats_after_release_free : ((init bump start [97] 2 3000 defaultTest 0).bind fun r => (releaseFreePages r.2 (r.1.getD 0) 5).bind fun M =>
    (getStats M (r.1.getD 0)).bind fun s => .ok [s.pages, s.pageAllocs, s.pageFrees]) = .ok [0, 1, 0] := by decide +kernel

/-- Elements whose size is not a multiple of 8 are misaligned: with all blocks aligned to 16 bytes, the second element of a pool of 1-byte elements is at an odd address, and so is
the header the library itself writes in front of it. -/
theorem misaligned : ((init bump start [97] 2 1 defaultTest 0).bind fun r => (alloc bump r.2 (r.1.getD 0)).bind fun s => (alloc bump s.2 (r.1.getD 0)).bind fun s' =>
    .ok ((s'.1 - 24) % 8)) = .ok 1 := by decide +kernel

end ZT.MemPool
