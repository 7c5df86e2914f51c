import Verif.MemPool.Policy

/-!
# C104, C105: what a pool keeps and when it gives back or takes memory
-/

namespace ZT.MemPool

open EList (Rep IsList)

/-- What zt_mem_pool_init was called with. -/
structure Made where
  name : List Byte
  elts : Int
  size : Nat
  test : Nat → Nat → Nat → Nat → Nat → Bool
  flags : Nat

/-- All histories of correct use of the pools after `p` was created as `s`, as long as `p` exists. -/
inductive Kept (al : Alloc) (p : Addr) (s : Made) : Client → Mem → Prop
  | made {c M M'} : Hist al c M → Fits s.elts s.size → init al M s.name s.elts s.size s.test s.flags = .ok (some p, M') →
      Kept al p s { c with pools := c.pools ++ [(p, s.size, s.name)] } M'
  | init {c M name n size test flags q M'} : Kept al p s c M → Fits n size → init al M name n size test flags = .ok (some q, M') →
      Kept al p s { c with pools := c.pools ++ [(q, size, name)] } M'
  | alloc {c M q sz name d M'} : Kept al p s c M → (q, sz, name) ∈ c.pools → alloc al M q = .ok (d, M') → Kept al p s { c with live := (d, q) :: c.live } M'
  | release {c M d q M'} : Kept al p s c M → (d, q) ∈ c.live → release M d = .ok M' → Kept al p s { c with live := c.live.erase (d, q) } M'
  | releaseFree {c M q sz name M'} : Kept al p s c M → (q, sz, name) ∈ c.pools → Runs (releaseFreePages M q) M' → Kept al p s { c with odd := true } M'
  | destroyed {c M q sz name M'} : Kept al p s c M → q ≠ p → (q, sz, name) ∈ c.pools → Runs (destroy M q) (true, M') →
      Kept al p s { c with pools := c.pools.filter (fun x => decide (x.1 ≠ q)) } M'
  | refused {c M q sz name M'} : Kept al p s c M → (q, sz, name) ∈ c.pools → Runs (destroy M q) (false, M') → Kept al p s { c with odd := true } M'

/-- Elements per page: as many as fit in 4096 bytes with their headers, and for elements of half a page and more, as many as asked for. -/
def perPage (s : Made) : Nat := if s.size < 2032 then 4064 / (24 + s.size) else max 1 s.elts.toNat

/-- Bytes per page. -/
def pageBytes (s : Made) : Nat := if s.size < 2032 then 4096 else 32 + perPage s * (24 + s.size)

/-- Pages needed for the elements asked for, at least one. -/
def pagesFor (s : Made) : Nat := (max 1 s.elts.toNat + perPage s - 1) / perPage s

theorem Kept.hist {al : Alloc} {p : Addr} {s : Made} {c : Client} {M : Mem} (h : Kept al p s c M) : Hist al c M := by
  induction h with
  | made h f e => exact .init h f e
  | init _ f e ih => exact .init ih f e
  | alloc _ f e ih => exact .alloc ih f e
  | release _ f e ih => exact .release ih f e
  | releaseFree _ f e ih => exact .releaseFree ih f e
  | destroyed _ _ f e ih => exact .destroyed ih f e
  | refused _ f e ih => exact .refused ih f e

theorem Kept.mem {al : Alloc} {p : Addr} {s : Made} {c : Client} {M : Mem} (h : Kept al p s c M) : (p, s.size, s.name) ∈ c.pools := by
  induction h with
  | made h f e => simp
  | init _ f e ih => simp [ih]
  | alloc _ f e ih => exact ih
  | release _ f e ih => exact ih
  | releaseFree _ f e ih => exact ih
  | destroyed _ hn f e ih => exact List.mem_filter.2 ⟨ih, by simpa using fun h => hn h.symm⟩
  | refused _ f e ih => exact ih

/-- The pool a creation stores. -/
def freshPool (s : Made) : Pool :=
  let d := pageData (if s.elts = 0 then 1 else s.elts) s.size
  ⟨s.name, (s.elts % 2 ^ 64).toNat, pcacheOf s.elts d.2.1 d.2.2 * d.2.1 % 2 ^ 64, pcacheOf s.elts d.2.1 d.2.2, 0, 0, d.2.1, s.size, d.1, 0, 0, s.test, s.flags⟩

theorem init_conf {al : Alloc} {M M' : Mem} {p : Addr} {s : Made} (h : init al M s.name s.elts s.size s.test s.flags = .ok (some p, M')) :
    (M'.pool p).conf = freshPool s ∧ ∀ q, q ≠ p → (M'.pool q).conf = (M.pool q).conf := by
  unfold init at h
  simp only at h
  split at h
  · cases h
  · rename_i a M1 e1
    obtain ⟨M2, e2, h⟩ := Outcome.bind_eq_ok.1 h
    simp only [Outcome.pure_eq, Outcome.ok.injEq, Prod.mk.injEq, Option.some.injEq] at h
    obtain ⟨rfl, rfl⟩ := h
    have h2 := addPages_conf _ e2
    constructor
    · have := h2 a
      simp only [upd, if_true] at this
      exact this
    · intro q hq
      have := h2 q
      simp only [upd, if_neg hq] at this
      simp only [this, malloc_pool e1]

theorem Kept.conf {al : Alloc} (G : Good al) {p : Addr} {s : Made} {c : Client} {M : Mem} (h : Kept al p s c M) : (M.pool p).conf = freshPool s := by
  induction h with
  | made h f e => exact (init_conf e).1
  | @init c M name n size test flags q M' hk f e ih =>
      have hne : p ≠ q := by
        obtain ⟨A, S, R⟩ := rel_of_hist G (Hist.init hk.hist f e)
        have := R.nodupPools
        simp only [List.map_append, List.map_cons, List.map_nil] at this
        rw [List.nodup_append] at this
        exact this.2.2 p (List.mem_map.2 ⟨_, hk.mem, rfl⟩) q (by simp)
      rw [(init_conf (s := ⟨name, n, size, test, flags⟩) e).2 p hne, ih]
  | alloc _ f e ih => rw [alloc_conf e, ih]
  | release _ f e ih => rw [release_conf e, ih]
  | releaseFree _ f e ih => rw [releaseFreePages_conf e, ih]
  | destroyed _ hn f e ih => rw [destroy_conf e, ih]
  | refused _ f e ih => rw [destroy_conf e, ih]

theorem Kept.fits {al : Alloc} {p : Addr} {s : Made} {c : Client} {M : Mem} (h : Kept al p s c M) : Fits s.elts s.size := by
  induction h <;> assumption

theorem fresh_epp {s : Made} (hf : Fits s.elts s.size) (hm : s.elts < 2 ^ 63) : (freshPool s).epp = perPage s ∧ (freshPool s).pageSize = pageBytes s ∧ 0 < perPage s := by
  have hpos := (pageData_ok hf).1
  have h1 : (freshPool s).epp = perPage s := by
    simp only [freshPool, pageData, perPage]
    by_cases hs : s.size < 2032
    · rw [if_pos (by omega), if_pos hs]
    · rw [if_neg (by omega), if_neg hs]
      simp only
      rcases hf with h | ⟨h, h'⟩
      · exact absurd h hs
      · split
        · rename_i h0; rw [h0]; rfl
        · have : s.elts % 2 ^ 64 = s.elts := Int.emod_eq_of_lt h (by omega)
          rw [this]; omega
  refine ⟨h1, ?_, by rw [← h1]; exact hpos⟩
  simp only [pageBytes]
  rw [← h1]
  simp only [freshPool, pageData]
  by_cases hs : s.size < 2032
  · rw [if_pos (by omega), if_pos hs]
  · rw [if_neg (by omega), if_neg hs]
    simp only
    rcases hf with h | ⟨h, h'⟩
    · exact absurd h hs
    · split
      · rename_i h0
        rw [if_pos h0] at h'
        rw [show ((1 : Int) * (24 + (s.size : Int)) + 32) = ((1 * (24 + s.size) + 32 : Nat) : Int) by push_cast; rfl]
        have e1 : ((1 : Int) % 2 ^ 64).toNat = 1 := rfl
        rw [e1]
        omega
      · rename_i h0
        rw [if_neg h0] at h'
        have e1 : s.elts % 2 ^ 64 = s.elts := Int.emod_eq_of_lt h (by omega)
        rw [e1]
        obtain ⟨n, hn⟩ := Int.eq_ofNat_of_zero_le h
        rw [hn] at h' ⊢
        simp only [Int.toNat_natCast] at h' ⊢
        rw [show ((n : Int) * (24 + (s.size : Int)) + 32) = ((n * (24 + s.size) + 32 : Nat) : Int) by push_cast; rfl]
        omega

theorem fresh_pcache {s : Made} (hf : Fits s.elts s.size) (hm : s.elts < 2 ^ 63) : (freshPool s).pcache = pagesFor s ∧ (freshPool s).ncache = pagesFor s * perPage s := by
  obtain ⟨h1, _, h3⟩ := fresh_epp hf hm
  have hd : (freshPool s).epp = (pageData (if s.elts = 0 then 1 else s.elts) s.size).2.1 := rfl
  have hp : (freshPool s).pcache = pagesFor s := by
    show pcacheOf s.elts (pageData (if s.elts = 0 then 1 else s.elts) s.size).2.1 (pageData (if s.elts = 0 then 1 else s.elts) s.size).2.2 = _
    rw [← hd, h1, pcacheOf, pagesFor]
    by_cases h0 : s.elts > 0
    · rw [if_pos h0, show max 1 s.elts.toNat = s.elts.toNat by omega]
      generalize hn : s.elts.toNat = n
      have hn' : s.elts = (n : Int) := by omega
      rw [hn']
      generalize perPage s = e at *
      by_cases hlt : n < e
      · rw [if_pos (by omega)]
        symm
        rw [Nat.div_eq_iff (by omega)]; omega
      · rw [if_neg (by omega)]
        have hdm := Nat.div_add_mod n e
        have hml := Nat.mod_lt n h3
        generalize n / e = a at *
        generalize n % e = b at *
        rw [← hdm]
        split
        · rw [show e * a + b + e - 1 = (b - 1) + e * (a + 1) by rw [Nat.mul_add]; omega, Nat.add_mul_div_left _ _ h3, Nat.div_eq_of_lt (by omega)]; omega
        · rw [show e * a + b + e - 1 = (e - 1) + e * a by omega, Nat.add_mul_div_left _ _ h3, Nat.div_eq_of_lt (by omega)]; omega
    · rw [if_neg h0, show max 1 s.elts.toNat = 1 by omega]
      have : (pageData (if s.elts = 0 then 1 else s.elts) s.size).2.2 = 1 := by
        simp only [pageData]
        split
        · simp only
          rw [if_neg]
          have := h1
          simp only [freshPool, pageData] at this
          split
          · rw [show ((4096 - 32) / (24 + s.size)) = perPage s by rw [← this, if_pos (by assumption)]]; omega
          · have : (0 : Int) ≤ (((4096 - 32) / (24 + s.size) : Nat) : Int) := Int.natCast_nonneg _
            omega
        · rfl
      rw [this]
      symm
      rw [Nat.div_eq_iff (by omega)]; omega
  refine ⟨hp, ?_⟩
  show pcacheOf s.elts (pageData (if s.elts = 0 then 1 else s.elts) s.size).2.1 (pageData (if s.elts = 0 then 1 else s.elts) s.size).2.2 * (pageData (if s.elts = 0 then 1 else s.elts) s.size).2.1 % 2 ^ 64 = _
  have e2 : pcacheOf s.elts (pageData (if s.elts = 0 then 1 else s.elts) s.size).2.1 (pageData (if s.elts = 0 then 1 else s.elts) s.size).2.2 = pagesFor s := hp
  rw [e2, ← hd, h1]
  apply Nat.mod_eq_of_lt
  have hb : pagesFor s * perPage s ≤ max 1 s.elts.toNat + perPage s - 1 := Nat.div_mul_le_self _ _
  have hpp : perPage s ≤ 2 ^ 63 := by
    simp only [perPage]
    split
    · exact Nat.le_trans (Nat.div_le_self _ _) (by decide)
    · omega
  omega

/-- **C104 (settings).** As long as a pool exists, after any history of all pools, zt_mem_pool_get_stats reports what it was created with: the number of elements asked for, the pages that many elements need and how many
elements these have room for, the elements of a page, its size, the element size and the flags. -/
theorem c104_settings {al : Alloc} (G : Good al) {p : Addr} {s : Made} {c : Client} {M : Mem} (h : Kept al p s c M) (hm : s.elts < 2 ^ 63) :
    ∃ st, getStats M p = .ok st ∧ st.requested = (s.elts % 2 ^ 64).toNat ∧ st.cached = pagesFor s ∧ st.actual = pagesFor s * perPage s ∧ st.eltsPerPage = perPage s ∧ st.pageSize = pageBytes s ∧
      st.eltSize = s.size ∧ st.flags = s.flags := by
  obtain ⟨A, S, R⟩ := rel_of_hist G h.hist
  have hp := (R.mem h.mem).2
  have hc := h.conf G
  obtain ⟨h1, h2, _⟩ := fresh_epp h.fits hm
  obtain ⟨h3, h4⟩ := fresh_pcache h.fits hm
  refine ⟨_, by rw [getStats, chk_pool R.inv hp]; rfl, ?_, ?_, ?_, ?_, ?_, ?_, ?_⟩
  · exact congrArg Pool.rcache hc
  · exact (congrArg Pool.pcache hc).trans h3
  · exact (congrArg Pool.ncache hc).trans h4
  · exact (congrArg Pool.epp hc).trans h1
  · exact (congrArg Pool.pageSize hc).trans h2
  · exact congrArg Pool.eltSize hc
  · exact congrArg Pool.flags hc

/-! ## Giving pages back -/

/-- The client holds nothing in the page at `g`. -/
def Idle (c : Client) (n g : Nat) : Bool := c.live.all (fun x => !InPage n g x.1)

/-- The state between handing the element back and the decision on its page. -/
theorem Rel.give {c : Client} {M : Mem} {A : EList.Abs} {S : St} (R : Rel c M A S) {p g e : Addr} (hp : p ∈ S.pools) (hg : g ∈ S.pages p) (he : e ∈ elts (M.pool p) g) (hnf : e ∉ S.free p) :
    Rel { c with live := c.live.erase (e + 24, p) } (giveBack M p g e) (A.set (freeHead p) (some (e :: S.free p))) { S with free := upd S.free p (e :: S.free p) } := by
  obtain ⟨I1, hc1, hn1⟩ := giveBack_spec R.inv hp hg he hnf
  refine ⟨I1, R.linked, R.all, ?_, ?_, R.nodup.erase _, R.lost⟩
  · intro y hy; rw [(hc1 y.1).2.1, (hc1 y.1).2.2.2]; exact R.sizes y hy
  · intro d q
    rw [R.nodup.mem_erase_iff, R.live]
    simp only [give_live (M' := giveBack M p g e) hp hg he hnf hc1, ne_eq, Prod.mk.injEq, not_and]
    constructor
    · rintro ⟨hn, y, rfl, hy⟩
      exact ⟨y, rfl, hy, fun h1 h2 => hn (by omega) h1⟩
    · rintro ⟨y, rfl, hy, hn⟩
      exact ⟨fun h1 h2 => hn h2 (by omega), y, rfl, hy⟩

theorem Rel.idle {c : Client} {M : Mem} {A : EList.Abs} {S : St} (R : Rel c M A S) {p g : Addr} (hp : p ∈ S.pools) (hg : g ∈ S.pages p) :
    decide (M.nfree g = (M.pool p).epp) = Idle c (M.pool p).pageSize g := by
  have := R.held hp hg
  rw [Bool.eq_iff_iff]
  simp only [Idle, decide_eq_true_eq, List.all_eq_true, Bool.not_eq_true']
  constructor
  · intro hn x hx
    have h0 : c.live.countP (fun x => InPage (M.pool p).pageSize g x.1) = 0 := by omega
    have := (List.countP_eq_zero.1 h0) x hx
    simpa using this
  · intro hn
    have h0 : c.live.countP (fun x => InPage (M.pool p).pageSize g x.1) = 0 := List.countP_eq_zero.2 (fun x hx => by simp [hn x hx])
    omega

/-- Whether the page at `g` is given back when the client is left with `c`: nothing of it is held any more, and the pool's callback, asked at time `t` and told the number of elements asked for at creation and two counts
made from the pages `pages` of the pool, says so. -/
def GoesBack (s : Made) (c : Client) (pages : List Addr) (t g : Nat) : Bool :=
  Idle c (pageBytes s) g &&
    s.test t (s.elts % 2 ^ 64).toNat (pagesFor s * perPage s * pages.countP (Idle c (pageBytes s)) % 2 ^ 64)
      (pagesFor s * perPage s * (pages.length - pages.countP (Idle c (pageBytes s))) % 2 ^ 64) s.flags

/-- **C104 (release).** When the client releases an element, no other page than the element's goes back to the system, and this goes back exactly if the client holds nothing else in it and the callback the pool was created with
agrees. -/
theorem c104_release {al : Alloc} (G : Good al) {p : Addr} {s : Made} {c : Client} {M M' : Mem} (h : Kept al p s c M) (hm : s.elts < 2 ^ 63) {d : Addr} (hd : (d, p) ∈ c.live) (hr : release M d = .ok M') :
    ∃ pages g, IsList M.H (pageHead p) pages ∧ g ∈ pages ∧ InPage (pageBytes s) g d = true ∧
      (GoesBack s { c with live := c.live.erase (d, p) } pages (M.tick + 1) g = true → IsList M'.H (pageHead p) (pages.filter (· ≠ g)) ∧ M'.blocks = M.blocks.filter (·.1 ≠ g)) ∧
      (GoesBack s { c with live := c.live.erase (d, p) } pages (M.tick + 1) g = false → IsList M'.H (pageHead p) pages ∧ M'.blocks = M.blocks) := by
  obtain ⟨A, S, R⟩ := rel_of_hist G h.hist
  have hp := (R.mem h.mem).2
  have hc := h.conf G
  obtain ⟨h1, h2, h3⟩ := fresh_epp h.fits hm
  obtain ⟨h4, h5⟩ := fresh_pcache h.fits hm
  obtain ⟨e, rfl, hl⟩ := (R.live d p).1 hd
  obtain ⟨_, g, hg, he, hnf⟩ := hl
  obtain ⟨I1, hc1, hn1⟩ := giveBack_spec R.inv hp hg he hnf
  have R1 := R.give hp hg he hnf
  have hcf : ((giveBack M p g e).pool p).conf = freshPool s := (giveBack_conf M p g e p).trans hc
  have f1 : ((giveBack M p g e).pool p).rcache = (s.elts % 2 ^ 64).toNat := congrArg Pool.rcache hcf
  have f2 : ((giveBack M p g e).pool p).ncache = pagesFor s * perPage s := (congrArg Pool.ncache hcf).trans h5
  have f3 : ((giveBack M p g e).pool p).epp = perPage s := (congrArg Pool.epp hcf).trans h1
  have f4 : ((giveBack M p g e).pool p).pageSize = pageBytes s := (congrArg Pool.pageSize hcf).trans h2
  have f5 : ((giveBack M p g e).pool p).test = s.test := congrArg Pool.test hcf
  have f6 : ((giveBack M p g e).pool p).flags = s.flags := congrArg Pool.flags hcf
  have f7 : (M.pool p).pageSize = pageBytes s := (congrArg Pool.pageSize hc).trans h2
  have hpg : ∀ x ∈ S.pages p, decide ((giveBack M p g e).nfree x = ((giveBack M p g e).pool p).epp) = Idle { c with live := c.live.erase (e + 24, p) } (pageBytes s) x := by
    intro x hx
    rw [← f4]
    exact R1.idle hp hx
  have f8 : ((giveBack M p g e).pool p).nfreePages = (S.pages p).countP (Idle { c with live := c.live.erase (e + 24, p) } (pageBytes s)) := by
    rw [I1.nfreePages p hp]
    apply List.countP_congr
    intro x hx
    rw [hpg x hx]
  have f9 : ((giveBack M p g e).pool p).npages = (S.pages p).length := I1.npages p hp
  have htick : (giveBack M p g e).tick = M.tick + 1 := by unfold giveBack; simp only; split <;> rfl
  have hbl : (giveBack M p g e).blocks = M.blocks := by unfold giveBack; simp only; split <;> rfl
  have hdec : (decide ((giveBack M p g e).nfree g = ((giveBack M p g e).pool p).epp) &&
      ((giveBack M p g e).pool p).test (giveBack M p g e).tick ((giveBack M p g e).pool p).rcache (((giveBack M p g e).pool p).ncache * ((giveBack M p g e).pool p).nfreePages % 2 ^ 64)
        (((giveBack M p g e).pool p).ncache * (((giveBack M p g e).pool p).npages - ((giveBack M p g e).pool p).nfreePages) % 2 ^ 64) ((giveBack M p g e).pool p).flags) =
      GoesBack s { c with live := c.live.erase (e + 24, p) } (S.pages p) (M.tick + 1) g := by
    rw [hpg g hg, f1, f2, f5, f6, f8, f9, htick]; rfl
  have hin : InPage (pageBytes s) g (e + 24) = true := by
    rw [← f7]
    exact (R.in_page hp hg hd).2 ⟨e, rfl, rfl, he, hnf⟩
  have hL := R.inv.rep.lists _ _ (R.inv.apages p hp)
  have hL1 := I1.rep.lists _ _ (I1.apages p hp)
  refine ⟨S.pages p, g, hL, hg, hin, ?_⟩
  have hpar := R.inv.parent p hp g hg e he
  have hg0 : g ≠ 0 := by have := (R.inv.pos _ (R.inv.bpage p hp g hg)).1; simp only at this; omega
  rw [release, Nat.add_sub_cancel, chk_elt R.inv hp hg he] at hr
  simp only [Outcome.ok_bind, hpar, hg0, if_false] at hr
  rw [chk_page R.inv hp hg] at hr
  simp only [Outcome.ok_bind, R.inv.ppool p hp g hg] at hr
  rw [chk_pool R.inv hp] at hr
  simp only [Outcome.ok_bind] at hr
  rw [hdec] at hr
  constructor
  · intro hgo
    rw [if_pos hgo] at hr
    have hfull : (giveBack M p g e).nfree g = ((giveBack M p g e).pool p).epp := by
      rw [← hdec, Bool.and_eq_true] at hgo
      simpa using hgo.1
    obtain ⟨M2, A2, e2, I2, hc2, _, hb2, _⟩ := pageDestroy_spec I1 hp hg hfull
    rw [e2] at hr
    cases hr
    constructor
    · have := I2.rep.lists _ _ (I2.apages p hp)
      simp only [St.shrink, upd, if_true] at this
      exact this
    · show M2.blocks = _
      rw [hb2, hbl]
  · intro hgo
    rw [if_neg (by rw [hgo]; simp)] at hr
    cases hr
    exact ⟨hL1, hbl⟩

/-- **C104 (default policy).** A pool created without a callback gives a page back as soon as the client holds nothing in it, unless it was created with POOL_NEVER_FREE. -/
theorem c104_default {s : Made} (hs : s.test = defaultTest) (c : Client) (pages : List Addr) (t g : Nat) : GoesBack s c pages t g = (Idle c (pageBytes s) g && s.flags % 2 == 0) := by
  rw [GoesBack, hs, defaultTest]
  congr 1
  rw [Nat.and_one_is_mod]
  rfl

/-- **C104 (counts, partial).** The callback is told how many elements the pages without and with elements in use have, if the pool was created for no more elements than a page has. Not proved, since false: larger pools (`c104_counts_violation`). -/
theorem c104_counts_partial {s : Made} (hf : Fits s.elts s.size) (hm : s.elts < 2 ^ 63) (h : s.elts ≤ perPage s) (c : Client) (pages : List Addr) (t g : Nat) :
    GoesBack s c pages t g = (Idle c (pageBytes s) g &&
      s.test t (s.elts % 2 ^ 64).toNat (perPage s * pages.countP (Idle c (pageBytes s)) % 2 ^ 64) (perPage s * (pages.length - pages.countP (Idle c (pageBytes s))) % 2 ^ 64) s.flags) := by
  have h3 := (fresh_epp hf hm).2.2
  have : pagesFor s = 1 := by
    rw [pagesFor, Nat.div_eq_iff h3]
    omega
  rw [GoesBack, this, Nat.one_mul]

/-- Violation of C104: a pool for 3 elements of 2000 bytes has pages of two elements. Three elements are taken and the last is released: one page of two elements is idle, one is in use. The callback is told four free
elements and four used ones, double the number there is (a callback that wants to hear that gives the page back). -/
theorem c104_counts_violation : ((init bump start [97] 3 2000 (fun _ r f u _ => r == 3 && f == 4 && u == 4) 0).bind fun r => (alloc bump r.2 (r.1.getD 0)).bind fun s1 => (alloc bump s1.2 (r.1.getD 0)).bind fun s2 =>
    (alloc bump s2.2 (r.1.getD 0)).bind fun s3 => (getStats s3.2 (r.1.getD 0)).bind fun t => (release s3.2 s3.1).bind fun M => (getStats M (r.1.getD 0)).bind fun t' =>
    .ok [t.eltsPerPage, t.pages, t.freePages, t'.pages, t'.pageFrees]) = .ok [2, 2, 0, 1, 1] := by decide +kernel

/-! ## Taking memory -/

theorem flat_elts_nodup {M : Mem} {A : EList.Abs} {S : St} (I : Inv M A S) {p : Addr} (hp : p ∈ S.pools) : ∀ (l : List Addr), l.Nodup → (∀ g ∈ l, g ∈ S.pages p) → (l.flatMap (elts (M.pool p))).Nodup := by
  intro l
  induction l with
  | nil => intro _ _; simp
  | cons g l ih =>
      intro hn hs
      rw [List.nodup_cons] at hn
      rw [List.flatMap_cons, List.nodup_append]
      refine ⟨elts_nodup _ _, ih hn.2 (fun x hx => hs x (by simp [hx])), ?_⟩
      rintro a ha b hb rfl
      obtain ⟨g', hg', hb⟩ := List.mem_flatMap.1 hb
      have := (I.elt_unique hp (hs g (by simp)) ha hp (hs g' (by simp [hg'])) hb).1
      exact hn.1 (this ▸ hg')

theorem flat_elts_length (P : Pool) : ∀ l : List Addr, (l.flatMap (elts P)).length = l.length * P.epp := by
  intro l
  induction l with
  | nil => simp
  | cons g l ih => rw [List.flatMap_cons, List.length_append, ih, List.length_cons, Nat.succ_mul]; simp [elts]; omega

/-- Elements held plus elements free make all. -/
theorem Rel.total {c : Client} {M : Mem} {A : EList.Abs} {S : St} (R : Rel c M A S) {p : Addr} (hp : p ∈ S.pools) :
    c.live.countP (fun x => decide (x.2 = p)) + (S.free p).length = (S.pages p).length * (M.pool p).epp := by
  have hpn : (S.pages p).Nodup := by
    have := (R.inv.rep.lists _ _ (R.inv.apages p hp)).2
    exact (List.nodup_cons.1 this).2
  have hnd := flat_elts_nodup R.inv hp (S.pages p) hpn (fun _ h => h)
  rw [← flat_elts_length, List.length_eq_countP_add_countP (fun x => decide (x ∈ S.free p)) (l := (S.pages p).flatMap (elts (M.pool p))), Nat.add_comm]
  congr 1
  · rw [List.countP_eq_length_filter]
    apply List.Perm.length_eq
    rw [List.perm_ext_iff_of_nodup (free_nodup R.inv hp) (hnd.filter _)]
    intro e
    simp only [List.mem_filter, decide_eq_true_eq, List.mem_flatMap]
    exact ⟨fun h => ⟨R.inv.freeSub p hp e h, h⟩, fun h => h.2⟩
  · rw [List.countP_eq_length_filter, List.countP_eq_length_filter, ← List.length_map (f := fun x : Addr × Addr => x.1 - 24)]
    apply List.Perm.length_eq
    rw [List.perm_ext_iff_of_nodup]
    · intro e
      simp only [List.mem_map, List.mem_filter, decide_eq_true_eq, List.mem_flatMap, Prod.exists]
      constructor
      · rintro ⟨d, q, ⟨h1, rfl⟩, rfl⟩
        obtain ⟨e, rfl, _, g, hg, he, hn⟩ := (R.live _ _).1 h1
        rw [Nat.add_sub_cancel]
        exact ⟨⟨g, hg, he⟩, by simpa using hn⟩
      · rintro ⟨⟨g, hg, he⟩, hn⟩
        exact ⟨e + 24, p, ⟨(R.live _ _).2 ⟨e, rfl, hp, g, hg, he, by simpa using hn⟩, rfl⟩, by omega⟩
    · apply map_nodup (R.nodup.filter _)
      rintro ⟨d, q⟩ h1 ⟨d', q'⟩ h2 h3
      obtain ⟨h1, h1'⟩ := List.mem_filter.1 h1
      obtain ⟨h4, h4'⟩ := List.mem_filter.1 h2
      obtain ⟨e, h5, _⟩ := (R.live _ _).1 h1
      obtain ⟨e', h6, _⟩ := (R.live _ _).1 h4
      simp only [decide_eq_true_eq] at h1' h4' h3
      rw [h1', h4', show d = d' by omega]
    · exact hnd.filter _

theorem take_blocks {M M' : Mem} {p d : Addr} (h : take M p = .ok (d, M')) : M'.blocks = M.blocks := by
  unfold take at h
  obtain ⟨_, _, h⟩ := Outcome.bind_eq_ok.1 h
  obtain ⟨_, _, h⟩ := Outcome.bind_eq_ok.1 h
  simp only [Outcome.pure_eq, Outcome.ok.injEq, Prod.mk.injEq] at h
  obtain ⟨_, h⟩ := h
  split at h <;> subst h <;> rfl

/-- **C105 (growth).** Over any history: a pool is never asked to hold more elements than its pages have; zt_mem_pool_alloc takes no memory from the system while the client holds fewer elements of the pool than its pages have,
and exactly one page when it holds them all. -/
theorem c105_growth {al : Alloc} (G : Good al) {c : Client} {M M' : Mem} (h : Hist al c M) {q : Addr × Nat × List Byte} (hq : q ∈ c.pools) {d : Addr} (ha : alloc al M q.1 = .ok (d, M')) :
    ∃ st pages, getStats M q.1 = .ok st ∧ IsList M.H (pageHead q.1) pages ∧ c.live.countP (fun x => decide (x.2 = q.1)) ≤ pages.length * st.eltsPerPage ∧
      (c.live.countP (fun x => decide (x.2 = q.1)) < pages.length * st.eltsPerPage → M'.blocks = M.blocks ∧ IsList M'.H (pageHead q.1) pages) ∧
      (c.live.countP (fun x => decide (x.2 = q.1)) = pages.length * st.eltsPerPage → ∃ g, M'.blocks = (g, st.pageSize) :: M.blocks ∧ IsList M'.H (pageHead q.1) (pages ++ [g])) := by
  obtain ⟨A, S, R⟩ := rel_of_hist G h
  have hp := (R.mem hq).2
  have ht := R.total hp
  have hL := R.inv.rep.lists _ _ (R.inv.apages _ hp)
  have hemp : EList.empty M.H (freeHead q.1) = decide (S.free q.1 = []) := by
    have L := (R.inv.rep.lists _ _ (R.inv.afree q.1 hp))
    cases hf : S.free q.1 with
    | nil => rw [hf] at L; have := L.1; simp only [EList.Linked] at this; simp [EList.empty, this.1]
    | cons x xs =>
        rw [hf] at L
        have h1 := L.1; simp only [EList.Linked] at h1
        have h2 := L.2
        simp only [EList.empty, h1.1]
        have : x ≠ freeHead q.1 := by rintro rfl; simp at h2
        simpa using this
  refine ⟨_, S.pages q.1, by rw [getStats, chk_pool R.inv hp]; rfl, hL, by simp only; omega, fun hlt => ?_, fun heq => ?_⟩
  · simp only at hlt
    rw [alloc, chk_pool R.inv hp] at ha
    simp only [Outcome.ok_bind, hemp] at ha
    cases hf : S.free q.1 with
    | nil => rw [hf] at ht; simp at ht; omega
    | cons e fl =>
        rw [hf, if_neg (by simp)] at ha
        obtain ⟨M2, e2, I2, _⟩ := take_spec R.inv hp hf
        rw [e2] at ha
        cases ha
        exact ⟨take_blocks e2, I2.rep.lists _ _ (I2.apages q.1 hp)⟩
  · simp only at heq
    have hf : S.free q.1 = [] := List.length_eq_zero_iff.1 (by omega)
    rw [alloc, chk_pool R.inv hp] at ha
    simp only [Outcome.ok_bind, hemp] at ha
    rw [if_pos (by simp [hf])] at ha
    obtain ⟨g, M1, A1, e1, hb1, I1, hc1⟩ := addPage_full G R.inv hp
    rw [e1, Outcome.ok_bind] at ha
    have hne : (S.grow (M.pool q.1) q.1 g).free q.1 = elts (M.pool q.1) g := by simp [St.grow, upd, hf]
    have hlen : (elts (M.pool q.1) g).length = (M.pool q.1).epp := by simp [elts]
    have hepp := (R.inv.epp q.1 hp).1
    obtain ⟨e, fl, hel⟩ : ∃ e fl, elts (M.pool q.1) g = e :: fl := by
      cases h : elts (M.pool q.1) g with
      | nil => rw [h] at hlen; simp at hlen; omega
      | cons e fl => exact ⟨e, fl, rfl⟩
    rw [hel] at hne
    obtain ⟨M2, e2, I2, _⟩ := take_spec I1 (p := q.1) hp hne
    rw [e2] at ha
    cases ha
    refine ⟨g, (take_blocks e2).trans hb1, ?_⟩
    have := I2.rep.lists _ _ (I2.apages q.1 hp)
    simp only [St.grow, upd, if_true] at this
    exact this

theorem addPages_count {al : Alloc} (G : Good al) {p : Addr} (n : Nat) : ∀ {M : Mem} {A : EList.Abs} {S : St}, Inv M A S → p ∈ S.pools → ∀ {M'}, addPages al p n M = .ok M' →
    (M'.pool p).npages = (M.pool p).npages + n := by
  induction n with
  | zero => intro M A S I hp M' h; cases h; rfl
  | succ n ih =>
      intro M A S I hp M' h
      obtain ⟨g, M1, A1, e1, I1, hc1⟩ := addPage_spec G I hp
      simp only [addPages] at h
      rw [e1, Outcome.ok_bind] at h
      rw [ih I1 hp h, I1.npages p hp, I.npages p hp]
      simp only [St.grow, upd, if_true, List.length_append, List.length_cons, List.length_nil]
      omega

theorem linked_unique {H : EList.Heap} {h : Addr} : ∀ (xs ys : List Addr) (a : Addr), EList.Linked H a xs h → EList.Linked H a ys h → h ∉ xs → h ∉ ys → xs = ys := by
  intro xs
  induction xs with
  | nil =>
      intro ys a h1 h2 _ hy
      cases ys with
      | nil => rfl
      | cons y ys =>
          simp only [EList.Linked] at h1 h2
          exact absurd (show h ∈ y :: ys by rw [← h1.1, h2.1]; simp) hy
  | cons x xs ih =>
      intro ys a h1 h2 hx hy
      cases ys with
      | nil =>
          simp only [EList.Linked] at h1 h2
          exact absurd (show h ∈ x :: xs by rw [← h2.1, h1.1]; simp) hx
      | cons y ys =>
          simp only [EList.Linked] at h1 h2
          have : x = y := h1.1.symm.trans h2.1
          subst this
          rw [ih ys x h1.2.2 h2.2.2 (fun h => hx (by simp [h])) (fun h => hy (by simp [h]))]

theorem isList_unique {H : EList.Heap} {h : Addr} {xs ys : List Addr} (h1 : IsList H h xs) (h2 : IsList H h ys) : xs = ys :=
  linked_unique xs ys h h1.1 h2.1 (List.nodup_cons.1 h1.2).1 (List.nodup_cons.1 h2.2).1

/-- `k` calls of zt_mem_pool_alloc. -/
def allocs (al : Alloc) (p : Addr) : Nat → Mem → Outcome Mem
  | 0, M => .ok M
  | k + 1, M => do
      let (_, M) ← alloc al M p
      allocs al p k M

theorem allocs_quiet {al : Alloc} (G : Good al) {p sz n : Nat} {name : List Byte} {pages : List Addr} : ∀ (k : Nat) {c : Client} {M : Mem}, Hist al c M → (p, sz, name) ∈ c.pools → (M.pool p).epp = n →
    IsList M.H (pageHead p) pages → c.live.countP (fun x => decide (x.2 = p)) + k ≤ pages.length * n → ∃ M', allocs al p k M = .ok M' ∧ M'.blocks = M.blocks := by
  intro k
  induction k with
  | zero => intro c M h hp hn hl hk; exact ⟨M, rfl, rfl⟩
  | succ k ih =>
      intro c M h hp hn hl hk
      obtain ⟨⟨d, M1, e1⟩, _⟩ := (c30_total G h).2.1 _ hp
      obtain ⟨st, pages', hst, hl', _, hlt, _⟩ := c105_growth G h hp e1
      have hepp : st.eltsPerPage = n := by
        rw [getStats] at hst
        obtain ⟨_, _, hst⟩ := Outcome.bind_eq_ok.1 hst
        cases hst
        exact hn
      have hpp : pages' = pages := isList_unique hl' hl
      subst hpp
      rw [hepp] at hlt
      obtain ⟨hb, hl1⟩ := hlt (by simp only; omega)
      have h1 : (M1.pool p).epp = n := (congrArg Pool.epp (alloc_conf e1 p)).trans hn
      obtain ⟨M', e2, hb2⟩ := ih (Hist.alloc h hp e1) hp h1 hl1 (by simp only [List.countP_cons, decide_true, if_true]; omega)
      exact ⟨M', by rw [allocs, e1, Outcome.ok_bind]; exact e2, hb2.trans hb⟩

/-- The pages a new pool has. -/
theorem init_pages {al : Alloc} (G : Good al) {c : Client} {M M' : Mem} (h : Hist al c M) {p : Addr} {s : Made} (hf : Fits s.elts s.size) (hm : s.elts < 2 ^ 63)
    (e : init al M s.name s.elts s.size s.test s.flags = .ok (some p, M')) : (M'.pool p).npages = if (perPage s : Int) < s.elts then s.elts.toNat / perPage s else 1 := by
  obtain ⟨A, S, R⟩ := rel_of_hist G h
  obtain ⟨p', ha, hpos, hfresh⟩ := G M.tick M.blocks 160
  obtain ⟨I1, hpn⟩ := inv_newPool R.inv hpos hfresh (freshPool s) (pageData_ok hf) ⟨rfl, rfl, rfl, rfl⟩
  unfold init at e
  simp only at e
  rw [malloc, ha] at e
  simp only at e
  obtain ⟨M2, e2, e⟩ := Outcome.bind_eq_ok.1 e
  simp only [Outcome.pure_eq, Outcome.ok.injEq, Prod.mk.injEq, Option.some.injEq] at e
  obtain ⟨rfl, rfl⟩ := e
  have := addPages_count G _ I1 (p := p') (by simp [St.fresh]) e2
  simp only
  rw [this]
  obtain ⟨h1, _, h3⟩ := fresh_epp hf hm
  simp only [upd, if_true]
  show 0 + (pageData (if s.elts = 0 then 1 else s.elts) s.size).2.2 = _
  have h1' : (pageData (if s.elts = 0 then 1 else s.elts) s.size).2.1 = perPage s := h1
  rw [Nat.zero_add]
  by_cases hs : s.size < 2032
  · have e1 : (4096 - 32) / (24 + s.size) = perPage s := by rw [perPage, if_pos hs]
    simp only [pageData]
    rw [if_pos (by omega), e1]
    simp only
    by_cases h0 : s.elts = 0
    · rw [if_pos h0, h0]
      rw [if_neg (by omega), if_neg (by omega)]
    · rw [if_neg h0]
  · have e1 : (pageData (if s.elts = 0 then 1 else s.elts) s.size).2.2 = 1 := by
      simp only [pageData]; rw [if_neg (by omega)]
    rw [e1, if_neg]
    rw [perPage, if_neg hs]
    omega

/-- **C105 (reserve, partial).** A pool created for `n` elements gives the first `n` of them out without asking the system for memory, if they fit in one page or fill their pages. Not proved, since false: the other numbers
(`c105_reserve_violation`). -/
theorem c105_reserve_partial {al : Alloc} (G : Good al) {c : Client} {M M' : Mem} (h : Hist al c M) {p : Addr} {s : Made} (hf : Fits s.elts s.size) (hm : s.elts < 2 ^ 63)
    (e : init al M s.name s.elts s.size s.test s.flags = .ok (some p, M')) (hn : s.elts ≤ perPage s ∨ perPage s ∣ s.elts.toNat) (k : Nat) (hk : (k : Int) ≤ s.elts) :
    ∃ M'', allocs al p k M' = .ok M'' ∧ M''.blocks = M'.blocks := by
  have h' := Hist.init h hf e
  have hk' := Kept.made h hf e
  obtain ⟨A, S, R⟩ := rel_of_hist G h'
  have hmem : (p, s.size, s.name) ∈ c.pools ++ [(p, s.size, s.name)] := by simp
  have hp := (R.mem hmem).2
  have hepp : (M'.pool p).epp = perPage s := (congrArg Pool.epp (init_conf e).1).trans (fresh_epp hf hm).1
  refine allocs_quiet G k h' hmem hepp (R.inv.rep.lists _ _ (R.inv.apages p hp)) ?_
  have h0 : c.live.countP (fun x => decide (x.2 = p)) = 0 := by
    rw [List.countP_eq_zero]
    rintro ⟨d, q⟩ hx hq
    simp only [decide_eq_true_eq] at hq
    subst hq
    obtain ⟨A0, S0, R0⟩ := rel_of_hist G h
    obtain ⟨y, hy, hy'⟩ := R0.pool_of_live hx
    have := R.nodupPools
    simp only [List.map_append, List.map_cons, List.map_nil] at this
    rw [List.nodup_append] at this
    exact this.2.2 y.1 (List.mem_map.2 ⟨y, hy, rfl⟩) q (by simp) hy'
  have hnp := init_pages G h hf hm e
  rw [R.inv.npages p hp] at hnp
  simp only
  rw [h0, hnp, Nat.zero_add]
  split
  · rename_i hlt
    rcases hn with hn | hn
    · omega
    · rw [Nat.div_mul_cancel hn]; omega
  · have := (fresh_epp hf hm).2.2
    omega

/-- Violation of C105: a pool for 3 elements of 2000 bytes says it has room for 4 in 2 pages, but has one page of 2; the third element needs another page. -/
theorem c105_reserve_violation : ((init bump start [97] 3 2000 defaultTest 0).bind fun r => (getStats r.2 (r.1.getD 0)).bind fun t => (allocs bump (r.1.getD 0) 3 r.2).bind fun M =>
    .ok [t.requested, t.actual, t.cached, t.pages, t.eltsPerPage, r.2.blocks.length, M.blocks.length]) = .ok [3, 4, 2, 1, 2, 3, 4] := by decide +kernel

/-- A pool for 4 elements of 2000 bytes meets the hypotheses of `c105_reserve_partial`, and has its 4 elements. -/
example : Fits 4 2000 ∧ perPage ⟨[97], 4, 2000, defaultTest, 0⟩ ∣ (4 : Int).toNat ∧ ((init bump start [97] 4 2000 defaultTest 0).bind fun r => (allocs bump (r.1.getD 0) 4 r.2).bind fun M =>
    .ok [r.2.blocks.length, M.blocks.length]) = .ok [4, 4] := ⟨.inl (by decide), by decide, by decide +kernel⟩

/-- POOL_NEVER_FREE keeps the page, the default gives it back: a pool of one element of 3000 bytes, taken and released. -/
example : (((init bump start [97] 1 3000 defaultTest 1).bind fun r => (alloc bump r.2 (r.1.getD 0)).bind fun s => (release s.2 s.1).bind fun M => .ok M.blocks.length) = .ok 3) ∧
    ((init bump start [97] 1 3000 defaultTest 0).bind fun r => (alloc bump r.2 (r.1.getD 0)).bind fun s => (release s.2 s.1).bind fun M => .ok M.blocks.length) = .ok 2 := by decide +kernel

/-- A history with two pools in which the first is kept. -/
example : ∃ p c M, Kept bump p ⟨[97], 10, 16, defaultTest, 0⟩ c M ∧ c.live.length = 1 ∧ c.pools.length = 2 := by
  have h0 : Hist bump ⟨[], [], false⟩ start := .start rfl rfl rfl
  obtain ⟨p, M1, e1⟩ := (c30_total bump_good h0).1 [97] 10 16 defaultTest 0 (by simp [Fits])
  have h1 := Kept.made (s := ⟨[97], 10, 16, defaultTest, 0⟩) h0 (by simp [Fits]) e1
  obtain ⟨q, M2, e2⟩ := (c30_total bump_good h1.hist).1 [98] 3 5000 defaultTest 1 (by simp [Fits])
  have h2 := Kept.init h1 (by simp [Fits]) e2
  obtain ⟨⟨d, M3, e3⟩, _⟩ := (c30_total bump_good h2.hist).2.1 _ h2.mem
  exact ⟨p, _, M3, Kept.alloc h2 h2.mem e3, by simp, by simp⟩

end ZT.MemPool
