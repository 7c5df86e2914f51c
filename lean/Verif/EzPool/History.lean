import Verif.EzPool.Destroy

/-!
# C32: whole histories of the easy memory pools

`Op` are the calls a client makes; `View` is what the client knows after them (the trees of pools with their blocks). `legal` says that the handles passed in are live, that only roots or
only children are destroyed (see `sibling_lost` for what happens otherwise), nothing else.
-/

namespace ZT.EzPool

/-- A call of the API. `data` is the block that calloc or the caller supplies. -/
inductive Op where
  | root
  | sub (p : Nat)
  | alloc (p data : Nat) (cb : Option Nat)
  | buffer (p data size : Nat) (cb : Option Nat)
  | strdup (p data len : Nat)
  | destroyRoot (r : Nat)
  | destroySub (p b : Nat)
  deriving Repr, DecidableEq

/-- What the client knows: the trees, and the next address the allocator gives out. -/
structure View where
  forest : Forest
  next : Nat

/-- The call is allowed. -/
def legal (V : View) : Op → Prop
  | .root => True
  | .sub p => p ∈ V.forest.pools
  | .alloc p _ _ => p ∈ V.forest.pools
  | .buffer p _ _ _ => p ∈ V.forest.pools
  | .strdup p _ _ => p ∈ V.forest.pools
  | .destroyRoot r => r ∈ V.forest.tops
  | .destroySub p b => p ∈ V.forest.pools ∧ ∃ cs kk, V.forest.kidsOf p = .cons b cs kk .nil

/-- The blocks the call hands over to a pool; `fr` is the libc function free. -/
def accepted (fr : Nat) : Op → List (Nat × Option Nat)
  | .alloc _ data cb => [(data, cb)]
  | .buffer _ data size cb => if data = 0 ∨ size = 0 then [] else [(data, cb)]
  | .strdup _ data len => if data = 0 ∨ len = 0 then [] else [(data, some fr)]
  | _ => []

/-- The block is attached to the pool when it is accepted. -/
def View.attach (V : View) (p : Nat) : List (Nat × Option Nat) → View
  | [] => V
  | (d, cb) :: _ => ⟨V.forest.addItem p ⟨V.next, d, cb⟩, V.next + 1⟩

/-- What the client knows after the call. -/
def View.after (fr : Nat) (V : View) : Op → View
  | .root => ⟨.cons V.next [] .nil V.forest, V.next + 1⟩
  | .sub p => ⟨V.forest.addKid p V.next, V.next + 1⟩
  | .alloc p data cb => V.attach p (accepted fr (.alloc p data cb))
  | .buffer p data size cb => V.attach p (accepted fr (.buffer p data size cb))
  | .strdup p data len => V.attach p (accepted fr (.strdup p data len))
  | .destroyRoot r => ⟨V.forest.remove r, V.next⟩
  | .destroySub p _ => ⟨V.forest.clearKids p, V.next⟩

/-- The call executed by the code. -/
def exec (fr fuel : Nat) (M : Mem) : Op → Outcome Mem
  | .root => do let (_, M) ← init M none; pure M
  | .sub p => do let (_, M) ← init M (some p); pure M
  | .alloc p data cb => alloc M p data cb
  | .buffer p data size cb => do let (_, M) ← addBuffer M p data size cb; pure M
  | .strdup p data len => do let (_, M) ← EzPool.strdup fr M p data len; pure M
  | .destroyRoot r => destroy fuel M r
  | .destroySub _ b => destroy fuel M b

def execAll (fr fuel : Nat) (M : Mem) : List Op → Outcome Mem
  | [] => .ok M
  | op :: ops => do
      let M ← exec fr fuel M op
      execAll fr fuel M ops

def View.afterAll (fr : Nat) (V : View) : List Op → View
  | [] => V
  | op :: ops => (V.after fr op).afterAll fr ops

def legalAll (fr : Nat) (V : View) : List Op → Prop
  | [] => True
  | op :: ops => legal V op ∧ legalAll fr (V.after fr op) ops

/-- Blocks still attached. -/
def View.held (V : View) : List (Nat × Option Nat) := V.forest.items.map fun it => (it.data, it.cb)

def empty : Mem := ⟨fun _ => none, 0, []⟩
def View.start : View := ⟨.nil, 0⟩

theorem items_addItem {F : Forest} {p : Nat} {it : Item} (hnd : F.addrs.Nodup) (hp : p ∈ F.pools) : List.Perm (F.addItem p it).items (it :: F.items) := by
  induction F with
  | nil => cases hp
  | cons a cs kids rest ih1 ih2 =>
      have hndk : kids.addrs.Nodup := by simp only [Forest.addrs] at hnd; grind
      have hndr : rest.addrs.Nodup := by simp only [Forest.addrs] at hnd; grind
      simp only [Forest.addItem]
      split
      · exact .refl _
      · rename_i hne
        simp only [Forest.pools, List.mem_cons, List.mem_append] at hp
        simp only [Forest.items]
        rcases hp with he | hk | hr
        · exact absurd he.symm hne
        · rw [addItem_of_not_mem (not_both hnd hk)]
          refine (((ih1 hndk hk).append_right _).append_left _).trans ?_
          exact List.perm_middle
        · have hk : p ∉ kids.pools := fun hk => not_both hnd hk hr
          rw [addItem_of_not_mem hk]
          refine (((ih2 hndr hr).append_left _).append_left _).trans ?_
          refine (List.Perm.append_left _ List.perm_middle).trans ?_
          exact List.perm_middle

theorem items_addKid {F : Forest} {p b : Nat} : (F.addKid p b).items = F.items := by
  induction F with
  | nil => rfl
  | cons a cs kids rest ih1 ih2 =>
      simp only [Forest.addKid]
      split
      · simp [Forest.items]
      · simp [Forest.items, ih1, ih2]

/-- One legal call: it runs to completion without undefined behaviour, keeps memory and view in step, and the releases it makes are what leaves the view. -/
theorem exec_spec (fr : Nat) {M : Mem} {V : View} (I : Inv M V.forest) (hb : M.brk = V.next) {op : Op} (hl : legal V op) {fuel : Nat} (hf : V.forest.size ≤ fuel) :
    ∃ M', exec fr fuel M op = .ok M' ∧ Inv M' (V.after fr op).forest ∧ M'.brk = (V.after fr op).next ∧
      List.Perm (M'.log ++ (V.after fr op).held) (M.log ++ V.held ++ accepted fr op) := by
  have att : ∀ (p data : Nat) (cb : Option Nat), p ∈ V.forest.pools → ∃ M', addChunk M p data cb = .ok M' ∧ Inv M' (V.forest.addItem p ⟨V.next, data, cb⟩) ∧ M'.brk = V.next + 1 ∧
      List.Perm (M'.log ++ (V.forest.addItem p ⟨V.next, data, cb⟩).items.map fun it => (it.data, it.cb)) (M.log ++ V.held ++ [(data, cb)]) := by
    intro p data cb hp
    obtain ⟨M', e, I', hlog, -⟩ := addChunk_spec I hp data cb
    have hbk : M'.brk = M.brk + 1 := by
      rw [addChunk] at e
      obtain ⟨P, _, e⟩ := Outcome.bind_eq_ok.1 e
      cases e; rfl
    rw [hb] at I' hbk
    refine ⟨M', e, I', hbk, ?_⟩
    rw [hlog, List.append_assoc]
    refine List.Perm.append_left _ ?_
    refine ((items_addItem I.nodup hp).map _).trans ?_
    exact (List.perm_append_singleton _ _).symm
  cases op with
  | root =>
      obtain ⟨M', e, I', hlog, -⟩ := init_root_spec I
      refine ⟨M', by rw [exec, e]; rfl, by rw [View.after, ← hb]; exact I', ?_, ?_⟩
      · rw [init] at e; cases e; rw [View.after, ← hb]
      · rw [hlog]; simp [View.held, View.after, Forest.items, accepted]
  | sub p =>
      obtain ⟨M', e, I', hlog, -⟩ := init_sub_spec I hl
      refine ⟨M', by rw [exec, e]; rfl, by rw [View.after, ← hb]; exact I', ?_, ?_⟩
      · rw [init] at e
        obtain ⟨P, _, e⟩ := Outcome.bind_eq_ok.1 e
        cases e; rw [View.after, ← hb]
      · rw [hlog]; simp [View.held, View.after, items_addKid, accepted]
  | alloc p data cb =>
      obtain ⟨M', e, I', h1, h2⟩ := att p data cb hl
      exact ⟨M', e, I', h1, h2⟩
  | buffer p data size cb =>
      by_cases hz : data = 0 ∨ size = 0
      · have e : exec fr fuel M (.buffer p data size cb) = .ok M := by
          simp [exec, addBuffer, hz]
        exact ⟨M, e, by simpa [View.after, View.attach, accepted, hz] using I, by simpa [View.after, View.attach, accepted, hz] using hb, by
          simp [View.after, View.attach, accepted, hz]⟩
      · obtain ⟨M', e, I', h1, h2⟩ := att p data cb hl
        have e' : exec fr fuel M (.buffer p data size cb) = .ok M' := by
          rw [exec, addBuffer, if_neg hz, e]; rfl
        have ha : accepted fr (.buffer p data size cb) = [(data, cb)] := by rw [accepted, if_neg hz]
        exact ⟨M', e', by rw [View.after, ha]; exact I', by rw [View.after, ha]; exact h1, by rw [View.after, ha]; exact h2⟩
  | strdup p data len =>
      by_cases hz : data = 0 ∨ len = 0
      · have e : exec fr fuel M (.strdup p data len) = .ok M := by
          simp [exec, EzPool.strdup, addBuffer, hz]
        exact ⟨M, e, by simpa [View.after, View.attach, accepted, hz] using I, by simpa [View.after, View.attach, accepted, hz] using hb, by
          simp [View.after, View.attach, accepted, hz]⟩
      · obtain ⟨M', e, I', h1, h2⟩ := att p data (some fr) hl
        have e' : exec fr fuel M (.strdup p data len) = .ok M' := by
          rw [exec, EzPool.strdup, addBuffer, if_neg hz, e]; rfl
        have ha : accepted fr (.strdup p data len) = [(data, some fr)] := by rw [accepted, if_neg hz]
        exact ⟨M', e', by rw [View.after, ha]; exact I', by rw [View.after, ha]; exact h1, by rw [View.after, ha]; exact h2⟩
  | destroyRoot r =>
      obtain ⟨M', e, I', hlog, -, -⟩ := destroy_root_spec I hl hf
      obtain ⟨cs, kids, ho, _, sub, nx, ch, h2, h3, h4, _⟩ := only_spec I.roots hl
      have hs := size_only (F := V.forest) (r := r)
      obtain ⟨n1, _, _⟩ := nodup_only_remove (r := r) I.nodup
      rw [ho] at hs n1
      obtain ⟨M'', e'', g⟩ := destroy_one (fun {M par p fuel} => destroyLoop_spec kids (M := M) (par := par) (p := p) (fuel := fuel)) (fuel := fuel) h2 h3 h4
        (by simpa [Forest.addrs] using n1) (fun q hq => by cases hq) (by simp only [Forest.size] at hs; omega)
      rw [e] at e''; cases e''
      refine ⟨M', e, I', by rw [g.brk, hb]; rfl, ?_⟩
      rw [hlog]
      simp only [View.held, View.after, accepted, List.append_nil]
      rw [List.append_assoc, ← List.map_append]
      exact ((items_only_remove (r := r)).symm.map _).append_left _
  | destroySub p b =>
      obtain ⟨hp, cs, kk, hk⟩ := hl
      obtain ⟨M', e, I', hlog, -, -⟩ := destroy_only_kid_spec I hp hk hf
      obtain ⟨P, hP, hR⟩ := roots_kidsOf hp I.roots
      obtain ⟨s1, s2, s3⟩ := clearKids_split I.nodup hp
      have hnd := s1.nodup_iff.1 I.nodup
      rw [List.nodup_append] at hnd
      obtain ⟨n1, n2, n3⟩ := hnd
      have hpc := pool_not_in_kids I.nodup hp
      have hbk : M'.brk = M.brk := by
        rw [hk] at hR n1 n3 s3
        obtain ⟨hsub, sub, nx, ch, h2, h3, h4, _⟩ := hR
        obtain ⟨M'', e'', g⟩ := destroy_one (fun {M par p fuel} => destroyLoop_spec kk (M := M) (par := par) (p := p) (fuel := fuel)) (fuel := fuel) h2 h3 h4
          (by simpa [Forest.addrs] using n1) (fun q hq => by cases hq; exact ⟨fun h => n3 p h p hpc rfl, P, hP⟩) (by simp only [Forest.size] at s3; omega)
        rw [e] at e''; cases e''
        exact g.brk
      refine ⟨M', e, I', by rw [hbk, hb]; rfl, ?_⟩
      rw [hlog]
      simp only [View.held, View.after, accepted, List.append_nil]
      rw [List.append_assoc, ← List.map_append]
      exact (s2.symm.map _).append_left _

/-- The largest view along the way. -/
def maxSize (fr : Nat) (V : View) : List Op → Nat
  | [] => V.forest.size
  | op :: ops => max V.forest.size (maxSize fr (V.after fr op) ops)

theorem execAll_spec (fr : Nat) (ops : List Op) : ∀ {M : Mem} {V : View}, Inv M V.forest → M.brk = V.next → legalAll fr V ops → ∀ {fuel : Nat}, maxSize fr V ops ≤ fuel →
    ∃ M', execAll fr fuel M ops = .ok M' ∧ Inv M' (V.afterAll fr ops).forest ∧ List.Perm (M'.log ++ (V.afterAll fr ops).held) (M.log ++ V.held ++ ops.flatMap (accepted fr)) := by
  induction ops with
  | nil => intro M V I _ _ fuel _; exact ⟨M, rfl, I, by simp [View.afterAll]⟩
  | cons op ops ih =>
      intro M V I hb hl fuel hf
      rw [maxSize] at hf
      obtain ⟨M1, e1, I1, hb1, p1⟩ := exec_spec fr I hb hl.1 (fuel := fuel) (by omega)
      obtain ⟨M2, e2, I2, p2⟩ := ih I1 hb1 hl.2 (fuel := fuel) (by omega)
      refine ⟨M2, by rw [execAll, e1]; exact e2, I2, ?_⟩
      refine p2.trans ?_
      rw [List.flatMap_cons, ← List.append_assoc (M.log ++ V.held)]
      exact p1.append_right _

theorem inv_start : Inv empty View.start.forest := ⟨trivial, .nil, fun _ h => (by cases h), fun _ h => absurd rfl h⟩

/-- C32: for every legal history the calls never misbehave, and at its end every block ever handed to a pool is either still held by a live pool or has been released, with its own callback,
exactly as often as it was handed over; the objects in memory are exactly the pools and records of the client's view. -/
theorem history_exact_partial (fr : Nat) (ops : List Op) (hl : legalAll fr .start ops) : ∃ n, ∀ fuel, n ≤ fuel → ∃ M, execAll fr fuel empty ops = .ok M ∧
    List.Perm (M.log ++ (View.start.afterAll fr ops).held) (ops.flatMap (accepted fr)) ∧ ∀ x, M.obj x ≠ none ↔ x ∈ (View.start.afterAll fr ops).forest.addrs := by
  refine ⟨maxSize fr .start ops, fun fuel hf => ?_⟩
  obtain ⟨M, e, I, hp⟩ := execAll_spec fr ops inv_start rfl hl hf
  refine ⟨M, e, by simpa [empty, View.held, View.start, Forest.items] using hp, fun x => ⟨I.only x, fun hx => ?_⟩⟩
  have ra : ∀ {F : Forest} {par q}, Rep M par q F → ∀ x ∈ F.addrs, M.obj x ≠ none := by
    intro F
    induction F with
    | nil => intro _ _ _ x h; cases h
    | cons a cs kids rest ih1 ih2 =>
        rintro par q ⟨rfl, sub, nx, ch, h2, h3, h4, h5⟩ x hx
        simp only [Forest.addrs, List.mem_cons, List.mem_append, List.mem_map] at hx
        rcases hx with rfl | ⟨it, hit, rfl⟩ | hx | hx
        · rw [h2]; simp
        · obtain ⟨c, hc⟩ := chain_obj h3 it hit; rw [hc]; simp
        · exact ih1 h4 x hx
        · exact ih2 h5 x hx
  have rr : ∀ {F : Forest}, Roots M F → ∀ x ∈ F.addrs, M.obj x ≠ none := by
    intro F
    induction F with
    | nil => intro _ x h; cases h
    | cons a cs kids rest _ ih2 =>
        rintro ⟨h1, h2⟩ x hx
        simp only [Forest.addrs, List.mem_cons, List.mem_append] at hx
        rcases hx with hx | hx | hx | hx
        · exact ra h1 x (by simp [Forest.addrs, hx])
        · exact ra h1 x (by simp only [Forest.addrs]; grind)
        · exact ra h1 x (by simp only [Forest.addrs]; grind)
        · exact ih2 h2 x hx
  exact rr I.roots x hx

/-- C32: when the client has destroyed all its pools nothing is left in memory and the releases are exactly the blocks handed over. -/
theorem all_destroyed_partial (fr : Nat) (ops : List Op) (hl : legalAll fr .start ops) (hend : (View.start.afterAll fr ops).forest = .nil) :
    ∃ n, ∀ fuel, n ≤ fuel → ∃ M, execAll fr fuel empty ops = .ok M ∧ List.Perm M.log (ops.flatMap (accepted fr)) ∧ ∀ x, M.obj x = none := by
  obtain ⟨n, h⟩ := history_exact_partial fr ops hl
  refine ⟨n, fun fuel hf => ?_⟩
  obtain ⟨M, e, hp, ho⟩ := h fuel hf
  refine ⟨M, e, by simpa [View.held, hend, Forest.items] using hp, fun x => ?_⟩
  have := ho x
  rw [hend] at this
  exact Decidable.byContradiction fun hx => by cases this.1 hx

/-- C32: destroying a root after any legal history releases exactly the blocks of that pool and of the pools below it, each pool's own blocks (newest first) before those of its sub-pools, and
touches no other object. -/
theorem destroy_root_exact (fr : Nat) (ops : List Op) (hl : legalAll fr .start ops) {r : Nat} (hr : r ∈ (View.start.afterAll fr ops).forest.tops) :
    ∃ n, ∀ fuel, n ≤ fuel → ∃ M M', execAll fr fuel empty ops = .ok M ∧ destroy fuel M r = .ok M' ∧
      M'.log = M.log ++ ((View.start.afterAll fr ops).forest.only r).items.map (fun it => (it.data, it.cb)) ∧
      (∀ x ∈ ((View.start.afterAll fr ops).forest.only r).addrs, M'.obj x = none) ∧ ∀ x, x ∉ ((View.start.afterAll fr ops).forest.only r).addrs → M'.obj x = M.obj x := by
  refine ⟨maxSize fr .start ops + (View.start.afterAll fr ops).forest.size, fun fuel hf => ?_⟩
  obtain ⟨M, e, I, -⟩ := execAll_spec fr ops inv_start rfl hl (fuel := fuel) (by omega)
  obtain ⟨M', e', -, h1, h2, h3⟩ := destroy_root_spec I hr (fuel := fuel) (by omega)
  exact ⟨M, M', e, e', h1, h2, h3⟩

/-- A pool with a nested sub-pool, blocks in both, an inner destruction, and the final destruction. -/
def demo : List Op := [.root, .sub 0, .alloc 0 100 none, .buffer 1 101 5 (some 7), .sub 1, .strdup 4 102 4, .destroySub 1 4, .root, .alloc 6 103 (some 8), .destroyRoot 0, .destroyRoot 6]

example : legalAll 9 .start demo := by
  refine ⟨trivial, ?_, ?_, ?_, ?_, ?_, ⟨?_, [⟨5, 102, some 9⟩], .nil, ?_⟩, trivial, ?_, ?_, ?_, trivial⟩ <;> first | decide | (simp only [legal]; decide)
example : (View.start.afterAll 9 demo).forest = .nil := by decide
example : (match execAll 9 40 empty demo with | .ok M => M.log | _ => [] ) = [(102, some 9), (100, none), (101, some 7), (103, some 8)] := by decide +kernel

/-! ### where the property fails -/

/-- Root 0 with two sub-pools 1 and 2, a block in pool 1, destruction of the sibling 2, then of the root. -/
def leak : List Op := [.root, .sub 0, .sub 0, .alloc 1 100 none, .destroySub 0 2, .destroyRoot 0]

/-- What the execution leaves: the log and which of the objects 0..4 are live. -/
def summary (fuel : Nat) (ops : List Op) : Outcome (List (Nat × Option Nat) × List Bool) := do
  let M ← execAll 9 fuel empty ops
  pure (M.log, (List.range 5).map fun x => (M.obj x).isSome)

/-- Destroying a sub-pool that has a sibling empties the parent's list (line 94), so the sibling is not destroyed with the parent: its block is never released and the pool (object 1) and record
(object 3) stay in memory. -/
theorem sibling_lost : summary 40 leak = .ok ([], [false, true, false, true, false]) := by decide +kernel

/-- ... and destroying that sibling afterwards follows its pointer to the released parent. -/
theorem orphan_use_after_free : execAll 9 40 empty (leak ++ [.destroySub 0 1]) = .ub := by
  have : ∀ o : Outcome Mem, (match o with | .ub => true | _ => false) = true → o = .ub := by
    intro o h; cases o with
    | ok _ => cases h
    | abort => cases h
    | ub => rfl
  exact this _ (by decide +kernel)

/-- C32: zt_ez_mempool_add_buffer answers 0 exactly if the block was attached, -1 if it was refused, and then nothing has changed; zt_ez_mempool_strdup gives the copy to the caller. -/
theorem add_result (fr : Nat) {M : Mem} {V : View} (I : Inv M V.forest) {p : Nat} (hp : p ∈ V.forest.pools) (data size : Nat) (cb : Option Nat) :
    (∃ M', addBuffer M p data size cb = .ok (if accepted fr (.buffer p data size cb) = [] then -1 else 0, M') ∧ (accepted fr (.buffer p data size cb) = [] → M' = M)) ∧
    (∃ M', EzPool.strdup fr M p data size = .ok (data, M')) := by
  have key : ∀ cb : Option Nat, ∃ M', addBuffer M p data size cb = .ok (if accepted fr (.buffer p data size cb) = [] then -1 else 0, M') ∧ (accepted fr (.buffer p data size cb) = [] → M' = M) := by
    intro cb
    by_cases hz : data = 0 ∨ size = 0
    · exact ⟨M, by simp [addBuffer, accepted, hz], fun _ => rfl⟩
    · obtain ⟨M', e, -⟩ := addChunk_spec I hp data cb
      refine ⟨M', ?_, fun h => absurd h (by simp [accepted, hz])⟩
      rw [addBuffer, if_neg hz, e]
      simp [accepted, hz]
  refine ⟨key cb, ?_⟩
  obtain ⟨M', e, -⟩ := key (some fr)
  exact ⟨M', by rw [EzPool.strdup, e]; rfl⟩

/-- The copy of the empty string is never attached to the pool (line 137 refuses size 0, the result is ignored at line 127): the caller gets a pointer that the pool will not release. -/
theorem strdup_empty_not_attached (fr : Nat) (M : Mem) (p data : Nat) : EzPool.strdup fr M p data 0 = .ok (data, M) := by simp [EzPool.strdup, addBuffer]

end ZT.EzPool
