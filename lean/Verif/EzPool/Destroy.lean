import Verif.EzPool.Props

/-!
# C32: destroying pools, and whole histories
-/

namespace ZT.EzPool

namespace Forest

/-- The sub-pools of `p`. -/
def kidsOf (p : Nat) : Forest → Forest
  | nil => nil
  | cons a _ kids rest => if a = p then kids else if p ∈ kids.pools then kidsOf p kids else kidsOf p rest

/-- The pool `p` without its sub-pools, everything else as it was. -/
def clearKids (p : Nat) : Forest → Forest
  | nil => nil
  | cons a cs kids rest => if a = p then cons a cs nil rest else cons a cs (clearKids p kids) (clearKids p rest)

end Forest

theorem only_spec {M : Mem} {F : Forest} {r : Nat} (h : Roots M F) (hr : r ∈ F.tops) : ∃ cs kids, F.only r = .cons r cs kids .nil ∧ Rep M none (some r) (.cons r cs kids .nil) := by
  induction F with
  | nil => cases hr
  | cons a cs kids rest _ ih2 =>
      simp only [Forest.only]
      split
      · rename_i he; subst he; exact ⟨cs, kids, rfl, h.1⟩
      · rename_i hne
        simp only [Forest.tops, List.mem_cons] at hr
        exact ih2 h.2 (hr.resolve_left fun he => hne he.symm)

theorem mem_only_remove {F : Forest} {r : Nat} (x : Nat) : x ∈ F.addrs ↔ x ∈ (F.only r).addrs ∨ x ∈ (F.remove r).addrs := by
  induction F with
  | nil => simp [Forest.only, Forest.remove, Forest.addrs]
  | cons a cs kids rest _ ih2 =>
      simp only [Forest.only, Forest.remove]
      split
      · simp only [Forest.addrs]; grind
      · simp only [Forest.addrs]; grind

theorem nodup_only_remove {F : Forest} {r : Nat} (h : F.addrs.Nodup) : (F.only r).addrs.Nodup ∧ (F.remove r).addrs.Nodup ∧ ∀ x ∈ (F.only r).addrs, x ∉ (F.remove r).addrs := by
  induction F with
  | nil => simp [Forest.only, Forest.remove, Forest.addrs]
  | cons a cs kids rest _ ih2 =>
      have hndr : rest.addrs.Nodup := by simp only [Forest.addrs] at h; grind
      obtain ⟨i1, i2, i3⟩ := ih2 hndr
      have hm := mem_only_remove (F := rest) (r := r)
      simp only [Forest.only, Forest.remove]
      split
      · simp only [Forest.addrs] at h ⊢; grind
      · simp only [Forest.addrs] at h ⊢; grind

theorem size_only {F : Forest} {r : Nat} : (F.only r).size ≤ F.size := by
  induction F with
  | nil => exact Nat.le_refl _
  | cons a cs kids rest _ ih2 =>
      have : 0 < rest.size := by cases rest <;> simp [Forest.size]
      simp only [Forest.only]
      split <;> simp only [Forest.size] <;> omega

theorem items_only_remove {F : Forest} {r : Nat} : List.Perm F.items ((F.only r).items ++ (F.remove r).items) := by
  induction F with
  | nil => exact .nil
  | cons a cs kids rest _ ih2 =>
      simp only [Forest.only, Forest.remove]
      split
      · simp [Forest.items]
      · simp only [Forest.items]
        have h1 : List.Perm (cs ++ (kids.items ++ rest.items)) ((cs ++ kids.items) ++ ((rest.only r).items ++ (rest.remove r).items)) := by
          rw [← List.append_assoc]; exact ih2.append_left _
        refine h1.trans ?_
        rw [← List.append_assoc, ← List.append_assoc, ← List.append_assoc]
        refine List.Perm.append_right _ ?_
        exact List.perm_append_comm.trans (by rw [List.append_assoc])

theorem roots_remove {M : Mem} {F : Forest} {r : Nat} (h : Roots M F) : Roots M (F.remove r) := by
  induction F with
  | nil => trivial
  | cons a cs kids rest _ ih2 =>
      simp only [Forest.remove]
      split
      · exact h.2
      · exact ⟨h.1, ih2 h.2⟩

/-- Destroying a root pool. -/
theorem destroy_root_spec {M : Mem} {F : Forest} (I : Inv M F) {r : Nat} (hr : r ∈ F.tops) {fuel : Nat} (hf : F.size ≤ fuel) :
    ∃ M', destroy fuel M r = .ok M' ∧ Inv M' (F.remove r) ∧ M'.log = M.log ++ (F.only r).items.map (fun it => (it.data, it.cb)) ∧
      (∀ x ∈ (F.only r).addrs, M'.obj x = none) ∧ ∀ x, x ∉ (F.only r).addrs → M'.obj x = M.obj x := by
  obtain ⟨cs, kids, ho, _, sub, nx, ch, h2, h3, h4, _⟩ := only_spec I.roots hr
  have hs := size_only (F := F) (r := r)
  obtain ⟨n1, n2, n3⟩ := nodup_only_remove (r := r) I.nodup
  rw [ho] at hs n1 n3 ⊢
  obtain ⟨M', e, g⟩ := destroy_one (fun {M par p fuel} => destroyLoop_spec kids (M := M) (par := par) (p := p) (fuel := fuel)) (fuel := fuel) h2 h3 h4
    (by simpa [Forest.addrs] using n1) (fun q hq => by cases hq) (by simp only [Forest.size] at hs; omega)
  have hfr : ∀ x, x ∉ (Forest.cons r cs kids .nil).addrs → M'.obj x = M.obj x := fun x hx => g.frame x hx (by simp)
  refine ⟨M', e, ?_, g.log, g.dead, hfr⟩
  constructor
  · exact roots_frame (roots_remove I.roots) fun x hx => hfr x fun h => n3 x h hx
  · exact n2
  · intro x hx
    rw [g.brk]
    exact I.below x ((mem_only_remove x).2 (.inr hx))
  · intro x hx
    by_cases h : x ∈ (Forest.cons r cs kids .nil).addrs
    · exact absurd (g.dead x h) hx
    · rw [hfr x h] at hx
      exact ((mem_only_remove x).1 (I.only x hx)).resolve_left (by rw [ho]; exact h)

/-! ### destroying a sub-pool that has no siblings -/

theorem kidsOf_mem {F : Forest} {p : Nat} : ∀ x, x ∈ (F.kidsOf p).addrs → x ∈ F.addrs := by
  induction F with
  | nil => intro x h; exact h
  | cons a cs kids rest ih1 ih2 =>
      intro x h
      simp only [Forest.kidsOf] at h
      simp only [Forest.addrs, List.mem_cons, List.mem_append]
      split at h
      · exact .inr (.inr (.inl h))
      · split at h
        · exact .inr (.inr (.inl (ih1 x h)))
        · exact .inr (.inr (.inr (ih2 x h)))

theorem clearKids_of_not_mem {F : Forest} {p : Nat} (h : p ∉ F.pools) : F.clearKids p = F := by
  induction F with
  | nil => rfl
  | cons a cs kids rest ih1 ih2 =>
      simp only [Forest.pools, List.mem_cons, List.mem_append, not_or] at h
      simp only [Forest.clearKids]
      rw [if_neg (fun he => h.1 he.symm), ih1 h.2.1, ih2 h.2.2]

theorem not_both {a p : Nat} {cs : List Item} {kids rest : Forest} (h : (Forest.cons a cs kids rest).addrs.Nodup) (hk : p ∈ kids.pools) : p ∉ rest.pools := by
  intro hr
  have h1 := mem_addrs_of_pool hk
  have h2 := mem_addrs_of_pool hr
  simp only [Forest.addrs] at h; grind

/-- The addresses of a forest are those of the sub-pools of `p` and the rest. -/
theorem clearKids_split {F : Forest} {p : Nat} (h : F.addrs.Nodup) (hp : p ∈ F.pools) :
    List.Perm F.addrs ((F.kidsOf p).addrs ++ (F.clearKids p).addrs) ∧ List.Perm F.items ((F.kidsOf p).items ++ (F.clearKids p).items) ∧ (F.kidsOf p).size ≤ F.size := by
  induction F with
  | nil => cases hp
  | cons a cs kids rest ih1 ih2 =>
      have hndk : kids.addrs.Nodup := by simp only [Forest.addrs] at h; grind
      have hndr : rest.addrs.Nodup := by simp only [Forest.addrs] at h; grind
      simp only [Forest.kidsOf, Forest.clearKids]
      split
      · simp only [Forest.addrs, Forest.items, Forest.size, List.nil_append]
        refine ⟨?_, ?_, by omega⟩
        · rw [← List.append_assoc, ← List.cons_append]
          have : List.Perm (kids.addrs ++ a :: (cs.map (·.node) ++ rest.addrs)) ((a :: cs.map (·.node)) ++ (kids.addrs ++ rest.addrs)) := by
            rw [show a :: (cs.map (·.node) ++ rest.addrs) = (a :: cs.map (·.node)) ++ rest.addrs from rfl, ← List.append_assoc, ← List.append_assoc]
            exact List.Perm.append_right _ List.perm_append_comm
          rw [List.cons_append, List.append_assoc]
          exact this.symm
        · rw [← List.append_assoc, ← List.append_assoc]
          exact List.Perm.append_right _ List.perm_append_comm
      · rename_i hne
        split
        · rename_i hk
          obtain ⟨i1, i2, i3⟩ := ih1 hndk hk
          rw [clearKids_of_not_mem (not_both h hk)]
          simp only [Forest.addrs, Forest.items, Forest.size]
          refine ⟨?_, ?_, by omega⟩
          · have e1 : List.Perm (kids.addrs ++ rest.addrs) ((kids.kidsOf p).addrs ++ ((kids.clearKids p).addrs ++ rest.addrs)) := by
              rw [← List.append_assoc]; exact List.Perm.append_right _ i1
            have e2 := (e1.append_left (cs.map (·.node))).cons a
            refine e2.trans ?_
            rw [show a :: (cs.map (·.node) ++ ((kids.kidsOf p).addrs ++ ((kids.clearKids p).addrs ++ rest.addrs))) = (a :: cs.map (·.node)) ++ ((kids.kidsOf p).addrs ++ ((kids.clearKids p).addrs ++ rest.addrs)) from rfl,
              show a :: (cs.map (·.node) ++ ((kids.clearKids p).addrs ++ rest.addrs)) = (a :: cs.map (·.node)) ++ ((kids.clearKids p).addrs ++ rest.addrs) from rfl, ← List.append_assoc, ← List.append_assoc (kids.kidsOf p).addrs]
            exact List.Perm.append_right _ List.perm_append_comm
          · have e1 : List.Perm (kids.items ++ rest.items) ((kids.kidsOf p).items ++ ((kids.clearKids p).items ++ rest.items)) := by
              rw [← List.append_assoc]; exact List.Perm.append_right _ i2
            refine (e1.append_left cs).trans ?_
            rw [← List.append_assoc, ← List.append_assoc (kids.kidsOf p).items]
            exact List.Perm.append_right _ List.perm_append_comm
        · rename_i hk
          have hr : p ∈ rest.pools := by
            simp only [Forest.pools, List.mem_cons, List.mem_append] at hp
            exact (hp.resolve_left fun he => hne he.symm).resolve_left hk
          obtain ⟨i1, i2, i3⟩ := ih2 hndr hr
          rw [clearKids_of_not_mem hk]
          simp only [Forest.addrs, Forest.items, Forest.size]
          refine ⟨?_, ?_, by omega⟩
          · have e1 := (i1.append_left (a :: cs.map (·.node) ++ kids.addrs))
            have e2 : List.Perm ((a :: cs.map (·.node) ++ kids.addrs) ++ ((rest.kidsOf p).addrs ++ (rest.clearKids p).addrs))
                ((rest.kidsOf p).addrs ++ ((a :: cs.map (·.node) ++ kids.addrs) ++ (rest.clearKids p).addrs)) := by
              rw [← List.append_assoc, ← List.append_assoc (rest.kidsOf p).addrs]
              exact List.Perm.append_right _ List.perm_append_comm
            have := e1.trans e2
            simpa [List.append_assoc] using this
          · have e1 := (i2.append_left (cs ++ kids.items))
            have e2 : List.Perm ((cs ++ kids.items) ++ ((rest.kidsOf p).items ++ (rest.clearKids p).items)) ((rest.kidsOf p).items ++ ((cs ++ kids.items) ++ (rest.clearKids p).items)) := by
              rw [← List.append_assoc, ← List.append_assoc (rest.kidsOf p).items]
              exact List.Perm.append_right _ List.perm_append_comm
            have := e1.trans e2
            simpa [List.append_assoc] using this

theorem rep_kidsOf {M : Mem} {F : Forest} {p : Nat} (hp : p ∈ F.pools) : ∀ {par q}, Rep M par q F → ∃ P, M.obj p = some (.pool P) ∧ Rep M (some p) P.subpools (F.kidsOf p) := by
  induction F with
  | nil => cases hp
  | cons a cs kids rest ih1 ih2 =>
      rintro par q ⟨rfl, sub, nx, ch, h2, h3, h4, h5⟩
      simp only [Forest.kidsOf]
      split
      · rename_i he; subst he; exact ⟨_, h2, h4⟩
      · rename_i hne
        split
        · rename_i hk; exact ih1 hk h4
        · rename_i hk
          simp only [Forest.pools, List.mem_cons, List.mem_append] at hp
          exact ih2 ((hp.resolve_left fun he => hne he.symm).resolve_left hk) h5

theorem roots_kidsOf {M : Mem} {F : Forest} {p : Nat} (hp : p ∈ F.pools) (h : Roots M F) : ∃ P, M.obj p = some (.pool P) ∧ Rep M (some p) P.subpools (F.kidsOf p) := by
  induction F with
  | nil => cases hp
  | cons a cs kids rest ih1 ih2 =>
      obtain ⟨⟨_, sub, nx, ch, h2, h3, h4, h5⟩, h6⟩ := h
      simp only [Forest.kidsOf]
      split
      · rename_i he; subst he; exact ⟨_, h2, h4⟩
      · rename_i hne
        split
        · rename_i hk; exact rep_kidsOf hk h4
        · rename_i hk
          simp only [Forest.pools, List.mem_cons, List.mem_append] at hp
          exact ih2 ((hp.resolve_left fun he => hne he.symm).resolve_left hk) h6

theorem rep_clearKids {M M' : Mem} {q : Nat} {P : Pool} (hP : M.obj q = some (.pool P)) (hP' : M'.obj q = some (.pool { P with subpools := none })) {F : Forest} :
    ∀ {par p}, Rep M par p F → F.addrs.Nodup → (∀ x ∈ (F.clearKids q).addrs, x ≠ q → M'.obj x = M.obj x) → Rep M' par p (F.clearKids q) := by
  induction F with
  | nil => intro par p h _ _; exact h
  | cons a cs kids rest ih1 ih2 =>
      rintro par p ⟨rfl, sub, nx, ch, h2, h3, h4, h5⟩ hnd hfr
      have hndk : kids.addrs.Nodup := by simp only [Forest.addrs] at hnd; grind
      have hndr : rest.addrs.Nodup := by simp only [Forest.addrs] at hnd; grind
      simp only [Forest.clearKids] at hfr ⊢
      have hch : (∀ x ∈ cs.map (·.node), x ≠ q → M'.obj x = M.obj x) → Chain M' ch cs := fun hh => chain_frame h3 fun i hi => hh _ (List.mem_map.2 ⟨i, hi, rfl⟩) (fun he => by
          obtain ⟨c, hc'⟩ := chain_obj h3 i hi
          rw [he, hP] at hc'; cases hc')
      split
      · rename_i he
        rw [if_pos he] at hfr
        subst he
        rw [h2] at hP; cases hP
        refine ⟨rfl, none, nx, ch, hP', hch fun x hx hne => hfr x (by simp only [Forest.addrs]; grind) hne, rfl, rep_frame h5 fun x hx => hfr x ?_ ?_⟩
        · simp only [Forest.addrs]; grind
        · simp only [Forest.addrs] at hnd; grind
      · rename_i hne
        rw [if_neg hne] at hfr
        refine ⟨rfl, sub, nx, ch, ?_, hch fun x hx hne => hfr x (by simp only [Forest.addrs]; grind) hne, ih1 h4 hndk fun x hx => hfr x ?_, ih2 h5 hndr fun x hx => hfr x ?_⟩
        · rw [hfr a (by simp [Forest.addrs]) hne, h2]
        · simp only [Forest.addrs]; grind
        · simp only [Forest.addrs]; grind

theorem roots_clearKids {M M' : Mem} {q : Nat} {P : Pool} (hP : M.obj q = some (.pool P)) (hP' : M'.obj q = some (.pool { P with subpools := none })) {F : Forest} :
    Roots M F → F.addrs.Nodup → (∀ x ∈ (F.clearKids q).addrs, x ≠ q → M'.obj x = M.obj x) → Roots M' (F.clearKids q) := by
  induction F with
  | nil => intro h _ _; exact h
  | cons a cs kids rest ih1 ih2 =>
      rintro ⟨h1, h2⟩ hnd hfr
      have hndr : rest.addrs.Nodup := by simp only [Forest.addrs] at hnd; grind
      have hcr := fun h => clearKids_of_not_mem (F := rest) (p := q) h
      have h3 := rep_clearKids hP hP' h1 (by simp only [Forest.addrs] at hnd ⊢; grind) (fun x hx hne => hfr x (by
        simp only [Forest.clearKids] at hx ⊢
        split at hx
        · rename_i he; rw [if_pos he]; simp only [Forest.addrs] at hx ⊢; grind
        · rename_i he; rw [if_neg he]; simp only [Forest.addrs] at hx ⊢; grind) hne)
      simp only [Forest.clearKids] at h3 hfr ⊢
      split
      · rename_i he
        rw [if_pos he] at h3 hfr
        refine ⟨h3, roots_frame h2 fun x hx => hfr x ?_ ?_⟩
        · simp only [Forest.addrs]; grind
        · simp only [Forest.addrs] at hnd; grind
      · rename_i hne
        rw [if_neg hne] at h3 hfr
        exact ⟨h3, ih2 h2 hndr fun x hx => hfr x (by simp only [Forest.addrs]; grind)⟩

theorem pool_not_in_kids {F : Forest} {p : Nat} (h : F.addrs.Nodup) (hp : p ∈ F.pools) : p ∈ (F.clearKids p).addrs := by
  induction F with
  | nil => cases hp
  | cons a cs kids rest ih1 ih2 =>
      have hndk : kids.addrs.Nodup := by simp only [Forest.addrs] at h; grind
      have hndr : rest.addrs.Nodup := by simp only [Forest.addrs] at h; grind
      simp only [Forest.clearKids]
      split
      · rename_i he; simp [Forest.addrs, he]
      · rename_i hne
        simp only [Forest.pools, List.mem_cons, List.mem_append] at hp
        rcases hp with he | hk | hr
        · exact absurd he.symm hne
        · have := ih1 hndk hk; simp only [Forest.addrs]; grind
        · have := ih2 hndr hr; simp only [Forest.addrs]; grind

/-- Destroying the only sub-pool of a pool. -/
theorem destroy_only_kid_spec {M : Mem} {F : Forest} (I : Inv M F) {p b : Nat} (hp : p ∈ F.pools) {cs : List Item} {kk : Forest} (hk : F.kidsOf p = .cons b cs kk .nil)
    {fuel : Nat} (hf : F.size ≤ fuel) :
    ∃ M', destroy fuel M b = .ok M' ∧ Inv M' (F.clearKids p) ∧ M'.log = M.log ++ (F.kidsOf p).items.map (fun it => (it.data, it.cb)) ∧
      (∀ x ∈ (F.kidsOf p).addrs, M'.obj x = none) ∧ ∀ x, x ∉ (F.kidsOf p).addrs → x ≠ p → M'.obj x = M.obj x := by
  obtain ⟨P, hP, hR⟩ := roots_kidsOf hp I.roots
  obtain ⟨s1, s2, s3⟩ := clearKids_split I.nodup hp
  have hnd := s1.nodup_iff.1 I.nodup
  rw [List.nodup_append] at hnd
  obtain ⟨n1, n2, n3⟩ := hnd
  have hpc := pool_not_in_kids I.nodup hp
  rw [hk] at hR n1 n3 s3 s1 ⊢
  obtain ⟨hsub, sub, nx, ch, h2, h3, h4, _⟩ := hR
  have hpk : p ∉ (Forest.cons b cs kk .nil).addrs := fun h => n3 p h p hpc rfl
  obtain ⟨M', e, g⟩ := destroy_one (fun {M par p fuel} => destroyLoop_spec kk (M := M) (par := par) (p := p) (fuel := fuel)) (fuel := fuel) h2 h3 h4
    (by simpa [Forest.addrs] using n1) (fun q hq => by cases hq; exact ⟨hpk, P, hP⟩) (by simp only [Forest.size] at s3; omega)
  have hfr : ∀ x, x ∉ (Forest.cons b cs kk .nil).addrs → x ≠ p → M'.obj x = M.obj x := fun x hx hne => g.frame x hx (by simpa using fun h => hne h.symm)
  have hP' : M'.obj p = some (.pool { P with subpools := none }) := by rw [g.parent p P rfl hP, if_neg (by simp)]
  refine ⟨M', e, ?_, g.log, g.dead, hfr⟩
  constructor
  · exact roots_clearKids hP hP' I.roots I.nodup fun x hx hne => hfr x (fun h => n3 x h x hx rfl) hne
  · exact n2
  · intro x hx
    rw [g.brk]
    exact I.below x (s1.mem_iff.2 (List.mem_append.2 (.inr hx)))
  · intro x hx
    by_cases hxp : x = p
    · rw [hxp]; exact hpc
    · by_cases h : x ∈ (Forest.cons b cs kk .nil).addrs
      · exact absurd (g.dead x h) hx
      · rw [hfr x h hxp] at hx
        exact (List.mem_append.1 (s1.mem_iff.1 (I.only x hx))).resolve_left h

end ZT.EzPool
