import Verif.MemPool.Page

/-!
# Taking and giving back elements keep the invariant
-/

namespace ZT.MemPool

open EList (Rep Step exec)

theorem countP_update {l : List Nat} (hn : l.Nodup) {g : Nat} (hg : g ∈ l) {P Q : Nat → Bool} (h : ∀ x ∈ l, x ≠ g → P x = Q x) :
    l.countP Q + (if P g then 1 else 0) = l.countP P + (if Q g then 1 else 0) := by
  induction l with
  | nil => simp at hg
  | cons x xs ih =>
      rw [List.nodup_cons] at hn
      rw [List.countP_cons, List.countP_cons]
      rcases List.mem_cons.1 hg with rfl | hg
      · have : xs.countP Q = xs.countP P := List.countP_congr fun y hy => by
          rw [h y (by simp [hy]) (by rintro rfl; exact hn.1 hy)]
        omega
      · have := ih hn.2 hg (fun y hy hne => h y (by simp [hy]) hne)
        have h2 := h x (by simp) (by rintro rfl; exact hn.1 hg)
        rw [h2]; omega

/-- The free list of `p` changes inside page `g`. -/
theorem inv_setFree {M M' : Mem} {A : EList.Abs} {S : St} (I : Inv M A S) {p g : Addr} (hp : p ∈ S.pools) (hg : g ∈ S.pages p) {fl' : List Addr} {n m : Nat}
    (hrep : Rep M'.H (A.set (freeHead p) (some fl'))) (hbl : M'.blocks = M.blocks) (hpar : M'.parent = M.parent) (hpp : M'.ppool = M.ppool)
    (hpool : ∀ q, M'.pool q = if q = p then { M.pool p with nfreePages := m } else M.pool q)
    (hnf : ∀ x, M'.nfree x = if x = g then n else M.nfree x)
    (hfl : ∀ x, x ∉ elts (M.pool p) g → (x ∈ fl' ↔ x ∈ S.free p))
    (hn : n = (elts (M.pool p) g).countP (· ∈ fl'))
    (hm : m + (if M.nfree g = (M.pool p).epp then 1 else 0) = (M.pool p).nfreePages + (if n = (M.pool p).epp then 1 else 0)) :
    Inv M' (A.set (freeHead p) (some fl')) { S with free := upd S.free p fl' } := by
  have hcfg : ∀ q, (M'.pool q).epp = (M.pool q).epp ∧ (M'.pool q).eltSize = (M.pool q).eltSize ∧ (M'.pool q).pageSize = (M.pool q).pageSize := by
    intro q; rw [hpool]; grind
  have hel : ∀ q g', elts (M'.pool q) g' = elts (M.pool q) g' := fun q g' => elts_congr (hcfg q).1 (hcfg q).2.1 g'
  constructor
  case rep => exact hrep
  case aroot => rw [EList.set_eq, if_neg (I.heads hp hp).2.2.2.2]; exact I.aroot
  case linked => exact I.linked
  case apages =>
    intro q hq
    rw [EList.set_eq, if_neg (I.heads hq hp).2.2.1]; exact I.apages q hq
  case afree =>
    intro q hq
    have := I.heads hq hp
    have := I.afree q hq
    rw [EList.set_eq]; simp only [upd]; grind
  case only =>
    intro h hh
    rw [EList.set_eq] at hh
    by_cases h2 : h = freeHead p
    · exact .inr ⟨p, hp, .inr h2⟩
    · rw [if_neg h2] at hh; exact I.only h hh
  case nodup => rw [hbl]; exact I.nodup
  case disj => rw [hbl]; exact I.disj
  case pos => rw [hbl]; exact I.pos
  case broot => rw [hbl]; exact I.broot
  case bpool => rw [hbl]; exact I.bpool
  case bpage => intro q hq g' hg'; rw [hbl, (hcfg q).2.2]; exact I.bpage q hq g' hg'
  case sep => exact I.sep
  case epp => intro q hq; rw [(hcfg q).1, (hcfg q).2.1, (hcfg q).2.2]; exact I.epp q hq
  case ppool => rw [hpp]; exact I.ppool
  case parent => intro q hq g' hg' x hx; rw [hel] at hx; rw [hpar]; exact I.parent q hq g' hg' x hx
  case freeSub =>
    intro q hq x hx
    simp only [hel]
    simp only [upd] at hx
    split at hx
    · subst_vars
      by_cases h : x ∈ elts (M.pool q) g
      · exact ⟨g, hg, h⟩
      · exact I.freeSub q hq x ((hfl x h).1 hx)
    · exact I.freeSub q hq x hx
  case nfree =>
    intro q hq g' hg'
    rw [hnf, hel]
    simp only [upd]
    split
    · subst_vars
      have hqp : q = p := by rw [← I.ppool q hq g' hg', ← I.ppool p hp g' hg]
      subst hqp
      simp
    · rw [I.nfree q hq g' hg']
      refine List.countP_congr fun x hx => ?_
      split
      · subst_vars
        have hne : x ∉ elts (M.pool q) g := fun h => by
          have := (I.elt_unique hq hg' hx hq hg h).1
          exact ‹¬ g' = g› this
        simp [hfl x hne]
      · rfl
  case npages => intro q hq; have := I.npages q hq; rw [hpool]; split <;> simp_all
  case nfreePages =>
    intro q hq
    have h1 := I.nfreePages q hq
    by_cases hqp : q = p
    · subst hqp
      have hnd : (S.pages q).Nodup := by
        have := (I.rep.lists _ _ (I.apages q hq)).2
        rw [List.nodup_cons] at this; exact this.2
      have := countP_update hnd hg (P := fun g' => decide (M.nfree g' = (M.pool q).epp)) (Q := fun g' => decide (M'.nfree g' = (M'.pool q).epp)) (fun x hx hne => by
        rw [hnf, if_neg hne, (hcfg q).1])
      simp only [hnf, if_pos, (hcfg q).1, decide_eq_true_eq] at this
      rw [← h1] at this
      rw [hpool, if_pos rfl]
      simp only [hnf]
      omega
    · rw [hpool, if_neg hqp, h1]
      refine (List.countP_congr fun x hx => ?_).symm
      rw [hnf, if_neg]
      rintro rfl
      exact hqp (by rw [← I.ppool q hq x hx, ← I.ppool p hp x hg])
  case count => intro q hq; have := I.count q hq; rw [hpool]; show _ = _ + _ + S.lost q; split <;> simp_all
  case noleak =>
    intro b hb
    rw [hbl] at hb
    simp only [(hcfg _).2.2]
    exact I.noleak b hb

theorem nfree_le {M : Mem} {A : EList.Abs} {S : St} (I : Inv M A S) {p g : Addr} (hp : p ∈ S.pools) (hg : g ∈ S.pages p) : M.nfree g ≤ (M.pool p).epp := by
  rw [I.nfree p hp g hg]
  have := List.countP_le_length (p := fun x => decide (x ∈ S.free p)) (l := elts (M.pool p) g)
  simpa [elts] using this

theorem free_nodup {M : Mem} {A : EList.Abs} {S : St} (I : Inv M A S) {p : Addr} (hp : p ∈ S.pools) : (S.free p).Nodup := by
  have := (I.rep.lists _ _ (I.afree p hp)).2
  rw [List.nodup_cons] at this; exact this.2

theorem chk_pool {M : Mem} {A : EList.Abs} {S : St} (I : Inv M A S) {p : Addr} (hp : p ∈ S.pools) : chk M p 160 = .ok () :=
  chk_ok (I.bpool p hp) (by simp) (by simp)

theorem chk_page {M : Mem} {A : EList.Abs} {S : St} (I : Inv M A S) {p g : Addr} (hp : p ∈ S.pools) (hg : g ∈ S.pages p) : chk M g 32 = .ok () := by
  have := I.pageSize_pos hp
  exact chk_ok (I.bpage p hp g hg) (by simp) (by simp only; omega)

theorem chk_elt {M : Mem} {A : EList.Abs} {S : St} (I : Inv M A S) {p g e : Addr} (hp : p ∈ S.pools) (hg : g ∈ S.pages p) (he : e ∈ elts (M.pool p) g) :
    chk M e 24 = .ok () := by
  have := I.elt_in hp he
  exact chk_ok (I.bpage p hp g hg) (by simp only; omega) (by simp only; omega)

theorem dec_pos {x : Nat} (h : 0 < x) : dec x = x - 1 := by rw [dec, if_neg (by omega)]

theorem take_spec {M : Mem} {A : EList.Abs} {S : St} (I : Inv M A S) {p e : Addr} {fl : List Addr} (hp : p ∈ S.pools) (hf : S.free p = e :: fl) :
    ∃ M', take M p = .ok (e + 24, M') ∧ Inv M' (A.set (freeHead p) (some fl)) { S with free := upd S.free p fl } ∧ ∀ q, SameCfg (M'.pool q) (M.pool q) := by
  have hA := I.afree p hp
  rw [hf] at hA
  have L := I.rep.lists _ _ hA
  have hnext : M.H.next (freeHead p) = e := by have := L.1; simp only [EList.Linked] at this; exact this.1
  obtain ⟨g, hg, he⟩ := I.freeSub p hp e (by rw [hf]; simp)
  have hpar := I.parent p hp g hg e he
  have hnd := free_nodup I hp
  rw [hf, List.nodup_cons] at hnd
  have hcount := countP_update (elts_nodup (M.pool p) g) he (P := fun x => decide (x ∈ S.free p)) (Q := fun x => decide (x ∈ fl)) (fun x _ hne => by simp [hf, hne])
  rw [← I.nfree p hp g hg] at hcount
  simp only [hf, List.mem_cons, true_or, decide_true, if_true, hnd.1, decide_false, Bool.false_eq_true, if_false, Nat.add_zero] at hcount
  have hle := nfree_le I hp hg
  have hepp := (I.epp p hp).1
  have hd : dec (M.nfree g) = M.nfree g - 1 := dec_pos (by omega)
  have hde : dec (M.pool p).epp = (M.pool p).epp - 1 := dec_pos hepp
  have hR : Rep (EList.remove M.H e) (A.set (freeHead p) (some fl)) := EList.step_rep M.H A _ (.remove e) I.rep (.remove (l := []) hA)
  refine ⟨if M.nfree g - 1 = (M.pool p).epp - 1 then
      { M with H := EList.remove M.H e, nfree := upd M.nfree g (M.nfree g - 1), pool := upd M.pool p { M.pool p with nfreePages := dec (M.pool p).nfreePages } }
    else { M with H := EList.remove M.H e, nfree := upd M.nfree g (M.nfree g - 1) }, ?_, ?_, ?_⟩
  · rw [take, hnext]
    simp only
    rw [chk_elt I hp hg he]
    simp only [Outcome.ok_bind, hpar]
    rw [chk_page I hp hg]
    simp only [Outcome.ok_bind, Outcome.pure_eq, hd, hde, upd, if_true]
  · have hpos : M.nfree g = (M.pool p).epp → 0 < (M.pool p).nfreePages := by
      intro h
      rw [I.nfreePages p hp]
      exact List.countP_pos_iff.2 ⟨g, hg, by simp [h]⟩
    refine inv_setFree I hp hg (n := M.nfree g - 1) (m := if M.nfree g - 1 = (M.pool p).epp - 1 then dec (M.pool p).nfreePages else (M.pool p).nfreePages)
      ?_ ?_ ?_ ?_ ?_ ?_ ?_ ?_ ?_
    · split <;> exact hR
    · split <;> rfl
    · split <;> rfl
    · split <;> rfl
    · intro q
      split
      · simp only [upd]
      · by_cases h : q = p <;> simp [h]
    · intro x; split <;> simp only [upd]
    · intro x hx
      rw [hf]
      have : x ≠ e := by rintro rfl; exact hx he
      simp [this]
    · rw [← hcount]; simp
    · by_cases h : M.nfree g = (M.pool p).epp
      · rw [if_pos (by omega), dec_pos (hpos h), if_pos h, if_neg (by omega)]
        have := hpos h; omega
      · rw [if_neg (by omega), if_neg h, if_neg (by omega)]
  · intro q; split <;> simp only [upd, SameCfg] <;> grind

theorem giveBack_spec {M : Mem} {A : EList.Abs} {S : St} (I : Inv M A S) {p g e : Addr} (hp : p ∈ S.pools) (hg : g ∈ S.pages p) (he : e ∈ elts (M.pool p) g)
    (hlive : e ∉ S.free p) :
    Inv (giveBack M p g e) (A.set (freeHead p) (some (e :: S.free p))) { S with free := upd S.free p (e :: S.free p) } ∧
      (∀ q, SameCfg ((giveBack M p g e).pool q) (M.pool q)) ∧ (giveBack M p g e).nfree g = M.nfree g + 1 := by
  have hA := I.afree p hp
  have hIn := I.elt_In hp he
  have hFree : EList.Free A e := by
    refine ⟨?_, ?_⟩
    · cases hx : A e with
      | none => rfl
      | some xs =>
          exfalso
          have hps := I.bpage p hp g hg
          rcases I.only e (by rw [hx]; rfl) with rfl | ⟨q, hq, h⟩
          · have h1 := I.same_block I.broot hps (by unfold In; simp only; omega) hIn
            have := I.elt_in hp he
            injection h1; omega
          · have h1 := I.same_block (I.bpool q hq) hps (by
              have h' : e = pageHead q ∨ e = freeHead q := h
              unfold pageHead freeHead at h'; unfold In; simp only; omega) hIn
            have h2 : q = g := by injection h1
            subst h2
            exact I.sep q hq p hp hg
    · intro h xs hh hm
      rcases I.only h (by rw [hh]; rfl) with rfl | ⟨q, hq, rfl | rfl⟩
      · rw [I.aroot] at hh; cases hh
        have h1 := I.same_block (I.bpool e (I.linked e hm)) (I.bpage p hp g hg) (by unfold In; simp only; omega) hIn
        have := I.elt_in hp he
        injection h1; omega
      · rw [I.apages q hq] at hh; cases hh
        have hps := I.pageSize_pos hq
        have h1 := I.same_block (I.bpage q hq e hm) (I.bpage p hp g hg) (by unfold In; simp only; omega) hIn
        have := I.elt_in hp he
        injection h1; omega
      · rw [I.afree q hq] at hh; cases hh
        obtain ⟨g', hg', he'⟩ := I.freeSub q hq e hm
        have := (I.elt_unique hq hg' he' hp hg he).2
        subst this
        exact hlive hm
  have hR : Rep (EList.add M.H (freeHead p) e) (A.set (freeHead p) (some (e :: S.free p))) := EList.step_rep M.H A _ (.add (freeHead p) e) I.rep (.add hA hFree)
  have hcount := countP_update (elts_nodup (M.pool p) g) he (P := fun x => decide (x ∈ S.free p)) (Q := fun x => decide (x ∈ e :: S.free p)) (fun x _ hne => by simp [hne])
  rw [← I.nfree p hp g hg] at hcount
  simp only [List.mem_cons, true_or, decide_true, if_true, hlive, decide_false, Bool.false_eq_true, if_false, Nat.add_zero] at hcount
  have hle : M.nfree g + 1 ≤ (M.pool p).epp := by
    rw [← hcount]
    have := List.countP_le_length (p := fun x => decide (x = e ∨ x ∈ S.free p)) (l := elts (M.pool p) g)
    simpa [elts] using this
  have hgb : giveBack M p g e = if M.nfree g + 1 = (M.pool p).epp then
      { M with nfree := upd M.nfree g (M.nfree g + 1), H := EList.add M.H (freeHead p) e, tick := M.tick + 1,
               pool := upd M.pool p { M.pool p with nfreePages := (M.pool p).nfreePages + 1 } }
      else { M with nfree := upd M.nfree g (M.nfree g + 1), H := EList.add M.H (freeHead p) e, tick := M.tick + 1 } := by
    simp [giveBack, upd]
  refine ⟨?_, ?_, ?_⟩
  · rw [hgb]
    refine inv_setFree I hp hg (n := M.nfree g + 1) (m := if M.nfree g + 1 = (M.pool p).epp then (M.pool p).nfreePages + 1 else (M.pool p).nfreePages)
      ?_ ?_ ?_ ?_ ?_ ?_ ?_ ?_ ?_
    · split <;> exact hR
    · split <;> rfl
    · split <;> rfl
    · split <;> rfl
    · intro q
      split
      · simp only [upd]
      · by_cases h : q = p <;> simp [h]
    · intro x; split <;> simp only [upd]
    · intro x hx
      have : x ≠ e := by rintro rfl; exact hx he
      simp [this]
    · rw [← hcount]; simp
    · by_cases h : M.nfree g + 1 = (M.pool p).epp
      · rw [if_pos h, if_neg (by omega), if_pos h]
      · rw [if_neg h, if_neg (by omega), if_neg h]
  · rw [hgb]; intro q; split <;> simp only [upd, SameCfg] <;> grind
  · rw [hgb]; split <;> simp [upd]

end ZT.MemPool
