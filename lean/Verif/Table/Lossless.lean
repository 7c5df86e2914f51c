import Verif.Table.Exact
import Verif.Table.Compare

/-!
# Exactly when a history of zt_table is that of a finite map (C17), and duplicate keys with deletion (C60)
-/

namespace ZT.Table

theorem taken_cases {p : Entry → Bool} {l : List Entry} {d : Nat} {r z : List Entry} (h : taken p l = some (d, r, z)) :
    (∃ x, l = x :: r ∧ p x = true ∧ x.datum = d ∧ z = []) ∨
    ∃ f x post, l = f :: (z ++ x :: post) ∧ r = f :: post ∧ p f = false ∧ p x = true ∧ x.datum = d ∧ ∀ y ∈ z, p y = false := by
  match l with
  | [] => cases h
  | e :: es =>
      rw [taken] at h
      split at h
      · rename_i c; cases h; exact .inl ⟨e, rfl, c, rfl, rfl⟩
      · rename_i c
        cases hd : (es.dropWhile fun x => !p x) with
        | nil => rw [hd] at h; cases h
        | cons y ys =>
            rw [hd] at h
            cases h
            have hes : es = (es.takeWhile fun x => !p x) ++ y :: ys := by rw [← hd, List.takeWhile_append_dropWhile]
            refine .inr ⟨e, y, ys, by rw [← hes], rfl, by simpa using c, ?_, rfl, ?_⟩
            · have := List.head?_dropWhile_not (fun x => !p x) es
              rw [hd] at this
              simpa using this
            · intro w hw
              have := List.all_takeWhile (p := fun x => !p x) (l := es)
              rw [List.all_eq_true] at this
              simpa using this w hw

theorem bag_run_append (cb : Callbacks) (dup : Bool) (ix : Key → Nat) (p q : List Op) : ∀ s : Bag,
    (s.run cb dup ix (p ++ q)).1 = (s.run cb dup ix p).1 ++ ((s.run cb dup ix p).2.run cb dup ix q).1 := by
  induction p with
  | nil => intro s; rfl
  | cons op p ih => intro s; simp only [List.cons_append, Bag.run, ih]

theorem specRun_append (cmp : Key → Key → Bool) (p q : List Op) : ∀ m : Map,
    (specRun cmp m (p ++ q)).1 = (specRun cmp m p).1 ++ (specRun cmp (specRun cmp m p).2 q).1 := by
  induction p with
  | nil => intro m; rfl
  | cons op p ih => intro m; simp only [List.cons_append, specRun, ih]

theorem lost_suffix (cb : Callbacks) (dup : Bool) (ix : Key → Nat) (s : Bag) (op : Op) : ∃ z, (s.step cb dup ix op).2.lost = z ++ s.lost := by
  cases op with
  | set k d dl => simp only [Bag.step]; split <;> exact ⟨[], rfl⟩
  | get k => exact ⟨[], rfl⟩
  | del k =>
      simp only [Bag.step]
      cases ht : taken (Meets cb k) (s.bucket (ix k)) with
      | none => exact ⟨[], rfl⟩
      | some v => exact ⟨v.2.2, rfl⟩

theorem lost_suffix_run (cb : Callbacks) (dup : Bool) (ix : Key → Nat) (ops : List Op) : ∀ s : Bag, ∃ z, (s.run cb dup ix ops).2.lost = z ++ s.lost := by
  induction ops with
  | nil => intro s; exact ⟨[], rfl⟩
  | cons op ops ih =>
      intro s
      obtain ⟨z1, h1⟩ := lost_suffix cb dup ix s op
      obtain ⟨z2, h2⟩ := ih (s.step cb dup ix op).2
      refine ⟨z2 ++ z1, ?_⟩
      rw [Bag.run]
      simp only [h2, h1, List.append_assoc]

/-- The bag stands for the map. -/
structure Rel (cb : Callbacks) (ix : Key → Nat) (s : Bag) (m : Map) : Prop where
  distinct : s.Distinct cb
  placed : s.Placed cb ix
  look : ∀ k, m k = ((s.bucket (ix k)).find? fun e => cb.cmp e.key k).map (·.datum)

theorem find_meets' {cb : Callbacks} (g : Good cb) (k : Key) (l : List Entry) : l.find? (Meets cb k) = l.find? fun e => cb.cmp e.key k := by
  congr 1; funext e; exact meets_good g k e

theorem any_meets {cb : Callbacks} (g : Good cb) (k : Key) (l : List Entry) : l.any (Meets cb k) = ((l.find? fun e => cb.cmp e.key k).map (·.datum)).isSome := by
  rw [Option.isSome_map, ← find_meets' g, List.isSome_find?]

theorem rel_get {cb : Callbacks} (g : Good cb) {ix : Key → Nat} {s : Bag} {m : Map} (R : Rel cb ix s m) (k : Key) :
    (s.step cb false ix (.get k)).1 = (specStep cb.cmp m (.get k)).1 := by
  simp only [Bag.step, specStep, find_meets' g, R.look k]

theorem rel_step {cb : Callbacks} (g : Good cb) {ix : Key → Nat} (hix : ∀ k k', cb.cmp k k' = true → ix k = ix k') {s : Bag} {m : Map} (R : Rel cb ix s m) (op : Op) :
    (s.step cb false ix op).1 = (specStep cb.cmp m op).1 ∧
    ((s.step cb false ix op).2.lost = s.lost → Rel cb ix (s.step cb false ix op).2 (specStep cb.cmp m op).2) ∧
    ((s.step cb false ix op).2.lost ≠ s.lost → ∃ k, ((s.step cb false ix op).2.step cb false ix (.get k)).1 ≠ (specStep cb.cmp (specStep cb.cmp m op).2 (.get k)).1) := by
  have hinv := bag_inv g ix [op] s R.distinct R.placed
  have hD : (s.step cb false ix op).2.Distinct cb := hinv.1
  have hP : (s.step cb false ix op).2.Placed cb ix := hinv.2
  cases op with
  | get k => exact ⟨rel_get g R k, fun _ => R, fun h => absurd rfl h⟩
  | set k d dl =>
      have e : (s.bucket (ix k)).any (Meets cb k) = (m k).isSome := by rw [any_meets g, R.look k]
      by_cases c : (m k).isSome
      · simp only [Bag.step, Bool.not_false, Bool.true_and, e, c, if_true, specStep]
        exact ⟨trivial, fun _ => R, fun h => absurd rfl h⟩
      · simp only [Bag.step, Bool.not_false, Bool.true_and, e, specStep, if_neg c] at hD hP ⊢
        refine ⟨trivial, fun _ => ⟨hD, hP, fun k' => ?_⟩, fun h => absurd rfl h⟩
        rw [put_eq]
        simp only
        by_cases hc : cb.cmp k k'
        · rw [if_pos hc, if_pos (hix k k' hc).symm, List.find?_cons]
          simp [hc]
        · rw [if_neg hc]
          split
          · rw [List.find?_cons]
            simp only [hc]
            rw [R.look k']
          · exact R.look k'
  | del k =>
      cases ht : taken (Meets cb k) (s.bucket (ix k)) with
      | none =>
          have hno : ∀ e ∈ s.bucket (ix k), cb.cmp e.key k = false := by
            intro e he
            cases hc : cb.cmp e.key k with
            | false => rfl
            | true =>
                exfalso
                have hm : ((s.bucket (ix k)).find? (Meets cb k)).isSome := by
                  rw [List.find?_isSome]; exact ⟨e, he, by rw [meets_good g]; exact hc⟩
                obtain ⟨x, hx⟩ := Option.isSome_iff_exists.mp hm
                obtain ⟨pre, post, e1, e2, e3⟩ := find_split _ _ _ hx
                rw [e1] at ht
                match pre, e3, ht with
                | [], _, ht => rw [List.nil_append, taken_first e2] at ht; cases ht
                | f :: mid, e3, ht =>
                    rw [List.cons_append, taken_later (e3 f (by simp)) (fun y hy => e3 y (by simp [hy])) e2] at ht; cases ht
          have hmk : m k = none := by
            rw [R.look k, Option.map_eq_none_iff, List.find?_eq_none]
            intro e he; simp [hno e he]
          simp only [Bag.step, ht, specStep, hmk]
          refine ⟨trivial, fun _ => ⟨R.distinct, R.placed, fun k' => ?_⟩, fun h => absurd rfl h⟩
          rw [put_eq]
          by_cases hc : cb.cmp k k'
          · rw [if_pos hc]
            symm
            rw [Option.map_eq_none_iff, List.find?_eq_none]
            intro e he hek
            have he' : e ∈ s.bucket (ix k) := by rw [hix k k' hc]; exact he
            exact absurd (hno e he') (by rw [g.trans _ _ _ hek (g.symm _ _ hc)]; simp)
          · rw [if_neg hc]; exact R.look k'
      | some v =>
          obtain ⟨d, r, z⟩ := v
          simp only [Bag.step, ht] at hD hP
          -- the match `x` is the only entry with the key
          have key : ∃ pre x post, s.bucket (ix k) = pre ++ x :: post ∧ cb.cmp x.key k = true ∧ x.datum = d ∧ (∀ y ∈ pre, cb.cmp y.key k = false) ∧
              ((z = [] ∧ r = pre ++ post) ∨ ∃ f, pre = f :: z ∧ r = f :: post) := by
            rcases taken_cases ht with ⟨x, h1, h2, h3, h4⟩ | ⟨f, x, post, h1, h2, h3, h4, h5, h6⟩
            · exact ⟨[], x, r, h1, by rw [← meets_good g]; exact h2, h3, by simp, .inl ⟨h4, rfl⟩⟩
            · refine ⟨f :: z, x, post, h1, by rw [← meets_good g]; exact h4, h5, ?_, .inr ⟨f, rfl, h2⟩⟩
              intro y hy
              rw [← meets_good g]
              rcases List.mem_cons.mp hy with rfl | hy
              · exact h3
              · exact h6 y hy
          obtain ⟨pre, x, post, hb, hx, hdx, hpre, hcase⟩ := key
          have hmk : m k = some d := by
            rw [R.look k, hb, List.find?_append, List.find?_eq_none.mpr (by intro y hy; simp [hpre y hy]), Option.none_or, List.find?_cons]
            simp [hx, hdx]
          have hdist := R.distinct (ix k)
          rw [hb, List.pairwise_append, List.pairwise_cons] at hdist
          have hpost : ∀ y ∈ post, cb.cmp y.key k = false := by
            intro y hy
            cases hc : cb.cmp y.key k with
            | false => rfl
            | true =>
                have := hdist.2.1.1 y hy
                rw [g.trans _ _ _ hx (g.symm _ _ hc)] at this; cases this
          simp only [Bag.step, ht, specStep, hmk]
          refine ⟨trivial, fun hl => ⟨hD, hP, fun k' => ?_⟩, fun hl => ?_⟩
          · have hz : z = [] := by
              have := congrArg List.length hl
              simp at this
              exact this
            subst hz
            have hr : r = pre ++ post := by
              rcases hcase with ⟨_, h⟩ | ⟨f, h1, h2⟩
              · exact h
              · rw [h1, h2]; rfl
            rw [put_eq]
            simp only
            by_cases hc : cb.cmp k k'
            · rw [if_pos hc, if_pos (hix k k' hc).symm]
              symm
              rw [Option.map_eq_none_iff, List.find?_eq_none, hr]
              intro y hy hyk
              have hyk' := g.trans _ _ _ hyk (g.symm _ _ hc)
              rcases List.mem_append.mp hy with h | h
              · rw [hpre y h] at hyk'; cases hyk'
              · rw [hpost y h] at hyk'; cases hyk'
            · rw [if_neg hc]
              split
              · rename_i he
                have hxk : cb.cmp x.key k' = false := by
                  cases hc' : cb.cmp x.key k' with
                  | false => rfl
                  | true => exact absurd (g.trans _ _ _ (g.symm _ _ hx) hc') hc
                rw [R.look k', he, hb, hr, List.find?_append, List.find?_append, List.find?_cons]
                simp [hxk]
              · exact R.look k'
          · rcases hcase with ⟨hz, _⟩ | ⟨f, hpf, hr⟩
            · exact absurd (by rw [hz]; rfl) hl
            · match z, hpf, hl with
              | [], _, hl => exact absurd rfl hl
              | y :: ys, hpf, _ =>
                  have hyk := hpre y (by rw [hpf]; simp)
                  have hiy : ix y.key = ix k := (R.placed (ix k) y (by rw [hb, hpf]; simp)).1
                  have hky : cb.cmp k y.key = false := by
                    cases hc : cb.cmp k y.key with
                    | false => rfl
                    | true => rw [g.symm _ _ hc] at hyk; cases hyk
                  refine ⟨y.key, ?_⟩
                  have hmy : m y.key = some y.datum := by
                    have hd' := R.distinct (ix k)
                    have := (find_datum g.symm g.trans ((s.bucket (ix k)).map fun y => (0, y)) (by rw [List.pairwise_map]; exact hd') y.key y.datum).2
                      ⟨(0, y), List.mem_map.mpr ⟨y, by rw [hb, hpf]; simp, rfl⟩, g.refl _, rfl⟩
                    rw [List.find?_map, Option.map_map] at this
                    rw [R.look y.key, hiy]
                    exact this
                  have hnone : r.find? (fun e => cb.cmp e.key y.key) = none := by
                    rw [List.find?_eq_none, hr]
                    intro w hw hwy
                    rcases List.mem_cons.mp hw with rfl | hw
                    · have hp := hdist.1
                      rw [hpf, List.pairwise_cons] at hp
                      rw [hp.1 y (by simp)] at hwy; cases hwy
                    · have := hdist.2.2 y (by rw [hpf]; simp) w (by simp [hw])
                      rw [g.symm _ _ hwy] at this; cases this
                  rw [put_eq, hky, hiy, if_pos rfl, find_meets' g, hnone, hmy]
                  simp [report]

theorem lossless_run {cb : Callbacks} (g : Good cb) {ix : Key → Nat} (hix : ∀ k k', cb.cmp k k' = true → ix k = ix k') (ops : List Op) :
    ∀ {s : Bag} {m : Map}, Rel cb ix s m → (s.run cb false ix ops).2.lost = s.lost →
      (s.run cb false ix ops).1 = (specRun cb.cmp m ops).1 ∧ Rel cb ix (s.run cb false ix ops).2 (specRun cb.cmp m ops).2 := by
  induction ops with
  | nil => intro s m R _; exact ⟨rfl, R⟩
  | cons op ops ih =>
      intro s m R hl
      rw [Bag.run] at hl
      obtain ⟨z1, h1⟩ := lost_suffix cb false ix s op
      obtain ⟨z2, h2⟩ := lost_suffix_run cb false ix ops (s.step cb false ix op).2
      simp only at hl
      have hz := hl
      rw [h2, h1] at hz
      have hlen := congrArg List.length hz
      simp only [List.length_append] at hlen
      have e1 : z1 = [] := List.length_eq_zero_iff.mp (by omega)
      have e2 : z2 = [] := List.length_eq_zero_iff.mp (by omega)
      subst e1; subst e2
      obtain ⟨a, b, _⟩ := rel_step g hix R op
      obtain ⟨c, d⟩ := ih (b h1) h2
      simp only [Bag.run, specRun, a, c]
      exact ⟨trivial, d⟩

theorem lossy_run {cb : Callbacks} (g : Good cb) {ix : Key → Nat} (hix : ∀ k k', cb.cmp k k' = true → ix k = ix k') (ops : List Op) :
    ∀ {s : Bag} {m : Map}, Rel cb ix s m → (s.run cb false ix ops).2.lost ≠ s.lost →
      ∃ p k, p <+: ops ∧ (s.run cb false ix (p ++ [.get k])).1 ≠ (specRun cb.cmp m (p ++ [.get k])).1 := by
  induction ops with
  | nil => intro s m R h; exact absurd rfl h
  | cons op ops ih =>
      intro s m R hl
      obtain ⟨a, b, c⟩ := rel_step g hix R op
      by_cases h1 : (s.step cb false ix op).2.lost = s.lost
      · have hl' : ((s.step cb false ix op).2.run cb false ix ops).2.lost ≠ (s.step cb false ix op).2.lost := by
          rw [h1]; simpa [Bag.run] using hl
        obtain ⟨p, k, hp, hne⟩ := ih (b h1) hl'
        refine ⟨op :: p, k, List.cons_prefix_cons.mpr ⟨rfl, hp⟩, fun h => hne ?_⟩
        simp only [List.cons_append, Bag.run, specRun, List.cons.injEq] at h
        exact h.2
      · obtain ⟨k, hk⟩ := c h1
        refine ⟨[op], k, List.cons_prefix_cons.mpr ⟨rfl, List.nil_prefix⟩, fun h => hk ?_⟩
        simp only [List.cons_append, List.nil_append, Bag.run, specRun, List.cons.injEq, and_true] at h
        exact h.2

theorem rel_init (cb : Callbacks) (ix : Key → Nat) : Rel cb ix ⟨fun _ => [], []⟩ fun _ => none :=
  ⟨fun _ => List.Pairwise.nil, fun _ _ h => by simp at h, fun _ => rfl⟩

theorem lost_prefix {cb : Callbacks} {dup : Bool} {ix : Key → Nat} {p ops : List Op} (hp : p <+: ops) (s : Bag) (h : (s.run cb dup ix ops).2.lost = s.lost) :
    (s.run cb dup ix p).2.lost = s.lost := by
  induction p generalizing ops s with
  | nil => rfl
  | cons op p ih =>
      match ops, hp with
      | op' :: ops, hp =>
        obtain ⟨rfl, hp'⟩ := List.cons_prefix_cons.mp hp
        obtain ⟨z1, h1⟩ := lost_suffix cb dup ix s op
        obtain ⟨z2, h2⟩ := lost_suffix_run cb dup ix ops (s.step cb dup ix op).2
        rw [Bag.run] at h ⊢
        simp only at h ⊢
        have hz := h
        rw [h2, h1] at hz
        have hlen := congrArg List.length hz
        simp only [List.length_append] at hlen
        have e1 : z1 = [] := List.length_eq_zero_iff.mp (by omega)
        subst e1
        rw [ih hp' _ (by rw [h, h1]; rfl), h1]; rfl

/-- **C17, exactly.** A history of a table without duplicates is that of a finite map at every point (whatever is looked up there) if and only if no deletion
in it finds its key in third or later place of the bucket, that is, if the bag loses nothing. -/
theorem history_map_iff (cb : Callbacks) (g : Good cb) (alloc : Tbl → Nat) (al : Allocator alloc) (hint : Nat) (useHint : Bool)
    (hr : InRange cb (init hint useHint false)) (ops : List Op) :
    (∀ p, p <+: ops → ∀ k, ∃ n, ∀ fuel ≥ n, ∃ T, run cb alloc fuel (init hint useHint false) (p ++ [.get k]) = .ok ((specRun cb.cmp (fun _ => none) (p ++ [.get k])).1, T)) ↔
    (Bag.run cb false (index cb (init hint useHint false)) ⟨fun _ => [], []⟩ ops).2.lost = [] := by
  have hix : ∀ k k', cb.cmp k k' = true → index cb (init hint useHint false) k = index cb (init hint useHint false) k' := fun k k' h => index_congr g _ h
  constructor
  · intro h
    refine Decidable.byContradiction fun hne => ?_
    obtain ⟨p, k, hp, hd⟩ := lossy_run g hix ops (rel_init cb _) hne
    obtain ⟨n1, h1⟩ := h p hp k
    obtain ⟨n2, h2⟩ := history_exact cb alloc al hint useHint false hr (p ++ [.get k])
    obtain ⟨T1, e1⟩ := h1 (max n1 n2) (by omega)
    obtain ⟨T2, e2, _⟩ := h2 (max n1 n2) (by omega)
    rw [e1] at e2
    simp only [Outcome.ok.injEq, Prod.mk.injEq] at e2
    exact hd e2.1.symm
  · intro h p hp k
    obtain ⟨n, hn⟩ := history_exact cb alloc al hint useHint false hr (p ++ [.get k])
    refine ⟨n, fun fuel hf => ?_⟩
    obtain ⟨T, e, _⟩ := hn fuel hf
    refine ⟨T, ?_⟩
    rw [e, bag_run_append, specRun_append]
    obtain ⟨a, R⟩ := lossless_run g hix p (rel_init cb _) (lost_prefix hp _ h)
    rw [a]
    have := rel_get g R k
    simp only [Bag.run, specRun, this]

/-- **C17** The same for the whole history: a history that loses nothing has the results of a finite map. -/
theorem history_lossless_partial (cb : Callbacks) (g : Good cb) (alloc : Tbl → Nat) (al : Allocator alloc) (hint : Nat) (useHint : Bool)
    (hr : InRange cb (init hint useHint false)) (ops : List Op) (h : (Bag.run cb false (index cb (init hint useHint false)) ⟨fun _ => [], []⟩ ops).2.lost = []) :
    ∃ n, ∀ fuel ≥ n, ∃ T, run cb alloc fuel (init hint useHint false) ops = .ok ((specRun cb.cmp (fun _ => none) ops).1, T) := by
  obtain ⟨n, hn⟩ := history_exact cb alloc al hint useHint false hr ops
  refine ⟨n, fun fuel hf => ?_⟩
  obtain ⟨T, e, _⟩ := hn fuel hf
  exact ⟨T, by rw [e, (lossless_run g (fun k k' h => index_congr g _ h) ops (rel_init cb _) h).1]⟩

/-- A history with four keys in one bucket, in which the first and second are deleted: nothing is lost. -/
example : (Bag.run constCb false (index constCb (init 0 false false)) ⟨fun _ => [], []⟩
    [.set (1, 1) 10 0, .set (2, 1) 20 0, .set (3, 1) 30 0, .set (4, 1) 40 0, .del (3, 1), .del (4, 1)]).2.lost = [] := by
  rw [init_default]; decide

/-! ## Duplicate keys -/

/-- Spec of a table with duplicates: a stack of data for each key. -/
def stackStep (cmp : Key → Key → Bool) (m : Multi) : Op → Res × Multi
  | .set k d _ => (.int 0, fun k' => if cmp k k' then d :: m k' else m k')
  | .get k => (.ret (report (m k).head?), m)
  | .del k => (.ret (report (m k).head?), fun k' => if cmp k k' then (m k').tail else m k')

def stackRun (cmp : Key → Key → Bool) : Multi → List Op → List Res × Multi
  | m, [] => ([], m)
  | m, op :: ops => ((stackStep cmp m op).1 :: (stackRun cmp (stackStep cmp m op).2 ops).1, (stackRun cmp (stackStep cmp m op).2 ops).2)

def RelD (cb : Callbacks) (ix : Key → Nat) (s : Bag) (m : Multi) : Prop := ∀ k, m k = ((s.bucket (ix k)).filter fun e => cb.cmp e.key k).map (·.datum)

theorem relD_get {cb : Callbacks} (g : Good cb) {ix : Key → Nat} {s : Bag} {m : Multi} (R : RelD cb ix s m) (k : Key) :
    (s.step cb true ix (.get k)).1 = (stackStep cb.cmp m (.get k)).1 := by
  simp only [Bag.step, stackStep, find_meets' g, R k, List.head?_map, List.head?_filter]

theorem relD_step {cb : Callbacks} (g : Good cb) {ix : Key → Nat} (hix : ∀ k k', cb.cmp k k' = true → ix k = ix k') {s : Bag} {m : Multi} (R : RelD cb ix s m) (op : Op) :
    (s.step cb true ix op).1 = (stackStep cb.cmp m op).1 ∧
    ((s.step cb true ix op).2.lost = s.lost → RelD cb ix (s.step cb true ix op).2 (stackStep cb.cmp m op).2) := by
  cases op with
  | get k => exact ⟨relD_get g R k, fun _ => R⟩
  | set k d dl =>
      simp only [Bag.step, Bool.not_true, Bool.false_and, Bool.false_eq_true, if_false, stackStep]
      refine ⟨trivial, fun _ k' => ?_⟩
      simp only
      by_cases hc : cb.cmp k k'
      · rw [if_pos hc, if_pos (hix k k' hc).symm, List.filter_cons, if_pos hc, R k']
        rfl
      · rw [if_neg hc]
        split
        · rw [List.filter_cons, if_neg hc]; exact R k'
        · exact R k'
  | del k =>
      cases ht : taken (Meets cb k) (s.bucket (ix k)) with
      | none =>
          have hno : ∀ e ∈ s.bucket (ix k), cb.cmp e.key k = false := by
            intro e he
            cases hc : cb.cmp e.key k with
            | false => rfl
            | true =>
                exfalso
                have hm : ((s.bucket (ix k)).find? (Meets cb k)).isSome := by
                  rw [List.find?_isSome]; exact ⟨e, he, by rw [meets_good g]; exact hc⟩
                obtain ⟨x, hx⟩ := Option.isSome_iff_exists.mp hm
                obtain ⟨pre, post, e1, e2, e3⟩ := find_split _ _ _ hx
                rw [e1] at ht
                match pre, e3, ht with
                | [], _, ht => rw [List.nil_append, taken_first e2] at ht; cases ht
                | f :: mid, e3, ht =>
                    rw [List.cons_append, taken_later (e3 f (by simp)) (fun y hy => e3 y (by simp [hy])) e2] at ht; cases ht
          have hnil : ∀ k', cb.cmp k k' = true → m k' = [] := by
            intro k' hc
            rw [R k', List.map_eq_nil_iff, List.filter_eq_nil_iff, ← hix k k' hc]
            intro e he hek
            have := hno e he
            rw [g.trans _ _ _ hek (g.symm _ _ hc)] at this; cases this
          simp only [Bag.step, ht, stackStep, hnil k (g.refl k), List.head?_nil]
          refine ⟨trivial, fun _ k' => ?_⟩
          simp only
          by_cases hc : cb.cmp k k'
          · rw [if_pos hc, ← R k', hnil k' hc]; rfl
          · rw [if_neg hc]; exact R k'
      | some v =>
          obtain ⟨d, r, z⟩ := v
          have key : ∃ pre x post, s.bucket (ix k) = pre ++ x :: post ∧ cb.cmp x.key k = true ∧ x.datum = d ∧ (∀ y ∈ pre, cb.cmp y.key k = false) ∧
              (z = [] → r = pre ++ post) := by
            rcases taken_cases ht with ⟨x, h1, h2, h3, h4⟩ | ⟨f, x, post, h1, h2, h3, h4, h5, h6⟩
            · exact ⟨[], x, r, h1, by rw [← meets_good g]; exact h2, h3, by simp, fun _ => rfl⟩
            · refine ⟨f :: z, x, post, h1, by rw [← meets_good g]; exact h4, h5, ?_, fun hz => by rw [h2, hz]; rfl⟩
              intro y hy
              rw [← meets_good g]
              rcases List.mem_cons.mp hy with rfl | hy
              · exact h3
              · exact h6 y hy
          obtain ⟨pre, x, post, hb, hx, hdx, hpre, hr⟩ := key
          have hcong : ∀ k', cb.cmp k k' = true → ∀ y : Entry, cb.cmp y.key k' = cb.cmp y.key k := by
            intro k' hc y
            cases h1 : cb.cmp y.key k with
            | true => exact g.trans _ _ _ h1 hc
            | false =>
                cases h2 : cb.cmp y.key k' with
                | false => rfl
                | true => rw [g.trans _ _ _ h2 (g.symm _ _ hc)] at h1; cases h1
          have hpf : ∀ k', cb.cmp k k' = true → (pre.filter fun e => cb.cmp e.key k') = [] := by
            intro k' hc
            rw [List.filter_eq_nil_iff]
            intro y hy; rw [hcong k' hc, hpre y hy]; simp
          have hfl : ∀ k', cb.cmp k k' = true → m k' = d :: (post.filter fun e => cb.cmp e.key k').map (·.datum) := by
            intro k' hc
            rw [R k', ← hix k k' hc, hb, List.filter_append, hpf k' hc, List.nil_append, List.filter_cons, if_pos (by rw [hcong k' hc]; exact hx)]
            simp [hdx]
          simp only [Bag.step, ht, stackStep, hfl k (g.refl k), List.head?_cons]
          refine ⟨trivial, fun hl k' => ?_⟩
          have hz : z = [] := by
            have := congrArg List.length hl
            simp at this
            exact this
          simp only
          by_cases hc : cb.cmp k k'
          · rw [if_pos hc, if_pos (hix k k' hc).symm, hfl k' hc, hr hz, List.filter_append, hpf k' hc]; rfl
          · rw [if_neg hc]
            split
            · rename_i he
              have hxk : cb.cmp x.key k' = false := by
                cases hc' : cb.cmp x.key k' with
                | false => rfl
                | true => exact absurd (g.trans _ _ _ (g.symm _ _ hx) hc') hc
              rw [R k', he, hb, hr hz, List.filter_append, List.filter_append, List.filter_cons]
              simp [hxk]
            · exact R k'

theorem lossless_runD {cb : Callbacks} (g : Good cb) {ix : Key → Nat} (hix : ∀ k k', cb.cmp k k' = true → ix k = ix k') (ops : List Op) :
    ∀ {s : Bag} {m : Multi}, RelD cb ix s m → (s.run cb true ix ops).2.lost = s.lost → (s.run cb true ix ops).1 = (stackRun cb.cmp m ops).1 := by
  induction ops with
  | nil => intro s m R _; rfl
  | cons op ops ih =>
      intro s m R hl
      rw [Bag.run] at hl
      obtain ⟨z1, h1⟩ := lost_suffix cb true ix s op
      obtain ⟨z2, h2⟩ := lost_suffix_run cb true ix ops (s.step cb true ix op).2
      simp only at hl
      have hz := hl
      rw [h2, h1] at hz
      have hlen := congrArg List.length hz
      simp only [List.length_append] at hlen
      have e1 : z1 = [] := List.length_eq_zero_iff.mp (by omega)
      have e2 : z2 = [] := List.length_eq_zero_iff.mp (by omega)
      subst e1; subst e2
      obtain ⟨a, b⟩ := relD_step g hix R op
      simp only [Bag.run, stackRun, a, ih (b h1) h2]

/-- **C60** With ZT_TABLE_ALLOW_DUP_KEYS every set adds an entry, get returns the datum most recently added for the key, and del removes that one only, in every
history in which no deletion finds its key in third or later place of the bucket (the bag loses nothing). Missing: the others, which lose entries (`dup_loses_violation`). -/
theorem dup_lossless_partial (cb : Callbacks) (g : Good cb) (alloc : Tbl → Nat) (al : Allocator alloc) (hint : Nat) (useHint : Bool)
    (hr : InRange cb (init hint useHint true)) (ops : List Op) (h : (Bag.run cb true (index cb (init hint useHint true)) ⟨fun _ => [], []⟩ ops).2.lost = []) :
    ∃ n, ∀ fuel ≥ n, ∃ T, run cb alloc fuel (init hint useHint true) ops = .ok ((stackRun cb.cmp (fun _ => []) ops).1, T) := by
  obtain ⟨n, hn⟩ := history_exact cb alloc al hint useHint true hr ops
  refine ⟨n, fun fuel hf => ?_⟩
  obtain ⟨T, e, _⟩ := hn fuel hf
  exact ⟨T, by rw [e, lossless_runD g (fun k k' h => index_congr g _ h) ops (s := ⟨fun _ => [], []⟩) (m := fun _ => []) (fun _ => rfl) h]⟩

theorem init_default_dup : init 0 false true = ⟨1, true, 2, fun _ => none, fun _ => none⟩ := by
  simp [init, sizeFor, pickSize, powersOf2, nbits, nbitsLoop]

/-- Violation of C60: a deletion takes another key's entries with it. The last lookup should find 20. -/
theorem dup_loses_violation :
    (run constCb alloc4 10 (init 0 false true) [.set (1, 1) 10 0, .set (2, 1) 20 0, .set (3, 1) 30 0, .del (1, 1), .get (2, 1)] >>= fun r => pure r.1) =
      .ok [.int 0, .int 0, .int 0, .ret ⟨10, false⟩, .ret ⟨0, true⟩] ∧
    (stackRun constCb.cmp (fun _ => []) [.set (1, 1) 10 0, .set (2, 1) 20 0, .set (3, 1) 30 0, .del (1, 1), .get (2, 1)]).1 =
      [.int 0, .int 0, .int 0, .ret ⟨10, false⟩, .ret ⟨20, false⟩] := by
  rw [init_default_dup]
  decide

/-- Two data of one key, one of another, and deletions that lose nothing. -/
example : (Bag.run constCb true (index constCb (init 0 false true)) ⟨fun _ => [], []⟩ [.set (1, 1) 10 0, .set (1, 1) 11 0, .set (2, 1) 20 0, .del (1, 1), .get (1, 1), .del (1, 1)]).2.lost = [] ∧
    (stackRun constCb.cmp (fun _ => []) [.set (1, 1) 10 0, .set (1, 1) 11 0, .set (2, 1) 20 0, .del (1, 1), .get (1, 1), .del (1, 1)]).1 =
      [.int 0, .int 0, .int 0, .ret ⟨11, false⟩, .ret ⟨10, false⟩, .ret ⟨10, false⟩] := by
  rw [init_default_dup]; decide

end ZT.Table
