import Verif.Table.Model

namespace ZT.Table

/-- The chain of nodes starting at `p` consists of the nodes `l` (addresses and contents) and ends in NULL. -/
def Chain (H : Nat → Option Node) : Ptr → List (Nat × Entry) → Prop
  | p, [] => p = none
  | p, (a, e) :: l => p = some a ∧ ∃ nx, H a = some ⟨e, nx⟩ ∧ Chain H nx l

def adr (l : List (Nat × Entry)) : List Nat := l.map (·.1)

@[simp] theorem adr_nil : adr [] = [] := rfl
@[simp] theorem adr_cons (x : Nat × Entry) (l) : adr (x :: l) = x.1 :: adr l := rfl
@[simp] theorem adr_append (l m) : adr (l ++ m) = adr l ++ adr m := by simp [adr]

theorem chain_frame {H H' : Nat → Option Node} (l : List (Nat × Entry)) (p : Ptr) (hf : ∀ a ∈ adr l, H' a = H a) (h : Chain H p l) :
    Chain H' p l := by
  induction l generalizing p with
  | nil => exact h
  | cons x xs ih =>
      obtain ⟨a, e⟩ := x
      obtain ⟨hp, nx, hn, h⟩ := h
      exact ⟨hp, nx, by rw [hf a (by simp)]; exact hn, ih nx (fun b hb => hf b (by simp [hb])) h⟩

theorem chain_live {H : Nat → Option Node} (l : List (Nat × Entry)) (p : Ptr) (h : Chain H p l) : ∀ a ∈ adr l, H a ≠ none := by
  induction l generalizing p with
  | nil => simp
  | cons x xs ih =>
      obtain ⟨a, e⟩ := x
      obtain ⟨hp, nx, hn, h⟩ := h
      intro b hb
      rcases List.mem_cons.mp hb with rfl | hb
      · rw [hn]; simp
      · exact ih nx h b hb

/-- The heap of `T` holds the chains `C`, one per bucket, without sharing; every entry is in the bucket of its key. -/
structure Rep (cb : Callbacks) (T : Tbl) (C : Nat → List (Nat × Entry)) : Prop where
  chain : ∀ i, Chain T.heap (T.buckets i) (C i)
  nodup : ∀ i, (adr (C i)).Nodup
  disj : ∀ i j a, a ∈ adr (C i) → a ∈ adr (C j) → i = j
  hash : ∀ i x, x ∈ C i → x.2.hash = cb.hash x.2.key ∧ index cb T x.2.key = i ∧ i < T.num

/-- Every live node is in a chain. -/
def Live (T : Tbl) (C : Nat → List (Nat × Entry)) : Prop := ∀ a, T.heap a ≠ none → ∃ i, a ∈ adr (C i)

theorem find_spec (cb : Callbacks) (T : Tbl) (key : Key) (l : List (Nat × Entry)) (p : Ptr) (fuel : Nat) (h : Chain T.heap p l)
    (hf : l.length < fuel) : find cb T key fuel p = .ok (l.find? fun x => hit cb x.2 key) := by
  induction l generalizing p fuel with
  | nil =>
      simp only [Chain] at h; subst h
      match fuel, hf with
      | f + 1, _ => rfl
  | cons x xs ih =>
      obtain ⟨a, e⟩ := x
      obtain ⟨rfl, nx, hn, h⟩ := h
      match fuel, hf with
      | f + 1, hf =>
        rw [find, load, hn]
        simp only [Outcome.ok_bind]
        by_cases c : hit cb e key
        · simp [c]
        · simp only [c, Bool.false_eq_true, if_false]
          rw [ih nx f h (by simp at hf; omega)]
          simp [c]

/-- The pure comparison on entries whose hash is right. -/
theorem hit_eq {cb : Callbacks} {T : Tbl} {C} (R : Rep cb T C) (hc : ∀ k k', cb.cmp k k' = true → cb.hash k = cb.hash k')
    {i : Nat} {x : Nat × Entry} (hx : x ∈ C i) (k : Key) : hit cb x.2 k = cb.cmp x.2.key k := by
  rw [hit, (R.hash i x hx).1]
  by_cases c : cb.cmp x.2.key k
  · simp [c, hc _ _ c]
  · simp [c]

def upd {α : Type} (f : Nat → α) (i : Nat) (v : α) : Nat → α := fun j => if j = i then v else f j
theorem upd_eq {α : Type} (f : Nat → α) (i : Nat) (v : α) (j : Nat) : upd f i v j = if j = i then v else f j := rfl

/-- The table after linking a new node in front of bucket `i`. -/
def pushed (T : Tbl) (i a : Nat) (e : Entry) : Tbl :=
  { T with heap := fun x => if x = a then some ⟨e, T.buckets i⟩ else T.heap x, buckets := fun j => if j = i then some a else T.buckets j }

theorem pushed_rep {cb : Callbacks} {T : Tbl} {C} (R : Rep cb T C) (i a : Nat) (e : Entry) (ha : T.heap a = none) (hh : e.hash = cb.hash e.key)
    (hi : index cb T e.key = i) (hn : i < T.num) : Rep cb (pushed T i a e) (upd C i ((a, e) :: C i)) := by
  have hout : ∀ j, a ∉ adr (C j) := fun j hm => chain_live _ _ (R.chain j) a hm ha
  have hfr : ∀ j p, Chain T.heap p (C j) → Chain (pushed T i a e).heap p (C j) := fun j p h =>
    chain_frame (C j) p (fun b hb => by
      have : b ≠ a := fun h => hout j (h ▸ hb)
      simp [pushed, this]) h
  constructor
  · intro j
    rw [upd_eq]
    by_cases c : j = i
    · subst c
      simp only [if_true]
      refine ⟨by simp [pushed], T.buckets j, by simp [pushed], hfr j _ (R.chain j)⟩
    · simp only [c, if_false]
      have : (pushed T i a e).buckets j = T.buckets j := by simp [pushed, c]
      rw [this]; exact hfr j _ (R.chain j)
  · intro j
    rw [upd_eq]
    split
    · simp only [adr_cons, List.nodup_cons]; exact ⟨hout i, R.nodup i⟩
    · exact R.nodup j
  · intro j k b
    rw [upd_eq, upd_eq]
    have := R.disj j k b
    have := hout j
    have := hout k
    have hd := R.disj
    split <;> split <;> (try simp only [adr_cons, List.mem_cons]) <;> grind
  · intro j x hx
    rw [upd_eq] at hx
    have hind : ∀ k, index cb (pushed T i a e) k = index cb T k := fun k => rfl
    rw [hind]
    split at hx
    · subst_vars
      rcases List.mem_cons.mp hx with rfl | hx
      · exact ⟨hh, rfl, hn⟩
      · exact R.hash _ x hx
    · exact R.hash j x hx

theorem pushed_live {T : Tbl} {C} (L : Live T C) (i a : Nat) (e : Entry) : Live (pushed T i a e) (upd C i ((a, e) :: C i)) := by
  intro b hb
  by_cases c : b = a
  · exact ⟨i, by rw [upd_eq]; simp [c]⟩
  · have : T.heap b ≠ none := by simpa [pushed, c] using hb
    obtain ⟨j, hj⟩ := L b this
    refine ⟨j, ?_⟩
    rw [upd_eq]
    split
    · subst_vars; simp [hj]
    · exact hj

theorem set_spec {cb : Callbacks} {T : Tbl} {C} (R : Rep cb T C) (fuel : Nat) (key : Key) (d dl a : Nat)
    (hi : index cb T key < T.num) (hf : (C (index cb T key)).length < fuel) :
    set cb fuel T key d dl a =
      if !T.dup && ((C (index cb T key)).find? fun x => hit cb x.2 key).isSome then .ok (1, T)
      else .ok (0, pushed T (index cb T key) a ⟨key, d, dl, cb.hash key⟩) := by
  unfold set
  simp only [bucket, hi, if_true, Outcome.ok_bind]
  have hp : (do
      let T' ← setBucket (updHeap T a (some ⟨⟨key, d, dl, cb.hash key⟩, T.buckets (index cb T key)⟩)) (index cb T key) (some a)
      pure ((0 : Int), T')) = Outcome.ok (0, pushed T (index cb T key) a ⟨key, d, dl, cb.hash key⟩) := by
    simp [setBucket, updHeap, hi, pushed]
  by_cases hd : T.dup
  · simp only [hd, if_true, Outcome.pure_eq, Outcome.ok_bind]
    simpa using hp
  · simp only [hd, Bool.false_eq_true, if_false]
    rw [find_spec cb T key _ _ fuel (R.chain _) hf]
    simp only [Outcome.ok_bind]
    cases hfi : (C (index cb T key)).find? fun x => hit cb x.2 key with
    | none => simpa using hp
    | some x => simp

theorem get_spec {cb : Callbacks} {T : Tbl} {C} (R : Rep cb T C) (fuel : Nat) (key : Key)
    (hi : index cb T key < T.num) (hf : (C (index cb T key)).length < fuel) :
    get cb fuel T key = .ok (match (C (index cb T key)).find? fun x => hit cb x.2 key with
      | some x => ⟨x.2.datum, false⟩
      | none => ⟨0, true⟩) := by
  unfold get
  simp only [bucket, hi, if_true, Outcome.ok_bind]
  rw [find_spec cb T key _ _ fuel (R.chain _) hf]
  simp only [Outcome.ok_bind]
  split <;> simp [*]

/-- The unlinking done when the node `a` (entry `e`, successor `nx`) is found. -/
def delAct (T : Tbl) (i : Nat) (prev : Ptr) (a : Nat) (e : Entry) (nx : Ptr) : Outcome (Ret × Tbl) := do
  let T ← if prev = some a then setBucket T i nx else
    match prev with
    | some p => setNext T p nx
    | none => .ub
  let T ← release T a
  pure (⟨e.datum, false⟩, T)

theorem delLoop_miss (cb : Callbacks) (T : Tbl) (key : Key) (i : Nat) (prev : Ptr) (l : List (Nat × Entry)) (p : Ptr) (fuel : Nat)
    (h : Chain T.heap p l) (hm : ∀ x ∈ l, hit cb x.2 key = false) (hf : l.length < fuel) :
    delLoop cb T key i prev fuel p = .ok (⟨0, true⟩, T) := by
  induction l generalizing p fuel with
  | nil =>
      simp only [Chain] at h; subst h
      match fuel, hf with
      | f + 1, _ => rfl
  | cons x xs ih =>
      obtain ⟨a, e⟩ := x
      obtain ⟨rfl, nx, hn, h⟩ := h
      match fuel, hf with
      | f + 1, hf =>
        have c : hit cb e key = false := hm (a, e) (by simp)
        rw [delLoop, load, hn]
        simp only [Outcome.ok_bind, c, Bool.false_eq_true, if_false]
        exact ih nx f h (fun x hx => hm x (by simp [hx])) (by simp at hf; omega)

theorem delLoop_hit (cb : Callbacks) (T : Tbl) (key : Key) (i : Nat) (prev : Ptr) (pre post : List (Nat × Entry)) (a : Nat) (e : Entry) (p : Ptr)
    (fuel : Nat) (h : Chain T.heap p (pre ++ (a, e) :: post)) (hm : ∀ x ∈ pre, hit cb x.2 key = false) (he : hit cb e key = true)
    (hf : pre.length < fuel) :
    ∃ nx, T.heap a = some ⟨e, nx⟩ ∧ Chain T.heap nx post ∧ delLoop cb T key i prev fuel p = delAct T i prev a e nx := by
  induction pre generalizing p fuel with
  | nil =>
      obtain ⟨rfl, nx, hn, h⟩ := h
      match fuel, hf with
      | f + 1, _ =>
        refine ⟨nx, hn, h, ?_⟩
        rw [delLoop, load, hn]
        simp only [Outcome.ok_bind, he, if_true]
        rfl
  | cons x xs ih =>
      obtain ⟨b, f'⟩ := x
      obtain ⟨rfl, nx, hn, h⟩ := h
      match fuel, hf with
      | f + 1, hf =>
        have c : hit cb f' key = false := hm (b, f') (by simp)
        obtain ⟨nx', h1, h2, h3⟩ := ih nx f h (fun x hx => hm x (by simp [hx])) (by simp at hf; omega)
        refine ⟨nx', h1, h2, ?_⟩
        rw [delLoop, load, hn]
        simp only [Outcome.ok_bind, c, Bool.false_eq_true, if_false]
        exact h3

/-- The table after a deletion of `a` found as first node of bucket `i`. -/
def unlink0 (T : Tbl) (i a : Nat) (nx : Ptr) : Tbl :=
  { T with buckets := fun j => if j = i then nx else T.buckets j, heap := fun x => if x = a then none else T.heap x }
/-- The table after a deletion of `a` found behind the first node `b` (entry `f`). -/
def unlink1 (T : Tbl) (a b : Nat) (f : Entry) (nx : Ptr) : Tbl :=
  { T with heap := fun x => if x = a then none else if x = b then some ⟨f, nx⟩ else T.heap x }

/-- What zt_table_del does to the chains. -/
theorem del_miss {cb : Callbacks} {T : Tbl} {C} (R : Rep cb T C) (fuel : Nat) (key : Key) (hi : index cb T key < T.num)
    (hm : ∀ x ∈ C (index cb T key), hit cb x.2 key = false) (hf : (C (index cb T key)).length < fuel) :
    del cb fuel T key = .ok (⟨0, true⟩, T) := by
  unfold del
  simp only [bucket, hi, if_true, Outcome.ok_bind]
  exact delLoop_miss cb T key _ _ _ _ fuel (R.chain _) hm hf

theorem del_first_heap {cb : Callbacks} {T : Tbl} {C} (R : Rep cb T C) (fuel : Nat) (key : Key) (hi : index cb T key < T.num)
    (a : Nat) (e : Entry) (post) (hC : C (index cb T key) = (a, e) :: post) (he : hit cb e key = true)
    (hf : (C (index cb T key)).length < fuel) :
    ∃ T', del cb fuel T key = .ok (⟨e.datum, false⟩, T') ∧ Rep cb T' (upd C (index cb T key) post) ∧
      T'.nbits = T.nbits ∧ T'.num = T.num ∧ T'.dup = T.dup ∧ (Live T C → Live T' (upd C (index cb T key) post)) ∧ ∀ x, T'.heap x ≠ none ↔ x ≠ a ∧ T.heap x ≠ none := by
  have hc := R.chain (index cb T key)
  rw [hC] at hc hf
  obtain ⟨nx, h1, h2, h3⟩ := delLoop_hit cb T key (index cb T key) (T.buckets (index cb T key)) [] post a e _ fuel hc (by simp) he (by simp at hf ⊢; omega)
  have hb : T.buckets (index cb T key) = some a := hc.1
  refine ⟨unlink0 T (index cb T key) a nx, ?_, ?_, rfl, rfl, rfl, ?_, fun x => by by_cases c : x = a <;> simp [unlink0, c]⟩
  · unfold del
    simp only [bucket, hi, if_true, Outcome.ok_bind]
    rw [h3, delAct.eq_def, hb]
    simp [setBucket, hi, release, load, h1, updHeap, unlink0]
  · have hnd := R.nodup (index cb T key)
    rw [hC] at hnd
    simp only [adr_cons, List.nodup_cons] at hnd
    have hfr : ∀ l p, a ∉ adr l → Chain T.heap p l → Chain (unlink0 T (index cb T key) a nx).heap p l := fun l p hl h =>
      chain_frame l p (fun b hb => by
        have : b ≠ a := fun h => hl (h ▸ hb)
        simp [unlink0, this]) h
    have hout : ∀ j, j ≠ index cb T key → a ∉ adr (C j) := fun j hj hm => hj (R.disj j _ a hm (by rw [hC]; simp))
    constructor
    · intro j
      rw [upd_eq]
      by_cases c : j = index cb T key
      · subst c
        simp only [if_true]
        have : (unlink0 T (index cb T key) a nx).buckets (index cb T key) = nx := by simp [unlink0]
        rw [this]; exact hfr _ _ hnd.1 h2
      · simp only [c, if_false]
        have : (unlink0 T (index cb T key) a nx).buckets j = T.buckets j := by simp [unlink0, c]
        rw [this]; exact hfr _ _ (hout j c) (R.chain j)
    · intro j
      rw [upd_eq]
      split
      · exact hnd.2
      · exact R.nodup j
    · intro j k b
      have hpost : b ∈ adr post → b ∈ adr (C (index cb T key)) := fun h => by rw [hC]; simp [h]
      have hd := R.disj
      rw [upd_eq, upd_eq]
      split <;> split <;> grind
    · intro j x hx
      rw [upd_eq] at hx
      split at hx
      · subst_vars
        exact R.hash _ x (by rw [hC]; simp [hx])
      · exact R.hash j x hx
  · intro L b hb
    by_cases c : b = a
    · simp [unlink0, c] at hb
    · have : T.heap b ≠ none := by simpa [unlink0, c] using hb
      obtain ⟨j, hj⟩ := L b this
      refine ⟨j, ?_⟩
      rw [upd_eq]
      split
      · subst_vars; rw [hC] at hj; simpa [c] using hj
      · exact hj

theorem del_first {cb : Callbacks} {T : Tbl} {C} (R : Rep cb T C) (fuel : Nat) (key : Key) (hi : index cb T key < T.num)
    (a : Nat) (e : Entry) (post) (hC : C (index cb T key) = (a, e) :: post) (he : hit cb e key = true)
    (hf : (C (index cb T key)).length < fuel) :
    ∃ T', del cb fuel T key = .ok (⟨e.datum, false⟩, T') ∧ Rep cb T' (upd C (index cb T key) post) ∧
      T'.nbits = T.nbits ∧ T'.num = T.num ∧ T'.dup = T.dup ∧ (Live T C → Live T' (upd C (index cb T key) post)) := by
  obtain ⟨T', h1, h2, h3, h4, h5, h6, _⟩ := del_first_heap R fuel key hi a e post hC he hf
  exact ⟨T', h1, h2, h3, h4, h5, h6⟩

/-- Deleting a node that is not the first of its bucket also unlinks every node between the first and it. -/
theorem del_later_heap {cb : Callbacks} {T : Tbl} {C} (R : Rep cb T C) (fuel : Nat) (key : Key) (hi : index cb T key < T.num)
    (b : Nat) (f : Entry) (mid : List (Nat × Entry)) (a : Nat) (e : Entry) (post) (hC : C (index cb T key) = (b, f) :: (mid ++ (a, e) :: post))
    (hm : ∀ x ∈ (b, f) :: mid, hit cb x.2 key = false) (he : hit cb e key = true) (hf : (C (index cb T key)).length < fuel) :
    ∃ T', del cb fuel T key = .ok (⟨e.datum, false⟩, T') ∧ Rep cb T' (upd C (index cb T key) ((b, f) :: post)) ∧
      T'.nbits = T.nbits ∧ T'.num = T.num ∧ T'.dup = T.dup ∧ (mid = [] → Live T C → Live T' (upd C (index cb T key) ((b, f) :: post))) ∧
      (∀ x ∈ mid, T'.heap x.1 ≠ none) ∧ ∀ x, T'.heap x ≠ none ↔ x ≠ a ∧ T.heap x ≠ none := by
  have hc := R.chain (index cb T key)
  have hnd := R.nodup (index cb T key)
  have hdj := R.disj
  rw [hC] at hc hf hnd
  have hc' : Chain T.heap (T.buckets (index cb T key)) (((b, f) :: mid) ++ (a, e) :: post) := hc
  obtain ⟨nx, h1, h2, h3⟩ := delLoop_hit cb T key (index cb T key) (T.buckets (index cb T key)) ((b, f) :: mid) post a e _ fuel hc' hm he
    (by simp at hf ⊢; omega)
  obtain ⟨hb, nb, hnb, hrest⟩ := hc
  simp only [adr_cons, adr_append, List.nodup_cons, List.nodup_append, List.mem_append, List.mem_cons, not_or] at hnd
  have hba : b ≠ a := hnd.1.2.1
  refine ⟨unlink1 T a b f nx, ?_, ?_, rfl, rfl, rfl, ?_, ?_, fun x => by by_cases c : x = a <;> by_cases c' : x = b <;> simp [unlink1, c, c', hnb, hba]⟩
  · unfold del
    simp only [bucket, hi, if_true, Outcome.ok_bind]
    rw [h3, delAct.eq_def, hb]
    simp [hba, setNext, release, load, h1, hnb, updHeap, unlink1, Ne.symm hba]
  · have hfr : ∀ l p, a ∉ adr l → b ∉ adr l → Chain T.heap p l → Chain (unlink1 T a b f nx).heap p l := fun l p hl hl' h =>
      chain_frame l p (fun x hx => by
        have h1 : x ≠ a := fun h => hl (h ▸ hx)
        have h2 : x ≠ b := fun h => hl' (h ▸ hx)
        simp [unlink1, h1, h2]) h
    have hin : ∀ x, x = a ∨ x = b ∨ x ∈ adr post → x ∈ adr (C (index cb T key)) := fun x hx => by
      rw [hC]; simp only [adr_cons, adr_append, List.mem_cons, List.mem_append]; grind
    have hout : ∀ j, j ≠ index cb T key → a ∉ adr (C j) ∧ b ∉ adr (C j) := fun j hj =>
      ⟨fun hm => hj (R.disj j _ a hm (hin a (by simp))), fun hm => hj (R.disj j _ b hm (hin b (by simp)))⟩
    constructor
    · intro j
      rw [upd_eq]
      by_cases c : j = index cb T key
      · subst c
        simp only [if_true]
        refine ⟨hb, nx, by simp [unlink1, hba], hfr _ _ hnd.2.2.1.1 hnd.1.2.2 h2⟩
      · simp only [c, if_false]
        exact hfr _ _ (hout j c).1 (hout j c).2 (R.chain j)
    · intro j
      rw [upd_eq]
      split
      · simp only [adr_cons, List.nodup_cons]; exact ⟨hnd.1.2.2, hnd.2.2.1.2⟩
      · exact R.nodup j
    · intro j k x
      have hx := hin x
      rw [upd_eq, upd_eq]
      split <;> split <;> (try simp only [adr_cons, List.mem_cons]) <;> grind
    · intro j x hx
      rw [upd_eq] at hx
      split at hx
      · subst_vars
        refine R.hash _ x ?_
        rw [hC]
        rcases List.mem_cons.mp hx with rfl | hx
        · simp
        · simp [hx]
      · exact R.hash j x hx
  · rintro rfl L x hx
    by_cases c : x = a
    · simp [unlink1, c] at hx
    · have : T.heap x ≠ none := by
        by_cases c' : x = b
        · rw [c', hnb]; simp
        · simpa [unlink1, c, c'] using hx
      obtain ⟨j, hj⟩ := L x this
      refine ⟨j, ?_⟩
      rw [upd_eq]
      split
      · subst_vars; rw [hC] at hj; simpa [c] using hj
      · exact hj
  · intro x hx
    have hxm : x.1 ∈ adr mid := List.mem_map.mpr ⟨x, hx, rfl⟩
    have h1 : x.1 ≠ a := hnd.2.2.2 x.1 hxm a (by simp)
    have h2 : x.1 ≠ b := fun h => hnd.1.1 (h ▸ hxm)
    have := chain_live _ _ (R.chain (index cb T key)) x.1 (by rw [hC]; simp [hxm])
    simpa [unlink1, h1, h2] using this

theorem del_later {cb : Callbacks} {T : Tbl} {C} (R : Rep cb T C) (fuel : Nat) (key : Key) (hi : index cb T key < T.num)
    (b : Nat) (f : Entry) (mid : List (Nat × Entry)) (a : Nat) (e : Entry) (post) (hC : C (index cb T key) = (b, f) :: (mid ++ (a, e) :: post))
    (hm : ∀ x ∈ (b, f) :: mid, hit cb x.2 key = false) (he : hit cb e key = true) (hf : (C (index cb T key)).length < fuel) :
    ∃ T', del cb fuel T key = .ok (⟨e.datum, false⟩, T') ∧ Rep cb T' (upd C (index cb T key) ((b, f) :: post)) ∧
      T'.nbits = T.nbits ∧ T'.num = T.num ∧ T'.dup = T.dup ∧ (mid = [] → Live T C → Live T' (upd C (index cb T key) ((b, f) :: post))) ∧
      (∀ x ∈ mid, T'.heap x.1 ≠ none) := by
  obtain ⟨T', h1, h2, h3, h4, h5, h6, h7, _⟩ := del_later_heap R fuel key hi b f mid a e post hC hm he hf
  exact ⟨T', h1, h2, h3, h4, h5, h6, h7⟩

/-- Sequential processing of entries by an iterator until it returns nonzero. -/
def visit {σ : Type} (it : Entry → σ → Outcome (Int × σ)) : List Entry → σ → Outcome (Int × σ)
  | [], s => .ok (0, s)
  | e :: es, s => do
      let (r, s) ← it e s
      if r ≠ 0 then pure (r, s) else visit it es s

theorem visit_append {σ : Type} (it : Entry → σ → Outcome (Int × σ)) (l m : List Entry) (s : σ) :
    visit it (l ++ m) s = (visit it l s >>= fun rs => if rs.1 ≠ 0 then pure rs else visit it m rs.2) := by
  induction l generalizing s with
  | nil => simp [visit]
  | cons e es ih =>
      simp only [List.cons_append, visit]
      cases it e s with
      | abort => rfl
      | ub => rfl
      | ok rs =>
          simp only [Outcome.ok_bind]
          by_cases c : rs.1 = 0
          · simp [c, ih]
          · simp [c]

theorem eachChain_spec {σ : Type} (it : Entry → σ → Outcome (Int × σ)) (T : Tbl) (l : List (Nat × Entry)) (p : Ptr) (fuel : Nat) (s : σ)
    (h : Chain T.heap p l) (hf : l.length < fuel) : eachChain it T fuel p s = visit it (l.map (·.2)) s := by
  induction l generalizing p fuel s with
  | nil =>
      simp only [Chain] at h; subst h
      match fuel, hf with
      | f + 1, _ => rfl
  | cons x xs ih =>
      obtain ⟨a, e⟩ := x
      obtain ⟨rfl, nx, hn, h⟩ := h
      match fuel, hf with
      | f + 1, hf =>
        rw [eachChain, load, hn]
        simp only [Outcome.ok_bind, List.map_cons, visit]
        cases it e s with
        | abort => rfl
        | ub => rfl
        | ok rs =>
          simp only [Outcome.ok_bind]
          by_cases c : rs.1 = 0
          · simp only [c, ne_eq, not_true, if_false]; exact ih nx f rs.2 h (by simp at hf; omega)
          · simp [c]

/-- All entries of buckets `i .. i+k-1`, in order. -/
def slice (C : Nat → List (Nat × Entry)) : (k i : Nat) → List Entry
  | 0, _ => []
  | k + 1, i => (C i).map (·.2) ++ slice C k (i + 1)

theorem eachLoop_spec {σ : Type} (it : Entry → σ → Outcome (Int × σ)) (T : Tbl) (C) (fuel : Nat) (k i : Nat) (s : σ)
    (hch : ∀ j, Chain T.heap (T.buckets j) (C j)) (hf : ∀ j, (C j).length < fuel) (hk : i + k ≤ T.num) :
    eachLoop it T fuel k i s = visit it (slice C k i) s := by
  induction k generalizing i s with
  | zero => rfl
  | succ k ih =>
      rw [eachLoop, slice, visit_append, bucket, if_pos (by omega)]
      simp only [Outcome.ok_bind]
      rw [eachChain_spec it T _ _ fuel s (hch i) (hf i)]
      cases visit it ((C i).map (·.2)) s with
      | abort => rfl
      | ub => rfl
      | ok rs =>
          simp only [Outcome.ok_bind]
          by_cases c : rs.1 = 0
          · simp only [c, ne_eq, not_true, if_false]; exact ih (i + 1) rs.2 (by omega)
          · simp [c]

theorem mem_slice (C : Nat → List (Nat × Entry)) (k i : Nat) (e : Entry) :
    e ∈ slice C k i ↔ ∃ j, i ≤ j ∧ j < i + k ∧ ∃ a, (a, e) ∈ C j := by
  induction k generalizing i with
  | zero => simp [slice]; intros; omega
  | succ k ih =>
      rw [slice, List.mem_append, ih]
      simp only [List.mem_map, Prod.exists, exists_eq_right]
      constructor
      · rintro (⟨a, h⟩ | ⟨j, h1, h2, h3⟩)
        · exact ⟨i, by omega, by omega, a, h⟩
        · exact ⟨j, by omega, by omega, h3⟩
      · rintro ⟨j, h1, h2, h3⟩
        by_cases c : j = i
        · subst c; exact .inl h3
        · exact .inr ⟨j, by omega, by omega, h3⟩

theorem pairwise_slice {R : Entry → Entry → Prop} (C : Nat → List (Nat × Entry)) (k i : Nat)
    (h1 : ∀ j, ((C j).map (·.2)).Pairwise R) (h2 : ∀ j j' x y, j < j' → x ∈ C j → y ∈ C j' → R x.2 y.2) : (slice C k i).Pairwise R := by
  induction k generalizing i with
  | zero => simp [slice]
  | succ k ih =>
      rw [slice, List.pairwise_append]
      refine ⟨h1 i, ih (i + 1), ?_⟩
      intro x hx y hy
      obtain ⟨⟨a, x'⟩, hx', rfl⟩ := List.mem_map.mp hx
      obtain ⟨j, hj, _, b, hb⟩ := (mem_slice _ _ _ _).mp hy
      exact h2 i j _ _ (by omega) hx' hb

end ZT.Table
