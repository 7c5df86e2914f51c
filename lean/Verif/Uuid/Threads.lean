import Verif.Uuid.Props
import Verif.Random.Props

/-!
# zt_uuid4 with threads (C108)

`zt_uuid4_get_ctx` keeps one generator per thread (pthread_getspecific), but zt_uuid4 stores the pointer to it in a variable that all threads share, and whether a generator
has been seeded is also one flag for all threads. The model has the steps of a call between which another thread may run; the steps themselves are atomic.
-/

namespace ZT.Uuid.Threads

open Random (State Word srandom uint32 INITIALIZED)

/-- The process: the thread-specific generators (`none`: NULL), the thread whose generator the shared pointer `state` (zt_uuid.c 68) designates, `rand_initialized` (line 69), and the words drawn so far by the call each thread is in. -/
structure W where
  ctx : Nat → Option State
  cur : Nat
  init : Bool
  drawn : Nat → List Word

/-- zt_calloc(zt_random_state, 1) -/
@[irreducible] def zeroed : State := ⟨List.replicate 624 0#32, 0#32, 0#32⟩

/-- The process before the first call. -/
def start : W := ⟨fun _ => none, 0, false, fun _ => []⟩

def setCtx (w : W) (t : Nat) (s : State) : W := { w with ctx := fun x => if x = t then some s else w.ctx x }

/-- zt_uuid.c 44-63 `zt_uuid4_get_ctx` called by thread `t`. -/
def getCtx (w : W) (t : Nat) : W :=
  match w.ctx t with
  | some _ => w
  | none => setCtx w t zeroed

/-- What a thread does in zt_uuid4, step by step; `now` is what time(NULL) shows if the step asks. -/
inductive Op where
  | enter (t : Nat)
  | seed (t : Nat) (now : Word)
  | draw (t : Nat) (now : Word)
  | finish (t : Nat)
  deriving DecidableEq

def Op.thread : Op → Nat
  | enter t => t
  | seed t _ => t
  | draw t _ => t
  | finish t => t

/-- zt_uuid.c 73: `state = zt_uuid4_get_ctx()`. -/
def enter (w : W) (t : Nat) : W := { getCtx w t with cur := t }

/-- zt_uuid.c 75-78. -/
def seed (w : W) (now : Word) : Outcome W :=
  if w.init then .ok w
  else match w.ctx w.cur with
    | none => .ub
    | some s => do
        let s ← srandom s now
        .ok { setCtx w w.cur s with init := true }

/-- zt_uuid.c 80 (81, 82, 83): `v = zt_random_uint32(state)`, stored in the UUID of the caller. -/
def draw (w : W) (t : Nat) (now : Word) : Outcome W :=
  match w.ctx w.cur with
  | none => .ub
  | some s => do
      let r ← uint32 now s
      .ok { setCtx w w.cur r.1 with drawn := fun x => if x = t then w.drawn t ++ [r.2] else w.drawn x }

variable [Host]

/-- zt_uuid.c 85-90: version and variant are set and the call returns. -/
def finish (w : W) (t : Nat) : Outcome (W × List Byte) :=
  match w.drawn t with
  | [r0, r1, r2, r3] => do
      let v ← uuid4 r0 r1 r2 r3
      .ok ({ w with drawn := fun x => if x = t then [] else w.drawn x }, v)
  | _ => .ub

/-- One step, with the UUIDs returned. -/
def step (w : W) : Op → Outcome (W × List (Nat × List Byte))
  | .enter t => .ok (enter w t, [])
  | .seed _ now => do
      let w ← seed w now
      .ok (w, [])
  | .draw t now => do
      let w ← draw w t now
      .ok (w, [])
  | .finish t => do
      let r ← finish w t
      .ok (r.1, [(t, r.2)])

/-- A schedule: the steps of all threads in the order in which they happen. -/
def runs : List Op → W → Outcome (W × List (Nat × List Byte))
  | [], w => .ok (w, [])
  | o :: os, w => do
      let r ← step w o
      let q ← runs os r.1
      .ok (q.1, r.2 ++ q.2)

/-- A call of zt_uuid4 by thread `t`: `s` is the time when it may seed the generator itself (line 76), `d` the time when the first word is drawn. -/
structure Call where
  t : Nat
  s : Word
  d : Word

/-- The steps of a call. -/
def Call.ops (c : Call) : List Op := [.enter c.t, .seed c.t c.s, .draw c.t c.d, .draw c.t c.d, .draw c.t c.d, .draw c.t c.d, .finish c.t]

/-! ## Specification -/

/-- The words of MT19937 for a seed. -/
def stream (sd : Word) (k : Nat) : Word := Random.Spec.temper (Random.Spec.mt (Random.Spec.fromSeed sd) (624 + k))

/-- The time at which the generator of thread `t` is seeded: that of its first call. -/
def seedOf (h : List Call) (t : Nat) : Option Word := (h.find? fun c => c.t = t).map fun c => if h.head?.map Call.t = some t then c.s else c.d

/-- How many calls of thread `t` there are. -/
def count (h : List Call) (t : Nat) : Nat := h.countP fun c => c.t = t

/-- `v` is the `k`-th UUID (from 0) of a generator seeded with `sd`. -/
def IsUuid (sd : Word) (k : Nat) (v : List Byte) : Prop := Stamped 4 (randomBytes [stream sd (4 * k), stream sd (4 * k + 1), stream sd (4 * k + 2), stream sd (4 * k + 3)]) v

/-! ## Proofs -/

theorem runs_append (a b : List Op) (w : W) : runs (a ++ b) w = (do let r ← runs a w; let q ← runs b r.1; .ok (q.1, r.2 ++ q.2)) := by
  induction a generalizing w with
  | nil =>
      simp only [List.nil_append, runs, Outcome.ok_bind]
      cases runs b w <;> rfl
  | cons o os ih =>
      simp only [List.cons_append, runs]
      cases step w o with
      | ok r =>
          simp only [Outcome.ok_bind]
          rw [ih]
          cases runs os r.1 with
          | ok q =>
              simp only [Outcome.ok_bind]
              cases runs b q.1 with
              | ok z => simp only [Outcome.ok_bind, List.append_assoc]
              | abort => rfl
              | ub => rfl
          | abort => rfl
          | ub => rfl
      | abort => rfl
      | ub => rfl

/-- A generator that will produce the words of `sd` from the `n`-th on when used at time `d`. -/
def Will (sd d : Word) (n : Nat) (s : State) : Prop := Random.After (Random.Spec.fromSeed sd) n s ∨ (n = 0 ∧ sd = d ∧ s = zeroed)

theorem zeroed_mt : zeroed.mt.length = 624 := by
  unfold zeroed
  exact List.length_replicate

theorem zeroed_init : zeroed.initialized ≠ INITIALIZED := by
  unfold zeroed
  show (0#32 : Word) ≠ INITIALIZED
  decide

theorem uint32_will {sd d : Word} {n : Nat} {s : State} (h : Will sd d n s) : ∃ s', uint32 d s = .ok (s', stream sd n) ∧ Random.After (Random.Spec.fromSeed sd) (n + 1) s' := by
  rcases h with h | ⟨rfl, rfl, rfl⟩
  · exact h.next d
  · obtain ⟨mt, e, hm⟩ := Random.srandom_ok (s := zeroed) zeroed_mt sd
    have ha := Random.after_init hm
    obtain ⟨s', e2, h2⟩ := ha.next sd
    refine ⟨s', ?_, h2⟩
    refine Eq.trans ?_ e2
    have : uint32 sd zeroed = (do let s ← srandom zeroed sd; Random.generate s) := by
      unfold uint32
      rw [if_pos zeroed_init]
    rw [this, e]
    simp only [Outcome.ok_bind]
    rw [uint32, if_neg (by simp)]
    rfl

theorem srandom_will {s : State} (hs : s.mt.length = 624) (sd : Word) : ∃ s', srandom s sd = .ok s' ∧ Random.After (Random.Spec.fromSeed sd) 0 s' := by
  obtain ⟨mt, e, hm⟩ := Random.srandom_ok hs sd
  exact ⟨_, e, Random.after_init hm⟩

theorem draw_ok {w : W} {t : Nat} {sd d : Word} {n : Nat} {s : State} (hc : w.ctx w.cur = some s) (h : Will sd d n s) :
    ∃ w' s', draw w t d = .ok w' ∧ Random.After (Random.Spec.fromSeed sd) (n + 1) s' ∧ w'.ctx = (fun x => if x = w.cur then some s' else w.ctx x) ∧ w'.cur = w.cur ∧ w'.init = w.init ∧
      w'.drawn = fun x => if x = t then w.drawn t ++ [stream sd n] else w.drawn x := by
  obtain ⟨s', e, h'⟩ := uint32_will h
  refine ⟨{ setCtx w w.cur s' with drawn := fun x => if x = t then w.drawn t ++ [stream sd n] else w.drawn x }, s', ?_, h', rfl, rfl, rfl, rfl⟩
  simp only [draw, hc, e, Outcome.ok_bind]

/-- Four draws, the other threads standing still, and the return. -/
theorem draws_ok {w : W} {t : Nat} {sd d : Word} {n : Nat} {s : State} (hc : w.ctx w.cur = some s) (h : Will sd d n s) (hd : w.drawn t = []) :
    ∃ s' v w', runs [.draw t d, .draw t d, .draw t d, .draw t d, .finish t] w = .ok (w', [(t, v)]) ∧ Random.After (Random.Spec.fromSeed sd) (n + 4) s' ∧
      Stamped 4 (randomBytes [stream sd n, stream sd (n + 1), stream sd (n + 2), stream sd (n + 3)]) v ∧ w'.ctx = (fun x => if x = w.cur then some s' else w.ctx x) ∧ w'.cur = w.cur ∧ w'.init = w.init ∧
      w'.drawn = w.drawn := by
  obtain ⟨w1, s1, e1, h1, c1, u1, i1, d1⟩ := draw_ok (t := t) hc h
  obtain ⟨w2, s2, e2, h2, c2, u2, i2, d2⟩ := draw_ok (t := t) (d := d) (w := w1) (s := s1) (by rw [c1, u1]; simp) (.inl h1)
  obtain ⟨w3, s3, e3, h3, c3, u3, i3, d3⟩ := draw_ok (t := t) (d := d) (w := w2) (s := s2) (by rw [c2, u2]; simp) (.inl h2)
  obtain ⟨w4, s4, e4, h4, c4, u4, i4, d4⟩ := draw_ok (t := t) (d := d) (w := w3) (s := s3) (by rw [c3, u3]; simp) (.inl h3)
  obtain ⟨v, e5, hv⟩ := uuid4_bits (stream sd n) (stream sd (n + 1)) (stream sd (n + 2)) (stream sd (n + 3))
  refine ⟨s4, v, { w4 with drawn := fun x => if x = t then [] else w4.drawn x }, ?_, h4, hv, ?_, ?_, ?_, ?_⟩
  · have e6 : w4.drawn t = [stream sd n, stream sd (n + 1), stream sd (n + 2), stream sd (n + 3)] := by
      rw [d4, d3, d2, d1]; simp [hd]
    simp only [runs, step, e1, e2, e3, e4, Outcome.ok_bind, finish, e6, e5, List.nil_append, List.append_nil]
  · simp only [c4, c3, c2, c1, u3, u2, u1]
    funext x
    by_cases hx : x = w.cur <;> simp [hx]
  · simp only [u4, u3, u2, u1]
  · simp only [i4, i3, i2, i1]
  · funext x
    simp only [d4, d3, d2, d1]
    by_cases hx : x = t
    · subst hx; simp [hd]
    · simp [hx]

/-- What is true after a history of calls. -/
structure Inv (h : List Call) (w : W) : Prop where
  init : w.init = !h.isEmpty
  drawn : ∀ t, w.drawn t = []
  ctx : ∀ t, match seedOf h t with
    | none => w.ctx t = none
    | some sd => ∃ s, w.ctx t = some s ∧ Random.After (Random.Spec.fromSeed sd) (4 * count h t) s

theorem seedOf_append {h : List Call} {t : Nat} {sd : Word} (e : seedOf h t = some sd) (l : List Call) : seedOf (h ++ l) t = some sd := by
  unfold seedOf at *
  cases h with
  | nil => simp at e
  | cons c cs =>
      cases hf : (c :: cs).find? (fun c => c.t = t) with
      | none => rw [hf] at e; simp at e
      | some x =>
          rw [hf] at e
          rw [List.find?_append, hf]
          simpa using e

theorem seedOf_none {h : List Call} {t : Nat} : seedOf h t = none ↔ count h t = 0 := by
  unfold seedOf count
  rw [Option.map_eq_none_iff, List.find?_eq_none, List.countP_eq_zero]

theorem seedOf_other {h : List Call} {c : Call} {t : Nat} (ht : t ≠ c.t) : seedOf (h ++ [c]) t = seedOf h t := by
  cases e : seedOf h t with
  | some sd => exact seedOf_append e _
  | none =>
      rw [seedOf_none] at e ⊢
      unfold count at *
      rw [List.countP_append, e]
      simp [Ne.symm ht]

theorem seedOf_new {h : List Call} {c : Call} (e : seedOf h c.t = none) : seedOf (h ++ [c]) c.t = some (if h = [] then c.s else c.d) := by
  have hf : h.find? (fun x => x.t = c.t) = none := by
    unfold seedOf at e
    exact Option.map_eq_none_iff.1 e
  unfold seedOf
  rw [List.find?_append, hf]
  cases h with
  | nil => simp
  | cons x xs =>
      have hx : x.t ≠ c.t := by
        have := List.find?_eq_none.1 hf x (by simp)
        simpa using this
      simp [hx]

theorem count_append (h : List Call) (c : Call) (t : Nat) : count (h ++ [c]) t = count h t + if c.t = t then 1 else 0 := by
  unfold count
  rw [List.countP_append]
  by_cases e : c.t = t <;> simp [e]

theorem call_ok {h : List Call} {w : W} (I : Inv h w) (c : Call) :
    ∃ w' v sd, runs c.ops w = .ok (w', [(c.t, v)]) ∧ Inv (h ++ [c]) w' ∧ seedOf (h ++ [c]) c.t = some sd ∧ IsUuid sd (count h c.t) v := by
  -- after the first two steps
  have pre : ∃ w1 s sd, step w (.enter c.t) = .ok (enter w c.t, []) ∧ step (enter w c.t) (.seed c.t c.s) = .ok (w1, []) ∧ seedOf (h ++ [c]) c.t = some sd ∧ w1.ctx w1.cur = some s ∧ w1.cur = c.t ∧
      Will sd c.d (4 * count h c.t) s ∧ w1.init = true ∧ (∀ t, w1.drawn t = []) ∧ ∀ t, t ≠ c.t → w1.ctx t = w.ctx t := by
    have hI := I.ctx c.t
    cases e : seedOf h c.t with
    | some sd =>
        rw [e] at hI
        obtain ⟨s, hs, ha⟩ := hI
        have hne : h ≠ [] := by rintro rfl; simp [seedOf] at e
        have hi : w.init = true := by rw [I.init]; cases h <;> simp_all
        have hent : enter w c.t = { w with cur := c.t } := by simp only [enter, getCtx, hs]
        refine ⟨{ w with cur := c.t }, s, sd, rfl, ?_, seedOf_append e _, hs, rfl, .inl ha, hi, I.drawn, fun _ _ => rfl⟩
        rw [hent]
        simp only [step, seed, hi, if_true, Outcome.ok_bind]
    | none =>
        rw [e] at hI
        have hent : enter w c.t = { setCtx w c.t zeroed with cur := c.t } := by simp only [enter, getCtx, hI]
        have hc0 := seedOf_none.1 e
        by_cases hh : h = []
        · have hi : w.init = false := by rw [I.init, hh]; rfl
          obtain ⟨s', e1, h1⟩ := srandom_will (s := zeroed) zeroed_mt c.s
          refine ⟨{ setCtx { setCtx w c.t zeroed with cur := c.t } c.t s' with init := true }, s', c.s, rfl, ?_, by rw [seedOf_new e, if_pos hh], ?_, rfl, ?_, rfl, I.drawn, ?_⟩
          · rw [hent]
            simp [step, seed, setCtx, hi, e1]
          · simp [setCtx]
          · rw [hc0]; exact .inl h1
          · intro t ht; simp [setCtx, ht]
        · have hi : w.init = true := by rw [I.init]; cases h <;> simp_all
          refine ⟨{ setCtx w c.t zeroed with cur := c.t }, zeroed, c.d, rfl, ?_, by rw [seedOf_new e, if_neg hh], ?_, rfl, ?_, hi, I.drawn, ?_⟩
          · rw [hent]
            simp [step, seed, setCtx, hi]
          · simp [setCtx]
          · exact .inr ⟨by rw [hc0], rfl, rfl⟩
          · intro t ht; simp [setCtx, ht]
  obtain ⟨w1, s, sd, e1, e2, e3, hc, hcur, hw, hi, hd, ho⟩ := pre
  obtain ⟨s', v, w', e4, h4, hv, x1, x2, x3, x4⟩ := draws_ok (t := c.t) hc hw (hd c.t)
  refine ⟨w', v, sd, ?_, ⟨?_, ?_, ?_⟩, e3, hv⟩
  · show runs ([.enter c.t, .seed c.t c.s] ++ _) w = _
    have a : runs [.enter c.t, .seed c.t c.s] w = .ok (w1, []) := by
      simp only [runs, e1, e2, Outcome.ok_bind, List.nil_append]
    rw [runs_append, a]
    simp only [Outcome.ok_bind]
    rw [show runs _ w1 = _ from e4]
    rfl
  · rw [x3, hi]; cases h <;> rfl
  · intro t; rw [x4]; exact hd t
  · intro t
    by_cases ht : t = c.t
    · subst ht
      rw [e3]
      refine ⟨s', by rw [x1, hcur]; simp, ?_⟩
      rw [count_append, if_pos rfl]
      exact h4
    · rw [seedOf_other ht, count_append, if_neg (fun e => ht e.symm), x1, hcur]
      simp only [if_neg ht, Nat.add_zero, ho t ht]
      exact I.ctx t

theorem inv_start : Inv [] start := ⟨rfl, fun _ => rfl, fun _ => rfl⟩

/-! ## C108 -/

/-- **C108 (a generator for each thread).** Whatever calls the threads of a process make, as long as no call begins before the previous one has returned: every call returns a UUID, and the k-th UUID of a thread is made of the words
4k to 4k+3 of MT19937, seeded with the time of the first call of that thread. Missing for the full claim: threads inside zt_uuid4 at once (`c108_race_violation`), and that different threads get different UUIDs
(`c108_same_second_violation`). -/
theorem c108_stream_partial (h : List Call) : ∃ w outs, runs (h.flatMap Call.ops) start = .ok (w, outs) ∧ outs.length = h.length ∧
    ∀ i (hi : i < h.length), ∃ v sd, outs[i]? = some (h[i].t, v) ∧ seedOf h h[i].t = some sd ∧ IsUuid sd (count (h.take i) h[i].t) v := by
  suffices key : ∀ n (h : List Call), h.length = n → ∃ w outs, runs (h.flatMap Call.ops) start = .ok (w, outs) ∧ Inv h w ∧ outs.length = h.length ∧
      ∀ i (hi : i < h.length), ∃ v sd, outs[i]? = some (h[i].t, v) ∧ seedOf h h[i].t = some sd ∧ IsUuid sd (count (h.take i) h[i].t) v by
    obtain ⟨w, outs, e, _, e2, e3⟩ := key h.length h rfl
    exact ⟨w, outs, e, e2, e3⟩
  intro n
  induction n with
  | zero =>
      intro h hn
      have := List.eq_nil_of_length_eq_zero hn
      subst this
      exact ⟨start, [], rfl, inv_start, rfl, fun i hi => absurd hi (by simp)⟩
  | succ n ih =>
      intro h hn
      have hne : h ≠ [] := by rintro rfl; cases hn
      obtain ⟨h', c, rfl⟩ : ∃ h' c, h = h' ++ [c] := ⟨h.dropLast, h.getLast hne, (List.dropLast_concat_getLast hne).symm⟩
      obtain ⟨w, outs, e, I, hl, hall⟩ := ih h' (by simpa using hn)
      obtain ⟨w', v, sd, e1, I', es, hv⟩ := call_ok I c
      refine ⟨w', outs ++ [(c.t, v)], ?_, I', by simp [hl], ?_⟩
      · rw [List.flatMap_append, runs_append, e]
        simp only [Outcome.ok_bind, List.flatMap_cons, List.flatMap_nil, List.append_nil]
        rw [e1]
        rfl
      · intro i hi
        by_cases hlt : i < h'.length
        · obtain ⟨v', sd', g1, g2, g3⟩ := hall i hlt
          refine ⟨v', sd', ?_, ?_, ?_⟩
          · rw [List.getElem?_append_left (by omega), List.getElem_append_left hlt]; exact g1
          · rw [List.getElem_append_left hlt]; exact seedOf_append g2 _
          · rw [List.getElem_append_left hlt, List.take_append_of_le_length (by omega)]; exact g3
        · have hi' : i = h'.length := by simp at hi; omega
          subst hi'
          refine ⟨v, sd, ?_, ?_, ?_⟩
          · rw [List.getElem?_append_right (by omega)]; simp [hl]
          · simpa using es
          · simpa using hv

theorem stamped_unique {ver : Nat} {u v v' : List Byte} (h : Stamped ver u v) (h' : Stamped ver u v') : v = v' := by
  apply List.ext_getElem?
  intro i
  by_cases h6 : i = 6
  · subst h6
    obtain ⟨b, e1, e2⟩ := h.version
    obtain ⟨b', e1', e2'⟩ := h'.version
    obtain ⟨a, c, f1, f2, f3⟩ := h.lo6
    obtain ⟨a', c', f1', f2', f3'⟩ := h'.lo6
    rw [f1] at f1'; cases f1'
    rw [e1] at f2; cases f2
    rw [e1'] at f2'; cases f2'
    rw [e1, e1']
    congr 1
    apply UInt8.toNat_inj.1
    omega
  · by_cases h8 : i = 8
    · subst h8
      obtain ⟨b, e1, e2⟩ := h.variant
      obtain ⟨b', e1', e2'⟩ := h'.variant
      obtain ⟨a, c, f1, f2, f3⟩ := h.lo8
      obtain ⟨a', c', f1', f2', f3'⟩ := h'.lo8
      rw [f1] at f1'; cases f1'
      rw [e1] at f2; cases f2
      rw [e1'] at f2'; cases f2'
      rw [e1, e1']
      congr 1
      apply UInt8.toNat_inj.1
      omega
    · rw [h.others i h6 h8, h'.others i h6 h8]

/-- Violation of C108: two threads whose first calls happen in the same second get the same UUIDs, all of them: the k-th of one is the k-th of the other. (The same holds for two processes started in the same second.) -/
theorem c108_same_second_violation (h : List Call) {w : W} {outs : List (Nat × List Byte)} (e : runs (h.flatMap Call.ops) start = .ok (w, outs)) {i j : Nat} (hi : i < h.length) (hj : j < h.length)
    (hs : seedOf h h[i].t = seedOf h h[j].t) (hk : count (h.take i) h[i].t = count (h.take j) h[j].t) : outs[i]?.map (·.2) = outs[j]?.map (·.2) ∧ outs[i]? ≠ none := by
  obtain ⟨w', outs', e', _, hall⟩ := c108_stream_partial h
  rw [e] at e'
  cases e'
  obtain ⟨v, sd, g1, g2, g3⟩ := hall i hi
  obtain ⟨v', sd', g1', g2', g3'⟩ := hall j hj
  rw [g2, g2'] at hs
  cases hs
  rw [hk] at g3
  rw [g1, g1']
  exact ⟨congrArg some (stamped_unique g3 g3'), by simp⟩

/-- Such a history: thread 1 draws two UUIDs and thread 2 two, all in second 1000: the pairs are equal. -/
example : let h : List Call := [⟨1, 1000, 1000⟩, ⟨2, 1000, 1000⟩, ⟨1, 1000, 1000⟩, ⟨2, 1000, 1000⟩]
    seedOf h 1 = some 1000 ∧ seedOf h 2 = some 1000 ∧ count (h.take 2) 1 = count (h.take 3) 2 := by decide

/-- A schedule of two threads: thread 2 enters zt_uuid4 between two steps of thread 1. -/
def racing (n : Word) : List Op :=
  [.enter 1, .enter 2, .seed 1 n, .draw 1 n, .draw 1 n, .draw 1 n, .draw 1 n, .finish 1, .seed 2 n, .draw 2 n, .draw 2 n, .draw 2 n, .draw 2 n, .finish 2] ++ (Call.mk 1 n n).ops

/-- Thread 1 makes two calls and thread 2 one. -/
theorem racing_calls (n : Word) : (racing n).filter (fun o => o.thread = 1) = (Call.mk 1 n n).ops ++ (Call.mk 1 n n).ops ∧ (racing n).filter (fun o => o.thread = 2) = (Call.mk 2 n n).ops := by
  constructor <;> simp [racing, Call.ops, Op.thread]

theorem race_start (n : Word) : ∃ w s0, runs [.enter 1, .enter 2, .seed 1 n] start = .ok (w, []) ∧ Random.After (Random.Spec.fromSeed n) 0 s0 ∧ w.ctx 1 = some zeroed ∧ w.ctx 2 = some s0 ∧ w.cur = 2 ∧ w.init = true ∧
    ∀ t, w.drawn t = [] := by
  obtain ⟨s0, e0, h0⟩ := srandom_will (s := zeroed) zeroed_mt n
  have g1 : ∃ w1, enter start 1 = w1 ∧ w1.ctx 1 = some zeroed ∧ w1.ctx 2 = none ∧ w1.init = false ∧ ∀ t, w1.drawn t = [] := by
    refine ⟨_, rfl, ?_, ?_, ?_, ?_⟩ <;> simp [enter, getCtx, start, setCtx]
  obtain ⟨w1, q1, c11, c12, i1, d1⟩ := g1
  have g2 : ∃ w2, enter w1 2 = w2 ∧ w2.ctx 1 = some zeroed ∧ w2.ctx 2 = some zeroed ∧ w2.cur = 2 ∧ w2.init = false ∧ ∀ t, w2.drawn t = [] := by
    refine ⟨_, rfl, ?_, ?_, ?_, ?_, ?_⟩ <;> simp [enter, getCtx, c11, c12, setCtx, i1, d1]
  obtain ⟨w2, q2, c21, c22, u2, i2, d2⟩ := g2
  have g3 : seed w2 n = .ok { setCtx w2 2 s0 with init := true } := by
    simp only [seed, i2, u2, c22, e0, Outcome.ok_bind]
    rfl
  refine ⟨{ setCtx w2 2 s0 with init := true }, s0, ?_, h0, ?_, ?_, u2, rfl, d2⟩
  · simp only [runs, step, q1, q2, g3, Outcome.ok_bind, List.nil_append]
  · simp [setCtx, c21]
  · simp [setCtx]

/-- Violation of C108: in that schedule thread 1 draws from the generator of thread 2, and its next call, in the same second, returns the UUID it already has. -/
theorem c108_race_violation (n : Word) : ∃ w v v', runs (racing n) start = .ok (w, [(1, v), (2, v'), (1, v)]) ∧ IsUuid n 0 v ∧ IsUuid n 1 v' := by
  obtain ⟨w1, s0, a1, h0, c11, c12, u1, i1, d1⟩ := race_start n
  obtain ⟨s1, v, w2, e1, h1, hv, x1, x2, x3, x4⟩ := draws_ok (w := w1) (t := 1) (d := n) (s := s0) (by rw [u1]; exact c12) (.inl h0) (d1 1)
  have a3 : runs [.seed 2 n] w2 = .ok (w2, []) := by
    simp only [runs, step, seed, x3, i1, if_true, Outcome.ok_bind, List.nil_append]
  obtain ⟨s2, v', w3, e2, h2, hv', y1, y2, y3, y4⟩ := draws_ok (w := w2) (t := 2) (d := n) (s := s1) (by rw [x1, x2]; simp) (.inl h1) (by rw [x4]; exact d1 2)
  -- the generator of thread 1 is still as it was allocated
  have hz : w3.ctx 1 = some zeroed := by
    simp only [y1, x2, x1, u1, if_neg (show ¬ (1 : Nat) = 2 by decide)]
    exact c11
  have a5 : runs [.enter 1, .seed 1 n] w3 = .ok ({ w3 with cur := 1 }, []) := by
    have hi : w3.init = true := by rw [y3, x3, i1]
    simp only [runs, step, seed, enter, getCtx, hz, hi, if_true, Outcome.ok_bind, List.nil_append]
  obtain ⟨s3, v2, w4, e3, h3, hv2, z1, z2, z3, z4⟩ := draws_ok (w := { w3 with cur := 1 }) (t := 1) (d := n) (sd := n) (n := 0) (s := zeroed) hz (.inr ⟨rfl, rfl, rfl⟩) (by show w3.drawn 1 = []; rw [y4, x4]; exact d1 1)
  have heq : v2 = v := stamped_unique hv2 hv
  subst heq
  refine ⟨w4, v2, v', ?_, ?_, ?_⟩
  · have hsplit : racing n = [.enter 1, .enter 2, .seed 1 n] ++ ([.draw 1 n, .draw 1 n, .draw 1 n, .draw 1 n, .finish 1] ++ ([.seed 2 n] ++ ([.draw 2 n, .draw 2 n, .draw 2 n, .draw 2 n, .finish 2] ++
        ([.enter 1, .seed 1 n] ++ [.draw 1 n, .draw 1 n, .draw 1 n, .draw 1 n, .finish 1])))) := rfl
    rw [hsplit, runs_append, a1]
    simp only [Outcome.ok_bind]
    rw [runs_append, e1]
    simp only [Outcome.ok_bind]
    rw [runs_append, a3]
    simp only [Outcome.ok_bind]
    rw [runs_append, e2]
    simp only [Outcome.ok_bind]
    rw [runs_append, a5]
    simp only [Outcome.ok_bind]
    rw [e3]
    simp only [Outcome.ok_bind, List.nil_append, List.cons_append]
  · unfold IsUuid; simpa using hv
  · unfold IsUuid; simpa using hv'

/-! ## Any schedule -/

/-- A schedule in which every thread does its steps in the order of the program; `p t` is how many steps of its present call thread `t` has done. -/
inductive Sched : (Nat → Nat) → List Op → Prop
  | stop (p) : Sched p []
  | enter (p t os) : p t = 0 → Sched (fun x => if x = t then 1 else p x) os → Sched p (.enter t :: os)
  | seed (p t now os) : p t = 1 → Sched (fun x => if x = t then 2 else p x) os → Sched p (.seed t now :: os)
  | draw (p t now os) : 2 ≤ p t → p t < 6 → Sched (fun x => if x = t then p t + 1 else p x) os → Sched p (.draw t now :: os)
  | finish (p t os) : p t = 6 → Sched (fun x => if x = t then 0 else p x) os → Sched p (.finish t :: os)

/-- A generator as allocated, or one that is somewhere in the sequence of some seed. -/
def Healthy (s : State) : Prop := s = zeroed ∨ ∃ sd n, Random.After (Random.Spec.fromSeed sd) n s

structure Any (p : Nat → Nat) (w : W) : Prop where
  ctx : ∀ t s, w.ctx t = some s → Healthy s
  cur : (∃ t, p t ≠ 0) → ∃ s, w.ctx w.cur = some s
  drawn : ∀ t, (w.drawn t).length = p t - 2

/-- What every UUID of zt_uuid4 looks like. -/
def Version4 (v : List Byte) : Prop := v.length = 16 ∧ (∃ b, v[6]? = some b ∧ b.toNat / 16 = 4) ∧ ∃ b, v[8]? = some b ∧ b.toNat / 64 = 2

theorem healthy_draw {s : State} (h : Healthy s) (now : Word) : ∃ s' r, uint32 now s = .ok (s', r) ∧ Healthy s' := by
  rcases h with rfl | ⟨sd, n, h⟩
  · obtain ⟨s', e, h'⟩ := uint32_will (sd := now) (d := now) (n := 0) (s := zeroed) (.inr ⟨rfl, rfl, rfl⟩)
    exact ⟨s', _, e, .inr ⟨_, _, h'⟩⟩
  · obtain ⟨s', e, h'⟩ := h.next now
    exact ⟨s', _, e, .inr ⟨_, _, h'⟩⟩

theorem healthy_seed {s : State} (h : Healthy s) (now : Word) : ∃ s', srandom s now = .ok s' ∧ Healthy s' := by
  have hl : s.mt.length = 624 := by
    rcases h with rfl | ⟨sd, n, h⟩
    · exact zeroed_mt
    · obtain ⟨_, b, hb, _⟩ := h
      exact hb.1
  obtain ⟨s', e, h'⟩ := srandom_will hl now
  exact ⟨s', e, .inr ⟨_, _, h'⟩⟩

/-- **C108 (any schedule).** However the steps of any number of threads interleave, no step fails, and every call that returns has filled in a version 4, variant 1 UUID. -/
theorem c108_any_schedule {p : Nat → Nat} {os : List Op} (h : Sched p os) : ∀ {w : W}, Any p w → ∃ w' outs, runs os w = .ok (w', outs) ∧ outs.map (·.1) = os.filterMap (fun o => match o with | .finish t => some t | _ => none) ∧ ∀ x ∈ outs, Version4 x.2 := by
  induction h with
  | stop p => intro w _; exact ⟨w, [], rfl, rfl, by simp⟩
  | enter p t os hp _ ih =>
      intro w I
      have I' : Any (fun x => if x = t then 1 else p x) (enter w t) := by
        have hc : (enter w t).ctx = (getCtx w t).ctx := rfl
        have hu : (enter w t).cur = t := rfl
        have hd : (enter w t).drawn = w.drawn := by unfold enter getCtx; split <;> rfl
        have hg : (∀ x s, (getCtx w t).ctx x = some s → Healthy s) ∧ ∃ s, (getCtx w t).ctx t = some s := by
          unfold getCtx
          cases e : w.ctx t with
          | some s => exact ⟨I.ctx, s, e⟩
          | none =>
              refine ⟨?_, zeroed, by simp [setCtx]⟩
              intro x s hx
              by_cases hxt : x = t
              · simp [setCtx, hxt] at hx; exact .inl hx.symm
              · simp [setCtx, hxt] at hx; exact I.ctx x s hx
        refine ⟨fun x s hx => hg.1 x s (hc ▸ hx), fun _ => ?_, fun x => ?_⟩
        · rw [hu, hc]; exact hg.2
        · rw [hd, I.drawn x]
          by_cases hx : x = t
          · simp [hx, hp]
          · simp [hx]
      obtain ⟨w', outs, e, ho, hv⟩ := ih I'
      refine ⟨w', outs, ?_, ?_, hv⟩
      · simp only [runs, step, Outcome.ok_bind, e, List.nil_append]
      · simpa using ho
  | seed p t now os hp _ ih =>
      intro w I
      obtain ⟨s, hs⟩ := I.cur ⟨t, by omega⟩
      have hnext : ∃ w1, seed w now = .ok w1 ∧ Any (fun x => if x = t then 2 else p x) w1 := by
        have hdr : ∀ x, (w.drawn x).length = (if x = t then 2 else p x) - 2 := by
          intro x
          rw [I.drawn x]
          by_cases hx : x = t
          · simp [hx, hp]
          · simp [hx]
        cases hi : w.init with
        | true => exact ⟨w, by simp [seed, hi], I.ctx, fun _ => ⟨s, hs⟩, hdr⟩
        | false =>
            obtain ⟨s', e, h'⟩ := healthy_seed (I.ctx _ s hs) now
            refine ⟨{ setCtx w w.cur s' with init := true }, by simp [seed, hi, hs, e], ?_, fun _ => ⟨s', by simp [setCtx]⟩, hdr⟩
            intro x s1 hx
            by_cases hxt : x = w.cur
            · simp [setCtx, hxt] at hx; rw [← hx]; exact h'
            · simp [setCtx, hxt] at hx; exact I.ctx x s1 hx
      obtain ⟨w1, e1, I'⟩ := hnext
      obtain ⟨w', outs, e, ho, hv⟩ := ih I'
      refine ⟨w', outs, ?_, ?_, hv⟩
      · simp only [runs, step, e1, Outcome.ok_bind, e, List.nil_append]
      · simpa using ho
  | draw p t now os hp hp6 _ ih =>
      intro w I
      obtain ⟨s, hs⟩ := I.cur ⟨t, by omega⟩
      obtain ⟨s', r, e1, h'⟩ := healthy_draw (I.ctx _ s hs) now
      have e2 : draw w t now = .ok { setCtx w w.cur s' with drawn := fun x => if x = t then w.drawn t ++ [r] else w.drawn x } := by simp only [draw, hs, e1, Outcome.ok_bind]
      have I' : Any (fun x => if x = t then p t + 1 else p x) { setCtx w w.cur s' with drawn := fun x => if x = t then w.drawn t ++ [r] else w.drawn x } := by
        refine ⟨?_, fun _ => ⟨s', by simp [setCtx]⟩, ?_⟩
        · intro x s1 hx
          by_cases hxt : x = w.cur
          · simp [setCtx, hxt] at hx; rw [← hx]; exact h'
          · simp [setCtx, hxt] at hx; exact I.ctx x s1 hx
        · intro x
          by_cases hx : x = t
          · have := I.drawn t
            simp [hx, this]; omega
          · simp [hx, I.drawn x]
      obtain ⟨w', outs, e, ho, hv⟩ := ih I'
      refine ⟨w', outs, ?_, ?_, hv⟩
      · simp only [runs, step, e2, Outcome.ok_bind, e, List.nil_append]
      · simpa using ho
  | finish p t os hp _ ih =>
      intro w I
      have hl := I.drawn t
      rw [hp] at hl
      obtain ⟨r0, r1, r2, r3, hr⟩ : ∃ r0 r1 r2 r3, w.drawn t = [r0, r1, r2, r3] := by
        match w.drawn t, hl with
        | [a, b, c, d], _ => exact ⟨a, b, c, d, rfl⟩
      obtain ⟨v, ev, hv4⟩ := uuid4_bits r0 r1 r2 r3
      have e1 : finish w t = .ok ({ w with drawn := fun x => if x = t then [] else w.drawn x }, v) := by simp only [finish, hr, ev, Outcome.ok_bind]
      have I' : Any (fun x => if x = t then 0 else p x) { w with drawn := fun x => if x = t then [] else w.drawn x } := by
        refine ⟨I.ctx, fun _ => I.cur ⟨t, by omega⟩, ?_⟩
        intro x
        by_cases hx : x = t
        · simp [hx]
        · simp [hx, I.drawn x]
      obtain ⟨w', outs, e, ho, hv⟩ := ih I'
      refine ⟨w', (t, v) :: outs, ?_, ?_, ?_⟩
      · simp only [runs, step, e1, Outcome.ok_bind, e, List.cons_append, List.nil_append]
      · simp [ho]
      · intro x hx
        rcases List.mem_cons.1 hx with rfl | hx
        · exact ⟨hv4.length, hv4.version, hv4.variant⟩
        · exact hv x hx

/-- The process before the first call satisfies what `c108_any_schedule` asks for. -/
theorem any_start : Any (fun _ => 0) start := ⟨fun _ _ h => (nomatch h), fun ⟨_, h⟩ => absurd rfl h, fun _ => rfl⟩

/-- The schedule of `c108_race_violation` is one of them. -/
theorem sched_racing (n : Word) : Sched (fun _ => 0) (racing n) := by
  unfold racing Call.ops
  repeat' constructor
  all_goals simp

end ZT.Uuid.Threads
