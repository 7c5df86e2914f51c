import Verif.Atexit.Props

/-! # C47: exit comes to an end, without failure -/

namespace ZT.Atexit

/-- What is run when a registration is honoured. -/
def World.body (W : World) : Act → List Act
  | .zt fn data => W.beh fn data
  | .host k => W.hostBeh k

/-- No function registers others forever: there is a rank that falls from a function to those it registers. No function registers a null pointer. -/
structure Finite (W : World) (r : Act → Nat) : Prop where
  falls : ∀ a, ∀ b ∈ W.body a, r b < r a
  nonNull : ∀ a, NonNull (W.body a)

/-- The number of steps a registration can cause. -/
def wt (W : World) : Nat → Act → Nat
  | 0, _ => 1
  | n + 1, a => 1 + ((W.body a).map fun b => wt W n b + 1).sum

theorem wt_pos (W : World) (n : Nat) (a : Act) : 1 ≤ wt W n a := by cases n <;> simp [wt]

theorem sum_le {l : List Act} {f g : Act → Nat} (h : ∀ b ∈ l, f b ≤ g b) : (l.map f).sum ≤ (l.map g).sum := by
  induction l with
  | nil => simp
  | cons a l ih =>
      have h1 := h a (by simp)
      have h2 := ih fun b hb => h b (by simp [hb])
      simp only [List.map_cons, List.sum_cons]; omega

theorem wt_mono (W : World) : ∀ (n : Nat) (a : Act), wt W n a ≤ wt W (n + 1) a := by
  intro n
  induction n with
  | zero => intro a; exact wt_pos W 1 a
  | succ n ih =>
      intro a
      have := sum_le (l := W.body a) (f := fun b => wt W n b + 1) (g := fun b => wt W (n + 1) b + 1) fun b _ => Nat.add_le_add_right (ih b) 1
      simp only [wt] at this ⊢
      omega

theorem wt_le (W : World) {n m : Nat} (h : n ≤ m) (a : Act) : wt W n a ≤ wt W m a := by
  induction h with
  | refl => exact Nat.le_refl _
  | step _ ih => exact Nat.le_trans ih (wt_mono W _ a)

variable {W : World} {r : Act → Nat}

theorem wt_body (F : Finite W r) (a : Act) : 1 + ((W.body a).map fun b => wt W (r b) b + 1).sum ≤ wt W (r a) a := by
  cases e : r a with
  | zero =>
      have : W.body a = [] := by
        cases hb : W.body a with
        | nil => rfl
        | cons b l =>
            have := F.falls a b (by rw [hb]; simp)
            omega
      rw [this]; exact wt_pos W 0 a
  | succ n =>
      have := sum_le (l := W.body a) (f := fun b => wt W (r b) b + 1) (g := fun b => wt W n b + 1) fun b hb => by
        have := F.falls a b hb
        exact Nat.add_le_add_right (wt_le W (by omega) b) 1
      simp only [wt]; omega

/-- The steps that are still to come. -/
def hostWt (W : World) (r : Act → Nat) : HostFn → Nat
  | .call => 1
  | .other k => wt W (r (.host k)) (.host k)

def left (W : World) (r : Act → Nat) (S : St) (ms : List Cb) : Nat :=
  (ms.map fun c => wt W (r (.zt c.fn c.data)) (.zt c.fn c.data)).sum + (S.host.map (hostWt W r)).sum

theorem act_left {S : St} {ms cur : List Cb} (hW : Allocates W) (I : Inv S ms cur) {a : Act} {S' : St} (h : act W S a = .ok S') :
    ∃ new, Ext S S' ms new cur ∧ left W r S' (new ++ ms) ≤ left W r S ms + (wt W (r a) a + 1) := by
  obtain ⟨new, E⟩ := act_spec hW I h
  refine ⟨new, E, ?_⟩
  cases a with
  | host k =>
      cases h
      have hm : new = [] := by
        have := E.mem
        exact List.append_left_eq_self.1 (this.symm)
      subst hm
      simp only [left, List.nil_append, List.map_cons, List.sum_cons, hostWt]; omega
  | zt fn data =>
      simp only [act, ztAtexit] at h
      split at h
      · cases h
      · cases h
        have hm : new = [⟨W.alloc S, fn, data⟩] := by
          have := E.mem
          have e : (⟨W.alloc S, fn, data⟩ : Cb) :: S.mem = new ++ S.mem := by
            rw [← this]
            split <;> rfl
          have e : ([⟨W.alloc S, fn, data⟩] : List Cb) ++ S.mem = new ++ S.mem := e
          exact (List.append_cancel_right e).symm
        subst hm
        have hh : (((if EList.empty S.H S.head = true then { S with host := .call :: S.host } else S).host).map (hostWt W r)).sum ≤ (S.host.map (hostWt W r)).sum + 1 := by
          split
          · simp only [List.map_cons, List.sum_cons, hostWt]; omega
          · omega
        simp only [left, List.cons_append, List.nil_append, List.map_cons, List.sum_cons]
        omega

theorem acts_left {cur : List Cb} (hW : Allocates W) : ∀ {as : List Act} {S : St} {ms : List Cb} {S' : St}, Inv S ms cur → acts W S as = .ok S' →
    ∃ new, Ext S S' ms new cur ∧ left W r S' (new ++ ms) ≤ left W r S ms + (as.map fun b => wt W (r b) b + 1).sum := by
  intro as
  induction as with
  | nil => intro S ms S' I h; cases h; exact ⟨[], ⟨I, rfl, rfl, id, ⟨[], rfl⟩, ⟨[], by simp⟩⟩, by simp⟩
  | cons a as ih =>
      intro S ms S' I h
      have h0 := h
      rw [acts, Outcome.bind_eq_ok] at h
      obtain ⟨S1, h1, h2⟩ := h
      obtain ⟨n1, E1, l1⟩ := act_left (r := r) hW I h1
      obtain ⟨n2, E2, l2⟩ := ih E1.inv h2
      obtain ⟨new, E⟩ := acts_spec hW I h0
      have hm : new = n2 ++ n1 := by
        have := E.mem
        rw [E2.mem, E1.mem, ← List.append_assoc] at this
        exact (List.append_cancel_right this).symm
      subst hm
      refine ⟨n2 ++ n1, E, ?_⟩
      rw [List.append_assoc]
      simp only [List.map_cons, List.sum_cons]
      omega

/-- One callback. -/
theorem callOne_left (hW : Allocates W) (F : Finite W r) {S : St} {c : Cb} {ms : List Cb} (B : Between S (c :: ms)) :
    ∃ S' new, callOne W { S with H := (EList.pop S.H S.head).2 } (EList.pop S.H S.head).1 = .ok S' ∧ Between S' (new ++ ms) ∧ left W r S' (new ++ ms) < left W r S (c :: ms) := by
  obtain ⟨T, I, e1, e2, e3, e4, e5⟩ := callOne_eq (W := W) B
  obtain ⟨S1, h1⟩ := acts_ok (W := W) (S := T) (F.nonNull (.zt c.fn c.data))
  have h1 : acts W T (W.beh c.fn c.data) = .ok S1 := h1
  have h2 : callOne W { S with H := (EList.pop S.H S.head).2 } (EList.pop S.H S.head).1 = .ok (free S1 c.addr) := by rw [e5, h1]; rfl
  obtain ⟨n2, E2, l2⟩ := acts_left (r := r) hW I h1
  obtain ⟨new, B', -, -⟩ := callOne_spec hW B h2
  have hm : new ++ ms = n2 ++ ms := by
    have := B'.mem
    rw [← this]
    simp only [free, E2.mem, e1, List.filter_append, List.filter_cons]
    simp only [bne_self_eq_false, Bool.false_eq_true, if_false]
    rw [← List.filter_append, List.filter_eq_self]
    intro a ha
    simpa using E2.inv.fresh c (by simp) a ha
  refine ⟨_, new, h2, B', ?_⟩
  rw [hm]
  have hb := wt_body F (.zt c.fn c.data)
  have k1 : left W r (free S1 c.addr) (n2 ++ ms) = left W r S1 (n2 ++ ms) := rfl
  have k2 : left W r S (c :: ms) = wt W (r (.zt c.fn c.data)) (.zt c.fn c.data) + left W r T ms := by
    simp only [left, e3, List.map_cons, List.sum_cons]; omega
  have k3 : W.body (.zt c.fn c.data) = W.beh c.fn c.data := rfl
  rw [k3] at hb
  omega

theorem atexitCall_left (hW : Allocates W) (F : Finite W r) : ∀ {fuel : Nat} {S : St} {ms : List Cb}, Between S ms → left W r S ms < fuel →
    ∃ S', atexitCall W fuel S = .ok S' ∧ left W r S' [] ≤ left W r S ms := by
  intro fuel
  induction fuel with
  | zero => intro S ms B h; omega
  | succ fuel ih =>
      intro S ms B h
      rw [atexitCall, empty_iff B.inv.list]
      cases ms with
      | nil => exact ⟨S, rfl, Nat.le_refl _⟩
      | cons c ms =>
          obtain ⟨S1, new, e1, B1, l1⟩ := callOne_left hW F B
          obtain ⟨S2, e2, l2⟩ := ih B1 (by omega)
          simp only [List.map_cons, List.isEmpty_cons, Bool.not_false, if_true]
          exact ⟨S2, Outcome.bind_eq_ok.2 ⟨_, e1, e2⟩, by omega⟩

theorem exit_left (hW : Allocates W) (F : Finite W r) : ∀ {fuel : Nat} {S : St} {ms : List Cb}, Between S ms → left W r S ms < fuel → ∃ S', exit W fuel S = .ok S' := by
  intro fuel
  induction fuel with
  | zero => intro S ms B h; omega
  | succ fuel ih =>
      intro S ms B h
      rw [exit]
      cases hh : S.host with
      | nil => exact ⟨S, rfl⟩
      | cons f rest =>
          simp only
          have B0 : Between { S with host := rest } ms := ⟨⟨B.inv.list, B.inv.sub, B.inv.fresh, B.inv.fns, B.inv.log⟩, B.mem⟩
          have l0 : left W r S ms = left W r { S with host := rest } ms + hostWt W r f := by
            simp only [left, hh, List.map_cons, List.sum_cons]; omega
          cases f with
          | call =>
              have hw : hostWt W r .call = 1 := rfl
              obtain ⟨S1, e1, l1⟩ := atexitCall_left hW F B0 (fuel := fuel) (by omega)
              obtain ⟨B1, -, -⟩ := atexitCall_spec hW B0 e1
              obtain ⟨S2, e2⟩ := ih B1 (by omega)
              exact ⟨S2, Outcome.bind_eq_ok.2 ⟨_, e1, e2⟩⟩
          | other k =>
              have I1 : Inv { S with host := rest, log := S.log ++ [.hostCall k] } ms [] := ⟨B.inv.list, B.inv.sub, B.inv.fresh, B.inv.fns, by
                show pending [] (S.log ++ [Ev.hostCall k]) = _
                rw [pending_append, B.inv.log]; rfl⟩
              obtain ⟨S1, e1⟩ := acts_ok (W := W) (S := { S with host := rest, log := S.log ++ [.hostCall k] }) (F.nonNull (.host k))
              have e1 : acts W { S with host := rest, log := S.log ++ [.hostCall k] } (W.hostBeh k) = .ok S1 := e1
              obtain ⟨new, E, l1⟩ := acts_left (r := r) hW I1 e1
              have hb := wt_body F (.host k)
              have k3 : W.body (.host k) = W.hostBeh k := rfl
              rw [k3] at hb
              have hw : hostWt W r (.other k) = wt W (r (.host k)) (.host k) := rfl
              have l2 : left W r { S with host := rest, log := S.log ++ [.hostCall k] } ms = left W r { S with host := rest } ms := rfl
              obtain ⟨S2, e2⟩ := ih (ms := new ++ ms) ⟨by simpa using E.inv, by rw [E.mem]; exact congrArg _ B.mem⟩ (by omega)
              exact ⟨S2, Outcome.bind_eq_ok.2 ⟨_, e1, e2⟩⟩

/-- C47: if no function registers others forever and none registers a null pointer, the program's registrations succeed and exit comes to an end without failure; then `c47_lifo` applies: everything registered has been called once. -/
theorem c47_ends (hW : Allocates W) (F : Finite W r) (H : EList.Heap) (head : Nat) (prog : List Act) (hp : NonNull prog) :
    ∃ S, acts W (start H head) prog = .ok S ∧ ∃ n, ∀ fuel, n ≤ fuel → ∃ S', exit W fuel S = .ok S' ∧
      pending [] S'.log = some [] ∧ (∀ fn data, calls S'.log fn data = regs S'.log fn data) ∧ S'.mem = [] := by
  obtain ⟨S, e⟩ := acts_ok (W := W) (S := start H head) hp
  obtain ⟨ms, B, -⟩ := prog_spec hW e
  refine ⟨S, e, left W r S ms + 1, fun fuel hf => ?_⟩
  obtain ⟨S', e'⟩ := exit_left hW F B (fuel := fuel) (by omega)
  obtain ⟨h1, h2, h3, -⟩ := c47_lifo hW H head e e'
  exact ⟨S', e', h1, h2, h3⟩

/-- C47: a null function is refused. -/
theorem c47_null (W : World) (S : St) (data : Nat) : ztAtexit W S 0 data = .abort := rfl

/-- A rank for the world of the example: host function 7 registers callback 1, which registers callback 2. -/
def demoRank : Act → Nat
  | .zt 1 _ => 1
  | .zt _ _ => 0
  | .host _ => 2

example : Finite demo demoRank ∧ demo.body (.zt 1 5) ≠ [] := by
  refine ⟨⟨fun a b hb => ?_, fun a d hd => ?_⟩, by decide⟩
  · cases a with
    | zt fn data =>
        simp only [World.body, demo] at hb
        split at hb
        · next h => subst h; have : b = .zt 2 (data + 100) := by simpa using hb
                    subst this; exact Nat.zero_lt_one
        · cases hb
    | host k =>
        simp only [World.body, demo] at hb
        split at hb
        · have : b = .zt 1 5 := by simpa using hb
          subst this; exact Nat.lt_succ_self 1
        · cases hb
  · cases a with
    | zt fn data =>
        simp only [World.body, demo] at hd
        split at hd <;> simp at hd
    | host k =>
        simp only [World.body, demo] at hd
        split at hd <;> simp at hd

end ZT.Atexit
