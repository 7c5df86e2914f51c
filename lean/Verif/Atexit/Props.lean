import Verif.Atexit.Model
import Verif.EList.Props

/-!
# C47: atexit callbacks
-/

namespace ZT.Atexit

open EList (Heap IsList)

/-! ## Specification -/

/-- The callbacks still to be called after the events, when `p` were pending before; `none` when some call was not of the most recently registered pending callback with the data given for it. -/
def pending : List (Nat × Nat) → List Ev → Option (List (Nat × Nat))
  | p, [] => some p
  | p, .reg fn data :: es => pending ((fn, data) :: p) es
  | [], .call _ _ :: _ => none
  | (f, d) :: p, .call fn data :: es => if f = fn ∧ d = data then pending p es else none
  | p, .hostReg _ :: es => pending p es
  | p, .hostCall _ :: es => pending p es

/-- How often a callback was registered, and called. -/
def regs (es : List Ev) (fn data : Nat) : Nat := es.count (.reg fn data)
def calls (es : List Ev) (fn data : Nat) : Nat := es.count (.call fn data)

/-- zt_calloc returns a block that is not in use. -/
def Allocates (W : World) : Prop := ∀ S, W.alloc S ≠ S.head ∧ ∀ c ∈ S.mem, c.addr ≠ W.alloc S

/-- No null function pointer is registered. -/
def NonNull : List Act → Prop := fun as => ∀ d, Act.zt 0 d ∉ as

/-! ## Proofs -/

theorem pending_append : ∀ (es fs : List Ev) (p : List (Nat × Nat)), pending p (es ++ fs) = (pending p es).bind fun q => pending q fs := by
  intro es fs
  induction es with
  | nil => intro p; rfl
  | cons e es ih =>
      intro p
      cases e with
      | reg fn data => simp [pending, ih]
      | call fn data =>
          cases p with
          | nil => simp [pending]
          | cons x p =>
              obtain ⟨f, d⟩ := x
              simp only [List.cons_append, pending]
              split
              · exact ih p
              · rfl
      | hostReg k => simp [pending, ih]
      | hostCall k => simp [pending, ih]

theorem pending_count : ∀ (es : List Ev) (p q : List (Nat × Nat)), pending p es = some q → ∀ fn data, p.count (fn, data) + regs es fn data = calls es fn data + q.count (fn, data) := by
  intro es
  induction es with
  | nil => intro p q h fn data; cases h; simp [regs, calls]
  | cons e es ih =>
      intro p q h fn data
      cases e with
      | reg f d =>
          have := ih _ _ h fn data
          simp only [regs, calls, List.count_cons, Ev.reg.injEq, beq_iff_eq, Prod.mk.injEq, reduceCtorEq, if_false, Nat.add_zero] at this ⊢
          omega
      | call f d =>
          cases p with
          | nil => cases h
          | cons x p =>
              obtain ⟨f', d'⟩ := x
              simp only [pending] at h
              split at h
              · rename_i hc
                obtain ⟨rfl, rfl⟩ := hc
                have := ih _ _ h fn data
                simp only [regs, calls, List.count_cons, Ev.call.injEq, beq_iff_eq, Prod.mk.injEq, reduceCtorEq, if_false, Nat.add_zero] at this ⊢
                omega
              · cases h
      | hostReg k =>
          have := ih _ _ h fn data
          simpa [regs, calls] using this
      | hostCall k =>
          have := ih _ _ h fn data
          simpa [regs, calls] using this

/-- The callbacks on the stack. -/
def content (ms : List Cb) : List (Nat × Nat) := ms.map fun c => (c.fn, c.data)

/-- The state while the callbacks `ms` are on the stack and `cur` is being called. -/
structure Inv (S : St) (ms cur : List Cb) : Prop where
  list : IsList S.H S.head (ms.map Cb.addr)
  sub : ∀ c ∈ ms ++ cur, c ∈ S.mem
  fresh : ∀ a ∈ cur, ∀ c ∈ ms, c.addr ≠ a.addr
  fns : ∀ c ∈ ms, c.fn ≠ 0
  log : pending [] S.log = some (content ms)

/-- `_atexit_call` is (or will be) called when there is something on the stack. -/
def Covered (S : St) (ms : List Cb) : Prop := ms ≠ [] → HostFn.call ∈ S.host

theorem empty_iff {H : Heap} {h : Nat} {xs : List Nat} (L : IsList H h xs) : EList.empty H h = xs.isEmpty := by
  have h1 := L.1
  have h2 := L.2
  cases xs with
  | nil => simp only [EList.Linked] at h1; simp [EList.empty, h1.1]
  | cons x xs =>
      simp only [EList.Linked] at h1
      have : x ≠ h := by rintro rfl; simp at h2
      simp [EList.empty, h1.1, this]

/-- What registrations do. -/
structure Ext (S S' : St) (ms new cur : List Cb) : Prop where
  inv : Inv S' (new ++ ms) cur
  mem : S'.mem = new ++ S.mem
  head : S'.head = S.head
  cov : Covered S ms → Covered S' (new ++ ms)
  host : ∃ x, S'.host = x ++ S.host
  log : ∃ es, S'.log = S.log ++ es

theorem act_spec {W : World} (hW : Allocates W) {S : St} {ms cur : List Cb} (I : Inv S ms cur) {a : Act} {S' : St} (h : act W S a = .ok S') : ∃ new, Ext S S' ms new cur := by
  cases a with
  | host k =>
      cases h
      refine ⟨[], ⟨I.list, I.sub, I.fresh, I.fns, ?_⟩, rfl, rfl, fun c hm => List.mem_cons_of_mem _ (c hm), ⟨[.other k], rfl⟩, ⟨_, rfl⟩⟩
      show pending [] (S.log ++ [Ev.hostReg k]) = _
      rw [pending_append, I.log]; rfl
  | zt fn data =>
      simp only [act, ztAtexit] at h
      split at h
      · cases h
      rename_i hfn
      obtain ⟨al1, al2⟩ := hW S
      have he := empty_iff I.list
      have hL : IsList (EList.push S.H S.head (W.alloc S)) S.head (W.alloc S :: ms.map Cb.addr) := by
        refine EList.add_isList S.H S.head _ _ I.list ?_
        simp only [List.mem_cons, List.mem_map, not_or, not_exists, not_and]
        exact ⟨al1, fun c hc => al2 c (I.sub c (by simp [hc]))⟩
      have hlog : pending [] (S.log ++ [Ev.reg fn data]) = some (content (⟨W.alloc S, fn, data⟩ :: ms)) := by
        rw [pending_append, I.log]; rfl
      refine ⟨[⟨W.alloc S, fn, data⟩], ?_⟩
      have key : ∀ T : St, T.H = EList.push S.H S.head (W.alloc S) → T.head = S.head → T.mem = ⟨W.alloc S, fn, data⟩ :: S.mem → T.log = S.log ++ [.reg fn data] → Inv T ([⟨W.alloc S, fn, data⟩] ++ ms) cur := by
        intro T h1 h2 h3 h4
        refine ⟨?_, ?_, ?_, ?_, ?_⟩
        · rw [h1, h2]; exact hL
        · rw [h3]
          intro c hc
          have := I.sub c
          grind
        · intro a ha c hc
          simp only [List.cons_append, List.nil_append, List.mem_cons] at hc
          rcases hc with rfl | hc
          · exact (al2 a (I.sub a (by simp [ha]))).symm
          · exact I.fresh a ha c hc
        · intro c hc
          simp only [List.cons_append, List.nil_append, List.mem_cons] at hc
          rcases hc with rfl | hc
          · exact hfn
          · exact I.fns c hc
        · rw [h4]; exact hlog
      by_cases hem : EList.empty S.H S.head = true
      · rw [if_pos hem] at h
        cases h
        exact ⟨key _ rfl rfl rfl rfl, rfl, rfl, fun _ _ => by simp, ⟨[.call], rfl⟩, ⟨_, rfl⟩⟩
      · rw [if_neg hem] at h
        cases h
        refine ⟨key _ rfl rfl rfl rfl, rfl, rfl, fun c _ => c ?_, ⟨[], rfl⟩, ⟨_, rfl⟩⟩
        rintro rfl
        rw [he] at hem
        exact hem rfl

theorem acts_spec {W : World} (hW : Allocates W) {cur : List Cb} : ∀ {as : List Act} {S : St} {ms : List Cb} {S' : St}, Inv S ms cur → acts W S as = .ok S' → ∃ new, Ext S S' ms new cur := by
  intro as
  induction as with
  | nil => intro S ms S' I h; cases h; exact ⟨[], I, rfl, rfl, id, ⟨[], rfl⟩, ⟨[], by simp⟩⟩
  | cons a as ih =>
      intro S ms S' I h
      rw [acts, Outcome.bind_eq_ok] at h
      obtain ⟨S1, h1, h2⟩ := h
      obtain ⟨n1, E1⟩ := act_spec hW I h1
      obtain ⟨n2, E2⟩ := ih E1.inv h2
      obtain ⟨x1, e1⟩ := E1.host
      obtain ⟨x2, e2⟩ := E2.host
      obtain ⟨l1, f1⟩ := E1.log
      obtain ⟨l2, f2⟩ := E2.log
      refine ⟨n2 ++ n1, ?_, ?_, E2.head.trans E1.head, fun c => ?_, ⟨x2 ++ x1, by rw [e2, e1, List.append_assoc]⟩, ⟨l1 ++ l2, by rw [f2, f1, List.append_assoc]⟩⟩
      · rw [List.append_assoc]; exact E2.inv
      · rw [E2.mem, E1.mem, List.append_assoc]
      · rw [List.append_assoc]; exact E2.cov (E1.cov c)

/-- Registration never fails for non-null functions. -/
theorem acts_ok {W : World} : ∀ {as : List Act} {S : St}, NonNull as → ∃ S', acts W S as = .ok S' := by
  intro as
  induction as with
  | nil => intro S _; exact ⟨S, rfl⟩
  | cons a as ih =>
      intro S h
      have h2 : NonNull as := fun d hd => h d (List.mem_cons_of_mem _ hd)
      cases a with
      | host k => obtain ⟨S', e⟩ := ih (S := { S with host := .other k :: S.host, log := S.log ++ [.hostReg k] }) h2; exact ⟨S', e⟩
      | zt fn data =>
          have hf : fn ≠ 0 := by rintro rfl; exact h data (by simp)
          have : ∃ T, act W S (.zt fn data) = .ok T := by
            simp only [act, ztAtexit, if_neg hf]
            exact ⟨_, rfl⟩
          obtain ⟨T, hT⟩ := this
          obtain ⟨S', e⟩ := ih (S := T) h2
          exact ⟨S', by rw [acts, hT]; exact e⟩

/-- The state between callbacks. -/
structure Between (S : St) (ms : List Cb) : Prop where
  inv : Inv S ms []
  mem : S.mem = ms

theorem callOne_eq {W : World} {S : St} {c : Cb} {ms : List Cb} (B : Between S (c :: ms)) :
    ∃ T, Inv T ms [c] ∧ T.mem = c :: ms ∧ T.head = S.head ∧ T.host = S.host ∧ T.log = S.log ++ [.call c.fn c.data] ∧
      callOne W { S with H := (EList.pop S.H S.head).2 } (EList.pop S.H S.head).1 = (acts W T (W.beh c.fn c.data) >>= fun S => pure (free S c.addr)) := by
  obtain ⟨p1, p2⟩ := EList.pop_spec S.H S.head _ B.inv.list
  simp only [List.map_cons, List.head?_cons, List.tail_cons] at p1 p2
  have hf := B.inv.fns c (by simp)
  refine ⟨{ S with H := (EList.pop S.H S.head).2, log := S.log ++ [.call c.fn c.data] }, ⟨p2, ?_, ?_, fun x hx => B.inv.fns x (by simp [hx]), ?_⟩, B.mem, rfl, rfl, rfl, ?_⟩
  · intro x hx
    show x ∈ S.mem
    rw [B.mem]; simpa [or_comm] using hx
  · intro a ha x hx hax
    have : a = c := by simpa using ha
    subst this
    have h2 := B.inv.list.2
    simp only [List.map_cons, List.nodup_cons] at h2
    exact h2.2.1 (List.mem_map.2 ⟨x, hx, hax⟩)
  · show pending [] (S.log ++ [Ev.call c.fn c.data]) = _
    rw [pending_append, B.inv.log]
    simp [content, pending]
  · rw [p1]
    simp only [callOne, B.mem]
    simp [hf]

theorem callOne_spec {W : World} (hW : Allocates W) {S : St} {c : Cb} {ms : List Cb} (B : Between S (c :: ms)) {S' : St}
    (h : callOne W { S with H := (EList.pop S.H S.head).2 } (EList.pop S.H S.head).1 = .ok S') :
    ∃ new, Between S' (new ++ ms) ∧ (∃ x, S'.host = x ++ S.host) ∧ ∃ es, S'.log = S.log ++ es := by
  obtain ⟨T, I, e1, e2, e3, e4, e5⟩ := callOne_eq (W := W) B
  rw [e5, Outcome.bind_eq_ok] at h
  obtain ⟨S1, h1, h2⟩ := h
  cases h2
  obtain ⟨new, E⟩ := acts_spec hW I h1
  obtain ⟨x, hx⟩ := E.host
  obtain ⟨es, hes⟩ := E.log
  refine ⟨new, ⟨⟨E.inv.list, ?_, by simp, E.inv.fns, E.inv.log⟩, ?_⟩, ⟨x, by rw [← e3]; exact hx⟩, ⟨[.call c.fn c.data] ++ es, by rw [← List.append_assoc, ← e4]; exact hes⟩⟩
  · intro a ha
    have ha' : a ∈ new ++ ms := by simpa using ha
    simp only [free, List.mem_filter, bne_iff_ne]
    exact ⟨E.inv.sub a (by simp only [List.mem_append] at ha' ⊢; exact .inl ha'), E.inv.fresh c (by simp) a ha'⟩
  · simp only [free, E.mem, e1, List.filter_append, List.filter_cons]
    simp only [bne_self_eq_false, Bool.false_eq_true, if_false]
    rw [← List.filter_append, List.filter_eq_self]
    intro a ha
    simpa using E.inv.fresh c (by simp) a ha

theorem atexitCall_spec {W : World} (hW : Allocates W) : ∀ {fuel : Nat} {S : St} {ms : List Cb} {S' : St}, Between S ms → atexitCall W fuel S = .ok S' →
    Between S' [] ∧ (∃ x, S'.host = x ++ S.host) ∧ ∃ es, S'.log = S.log ++ es := by
  intro fuel
  induction fuel with
  | zero => intro S ms S' B h; cases h
  | succ fuel ih =>
      intro S ms S' B h
      rw [atexitCall, empty_iff B.inv.list] at h
      cases ms with
      | nil => cases h; exact ⟨B, ⟨[], rfl⟩, ⟨[], by simp⟩⟩
      | cons c ms =>
          simp only [List.map_cons, List.isEmpty_cons, Bool.not_false, if_true] at h
          rw [Outcome.bind_eq_ok] at h
          obtain ⟨S1, h1, h2⟩ := h
          obtain ⟨new, B1, ⟨x1, e1⟩, ⟨l1, f1⟩⟩ := callOne_spec hW B h1
          obtain ⟨B2, ⟨x2, e2⟩, ⟨l2, f2⟩⟩ := ih B1 h2
          exact ⟨B2, ⟨x2 ++ x1, by rw [e2, e1, List.append_assoc]⟩, ⟨l1 ++ l2, by rw [f2, f1, List.append_assoc]⟩⟩

theorem exit_spec {W : World} (hW : Allocates W) : ∀ {fuel : Nat} {S : St} {ms : List Cb} {S' : St}, Between S ms → Covered S ms → exit W fuel S = .ok S' →
    Between S' [] ∧ S'.host = [] ∧ ∃ es, S'.log = S.log ++ es := by
  intro fuel
  induction fuel with
  | zero => intro S ms S' B C h; cases h
  | succ fuel ih =>
      intro S ms S' B C h
      rw [exit] at h
      split at h
      · rename_i hh
        cases h
        have : ms = [] := by
          by_cases hm : ms = []
          · exact hm
          · have := C hm; rw [hh] at this; cases this
        subst this
        exact ⟨B, hh, ⟨[], by simp⟩⟩
      · rename_i f rest hh
        rw [Outcome.bind_eq_ok] at h
        obtain ⟨S1, h1, h2⟩ := h
        have B0 : Between { S with host := rest } ms := ⟨⟨B.inv.list, B.inv.sub, B.inv.fresh, B.inv.fns, B.inv.log⟩, B.mem⟩
        cases f with
        | call =>
            obtain ⟨B1, -, ⟨l1, f1⟩⟩ := atexitCall_spec hW B0 h1
            obtain ⟨B2, e2, ⟨l2, f2⟩⟩ := ih B1 (fun h => absurd rfl h) h2
            exact ⟨B2, e2, ⟨l1 ++ l2, by rw [f2, f1, List.append_assoc]⟩⟩
        | other k =>
            have I1 : Inv { S with host := rest, log := S.log ++ [.hostCall k] } ms [] := ⟨B.inv.list, B.inv.sub, B.inv.fresh, B.inv.fns, by
              show pending [] (S.log ++ [Ev.hostCall k]) = _
              rw [pending_append, B.inv.log]; rfl⟩
            obtain ⟨new, E⟩ := acts_spec hW I1 h1
            have C1 : Covered { S with host := rest, log := S.log ++ [.hostCall k] } ms := by
              intro hm
              have := C hm
              rw [hh] at this
              simpa using this
            obtain ⟨l1, f1⟩ := E.log
            obtain ⟨B2, e2, ⟨l2, f2⟩⟩ := ih ⟨E.inv, by rw [E.mem]; exact congrArg _ B.mem⟩ (E.cov C1) h2
            exact ⟨B2, e2, ⟨[.hostCall k] ++ l1 ++ l2, by rw [f2, f1]; simp⟩⟩

theorem between_start (H : Heap) (head : Nat) : Between (start H head) [] := ⟨⟨EList.reset_isList H head, by simp, by simp, by simp, rfl⟩, rfl⟩

theorem prog_spec {W : World} (hW : Allocates W) {H : Heap} {head : Nat} {prog : List Act} {S : St} (hp : acts W (start H head) prog = .ok S) : ∃ ms, Between S ms ∧ Covered S ms := by
  obtain ⟨new, E⟩ := acts_spec hW (between_start H head).inv hp
  refine ⟨new, ⟨by simpa using E.inv, by simpa [start] using E.mem⟩, by simpa using E.cov (fun h => absurd rfl h)⟩

/-- C47: whatever the program registered, and whatever callbacks and other exit functions register meanwhile, when exit has finished every call was of the callback registered last among those not yet
called, with its own data, and none is left: each is called exactly as often as it was registered. All callback records are freed. -/
theorem c47_lifo {W : World} (hW : Allocates W) (H : Heap) (head : Nat) {prog : List Act} {S S' : St} (hp : acts W (start H head) prog = .ok S) {fuel : Nat} (hx : exit W fuel S = .ok S') :
    pending [] S'.log = some [] ∧ (∀ fn data, calls S'.log fn data = regs S'.log fn data) ∧ S'.mem = [] ∧ ∃ es, S'.log = S.log ++ es := by
  obtain ⟨ms, B, C⟩ := prog_spec hW hp
  obtain ⟨B', -, es⟩ := exit_spec hW B C hx
  refine ⟨B'.inv.log, fun fn data => ?_, B'.mem, es⟩
  have := pending_count _ _ _ B'.inv.log fn data
  simp [content] at this
  exact this.symm

/-! ## Callbacks that register nothing -/

theorem atexitCall_quiet {W : World} (hW : Allocates W) (hq : ∀ f d, W.beh f d = []) : ∀ {ms : List Cb} {S : St} {fuel : Nat}, Between S ms → ms.length < fuel →
    ∃ S', atexitCall W fuel S = .ok S' ∧ Between S' [] ∧ S'.host = S.host ∧ S'.log = S.log ++ ms.map fun c => .call c.fn c.data := by
  intro ms
  induction ms with
  | nil =>
      intro S fuel B hf
      obtain ⟨k, rfl⟩ : ∃ k, fuel = k + 1 := ⟨fuel - 1, by simp at hf; omega⟩
      refine ⟨S, ?_, B, rfl, by simp⟩
      rw [atexitCall, empty_iff B.inv.list]; rfl
  | cons c ms ih =>
      intro S fuel B hf
      obtain ⟨k, rfl⟩ : ∃ k, fuel = k + 1 := ⟨fuel - 1, by simp at hf; omega⟩
      obtain ⟨T, I, e1, e2, e3, e4, e5⟩ := callOne_eq (W := W) B
      rw [hq] at e5
      have e6 : callOne W { S with H := (EList.pop S.H S.head).2 } (EList.pop S.H S.head).1 = .ok (free T c.addr) := e5
      obtain ⟨new, B1, -, -⟩ := callOne_spec hW B e6
      have hm : (free T c.addr).mem = ms := by
        simp only [free, e1, List.filter_cons, bne_self_eq_false, Bool.false_eq_true, if_false]
        rw [List.filter_eq_self]
        intro a ha
        simpa using I.fresh c (by simp) a ha
      have hn : new ++ ms = ms := by rw [← B1.mem, hm]
      rw [hn] at B1
      obtain ⟨S', r1, r2, r3, r4⟩ := ih (fuel := k) B1 (by simp at hf; omega)
      refine ⟨S', ?_, r2, r3.trans e3, ?_⟩
      · rw [atexitCall, empty_iff B.inv.list]
        simp only [List.map_cons, List.isEmpty_cons, Bool.not_false, if_true]
        rw [e6]; exact r1
      · rw [r4]
        show T.log ++ _ = _
        rw [e4]; simp

theorem prog_quiet {W : World} (hW : Allocates W) : ∀ (prog : List (Nat × Nat)) {S : St} {ms : List Cb} {S' : St}, Between S ms → S.host = (if ms.isEmpty then [] else [.call]) →
    acts W S (prog.map fun p => .zt p.1 p.2) = .ok S' → ∃ ms', Between S' ms' ∧ S'.host = (if ms'.isEmpty then [] else [.call]) ∧ content ms' = prog.reverse ++ content ms ∧
      S'.log = S.log ++ prog.map fun p => .reg p.1 p.2 := by
  intro prog
  induction prog with
  | nil => intro S ms S' B hh h; cases h; exact ⟨ms, B, hh, by simp, by simp⟩
  | cons q prog ih =>
      intro S ms S' B hh h
      rw [List.map_cons, acts, Outcome.bind_eq_ok] at h
      obtain ⟨S1, h1, h2⟩ := h
      obtain ⟨new, E⟩ := act_spec hW B.inv h1
      have hm := E.mem
      have e := empty_iff B.inv.list
      simp only [act, ztAtexit] at h1
      split at h1
      · cases h1
      have hnew : S1.mem = ⟨W.alloc S, q.1, q.2⟩ :: S.mem ∧ S1.host = [.call] ∧ S1.log = S.log ++ [.reg q.1 q.2] := by
        split at h1
        · rename_i he
          cases h1
          refine ⟨rfl, ?_, rfl⟩
          rw [e] at he
          have : ms.isEmpty = true := by simpa using he
          show HostFn.call :: S.host = _
          rw [hh, this]; rfl
        · rename_i he
          cases h1
          refine ⟨rfl, ?_, rfl⟩
          rw [e] at he
          have : ms.isEmpty = false := by simpa using he
          show S.host = _
          rw [hh, this]; rfl
      have hn : new = [⟨W.alloc S, q.1, q.2⟩] := List.append_cancel_right (hm.symm.trans hnew.1)
      subst hn
      obtain ⟨ms', r1, r2, r3, r4⟩ := ih ⟨E.inv, by rw [hm, B.mem]⟩ hnew.2.1 h2
      refine ⟨ms', r1, r2, ?_, ?_⟩
      · rw [r3]; simp [content]
      · rw [r4, hnew.2.2]; simp

/-- C47: with callbacks that register nothing and no other exit functions, exit ends and calls exactly the registered callbacks in reverse order. -/
theorem c47_reverse {W : World} (hW : Allocates W) (hq : ∀ f d, W.beh f d = []) (H : Heap) (head : Nat) (prog : List (Nat × Nat)) (hp : ∀ d, (0, d) ∉ prog) :
    ∃ S, acts W (start H head) (prog.map fun p => .zt p.1 p.2) = .ok S ∧ ∃ n, ∀ fuel, n ≤ fuel → ∃ S', exit W fuel S = .ok S' ∧
      S'.log = prog.map (fun p => .reg p.1 p.2) ++ prog.reverse.map (fun p => .call p.1 p.2) := by
  obtain ⟨S, hS⟩ := acts_ok (W := W) (as := prog.map fun p => .zt p.1 p.2) (S := start H head) (by
    intro d hd
    simp only [List.mem_map, Act.zt.injEq, Prod.exists] at hd
    obtain ⟨a, b, h, rfl, rfl⟩ := hd
    exact hp _ h)
  obtain ⟨ms, B, hh, hc, hl⟩ := prog_quiet hW prog (between_start H head) rfl hS
  refine ⟨S, hS, ms.length + 3, fun fuel hf => ?_⟩
  have hc' : prog.reverse = content ms := by rw [hc]; simp [content]
  have hcalls : ms.map (fun c => Ev.call c.fn c.data) = prog.reverse.map fun p => .call p.1 p.2 := by rw [hc']; simp [content]
  obtain ⟨k, rfl⟩ : ∃ k, fuel = k + 2 := ⟨fuel - 2, by omega⟩
  cases ms with
  | nil =>
      simp only [List.isEmpty_nil, if_true] at hh
      refine ⟨S, by rw [exit, hh], ?_⟩
      rw [← hcalls, hl]; simp [start]
  | cons c ms =>
      simp only [List.isEmpty_cons, Bool.false_eq_true, if_false] at hh
      have B0 : Between { S with host := [] } (c :: ms) := ⟨⟨B.inv.list, B.inv.sub, B.inv.fresh, B.inv.fns, B.inv.log⟩, B.mem⟩
      obtain ⟨S', r1, r2, r3, r4⟩ := atexitCall_quiet hW hq (fuel := k + 1) B0 (by simp at hf ⊢; omega)
      refine ⟨S', ?_, ?_⟩
      · rw [exit, hh]
        simp only [hostCall, r1, Outcome.ok_bind]
        rw [exit, r3]
      · rw [r4, hcalls]
        show S.log ++ _ = _
        rw [hl]; simp [start]

/-! ## A concrete world, and the order relative to other exit functions -/

/-- A bump allocator; callback 1 registers callback 2 when called, callback 2 registers nothing; the other host function 7 registers callback 1. -/
def demo : World :=
  ⟨fun S => S.mem.foldl (fun m c => max m (c.addr + 1)) (S.head + 1), fun fn data => if fn = 1 then [.zt 2 (data + 100)] else [], fun k => if k = 7 then [.zt 1 5] else []⟩

theorem demo_allocates : Allocates demo := by
  have h : ∀ (l : List Cb) (n : Nat), n ≤ l.foldl (fun m c => max m (c.addr + 1)) n ∧ ∀ c ∈ l, c.addr < l.foldl (fun m c => max m (c.addr + 1)) n := by
    intro l
    induction l with
    | nil => intro n; simp
    | cons c l ih =>
        intro n
        obtain ⟨h1, h2⟩ := ih (max n (c.addr + 1))
        refine ⟨by simp only [List.foldl_cons]; omega, fun x hx => ?_⟩
        simp only [List.foldl_cons]
        rcases List.mem_cons.1 hx with rfl | hx
        · omega
        · exact h2 x hx
  intro S
  obtain ⟨h1, h2⟩ := h S.mem (S.head + 1)
  refine ⟨?_, fun c hc => ?_⟩
  · show S.mem.foldl (fun m c => max m (c.addr + 1)) (S.head + 1) ≠ S.head
    omega
  · have := h2 c hc
    show c.addr ≠ S.mem.foldl (fun m c => max m (c.addr + 1)) (S.head + 1)
    omega

def demoLog (prog : List Act) : Option (List Ev) :=
  match acts demo (start ⟨fun _ => 0, fun _ => 0⟩ 0) prog with
  | .ok S => match exit demo 20 S with | .ok S' => some S'.log | _ => none
  | _ => none

/-- Nested registrations, also by an exit function that runs after the stack was emptied (7 is registered first and so runs last). -/
theorem demo_runs : demoLog [.host 7, .zt 1 1, .zt 3 3] =
    some [.hostReg 7, .reg 1 1, .reg 3 3, .call 3 3, .call 1 1, .reg 2 101, .call 2 101, .hostCall 7, .reg 1 5, .call 1 5, .reg 2 105, .call 2 105] := by decide +kernel

/-- Relative to functions registered with the host's atexit the order is not last in, first out: the host function 8 is registered before callback 4 and yet called before it. -/
theorem host_order_violation : demoLog [.zt 3 3, .host 8, .zt 4 4] = some [.reg 3 3, .hostReg 8, .reg 4 4, .hostCall 8, .call 4 4, .call 3 3] := by decide +kernel

end ZT.Atexit
