import Verif.Array.Proc

/-! # C102: theorems on the memory of arrays and byte streams -/

namespace ZT.Arr.Own

/-! ## Specification -/

/-- The array of a value. -/
def Val.array : Val → Arr
  | .arr a => a
  | .bs b => b.arr

/-- Calls that replace the data of an object. -/
def Edit.replaces : Edit → Bool
  | .setData .. | .setBlock .. | .bsSetData .. | .bsSetBlock .. => true
  | _ => false

/-- Calls that make the length 0 and keep the data. -/
def Edit.empties : Edit → Bool
  | .setLength len => len == 0
  | .truncate => true
  | _ => false

/-- The careful use of an object: data is only given to objects that have none, and lengths are not set to 0. -/
def Careful (vs : List (Option Val)) : Call → Prop
  | .edit i e => e.empties = false ∧ (e.replaces = true → ∀ v, vs[i]? = some (some v) → v.array.data = none)
  | _ => True

/-- Every call of the history is careful. -/
def CarefulRun (junk : Nat → Byte) (cs : List Call) : Prop := ∀ pre c post vs out, cs = pre ++ c :: post → runV junk [] pre = .ok (vs, out) → Careful vs c

/-! ## Careful histories -/

/-- An array without elements has no data. -/
def Tidy (a : Arr) : Prop := a.length = 0 → a.data = none

theorem repInit_tidy {len size : Nat} {d : Option (List Byte)} {a : Arr} (h : repInit len size d = .ok a) : Tidy a := by
  unfold repInit at h
  split at h
  · next c =>
      split at h
      · cases h
        intro h0
        have h0 : len = 0 := h0
        subst h0
        simpa using c
      · cases h
  · cases h

theorem new_tidy {len size : Nat} {a : Arr} (h : Arr.new len size = .ok a) : Tidy a := by
  unfold Arr.new at h
  split at h <;> exact repInit_tidy h

theorem setData_tidy {d : Option (List Byte)} {len size : Nat} {c : Bool} {a : Arr} (h : Arr.setData d len size c = .ok a) : Tidy a := by
  unfold Arr.setData at h
  split at h
  · obtain ⟨a1, e1, h⟩ := Outcome.bind_eq_ok.1 h
    have t := repInit_tidy e1
    cases d with
    | none => cases h
    | some src =>
        cases hm : a1.data with
        | none => simp only [hm] at h; cases h
        | some m =>
            simp only [hm] at h
            obtain ⟨_, _, h⟩ := Outcome.bind_eq_ok.1 h
            obtain ⟨_, _, h⟩ := Outcome.bind_eq_ok.1 h
            cases h
            intro h0
            have := t h0
            rw [hm] at this
            cases this
  · exact repInit_tidy h

theorem put_len {a b : Arr} {k : Nat} {e : List Byte} (h : Arr.put a k e = .ok b) : b.length = a.length ∧ k < a.length := by
  unfold Arr.put at h
  split at h
  · next c =>
      split at h
      · obtain ⟨_, _, h⟩ := Outcome.bind_eq_ok.1 h
        obtain ⟨_, _, h⟩ := Outcome.bind_eq_ok.1 h
        cases h; exact ⟨rfl, c⟩
      · cases h
  · cases h

theorem put_tidy {a b : Arr} {k : Nat} {e : List Byte} (h : Arr.put a k e = .ok b) : Tidy b := by
  obtain ⟨h1, h2⟩ := put_len h
  intro h0; omega

theorem resize_tidy {junk : Nat → Byte} {a b : Arr} {len : Nat} (h : Arr.resize junk a len = .ok b) : Tidy b := by
  unfold Arr.resize at h
  split at h
  · next c =>
      intro h0
      have : b.length = len := by
        split at h
        · cases h; rfl
        · simp only at h
          split at h
          · obtain ⟨_, _, h⟩ := Outcome.bind_eq_ok.1 h
            cases h; rfl
          · cases h; rfl
      omega
  · cases h

theorem copy_tidy {a b : Arr} {len : Nat} (h : Arr.copy a len = .ok b) : Tidy b := by
  unfold Arr.copy at h
  obtain ⟨c, e1, h⟩ := Outcome.bind_eq_ok.1 h
  have t := new_tidy e1
  split at h
  · next hc =>
      split at h
      · obtain ⟨_, _, h⟩ := Outcome.bind_eq_ok.1 h
        obtain ⟨_, _, h⟩ := Outcome.bind_eq_ok.1 h
        cases h
        intro h0
        have h0 : c.length = 0 := h0
        rw [h0] at hc
        simp at hc
      · cases h
  · cases h; exact t

theorem arrayPut_tidy (flip : Bool) (s : List Byte) (len : Nat) : ∀ (n : Nat) {a : Arr} {k : Nat} {r : Arr × Nat}, Tidy a → arrayPut flip s len n a k = .ok r → Tidy r.1 := by
  intro n
  induction n with
  | zero => intro a k r t h; cases h; exact t
  | succ n ih =>
      intro a k r t h
      obtain ⟨a1, e1, h⟩ := Outcome.bind_eq_ok.1 h
      exact ih (put_tidy e1) h

theorem write_tidy {junk : Nat → Byte} {b b' : Bs} {s : List Byte} {len size : Nat} (t : Tidy b.arr) (h : Arr.write junk b s len size = .ok b') : Tidy b'.arr := by
  have e : write junk b s len size = ((if sz (len * size) > sz (b.arr.length + 2 ^ 64 - b.offt) then resize junk b.arr (sz ((b.arr.length + sz (len * size)) * 2)) else .ok b.arr) >>= fun a =>
      arrayPut b.flip s (sz (len * size)) (sz (len * size)) a b.offt >>= fun r => .ok ⟨b.flip, r.2, r.1⟩) := by
    unfold write
    simp only
    split <;> rfl
  rw [e] at h
  obtain ⟨a, e1, h⟩ := Outcome.bind_eq_ok.1 h
  obtain ⟨r, e2, h⟩ := Outcome.bind_eq_ok.1 h
  cases h
  refine arrayPut_tidy _ _ _ _ ?_ e2
  split at e1
  · exact resize_tidy e1
  · cases e1; exact t

theorem editV_tidy {junk : Nat → Byte} {v : Val} {e : Edit} {r : Val × Obs} (t : Tidy v.array) (he : e.empties = false) (h : editV junk v e = .ok r) : Tidy r.1.array := by
  cases v with
  | arr a =>
      cases e <;> simp only [editV] at h
      case setData => obtain ⟨x, e1, h⟩ := Outcome.bind_eq_ok.1 h; cases h; exact setData_tidy e1
      case setBlock => obtain ⟨x, e1, h⟩ := Outcome.bind_eq_ok.1 h; cases h; exact setData_tidy e1
      case resize => obtain ⟨x, e1, h⟩ := Outcome.bind_eq_ok.1 h; cases h; exact resize_tidy e1
      case put => obtain ⟨x, e1, h⟩ := Outcome.bind_eq_ok.1 h; cases h; exact put_tidy e1
      case setLength len =>
          cases h
          intro h0
          have h0 : len = 0 := h0
          simp [Edit.empties, h0] at he
      case elem => obtain ⟨x, e1, h⟩ := Outcome.bind_eq_ok.1 h; cases h; exact t
      all_goals cases h
  | bs b =>
      cases e <;> simp only [editV] at h
      case bsSetData =>
          obtain ⟨x, e1, h⟩ := Outcome.bind_eq_ok.1 h; cases h
          obtain ⟨y, e4, h⟩ := Outcome.bind_eq_ok.1 e1; cases h
          exact setData_tidy e4
      case bsSetBlock =>
          obtain ⟨x, e1, h⟩ := Outcome.bind_eq_ok.1 h; cases h
          obtain ⟨y, e4, h⟩ := Outcome.bind_eq_ok.1 e1; cases h
          exact setData_tidy e4
      case truncate => cases he
      case rewind => cases h; exact t
      case write => obtain ⟨x, e1, h⟩ := Outcome.bind_eq_ok.1 h; cases h; exact write_tidy t e1
      case read =>
          obtain ⟨x, e1, h⟩ := Outcome.bind_eq_ok.1 h; cases h
          obtain ⟨y, e4, h⟩ := Outcome.bind_eq_ok.1 e1; cases h
          exact t
      all_goals cases h

/-- All arrays are tidy. -/
def TidyAll (vs : List (Option Val)) : Prop := ∀ (i : Nat) v, vs[i]? = some (some v) → Tidy v.array

theorem TidyAll.push {vs : List (Option Val)} (t : TidyAll vs) {v : Val} (tv : Tidy v.array) : TidyAll (vs ++ [some v]) := by
  intro i w h
  rw [List.getElem?_append] at h
  split at h
  · exact t i w h
  · have hm := List.mem_of_getElem? h
    have : w = v := by simpa using hm
    rw [this]; exact tv

theorem TidyAll.set {vs : List (Option Val)} (t : TidyAll vs) {i : Nat} {x : Option Val} (tv : ∀ v, x = some v → Tidy v.array) : TidyAll (vs.set i x) := by
  intro j w h
  rw [List.getElem?_set] at h
  split at h
  · split at h
    · exact tv w (Option.some.inj h)
    · cases h
  · exact t j w h

theorem getV_ok {vs : List (Option Val)} {i : Nat} {v : Val} (h : getV vs i = .ok v) : vs[i]? = some (some v) := by
  unfold getV at h
  split at h
  · next e => cases h; exact e
  · cases h

theorem stepV_tidy {junk : Nat → Byte} {vs : List (Option Val)} (t : TidyAll vs) {c : Call} (hc : Careful vs c) {r : List (Option Val) × Obs} (h : stepV junk vs c = .ok r) : TidyAll r.1 := by
  cases c with
  | new len size => obtain ⟨a, e1, h⟩ := Outcome.bind_eq_ok.1 h; cases h; exact t.push (new_tidy e1)
  | withData src len size => obtain ⟨a, e1, h⟩ := Outcome.bind_eq_ok.1 h; cases h; exact t.push (setData_tidy e1)
  | withBlock m len size => obtain ⟨a, e1, h⟩ := Outcome.bind_eq_ok.1 h; cases h; exact t.push (setData_tidy e1)
  | bsNew flip =>
      obtain ⟨a, e1, h⟩ := Outcome.bind_eq_ok.1 h; cases h
      obtain ⟨y, e4, h⟩ := Outcome.bind_eq_ok.1 e1; cases h
      exact t.push (new_tidy e4)
  | edit i e =>
      obtain ⟨v, e1, h⟩ := Outcome.bind_eq_ok.1 h
      obtain ⟨w, e2, h⟩ := Outcome.bind_eq_ok.1 h
      cases h
      refine t.set fun x hx => ?_
      cases hx
      exact editV_tidy (t i v (getV_ok e1)) hc.1 e2
  | copy i len =>
      obtain ⟨v, e1, h⟩ := Outcome.bind_eq_ok.1 h
      obtain ⟨w, e2, h⟩ := Outcome.bind_eq_ok.1 h
      cases h
      cases v with
      | arr a => obtain ⟨y, e4, h⟩ := Outcome.bind_eq_ok.1 e2; cases h; exact t.push (copy_tidy e4)
      | bs b => cases e2
  | clone i =>
      obtain ⟨v, e1, h⟩ := Outcome.bind_eq_ok.1 h
      obtain ⟨w, e2, h⟩ := Outcome.bind_eq_ok.1 h
      cases h
      cases v with
      | arr a => cases e2
      | bs b =>
          obtain ⟨y, e4, h⟩ := Outcome.bind_eq_ok.1 e2; cases h
          obtain ⟨z, e5, h⟩ := Outcome.bind_eq_ok.1 e4; cases h
          exact t.push (copy_tidy e5)
  | setArray i j offt =>
      obtain ⟨v, e1, h⟩ := Outcome.bind_eq_ok.1 h
      obtain ⟨a, e2, h⟩ := Outcome.bind_eq_ok.1 h
      obtain ⟨w, e3, h⟩ := Outcome.bind_eq_ok.1 h
      cases h
      refine TidyAll.set (t.set (fun x hx => by cases hx)) fun x hx => ?_
      cases hx
      cases v with
      | arr x => cases a <;> cases e3
      | bs b =>
          cases a with
          | bs y => cases e3
          | arr y => cases e3; exact t j (.arr y) (getV_ok e2)
  | free i =>
      obtain ⟨v, e1, h⟩ := Outcome.bind_eq_ok.1 h
      cases h
      exact t.set (fun x hx => by cases hx)

theorem Sees.tidy {h : Heap} {d : Hdr} {a : Arr} (S : Sees h d a) (t : Tidy a) : dropped d = [] := by
  unfold dropped
  split
  · next c =>
      have := t (by rw [← S.len]; exact c)
      rw [← S.data] at this
      cases e : d.data with
      | none => rfl
      | some b => rw [e] at this; cases this
  · rfl

theorem Sees.no_data {h : Heap} {d : Hdr} {a : Arr} (S : Sees h d a) (t : a.data = none) : d.data.toList = [] := by
  rw [← S.data] at t
  cases e : d.data with
  | none => rfl
  | some b => rw [e] at t; cases t

theorem SeesV.array {h : Heap} {o : Obj} {v : Val} (S : SeesV h o v) : Sees h o.hdr v.array := by
  cases v with
  | arr a => exact S.2
  | bs b => exact S.2

theorem edit_lost {junk : Nat → Byte} {h : Heap} {o : Obj} {v : Val} (S : SeesV h o v) (t : Tidy v.array) {e : Edit} (he : e.replaces = true → v.array.data = none) {r : Obj × Heap × List Nat × Obs}
    (hr : editM junk h o e = .ok r) : r.2.2.1 = [] := by
  have S1 := S.array
  have k1 := S1.tidy t
  have k2 : e.replaces = true → o.hdr.data.toList = [] := fun hh => S1.no_data (he hh)
  have k3 : ∀ a b, droppedBy o.hdr a b = [] := by
    intro a b
    unfold droppedBy
    split
    · exact k1
    · rfl
  cases e <;> simp only [editM] at hr <;> cases hs : o.str <;> simp only [hs] at hr
  case setData.none => obtain ⟨x, e1, hr⟩ := Outcome.bind_eq_ok.1 hr; cases hr; exact k2 rfl
  case setBlock.none => obtain ⟨x, e1, hr⟩ := Outcome.bind_eq_ok.1 hr; cases hr; exact k2 rfl
  case resize.none => obtain ⟨x, e1, hr⟩ := Outcome.bind_eq_ok.1 hr; cases hr; exact k1
  case put.none => obtain ⟨x, e1, hr⟩ := Outcome.bind_eq_ok.1 hr; cases hr; rfl
  case setLength.none => cases hr; rfl
  case elem.none => obtain ⟨x, e1, hr⟩ := Outcome.bind_eq_ok.1 hr; cases hr; rfl
  case bsSetData.some => obtain ⟨x, e1, hr⟩ := Outcome.bind_eq_ok.1 hr; cases hr; exact k2 rfl
  case bsSetBlock.some => obtain ⟨x, e1, hr⟩ := Outcome.bind_eq_ok.1 hr; cases hr; exact k2 rfl
  case truncate.some => cases hr; rfl
  case rewind.some => cases hr; rfl
  case write.some => obtain ⟨x, e1, hr⟩ := Outcome.bind_eq_ok.1 hr; cases hr; exact k3 _ _
  case read.some => obtain ⟨x, e1, hr⟩ := Outcome.bind_eq_ok.1 hr; cases hr; rfl
  all_goals cases hr

theorem get_ok {p : Proc} {i : Nat} {o : Obj} (h : p.get i = .ok o) : p.objs[i]? = some (some o) := by
  unfold Proc.get at h
  split at h
  · next e => cases h; exact e
  · cases h

theorem step_lost {junk : Nat → Byte} {p : Proc} {vs : List (Option Val)} (I : Inv p vs) (t : TidyAll vs) {c : Call} (hc : Careful vs c) {r : Proc × Obs} (h : stepM junk p c = .ok r) : r.1.lost = p.lost := by
  cases c with
  | new len size => obtain ⟨a, e1, h⟩ := Outcome.bind_eq_ok.1 h; cases h; rfl
  | withData src len size => obtain ⟨a, e1, h⟩ := Outcome.bind_eq_ok.1 h; cases h; rfl
  | withBlock m len size => obtain ⟨a, e1, h⟩ := Outcome.bind_eq_ok.1 h; cases h; rfl
  | bsNew flip => obtain ⟨a, e1, h⟩ := Outcome.bind_eq_ok.1 h; cases h; rfl
  | edit i e =>
      obtain ⟨o, e1, h⟩ := Outcome.bind_eq_ok.1 h
      obtain ⟨w, e2, h⟩ := Outcome.bind_eq_ok.1 h
      cases h
      have hi := get_ok e1
      have := I.sees i
      rw [hi] at this
      cases ev : vs[i]? with
      | none => rw [ev] at this; cases this
      | some v =>
          rw [ev] at this
          cases this with
          | obj S =>
              next v =>
              have := edit_lost S (t i v ev) (fun hh => hc.2 hh v ev) e2
              show w.2.2.1 ++ p.lost = p.lost
              rw [this]; rfl
  | copy i len =>
      obtain ⟨o, e1, h⟩ := Outcome.bind_eq_ok.1 h
      cases hs : o.str with
      | none => simp only [hs] at h; obtain ⟨w, e2, h⟩ := Outcome.bind_eq_ok.1 h; cases h; rfl
      | some s => simp only [hs] at h; cases h
  | clone i =>
      obtain ⟨o, e1, h⟩ := Outcome.bind_eq_ok.1 h
      cases hs : o.str with
      | some s => simp only [hs] at h; obtain ⟨w, e2, h⟩ := Outcome.bind_eq_ok.1 h; cases h; rfl
      | none => simp only [hs] at h; cases h
  | setArray i j offt =>
      obtain ⟨o, e1, h⟩ := Outcome.bind_eq_ok.1 h
      obtain ⟨a, e2, h⟩ := Outcome.bind_eq_ok.1 h
      cases hs : o.str with
      | none => simp only [hs] at h; cases h
      | some s =>
          cases ht : a.str with
          | some t => simp only [hs, ht] at h; cases h
          | none => simp only [hs, ht] at h; obtain ⟨w, e2, h⟩ := Outcome.bind_eq_ok.1 h; cases h; rfl
  | free i =>
      obtain ⟨o, e1, h⟩ := Outcome.bind_eq_ok.1 h
      obtain ⟨w, e2, h⟩ := Outcome.bind_eq_ok.1 h
      cases h; rfl

theorem run_lost {junk : Nat → Byte} : ∀ (cs : List Call) {p : Proc} {vs : List (Option Val)} (_ : Inv p vs) (_ : TidyAll vs)
    (_ : ∀ pre c post ws out, cs = pre ++ c :: post → runV junk vs pre = .ok (ws, out) → Careful ws c) {r : Proc × List Obs}, runM junk p cs = .ok r → r.1.lost = p.lost := by
  intro cs
  induction cs with
  | nil => intro p vs I t hc r h; cases h; rfl
  | cons c cs ih =>
      intro p vs I t hc r h
      obtain ⟨q, e1, h⟩ := Outcome.bind_eq_ok.1 h
      obtain ⟨s, e2, h⟩ := Outcome.bind_eq_ok.1 h
      cases h
      have hc0 := hc [] c cs vs [] rfl rfl
      have ag := step_agree junk I c
      rw [e1] at ag
      cases e3 : stepV junk vs c with
      | abort => rw [e3] at ag; cases ag
      | ub => rw [e3] at ag; cases ag
      | ok w =>
          rw [e3] at ag
          cases ag with
          | ok hr =>
              have k := ih hr.1 (stepV_tidy t hc0 e3) (fun pre c' post ws out e h' => hc (c :: pre) c' post ws (w.2 :: out) (by rw [e]; rfl)
                (Outcome.bind_eq_ok.2 ⟨_, e3, Outcome.bind_eq_ok.2 ⟨_, h', rfl⟩⟩)) e2
              show s.1.lost = p.lost
              rw [k, step_lost I t hc0 e1]

/-! ## Theorems -/

/-- For every history of calls on arrays and streams: with memory and pointers, each call does exactly what the same call does on independent values - it fails, or gives the same answer, and all objects then stand for the same values. -/
theorem c102_calls (junk : Nat → Byte) (cs : List Call) :
    Agree (fun r w => r.2 = w.2 ∧ ∀ i : Nat, Slot r.1.heap r.1.objs[i]? w.1[i]?) (runM junk start cs) (runV junk [] cs) :=
  (run_agree junk cs start_inv).imp fun _ _ h => ⟨h.2.1, h.1.sees⟩

/-- The blocks in use are at every moment those of the objects that were not freed, each once, and those lost. -/
theorem c102_accounting (junk : Nat → Byte) (cs : List Call) {p : Proc} {out : List Obs} (h : runM junk start cs = .ok (p, out)) :
    p.heap.live.Perm (p.owned ++ p.lost) ∧ (p.owned ++ p.lost).Nodup := by
  have ag := run_agree junk cs start_inv
  rw [h] at ag
  cases e : runV junk [] cs with
  | abort => rw [e] at ag; cases ag
  | ub => rw [e] at ag; cases ag
  | ok w =>
      rw [e] at ag
      cases ag with
      | ok hr => exact ⟨hr.1.acc, hr.1.acc.nodup_iff.1 hr.1.good.nodup⟩

/-- Two different objects share no block. -/
theorem c102_apart (junk : Nat → Byte) (cs : List Call) {p : Proc} {out : List Obs} (h : runM junk start cs = .ok (p, out)) {i j : Nat} {o o' : Obj}
    (hi : p.objs[i]? = some (some o)) (hj : p.objs[j]? = some (some o')) (hij : i ≠ j) : (∀ b ∈ o.blocks, b ∈ p.heap.live) ∧ ∀ b ∈ o.blocks, b ∉ o'.blocks := by
  have ag := run_agree junk cs start_inv
  rw [h] at ag
  cases e : runV junk [] cs with
  | abort => rw [e] at ag; cases ag
  | ub => rw [e] at ag; cases ag
  | ok w =>
      rw [e] at ag
      cases ag with
      | ok hr => exact ⟨live_of hr.1 hi, apart hr.1 hj hi hij⟩

/-- With careful use nothing is lost: the blocks in use are those of the objects, and when all objects have been freed (or handed over) there are none. -/
theorem c102_clean_partial (junk : Nat → Byte) (cs : List Call) (hc : CarefulRun junk cs) {p : Proc} {out : List Obs} (h : runM junk start cs = .ok (p, out)) :
    p.heap.live.Perm p.owned ∧ ((∀ o ∈ p.objs, o = none) → p.heap.live = []) := by
  have hl : p.lost = [] := run_lost cs start_inv (fun i v hv => by cases hv) hc h
  have k := (c102_accounting junk cs h).1
  rw [hl, List.append_nil] at k
  refine ⟨k, fun ha => ?_⟩
  have : p.owned = [] := List.flatMap_eq_nil_iff.2 fun o ho => by rw [ha o ho]; rfl
  rw [this] at k
  exact k.eq_nil

theorem run_append (junk : Nat → Byte) : ∀ (cs ds : List Call) (p : Proc), runM junk p (cs ++ ds) = (runM junk p cs >>= fun r => runM junk r.1 ds >>= fun q => pure (q.1, r.2 ++ q.2)) := by
  intro cs
  induction cs with
  | nil =>
      intro ds p
      show runM junk p ds = (runM junk p ds >>= fun q => pure (q.1, [] ++ q.2))
      cases runM junk p ds <;> rfl
  | cons c cs ih =>
      intro ds p
      show (stepM junk p c >>= fun r => runM junk r.1 (cs ++ ds) >>= fun q => pure (q.1, r.2 :: q.2)) = ((stepM junk p c >>= fun r => runM junk r.1 cs >>= fun q => pure (q.1, r.2 :: q.2)) >>= _)
      rw [Outcome.bind_assoc]
      congr 1; funext r
      rw [ih, Outcome.bind_assoc, Outcome.bind_assoc]
      congr 1; funext s
      rw [Outcome.bind_assoc]
      rfl

/-- An object that has been freed stays freed: after any further calls none of its blocks is in use, and freeing it again is undefined. -/
theorem c102_once (junk : Nat → Byte) (cs ds : List Call) {p q : Proc} {out out' : List Obs} (h : runM junk start cs = .ok (p, out)) {i : Nat} {o : Obj} (hi : p.objs[i]? = some (some o))
    (h' : runM junk start (cs ++ .free i :: ds) = .ok (q, out')) : (∀ b ∈ o.blocks, b ∉ q.heap.live) ∧ freeObj q.heap o = .ub := by
  have ag := run_agree junk cs start_inv
  rw [h] at ag
  cases e : runV junk [] cs with
  | abort => rw [e] at ag; cases ag
  | ub => rw [e] at ag; cases ag
  | ok w =>
      rw [e] at ag
      cases ag with
      | ok hr =>
          have I := hr.1
          obtain ⟨h1, e1, u⟩ := freeObj_upd I hi
          have ef : stepM junk p (.free i) = .ok (⟨h1, p.objs.set i none, p.lost⟩, .none) := by
            have : p.get i = .ok o := by unfold Proc.get; rw [hi]
            exact Outcome.bind_eq_ok.2 ⟨_, this, Outcome.bind_eq_ok.2 ⟨_, e1, rfl⟩⟩
          rw [run_append, h, Outcome.ok_bind] at h'
          obtain ⟨r, e2, h'⟩ := Outcome.bind_eq_ok.1 h'
          cases h'
          obtain ⟨r1, e3, e2⟩ := Outcome.bind_eq_ok.1 e2
          rw [ef] at e3
          cases e3
          obtain ⟨r2, e4, e2⟩ := Outcome.bind_eq_ok.1 e2
          cases e2
          have ag1 := step_agree junk I (.free i)
          rw [ef] at ag1
          have key : ∀ b ∈ o.blocks, b ∉ r2.1.heap.live := by
            cases e5 : stepV junk w.1 (.free i) with
            | abort => rw [e5] at ag1; cases ag1
            | ub => rw [e5] at ag1; cases ag1
            | ok w1 =>
                rw [e5] at ag1
                cases ag1 with
                | ok hr1 =>
                    have ag2 := run_agree junk ds hr1.1
                    rw [e4] at ag2
                    cases e6 : runV junk w1.1 ds with
                    | abort => rw [e6] at ag2; cases ag2
                    | ub => rw [e6] at ag2; cases ag2
                    | ok w2 =>
                        rw [e6] at ag2
                        cases ag2 with
                        | ok hr2 =>
                            intro b hb hm
                            have hlive := live_of I hi b hb
                            have hlt := I.good.lt b hlive
                            rcases hr2.2.2.2 b hm with k | k
                            · have kk : b ∈ h1.live := k
                              obtain ⟨rest, g1, _, _⟩ := owned_split hi
                              have kp : p.heap.live.Perm (o.blocks ++ (rest ++ p.lost)) := I.acc.trans (by
                                have := g1.append_right p.lost
                                rwa [List.append_assoc] at this)
                              have k2 := (u.perm _ kp).mem_iff.1 kk
                              have nd := kp.nodup_iff.1 I.good.nodup
                              exact (List.nodup_append.1 nd).2.2 b hb b k2 rfl
                            · have kk : h1.next ≤ b := k
                              have := u.mono
                              omega
          refine ⟨key, ?_⟩
          have hna : o.addr ∉ r2.1.heap.live := key o.addr (by simp [Obj.blocks])
          unfold freeObj
          cases hs : o.str with
          | none =>
              show freeM _ _ _ = _
              unfold freeM
              rw [show r2.1.heap.load o.addr = .ub from if_neg hna]; rfl
          | some s =>
              show bsFreeM _ _ _ _ = _
              have hns : s.1 ∉ r2.1.heap.live := key s.1 (by simp [Obj.blocks, hs])
              unfold bsFreeM
              rw [show r2.1.heap.load s.1 = .ub from if_neg hns]; rfl

/-! ## What goes wrong -/

/-- The blocks in use after a history. -/
def liveAfter (cs : List Call) : Option (List Nat) :=
  match runM (fun _ => 0) start cs with
  | .ok (p, _) => some p.heap.live
  | _ => none

/-- zt_array_set_data and zt_bstream_set_data on an object that has data lose the old block. -/
theorem c102_set_data_violation : liveAfter [.withData [1, 2] 2 1, .edit 0 (.setData [3] 1 1), .free 0] = some [1] ∧
    liveAfter [.bsNew false, .edit 0 (.write [7] 1 1), .edit 0 (.bsSetData [3] 1), .free 0] = some [2] := by
  constructor <;> decide +kernel

/-- Writing to a truncated stream, and growing an array whose length was set to 0, lose the old block. -/
theorem c102_truncate_violation : liveAfter [.bsNew false, .edit 0 (.write [7] 1 1), .edit 0 .truncate, .edit 0 .rewind, .edit 0 (.write [7] 1 1), .free 0] = some [2] ∧
    liveAfter [.new 2 1, .edit 0 (.setLength 0), .edit 0 (.resize 3), .free 0] = some [1] := by
  constructor <;> decide +kernel

/-- zt_array_with and zt_array_set_data without copy accept memory that is not from malloc, or that the caller frees himself; freeing the array is then undefined. -/
theorem c102_foreign_violation (h : Heap) (a b : Nat) (ha : a ∈ h.live) (hb : b ∉ h.live) (len size : Nat) (hl : 0 < len) (hs : 0 < size) :
    adoptM h (some b) len size = .ok (⟨len, size, some b⟩, h) ∧ freeM h a ⟨len, size, some b⟩ = .ub := by
  constructor
  · unfold adoptM initM
    rw [if_pos (by simp [hl]), if_pos hs]; rfl
  · unfold freeM
    rw [load_ok ha, Outcome.ok_bind]
    show (Heap.free h b >>= _) = _
    rw [show h.free b = .ub from if_neg hb]; rfl

/-- An array given to a stream must not be freed by the caller: the stream is then broken. -/
def handedOver : Outcome (Heap × Outcome Heap) := do
  let r ← runM (fun _ => 0) start [.bsNew false, .new 2 1]
  let a ← r.1.get 1
  let q ← stepM (fun _ => 0) r.1 (.setArray 0 1 0)
  let o ← q.1.get 0
  let h ← freeM q.1.heap a.addr a.hdr
  pure (h, freeObj h o)

theorem c102_handed_over_violation : ∃ h, handedOver = .ok (h, .ub) := ⟨_, rfl⟩

/-! Concrete cases: a careful history, after which nothing is in use. -/

def demo : List Call := [.bsNew true, .withData [1, 2, 3] 3 1, .edit 0 (.bsSetData [9, 8] 2), .edit 0 (.write [4, 5] 2 1), .copy 1 2, .clone 0, .edit 1 (.resize 5), .edit 1 (.put 4 [6]), .setArray 3 1 0, .free 0, .free 2, .free 3]

/-- A check of a given history. -/
def check (vs : List (Option Val)) : Call → Bool
  | .edit i e => !e.empties && (!e.replaces || (match vs[i]? with | some (some v) => v.array.data.isNone | _ => true))
  | _ => true

def checkRun (junk : Nat → Byte) : List (Option Val) → List Call → Bool
  | _, [] => true
  | vs, c :: cs => check vs c && (match stepV junk vs c with | .ok r => checkRun junk r.1 cs | _ => true)

theorem check_careful {vs : List (Option Val)} {c : Call} (h : check vs c = true) : Careful vs c := by
  cases c with
  | edit i e =>
      simp only [check, Bool.and_eq_true, Bool.not_eq_true', Bool.or_eq_true] at h
      refine ⟨h.1, fun hr v hv => ?_⟩
      rcases h.2 with h2 | h2
      · rw [hr] at h2; cases h2
      · rw [hv] at h2
        simpa using h2
  | _ => trivial

theorem check_run {junk : Nat → Byte} : ∀ (pre : List Call) {vs : List (Option Val)} {c : Call} {post : List Call} {ws : List (Option Val)} {out : List Obs},
    checkRun junk vs (pre ++ c :: post) = true → runV junk vs pre = .ok (ws, out) → Careful ws c := by
  intro pre
  induction pre with
  | nil =>
      intro vs c post ws out h hr
      cases hr
      simp only [List.nil_append, checkRun, Bool.and_eq_true] at h
      exact check_careful h.1
  | cons d pre ih =>
      intro vs c post ws out h hr
      simp only [List.cons_append, checkRun, Bool.and_eq_true] at h
      obtain ⟨r, e1, hr⟩ := Outcome.bind_eq_ok.1 hr
      obtain ⟨q, e2, hr⟩ := Outcome.bind_eq_ok.1 hr
      cases hr
      rw [e1] at h
      exact ih h.2 e2

example : CarefulRun (fun _ => 0) demo := by
  intro pre c post vs out e hr
  refine check_run pre (?_ : checkRun (fun _ => 0) [] (pre ++ c :: post) = true) hr
  rw [← e]
  decide +kernel

example : liveAfter demo = some [] ∧ liveAfter (demo.take 9) = some [10, 7, 6, 5, 4, 2, 1, 0] := by constructor <;> decide +kernel

end ZT.Arr.Own
