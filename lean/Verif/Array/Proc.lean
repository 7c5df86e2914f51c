import Verif.Array.Own

/-!
# C102: all arrays and byte streams of a process

Histories of calls. The objects are known by handles: the n-th object created has handle n. Calls with a handle that was freed, or was handed over with zt_bstream_set_array, are not allowed.
-/

namespace ZT.Arr.Own

/-- An object: the block of its `struct zt_array`, the contents of that structure, and for a byte stream the block of its `struct zt_bstream`, its order flag and its position. -/
structure Obj where
  addr : Nat
  hdr : Hdr
  str : Option (Nat × Bool × Nat)

/-- What a call returns. -/
inductive Obs
  | none
  | num (n : Nat)
  | bytes (s : List Byte)

/-- Calls that change or read one object. `block` calls hand over a block that the caller has got from malloc and filled with the bytes given (`none`: NULL). -/
inductive Edit
  | setData (src : List Byte) (len size : Nat)
  | setBlock (m : Option (List Byte)) (len size : Nat)
  | resize (len : Nat)
  | put (offt : Nat) (e : List Byte)
  | setLength (len : Nat)
  | elem (offt : Nat)
  | bsSetData (src : List Byte) (len : Nat)
  | bsSetBlock (m : Option (List Byte)) (len : Nat)
  | truncate
  | rewind
  | write (data : List Byte) (len size : Nat)
  | read (buf : List Byte) (len size : Nat)

inductive Call
  | new (len size : Nat)
  | withData (src : List Byte) (len size : Nat)
  | withBlock (m : Option (List Byte)) (len size : Nat)
  | bsNew (flip : Bool)
  | edit (i : Nat) (e : Edit)
  | copy (i len : Nat)
  | clone (i : Nat)
  | setArray (i j offt : Nat)
  | free (i : Nat)

/-! ## The functions that only read -/

/-- zt_bstream.c 20-40 `_array_get` -/
def arrayGetM (flip : Bool) (h : Heap) (d : Hdr) (len : Nat) : (n : Nat) → (s : List Byte) → (offt : Nat) → Outcome (List Byte × Nat)
  | 0, s, offt => .ok (s, offt)
  | n + 1, s, offt =>
      if offt < d.length then
        match d.data with
        | none => .ub
        | some p => do
            let m ← h.load p
            let b ← rd m (sz (offt * d.size))
            let s ← wr s (if flip then n else len - (n + 1)) b
            arrayGetM flip h d len n s (sz (offt + 1))
      else .abort

/-- zt_array.c 154-163 `zt_array_elem_copy` -/
def elemM (h : Heap) (d : Hdr) (offt : Nat) : Outcome (List Byte) :=
  if offt < d.length then
    match d.data with
    | some p => do
        let m ← h.load p
        slice m (sz (offt * d.size)) d.size
    | none => .ub
  else .abort

/-- The caller's malloc of a block that is then handed over. -/
def allocOpt (h : Heap) : Option (List Byte) → Option Nat × Heap
  | none => (none, h)
  | some m => (some (h.alloc m).1, (h.alloc m).2)

/-! ## Calls -/

/-- zt_array.c and zt_bstream.c: a call on an object. The result is the object, the heap, the data blocks to which no pointer is left (`lost`, not part of the state of the program), and what the call returns. -/
def editM (junk : Nat → Byte) (h : Heap) (o : Obj) : Edit → Outcome (Obj × Heap × List Nat × Obs)
  | .setData src len size =>
      match o.str with
      | none => do
          let r ← setDataM h src len size
          pure ({ o with hdr := r.1 }, r.2, o.hdr.data.toList, .none)
      | some _ => .ub
  | .setBlock m len size =>
      match o.str with
      | none => do
          let r ← adoptM (allocOpt h m).2 (allocOpt h m).1 len size
          pure ({ o with hdr := r.1 }, r.2, o.hdr.data.toList, .none)
      | some _ => .ub
  | .resize len =>
      match o.str with
      | none => do
          let r ← resizeM junk h o.hdr len
          pure ({ o with hdr := r.1 }, r.2, dropped o.hdr, .none)
      | some _ => .ub
  | .put offt e =>
      match o.str with
      | none => do
          let r ← putM h o.hdr offt e
          pure ({ o with hdr := r.1 }, r.2, [], .none)
      | some _ => .ub
  | .setLength len =>
      match o.str with
      | none => .ok ({ o with hdr := { o.hdr with length := len } }, h, [], .num o.hdr.length)
      | some _ => .ub
  | .elem offt =>
      match o.str with
      | none => do
          let s ← elemM h o.hdr offt
          pure (o, h, [], .bytes s)
      | some _ => .ub
  | .bsSetData src len =>
      match o.str with
      | some _ => do
          let r ← setDataM h src len 1
          pure ({ o with hdr := r.1 }, r.2, o.hdr.data.toList, .none)
      | none => .ub
  | .bsSetBlock m len =>
      match o.str with
      | some _ => do
          let r ← adoptM (allocOpt h m).2 (allocOpt h m).1 len 1
          pure ({ o with hdr := r.1 }, r.2, o.hdr.data.toList, .none)
      | none => .ub
  | .truncate =>
      match o.str with
      | some _ => .ok ({ o with hdr := { o.hdr with length := 0 } }, h, [], .num o.hdr.length)
      | none => .ub
  | .rewind =>
      match o.str with
      | some s => .ok ({ o with str := some (s.1, s.2.1, 0) }, h, [], .num s.2.2)
      | none => .ub
  | .write data len size =>
      match o.str with
      | some s => do
          let r ← writeM junk h s.2.1 s.2.2 o.hdr data len size
          pure ({ o with hdr := r.1, str := some (s.1, s.2.1, r.2.2) }, r.2.1, droppedBy o.hdr s.2.2 (sz (len * size)), .none)
      | none => .ub
  | .read buf len size =>
      match o.str with
      | some s => do
          let r ← arrayGetM s.2.1 h o.hdr (sz (len * size)) (sz (len * size)) buf s.2.2
          pure ({ o with str := some (s.1, s.2.1, r.2) }, h, [], .bytes r.1)
      | none => .ub

/-- The state of the process; `lost` is for the accounts only. -/
structure Proc where
  heap : Heap
  objs : List (Option Obj)
  lost : List Nat

def Proc.get (p : Proc) (i : Nat) : Outcome Obj :=
  match p.objs[i]? with
  | some (some o) => .ok o
  | _ => .ub

/-- A new object. -/
def Proc.push (p : Proc) (h : Heap) (o : Obj) : Proc := { p with heap := h, objs := p.objs ++ [some o] }

def freeObj (h : Heap) (o : Obj) : Outcome Heap :=
  match o.str with
  | none => freeM h o.addr o.hdr
  | some s => bsFreeM h s.1 o.addr o.hdr

/-- Any call. zt_array.c 20-76, 103-118, zt_bstream.c 64-120. -/
def stepM (junk : Nat → Byte) (p : Proc) : Call → Outcome (Proc × Obs)
  | .new len size => do
      let r ← newM (p.heap.alloc []).2 len size
      pure (p.push r.2 ⟨(p.heap.alloc []).1, r.1, none⟩, .none)
  | .withData src len size => do
      let r ← setDataM (p.heap.alloc []).2 src len size
      pure (p.push r.2 ⟨(p.heap.alloc []).1, r.1, none⟩, .none)
  | .withBlock m len size => do
      let r ← adoptM (allocOpt (p.heap.alloc []).2 m).2 (allocOpt (p.heap.alloc []).2 m).1 len size
      pure (p.push r.2 ⟨(p.heap.alloc []).1, r.1, none⟩, .none)
  | .bsNew flip => do
      let r ← newM ((p.heap.alloc []).2.alloc []).2 0 1
      pure (p.push r.2 ⟨((p.heap.alloc []).2.alloc []).1, r.1, some ((p.heap.alloc []).1, flip, 0)⟩, .none)
  | .edit i e => do
      let o ← p.get i
      let r ← editM junk p.heap o e
      pure (⟨r.2.1, p.objs.set i (some r.1), r.2.2.1 ++ p.lost⟩, r.2.2.2)
  | .copy i len => do
      let o ← p.get i
      match o.str with
      | none => do
          let r ← copyM (p.heap.alloc []).2 o.hdr len
          pure (p.push r.2 ⟨(p.heap.alloc []).1, r.1, none⟩, .none)
      | some _ => .ub
  | .clone i => do
      let o ← p.get i
      match o.str with
      | some s => do
          let r ← copyM ((p.heap.alloc []).2.alloc []).2 o.hdr o.hdr.length
          pure (p.push r.2 ⟨((p.heap.alloc []).2.alloc []).1, r.1, some ((p.heap.alloc []).1, false, s.2.2)⟩, .none)
      | none => .ub
  | .setArray i j offt => do
      let o ← p.get i
      let a ← p.get j
      match o.str, a.str with
      | some s, none => do
          let h ← freeM p.heap o.addr o.hdr
          pure (⟨h, (p.objs.set j none).set i (some ⟨a.addr, a.hdr, some (s.1, s.2.1, offt)⟩), p.lost⟩, .none)
      | _, _ => .ub
  | .free i => do
      let o ← p.get i
      let h ← freeObj p.heap o
      pure (⟨h, p.objs.set i none, p.lost⟩, .none)

def runM (junk : Nat → Byte) : Proc → List Call → Outcome (Proc × List Obs)
  | p, [] => .ok (p, [])
  | p, c :: cs => do
      let r ← stepM junk p c
      let q ← runM junk r.1 cs
      pure (q.1, r.2 :: q.2)

def start : Proc := ⟨⟨[], fun _ => [], 0⟩, [], []⟩

/-! ## Specification: the same calls on values, by the functions of Verif.Array.Model -/

inductive Val
  | arr (a : Arr)
  | bs (b : Bs)

def editV (junk : Nat → Byte) : Val → Edit → Outcome (Val × Obs)
  | .arr _, .setData src len size => do
      let a ← Arr.setData (some src) len size true
      pure (.arr a, .none)
  | .arr _, .setBlock m len size => do
      let a ← Arr.setData m len size false
      pure (.arr a, .none)
  | .arr a, .resize len => do
      let a ← Arr.resize junk a len
      pure (.arr a, .none)
  | .arr a, .put offt e => do
      let a ← Arr.put a offt e
      pure (.arr a, .none)
  | .arr a, .setLength len => .ok (.arr (Arr.setLength a len).2, .num (Arr.setLength a len).1)
  | .arr a, .elem offt => do
      let s ← elemCopy a offt
      pure (.arr a, .bytes s)
  | .bs b, .bsSetData src len => do
      let b ← Arr.bsSetData b (some src) len true
      pure (.bs b, .none)
  | .bs b, .bsSetBlock m len => do
      let b ← Arr.bsSetData b m len false
      pure (.bs b, .none)
  | .bs b, .truncate => .ok (.bs (Arr.truncate b).2, .num (Arr.truncate b).1)
  | .bs b, .rewind => .ok (.bs (Arr.rewind b).2, .num (Arr.rewind b).1)
  | .bs b, .write data len size => do
      let b ← Arr.write junk b data len size
      pure (.bs b, .none)
  | .bs b, .read buf len size => do
      let r ← Arr.read b buf len size
      pure (.bs r.1, .bytes r.2)
  | _, _ => .ub

def getV (vs : List (Option Val)) (i : Nat) : Outcome Val :=
  match vs[i]? with
  | some (some v) => .ok v
  | _ => .ub

def copyV : Val → Nat → Outcome Val
  | .arr a, len => do
      let a ← Arr.copy a len
      pure (.arr a)
  | .bs _, _ => .ub

def cloneV : Val → Outcome Val
  | .bs b => do
      let b ← Arr.clone b
      pure (.bs b)
  | .arr _ => .ub

def setArrayV : Val → Val → Nat → Outcome Val
  | .bs b, .arr a, offt => .ok (.bs (Arr.bsSetArray b a offt))
  | _, _, _ => .ub

def stepV (junk : Nat → Byte) (vs : List (Option Val)) : Call → Outcome (List (Option Val) × Obs)
  | .new len size => do
      let a ← Arr.new len size
      pure (vs ++ [some (.arr a)], .none)
  | .withData src len size => do
      let a ← Arr.withData (some src) len size true
      pure (vs ++ [some (.arr a)], .none)
  | .withBlock m len size => do
      let a ← Arr.withData m len size false
      pure (vs ++ [some (.arr a)], .none)
  | .bsNew flip => do
      let b ← Arr.bsNew flip
      pure (vs ++ [some (.bs b)], .none)
  | .edit i e => do
      let v ← getV vs i
      let r ← editV junk v e
      pure (vs.set i (some r.1), r.2)
  | .copy i len => do
      let v ← getV vs i
      let c ← copyV v len
      pure (vs ++ [some c], .none)
  | .clone i => do
      let v ← getV vs i
      let c ← cloneV v
      pure (vs ++ [some c], .none)
  | .setArray i j offt => do
      let v ← getV vs i
      let a ← getV vs j
      let b ← setArrayV v a offt
      pure ((vs.set j none).set i (some b), .none)
  | .free i => do
      let _ ← getV vs i
      pure (vs.set i none, .none)

def runV (junk : Nat → Byte) : List (Option Val) → List Call → Outcome (List (Option Val) × List Obs)
  | vs, [] => .ok (vs, [])
  | vs, c :: cs => do
      let r ← stepV junk vs c
      let q ← runV junk r.1 cs
      pure (q.1, r.2 :: q.2)

/-- The blocks of an object: its data, its structure, the structure of the stream. -/
def Obj.blocks (o : Obj) : List Nat := o.hdr.data.toList ++ o.addr :: (o.str.map (·.1)).toList

def blk : Option Obj → List Nat
  | none => []
  | some o => o.blocks

/-- The blocks of all objects. -/
def Proc.owned (p : Proc) : List Nat := p.objs.flatMap blk

/-- An object in memory stands for a value. -/
def SeesV (h : Heap) (o : Obj) : Val → Prop
  | .arr a => o.str = none ∧ Sees h o.hdr a
  | .bs b => (∃ s, o.str = some (s, b.flip, b.offt)) ∧ Sees h o.hdr b.arr

/-- Slot by slot. -/
inductive Slot (h : Heap) : Option (Option Obj) → Option (Option Val) → Prop
  | out : Slot h none none
  | gone : Slot h (some none) (some none)
  | obj {o : Obj} {v : Val} : SeesV h o v → Slot h (some (some o)) (some (some v))

structure Inv (p : Proc) (vs : List (Option Val)) : Prop where
  good : Good p.heap
  acc : p.heap.live.Perm (p.owned ++ p.lost)
  sees : ∀ i : Nat, Slot p.heap p.objs[i]? vs[i]?

/-! ## Lemmas -/

theorem Upd.frame {h h' : Heap} {own own' lost : List Nat} (u : Upd h own h' own' lost) (x : List Nat) : Upd h (own ++ x) h' (own' ++ x) lost := by
  refine ⟨fun rest p => ?_, u.good, fun b hb hn => ?_, u.mono, u.fresh⟩
  · rw [List.append_assoc] at p
    have := u.perm _ p
    refine this.trans ?_
    refine List.perm_iff_count.2 fun a => ?_
    simp only [List.count_append]; omega
  · rw [List.mem_append, not_or] at hn
    obtain ⟨a1, a2, a3⟩ := u.keep b hb hn.1
    exact ⟨a1, by rw [List.mem_append, not_or]; exact ⟨a2, hn.2⟩, a3⟩

/-- A call that made new blocks and drops the old ones. -/
theorem Upd.drop {h h' : Heap} {own own' : List Nat} (u : Upd h [] h' own' []) : Upd h own h' own' own := by
  refine ⟨fun rest p => ?_, u.good, fun b hb _ => u.keep b hb (by simp), u.mono, u.fresh⟩
  have := u.perm (own ++ rest) p
  exact this

theorem allocOpt_upd {h : Heap} (G : Good h) (m : Option (List Byte)) : Upd h [] (allocOpt h m).2 (allocOpt h m).1.toList [] := by
  cases m with
  | none => exact Upd.refl G []
  | some m => exact alloc_upd G m []

theorem allocOpt_map (h : Heap) (m : Option (List Byte)) : (allocOpt h m).1.map (allocOpt h m).2.cont = m := by
  cases m with
  | none => rfl
  | some m => exact congrArg some (alloc_cont h m)

theorem allocOpt_live (h : Heap) (m : Option (List Byte)) : ∀ b, (allocOpt h m).1 = some b → b ∈ (allocOpt h m).2.live := by
  intro b e
  cases m with
  | none => cases e
  | some m => cases e; exact alloc_mem _ _

/-- Handing over a block. -/
theorem block_agree {h : Heap} (G : Good h) (m : Option (List Byte)) (len size : Nat) :
    Agree (Res h [] []) (adoptM (allocOpt h m).2 (allocOpt h m).1 len size) (Arr.setData m len size false) := by
  have k := adoptM_agree (allocOpt h m).1 (allocOpt_live h m) len size
  rw [allocOpt_map] at k
  refine k.imp fun r v hr => ?_
  obtain ⟨h1, h2, h3⟩ := hr
  refine ⟨h1, ?_⟩
  rw [h2, h3]
  exact allocOpt_upd G m

theorem data_agree {h : Heap} (G : Good h) (src : List Byte) (len size : Nat) :
    Agree (Res h [] []) (setDataM h src len size) (Arr.setData (some src) len size true) :=
  (setDataM_agree G [] src len size).imp fun r v hr => ⟨hr.1, by have := hr.2; rwa [List.append_nil] at this⟩

theorem arrayGetM_agree (flip : Bool) {h : Heap} {d : Hdr} {v : Arr} (S : Sees h d v) (len : Nat) : ∀ (n : Nat) (s : List Byte) (offt : Nat),
    arrayGetM flip h d len n s offt = arrayGet flip v len n s offt := by
  intro n
  induction n with
  | zero => intro s offt; rfl
  | succ n ih =>
      intro s offt
      rw [arrayGetM, arrayGet, get, S.len]
      by_cases c : offt < v.length
      · rw [if_pos c, if_pos c, Outcome.ok_bind]
        cases e : d.data with
        | none => rw [S.of_none e]
        | some b =>
            obtain ⟨hb, hv⟩ := S.of_some e
            rw [hv]
            simp only [load_ok hb, Outcome.ok_bind, S.size]
            congr 1; funext x
            congr 1; funext y
            exact ih _ _
      · rw [if_neg c, if_neg c]; rfl

theorem elemM_agree {h : Heap} {d : Hdr} {v : Arr} (S : Sees h d v) (offt : Nat) : elemM h d offt = elemCopy v offt := by
  unfold elemM elemCopy
  rw [S.len]
  by_cases c : offt < v.length
  · rw [if_pos c, if_pos c]
    cases e : d.data with
    | none => rw [S.of_none e]
    | some b =>
        obtain ⟨hb, hv⟩ := S.of_some e
        rw [hv]
        simp only [load_ok hb, Outcome.ok_bind, S.size]
  · rw [if_neg c, if_neg c]

/-- What a call on one object does. -/
abbrev ERes (h : Heap) (o : Obj) (r : Obj × Heap × List Nat × Obs) (w : Val × Obs) : Prop :=
  SeesV r.2.1 r.1 w.1 ∧ r.1.addr = o.addr ∧ r.1.str.map (·.1) = o.str.map (·.1) ∧ Upd h o.hdr.data.toList r.2.1 r.1.hdr.data.toList r.2.2.1 ∧ r.2.2.2 = w.2

theorem editM_agree {h : Heap} (G : Good h) (junk : Nat → Byte) {o : Obj} {v : Val} (S : SeesV h o v) (e : Edit) : Agree (ERes h o) (editM junk h o e) (editV junk v e) := by
  cases v with
  | arr a =>
      obtain ⟨addr, hdr, str⟩ := o
      obtain ⟨hs, S⟩ := S
      have hs : str = none := hs
      subst hs
      cases e with
      | setData src len size =>
          simp only [editM, editV]
          refine Agree.bind (data_agree G src len size) fun r w hr => ?_
          exact .ok ⟨⟨rfl, hr.1⟩, rfl, rfl, hr.2.drop, rfl⟩
      | setBlock m len size =>
          simp only [editM, editV]
          refine Agree.bind (block_agree G m len size) fun r w hr => ?_
          exact .ok ⟨⟨rfl, hr.1⟩, rfl, rfl, hr.2.drop, rfl⟩
      | resize len =>
          simp only [editM, editV]
          refine Agree.bind (resizeM_agree G junk S len) fun r w hr => ?_
          exact .ok ⟨⟨rfl, hr.1⟩, rfl, rfl, hr.2, rfl⟩
      | put offt e =>
          simp only [editM, editV]
          refine Agree.bind (putM_agree G S offt e) fun r w hr => ?_
          exact .ok ⟨⟨rfl, hr.1.1⟩, rfl, rfl, hr.1.2, rfl⟩
      | setLength len =>
          simp only [editM, editV]
          exact .ok ⟨⟨rfl, ⟨rfl, S.size, S.data, S.live⟩⟩, rfl, rfl, Upd.refl G _, congrArg Obs.num S.len⟩
      | elem offt =>
          simp only [editM, editV, elemM_agree S]
          refine Agree.bind (Agree.refl _) fun r w hr => ?_
          subst hr
          exact .ok ⟨⟨rfl, S⟩, rfl, rfl, Upd.refl G _, rfl⟩
      | bsSetData src len => simp only [editM, editV]; exact .ub
      | bsSetBlock m len => simp only [editM, editV]; exact .ub
      | truncate => simp only [editM, editV]; exact .ub
      | rewind => simp only [editM, editV]; exact .ub
      | write data len size => simp only [editM, editV]; exact .ub
      | read buf len size => simp only [editM, editV]; exact .ub
  | bs b =>
      obtain ⟨addr, hdr, str⟩ := o
      obtain ⟨⟨s, hs⟩, S⟩ := S
      have hs : str = some (s, b.flip, b.offt) := hs
      subst hs
      cases e with
      | setData src len size => simp only [editM, editV]; exact .ub
      | setBlock m len size => simp only [editM, editV]; exact .ub
      | resize len => simp only [editM, editV]; exact .ub
      | put offt e => simp only [editM, editV]; exact .ub
      | setLength len => simp only [editM, editV]; exact .ub
      | elem offt => simp only [editM, editV]; exact .ub
      | bsSetData src len =>
          simp only [editM, editV, Arr.bsSetData, Outcome.bind_assoc]
          refine Agree.bind (data_agree G src len 1) fun r w hr => ?_
          exact .ok ⟨⟨⟨s, rfl⟩, hr.1⟩, rfl, rfl, hr.2.drop, rfl⟩
      | bsSetBlock m len =>
          simp only [editM, editV, Arr.bsSetData, Outcome.bind_assoc]
          refine Agree.bind (block_agree G m len 1) fun r w hr => ?_
          exact .ok ⟨⟨⟨s, rfl⟩, hr.1⟩, rfl, rfl, hr.2.drop, rfl⟩
      | truncate =>
          simp only [editM, editV]
          exact .ok ⟨⟨⟨s, rfl⟩, ⟨rfl, S.size, S.data, S.live⟩⟩, rfl, rfl, Upd.refl G _, congrArg Obs.num S.len⟩
      | rewind =>
          simp only [editM, editV]
          exact .ok ⟨⟨⟨s, rfl⟩, S⟩, rfl, rfl, Upd.refl G _, rfl⟩
      | write data len size =>
          simp only [editM, editV]
          refine Agree.bind (writeM_agree G junk b.flip b.offt S data len size) fun r w hr => ?_
          obtain ⟨⟨h1, h2⟩, h3, h4⟩ := hr
          exact .ok ⟨⟨⟨s, by rw [h3, h4]⟩, h1⟩, rfl, rfl, h2, rfl⟩
      | read buf len size =>
          simp only [editM, editV, Arr.read, Outcome.bind_assoc, arrayGetM_agree _ S]
          refine Agree.bind (Agree.refl _) fun r w hr => ?_
          subst hr
          exact .ok ⟨⟨⟨s, rfl⟩, S⟩, rfl, rfl, Upd.refl G _, rfl⟩

/-- One slot of the objects and all others. -/
theorem owned_split : ∀ {os : List (Option Obj)} {i : Nat} {o : Option Obj}, os[i]? = some o → ∃ rest, (os.flatMap blk).Perm (blk o ++ rest) ∧
    (∀ x, ((os.set i x).flatMap blk).Perm (blk x ++ rest)) ∧ (∀ j o', j ≠ i → os[j]? = some (some o') → ∀ b ∈ o'.blocks, b ∈ rest) := by
  intro os
  induction os with
  | nil => intro i o h; cases h
  | cons a os ih =>
      intro i o h
      cases i with
      | zero =>
          have h : some a = some o := h
          cases h
          refine ⟨os.flatMap blk, .refl _, fun x => .refl _, fun j o' hj hg b hb => ?_⟩
          cases j with
          | zero => exact absurd rfl hj
          | succ j => exact List.mem_flatMap.2 ⟨some o', List.mem_of_getElem? hg, hb⟩
      | succ i =>
          obtain ⟨rest, h1, h2, h3⟩ := ih (i := i) h
          refine ⟨blk a ++ rest, ?_, fun x => ?_, fun j o' hj hg b hb => ?_⟩
          · refine (h1.append_left (blk a)).trans (List.perm_iff_count.2 fun b => ?_)
            simp only [List.count_append]; omega
          · refine ((h2 x).append_left (blk a)).trans (List.perm_iff_count.2 fun b => ?_)
            simp only [List.count_append]; omega
          · cases j with
            | zero =>
                have hg : some a = some (some o') := hg
                cases hg
                exact List.mem_append.2 (.inl hb)
            | succ j => exact List.mem_append.2 (.inr (h3 j o' (fun e => hj (by rw [e])) hg b hb))

theorem get_agree {p : Proc} {vs : List (Option Val)} (I : Inv p vs) (i : Nat) :
    Agree (fun o v => p.objs[i]? = some (some o) ∧ vs[i]? = some (some v) ∧ SeesV p.heap o v) (p.get i) (getV vs i) := by
  unfold Proc.get getV
  have := I.sees i
  revert this
  generalize p.objs[i]? = x
  generalize vs[i]? = y
  intro this
  cases this with
  | out => exact .ub
  | gone => exact .ub
  | obj h => exact .ok ⟨rfl, rfl, h⟩

theorem SeesV.keep {h h' : Heap} {o : Obj} {v : Val} (S : SeesV h o v) {own own' lost : List Nat} (u : Upd h own h' own' lost) (hd : ∀ b ∈ o.blocks, b ∉ own) : SeesV h' o v := by
  have k : ∀ b, o.hdr.data = some b → b ∉ own := fun b e => hd b (by simp [Obj.blocks, e])
  cases v with
  | arr a => exact ⟨S.1, S.2.keep u k⟩
  | bs b => exact ⟨S.1, S.2.keep u k⟩

theorem Slot.not_none {h : Heap} {x : Option Obj} (k : Slot h (some x) none) : False := by cases k

/-- A new object. -/
theorem push_inv {p : Proc} {vs : List (Option Val)} (I : Inv p vs) {h : Heap} {o : Obj} {v : Val} (S : SeesV h o v) (u : Upd p.heap [] h o.blocks []) : Inv (p.push h o) (vs ++ [some v]) := by
  have hl : p.objs.length = vs.length := by
    have h1 := I.sees p.objs.length
    have h2 := I.sees vs.length
    rw [List.getElem?_eq_none (Nat.le_refl _)] at h1 h2
    rcases Nat.lt_trichotomy p.objs.length vs.length with h3 | h3 | h3
    · rw [List.getElem?_eq_getElem h3] at h1; cases h1
    · exact h3
    · rw [List.getElem?_eq_getElem h3] at h2; exact h2.not_none.elim
  refine ⟨u.good, ?_, fun i => ?_⟩
  · have := u.perm _ I.acc
    refine this.trans ?_
    show (o.blocks ++ ([] ++ (p.owned ++ p.lost))).Perm ((p.objs ++ [some o]).flatMap blk ++ p.lost)
    rw [List.flatMap_append]
    refine List.perm_iff_count.2 fun a => ?_
    simp only [Proc.owned, List.flatMap_cons, List.flatMap_nil, blk, List.count_append, List.count_nil]; omega
  · show Slot h (p.objs ++ [some o])[i]? (vs ++ [some v])[i]?
    rw [List.getElem?_append, List.getElem?_append, hl]
    by_cases c : i < vs.length
    · rw [if_pos c, if_pos c]
      have := I.sees i
      revert this
      generalize p.objs[i]? = x
      generalize vs[i]? = y
      intro this
      cases this with
      | out => exact .out
      | gone => exact .gone
      | obj k => exact .obj (k.keep u (fun b _ => by simp))
    · rw [if_neg c, if_neg c]
      cases e : i - vs.length with
      | zero => exact .obj S
      | succ n => exact .out

/-- Two objects share no block. -/
theorem apart {p : Proc} {vs : List (Option Val)} (I : Inv p vs) {i j : Nat} {o o' : Obj} (hi : p.objs[i]? = some (some o)) (hj : p.objs[j]? = some (some o')) (hij : j ≠ i) : ∀ b ∈ o'.blocks, b ∉ o.blocks := by
  obtain ⟨rest, h1, _, h3⟩ := owned_split hi
  intro b hb hb'
  have hn : (p.owned ++ p.lost).Nodup := I.acc.nodup_iff.1 I.good.nodup
  have hn := (List.nodup_append.1 hn).1
  have hn := h1.nodup_iff.1 hn
  exact (List.nodup_append.1 hn).2.2 b hb' b (h3 j o' hij hj b hb) rfl

theorem live_of {p : Proc} {vs : List (Option Val)} (I : Inv p vs) {i : Nat} {o : Obj} (hi : p.objs[i]? = some (some o)) : ∀ b ∈ o.blocks, b ∈ p.heap.live := by
  intro b hb
  refine I.acc.mem_iff.2 (List.mem_append.2 (.inl ?_))
  exact List.mem_flatMap.2 ⟨some o, List.mem_of_getElem? hi, hb⟩

/-- A slot is replaced. -/
theorem set_inv {p : Proc} {vs : List (Option Val)} (I : Inv p vs) {i : Nat} {o : Obj} (hi : p.objs[i]? = some (some o)) {h : Heap} {x : Option Obj} {y : Option Val} {lost : List Nat}
    (S : Slot h (some x) (some y)) (u : Upd p.heap o.blocks h (blk x) lost) : Inv ⟨h, p.objs.set i x, lost ++ p.lost⟩ (vs.set i y) := by
  obtain ⟨rest, h1, h2, h3⟩ := owned_split hi
  have hlen : i < p.objs.length := (List.getElem?_eq_some_iff.1 hi).1
  have hlen2 : i < vs.length := by
    have := I.sees i
    rw [hi] at this
    cases e : vs[i]? with
    | none => rw [e] at this; cases this
    | some v => exact (List.getElem?_eq_some_iff.1 e).1
  refine ⟨u.good, ?_, fun j => ?_⟩
  · have k : p.heap.live.Perm (o.blocks ++ (rest ++ p.lost)) := I.acc.trans (by
      have := h1.append_right p.lost
      rwa [List.append_assoc] at this)
    refine (u.perm _ k).trans ?_
    show List.Perm _ ((p.objs.set i x).flatMap blk ++ (lost ++ p.lost))
    refine List.Perm.trans ?_ ((h2 x).append_right _).symm
    refine List.perm_iff_count.2 fun a => ?_
    simp only [List.count_append]; omega
  · show Slot h (p.objs.set i x)[j]? (vs.set i y)[j]?
    rw [List.getElem?_set, List.getElem?_set]
    by_cases c : i = j
    · rw [if_pos c, if_pos c, if_pos hlen, if_pos hlen2]; exact S
    · rw [if_neg c, if_neg c]
      have := I.sees j
      cases e1 : p.objs[j]? with
      | none => rw [e1] at this; cases e2 : vs[j]? <;> rw [e2] at this <;> cases this; exact .out
      | some o' =>
          cases o' with
          | none => rw [e1] at this; cases e2 : vs[j]? <;> rw [e2] at this <;> cases this; exact .gone
          | some o' =>
              rw [e1] at this
              cases e2 : vs[j]? with
              | none => rw [e2] at this; cases this
              | some v' =>
                  rw [e2] at this
                  cases this with
                  | obj k => exact .obj (k.keep u (apart I hi e1 (fun e => c e.symm)))

theorem freeM_upd' {h : Heap} (G : Good h) {a : Nat} {d : Hdr} (ha : a ∈ h.live) (hd : ∀ b, d.data = some b → b ∈ h.live) (hne : a ∉ d.data.toList) : ∃ h', freeM h a d = .ok h' ∧ Upd h (d.data.toList ++ [a]) h' [] [] :=
  freeM_upd G ha hd hne []

/-- Freeing an object frees exactly its blocks. -/
theorem freeObj_upd {p : Proc} {vs : List (Option Val)} (I : Inv p vs) {i : Nat} {o : Obj} (hi : p.objs[i]? = some (some o)) : ∃ h', freeObj p.heap o = .ok h' ∧ Upd p.heap o.blocks h' [] [] := by
  have hl := live_of I hi
  have hn : o.blocks.Nodup := by
    obtain ⟨rest, h1, _, _⟩ := owned_split hi
    have hn : (p.owned ++ p.lost).Nodup := I.acc.nodup_iff.1 I.good.nodup
    exact (List.nodup_append.1 (h1.nodup_iff.1 (List.nodup_append.1 hn).1)).1
  obtain ⟨addr, hdr, str⟩ := o
  have hd : ∀ b, hdr.data = some b → b ∈ p.heap.live := fun b e => hl b (by simp [Obj.blocks, e])
  have ha : addr ∈ p.heap.live := hl addr (by simp [Obj.blocks])
  have hne : addr ∉ hdr.data.toList := fun hm => (List.nodup_append.1 hn).2.2 addr hm addr (by simp) rfl
  cases str with
  | none => exact freeM_upd' I.good ha hd hne
  | some s =>
      have hs : s.1 ∈ p.heap.live := hl s.1 (by simp [Obj.blocks])
      obtain ⟨h1, e1, u1⟩ := freeM_upd I.good ha hd hne [s.1]
      have hs1 : s.1 ∈ h1.live := by
        obtain ⟨h1', e1', u1'⟩ := freeM_upd I.good ha hd hne []
        cases e1.symm.trans e1'
        refine (u1'.keep s.1 hs ?_).1
        have h2 := hn
        simp only [Obj.blocks, Option.map_some, Option.toList_some] at h2
        rw [List.nodup_append] at h2
        obtain ⟨_, h4, h5⟩ := h2
        intro hm
        rcases List.mem_append.1 hm with hm | hm
        · exact h5 s.1 hm s.1 (by simp) rfl
        · have : s.1 = addr := by simpa using hm
          simp [this] at h4
      obtain ⟨h2, e2, _, u2⟩ := free_upd u1.good hs1 []
      exact ⟨h2, Outcome.bind_eq_ok.2 ⟨_, load_ok hs, Outcome.bind_eq_ok.2 ⟨_, e1, e2⟩⟩, u1.trans u2⟩

/-- The structure and the data of a new array. -/
theorem alloc_then {h : Heap} (G : Good h) {h' : Heap} {x : List Nat} (u : Upd (h.alloc []).2 [] h' x []) : Upd h [] h' (x ++ [(h.alloc []).1]) [] :=
  (alloc_upd G [] []).trans (u.frame [(h.alloc []).1])

theorem alloc_then2 {h : Heap} (G : Good h) {h' : Heap} {x : List Nat} (u : Upd ((h.alloc []).2.alloc []).2 [] h' x []) : Upd h [] h' (x ++ [((h.alloc []).2.alloc []).1, (h.alloc []).1]) [] := by
  have := alloc_then G (alloc_then (alloc_upd G [] []).good u)
  rwa [List.append_assoc] at this

theorem own_nodup {p : Proc} {vs : List (Option Val)} (I : Inv p vs) {i : Nat} {o : Obj} (hi : p.objs[i]? = some (some o)) : o.addr ∉ o.hdr.data.toList := by
  obtain ⟨rest, h1, _, _⟩ := owned_split hi
  have hn : (p.owned ++ p.lost).Nodup := I.acc.nodup_iff.1 I.good.nodup
  have hn : o.blocks.Nodup := (List.nodup_append.1 (h1.nodup_iff.1 (List.nodup_append.1 hn).1)).1
  exact fun hm => (List.nodup_append.1 hn).2.2 o.addr hm o.addr (by simp) rfl

/-- The stream gives up its array and takes another. -/
theorem handover_inv {p : Proc} {vs : List (Option Val)} (I : Inv p vs) {i j : Nat} {o a : Obj} (hi : p.objs[i]? = some (some o)) (hj : p.objs[j]? = some (some a)) (hij : j ≠ i)
    {s : Nat} {b : Bs} {x : Arr} (hs : o.str = some (s, b.flip, b.offt)) (ht : a.str = none) (_ : Sees p.heap o.hdr b.arr) (T : Sees p.heap a.hdr x) (offt : Nat)
    {h : Heap} (u : Upd p.heap (o.hdr.data.toList ++ [o.addr]) h [] []) (hv : i < vs.length) (hw : j < vs.length) :
    Inv ⟨h, (p.objs.set j none).set i (some ⟨a.addr, a.hdr, some (s, b.flip, offt)⟩), p.lost⟩ ((vs.set j none).set i (some (.bs (Arr.bsSetArray b x offt)))) := by
  have hil : i < p.objs.length := (List.getElem?_eq_some_iff.1 hi).1
  have hjl : j < p.objs.length := (List.getElem?_eq_some_iff.1 hj).1
  have hi' : (p.objs.set j none)[i]? = some (some o) := by rw [List.getElem?_set, if_neg hij, hi]
  have sub : ∀ y ∈ o.hdr.data.toList ++ [o.addr], y ∈ o.blocks := by
    intro y hy
    rcases List.mem_append.1 hy with hy | hy
    · exact List.mem_append.2 (.inl hy)
    · have : y = o.addr := by simpa using hy
      simp [Obj.blocks, this]
  refine ⟨u.good, ?_, fun k => ?_⟩
  · obtain ⟨r1, a1, a2, _⟩ := owned_split hj
    obtain ⟨r2, b1, b2, _⟩ := owned_split hi'
    have c1 := a2 none
    have k : p.heap.live.Perm ((o.hdr.data.toList ++ [o.addr]) ++ (s :: (a.blocks ++ (r2 ++ p.lost)))) := by
      refine I.acc.trans ?_
      have d1 := List.perm_iff_count.1 a1
      have d2 := List.perm_iff_count.1 c1
      have d3 := List.perm_iff_count.1 b1
      refine List.perm_iff_count.2 fun y => ?_
      have d1 := d1 y
      have d2 := d2 y
      have d3 := d3 y
      simp only [Obj.blocks, blk, Proc.owned, hs, ht, Option.map_some, Option.toList_some, Option.map_none, Option.toList_none, List.count_append, List.count_cons, List.count_nil] at d1 d2 d3 ⊢
      omega
    refine (u.perm _ k).trans ?_
    refine List.Perm.trans ?_ ((b2 _).append_right _).symm
    refine List.perm_iff_count.2 fun y => ?_
    simp only [Obj.blocks, blk, ht, Option.map_some, Option.toList_some, Option.map_none, Option.toList_none, List.count_append, List.count_cons, List.count_nil]
    omega
  · show Slot h ((p.objs.set j none).set i _)[k]? ((vs.set j none).set i _)[k]?
    simp only [List.getElem?_set, List.length_set]
    by_cases c : i = k
    · rw [if_pos c, if_pos c, if_pos hil, if_pos hv]
      refine .obj ⟨⟨s, rfl⟩, ?_⟩
      refine T.keep u fun y e hy => ?_
      exact apart I hi hj hij y (by simp [Obj.blocks, e]) (sub y hy)
    · rw [if_neg c, if_neg c]
      by_cases c2 : j = k
      · rw [if_pos c2, if_pos c2, if_pos hjl, if_pos hw]; exact .gone
      · rw [if_neg c2, if_neg c2]
        have := I.sees k
        cases e1 : p.objs[k]? with
        | none => rw [e1] at this; cases e2 : vs[k]? <;> rw [e2] at this <;> cases this; exact .out
        | some o' =>
            cases o' with
            | none => rw [e1] at this; cases e2 : vs[k]? <;> rw [e2] at this <;> cases this; exact .gone
            | some o' =>
                rw [e1] at this
                cases e2 : vs[k]? with
                | none => rw [e2] at this; cases this
                | some v' =>
                    rw [e2] at this
                    cases this with
                    | obj q => exact .obj (q.keep u (fun y hy hy' => apart I hi e1 (fun e => c e.symm) y hy (sub y hy')))

/-- Every call does in memory what it does on values. -/
theorem step_agree (junk : Nat → Byte) {p : Proc} {vs : List (Option Val)} (I : Inv p vs) (c : Call) :
    Agree (fun r w => Inv r.1 w.1 ∧ r.2 = w.2 ∧ p.heap.next ≤ r.1.heap.next ∧ ∀ b ∈ r.1.heap.live, b ∈ p.heap.live ∨ p.heap.next ≤ b) (stepM junk p c) (stepV junk vs c) := by
  have G1 := (alloc_upd I.good [] []).good
  have G2 := (alloc_upd G1 [] []).good
  cases c with
  | new len size =>
      refine Agree.bind (newM_agree G1 len size) fun r w hr => ?_
      have u := alloc_then I.good hr.1.2
      exact .ok ⟨push_inv I (v := .arr w) ⟨rfl, hr.1.1⟩ u, rfl, u.mono, u.fresh⟩
  | withData src len size =>
      refine Agree.bind (data_agree G1 src len size) fun r w hr => ?_
      have u := alloc_then I.good hr.2
      exact .ok ⟨push_inv I (v := .arr w) ⟨rfl, hr.1⟩ u, rfl, u.mono, u.fresh⟩
  | withBlock m len size =>
      refine Agree.bind (block_agree G1 m len size) fun r w hr => ?_
      have u := alloc_then I.good hr.2
      exact .ok ⟨push_inv I (v := .arr w) ⟨rfl, hr.1⟩ u, rfl, u.mono, u.fresh⟩
  | bsNew flip =>
      show Agree _ (newM ((p.heap.alloc []).2.alloc []).2 0 1 >>= _) ((Arr.new 0 1 >>= fun a => pure (⟨flip, 0, a⟩ : Bs)) >>= _)
      rw [Outcome.bind_assoc]
      refine Agree.bind (newM_agree G2 0 1) fun r w hr => ?_
      have u := alloc_then2 I.good hr.1.2
      exact .ok ⟨push_inv I (v := .bs ⟨flip, 0, w⟩) ⟨⟨_, rfl⟩, hr.1.1⟩ u, rfl, u.mono, u.fresh⟩
  | edit i e =>
      refine Agree.bind (get_agree I i) fun o v hov => ?_
      obtain ⟨h1, h2, h3⟩ := hov
      refine Agree.bind (editM_agree I.good junk h3 e) fun r w hr => ?_
      obtain ⟨k1, k2, k3, k4, k5⟩ := hr
      have u : Upd p.heap o.blocks r.2.1 r.1.blocks r.2.2.1 := by
        have := k4.frame (o.addr :: (o.str.map (·.1)).toList)
        rw [← k2, ← k3] at this
        rw [Obj.blocks, Obj.blocks, ← k2, ← k3]
        exact this
      exact .ok ⟨set_inv I h1 (.obj k1) u, k5, u.mono, u.fresh⟩
  | copy i len =>
      refine Agree.bind (get_agree I i) fun o v hov => ?_
      obtain ⟨h1, h2, h3⟩ := hov
      cases v with
      | bs b =>
          obtain ⟨⟨s, hs⟩, _⟩ := h3
          simp only [hs]
          exact .ub
      | arr a =>
          obtain ⟨hs, S⟩ := h3
          simp only [hs]
          show Agree _ (copyM (p.heap.alloc []).2 o.hdr len >>= _) ((Arr.copy a len >>= fun a => pure (Val.arr a)) >>= _)
          rw [Outcome.bind_assoc]
          refine Agree.bind (copyM_agree G1 (S.keep (alloc_upd I.good [] []) (fun b _ => by simp)) len) fun r w hr => ?_
          have u := alloc_then I.good hr.2
          exact .ok ⟨push_inv I (v := .arr w) ⟨rfl, hr.1⟩ u, rfl, u.mono, u.fresh⟩
  | clone i =>
      refine Agree.bind (get_agree I i) fun o v hov => ?_
      obtain ⟨h1, h2, h3⟩ := hov
      cases v with
      | arr a =>
          obtain ⟨hs, _⟩ := h3
          simp only [hs]
          exact .ub
      | bs b =>
          obtain ⟨⟨s, hs⟩, S⟩ := h3
          simp only [hs]
          show Agree _ (copyM ((p.heap.alloc []).2.alloc []).2 o.hdr o.hdr.length >>= _) (((Arr.copy b.arr b.arr.length >>= fun a => pure (⟨false, b.offt, a⟩ : Bs)) >>= fun b => pure (Val.bs b)) >>= _)
          rw [Outcome.bind_assoc, Outcome.bind_assoc, S.len]
          have S1 := S.keep (alloc_upd I.good [] []) (fun b _ => by simp)
          have S2 := S1.keep (alloc_upd G1 [] []) (fun b _ => by simp)
          refine Agree.bind (copyM_agree G2 S2 _) fun r w hr => ?_
          have u := alloc_then2 I.good hr.2
          exact .ok ⟨push_inv I (v := .bs ⟨false, b.offt, w⟩) ⟨⟨_, rfl⟩, hr.1⟩ u, rfl, u.mono, u.fresh⟩
  | free i =>
      refine Agree.bind (get_agree I i) fun o v hov => ?_
      obtain ⟨h1, h2, h3⟩ := hov
      obtain ⟨h', e, u⟩ := freeObj_upd I h1
      rw [e, Outcome.ok_bind]
      exact .ok ⟨set_inv I h1 (x := none) .gone u, rfl, u.mono, u.fresh⟩
  | setArray i j offt =>
      refine Agree.bind (get_agree I i) fun o v hov => ?_
      obtain ⟨h1, h2, h3⟩ := hov
      refine Agree.bind (get_agree I j) fun a w haw => ?_
      obtain ⟨g1, g2, g3⟩ := haw
      cases v with
      | arr x =>
          obtain ⟨hs, _⟩ := h3
          simp only [hs]
          cases w <;> exact .ub
      | bs b =>
          obtain ⟨⟨s, hs⟩, S⟩ := h3
          cases w with
          | bs x =>
              obtain ⟨⟨t, ht⟩, _⟩ := g3
              simp only [hs, ht]
              exact .ub
          | arr x =>
              obtain ⟨ht, T⟩ := g3
              have hij : j ≠ i := by
                intro e
                rw [e, h1] at g1
                cases g1
                rw [hs] at ht
                cases ht
              simp only [hs, ht]
              obtain ⟨h', e, u⟩ := freeM_upd' I.good (live_of I h1 o.addr (by simp [Obj.blocks])) (fun b e => live_of I h1 b (by simp [Obj.blocks, e])) (own_nodup I h1)
              rw [e, Outcome.ok_bind]
              exact .ok ⟨handover_inv I h1 g1 hij hs ht S T offt u (List.getElem?_eq_some_iff.1 h2).1 (List.getElem?_eq_some_iff.1 g2).1, rfl, u.mono, u.fresh⟩

theorem start_inv : Inv start [] := by
  refine ⟨⟨List.nodup_nil, fun b hb => by cases hb⟩, .refl _, fun i => ?_⟩
  show Slot _ ([] : List (Option Obj))[i]? ([] : List (Option Val))[i]?
  rw [List.getElem?_nil, List.getElem?_nil]
  exact .out

theorem run_agree (junk : Nat → Byte) : ∀ (cs : List Call) {p : Proc} {vs : List (Option Val)} (_ : Inv p vs),
    Agree (fun r w => Inv r.1 w.1 ∧ r.2 = w.2 ∧ p.heap.next ≤ r.1.heap.next ∧ ∀ b ∈ r.1.heap.live, b ∈ p.heap.live ∨ p.heap.next ≤ b) (runM junk p cs) (runV junk vs cs) := by
  intro cs
  induction cs with
  | nil => intro p vs I; exact .ok ⟨I, rfl, Nat.le_refl _, fun b hb => .inl hb⟩
  | cons c cs ih =>
      intro p vs I
      refine Agree.bind (step_agree junk I c) fun r w hr => ?_
      obtain ⟨h1, h2, h3, h4⟩ := hr
      refine Agree.bind (ih h1) fun q y hq => ?_
      obtain ⟨k1, k2, k3, k4⟩ := hq
      refine .ok ⟨k1, by rw [h2, k2], Nat.le_trans h3 k3, fun b hb => ?_⟩
      rcases k4 b hb with k5 | k5
      · exact h4 b k5
      · exact .inr (Nat.le_trans h3 k5)

end ZT.Arr.Own
