import Verif.Array.Props
import Verif.Array.Bstream

/-!
# C102: the memory of arrays and byte streams (zt_array.c, zt_bstream.c)

The functions of Verif.Array.Model with an explicit heap: data blocks and structures are blocks with numbers, which are not used again after they have been freed. Allocations succeed.
-/

namespace ZT.Arr.Own

/-- The heap: the blocks in use, their contents, and the next new block. The contents of structures are not kept here but with the object (`Hdr`). -/
structure Heap where
  live : List Nat
  cont : Nat → List Byte
  next : Nat

def Heap.alloc (h : Heap) (c : List Byte) : Nat × Heap := (h.next, ⟨h.next :: h.live, fun b => if b = h.next then c else h.cont b, h.next + 1⟩)

/-- free of a block: undefined unless it is in use. -/
def Heap.free (h : Heap) (b : Nat) : Outcome Heap := if b ∈ h.live then .ok { h with live := h.live.erase b } else .ub

/-- free(NULL) has no effect. -/
def Heap.freeOpt (h : Heap) : Option Nat → Outcome Heap
  | none => .ok h
  | some b => h.free b

def Heap.load (h : Heap) (b : Nat) : Outcome (List Byte) := if b ∈ h.live then .ok (h.cont b) else .ub

def Heap.save (h : Heap) (b : Nat) (c : List Byte) : Outcome Heap := if b ∈ h.live then .ok { h with cont := fun x => if x = b then c else h.cont x } else .ub

/-- zt_realloc: the old block is freed, a new one has its contents. -/
def Heap.realloc (h : Heap) (junk : Nat → Byte) (n : Nat) : Option Nat → Outcome (Nat × Heap)
  | none => .ok (h.alloc (Arr.realloc junk [] n))
  | some b => do
      let m ← h.load b
      let h ← h.free b
      pure (h.alloc (Arr.realloc junk m n))

/-- The contents of `struct zt_array` (zt_array.h 11-15). -/
structure Hdr where
  length : Nat
  size : Nat
  data : Option Nat

/-- zt_array.c 6-18 `arrayrep_init` -/
def initM (len size : Nat) (d : Option Nat) : Outcome Hdr :=
  if (d.isSome && len > 0) || (len == 0 && d.isNone) then
    if size > 0 then .ok ⟨len, size, d⟩ else .abort
  else .abort

/-- zt_array.c 24-35: the data of a new array. -/
def newM (h : Heap) (len size : Nat) : Outcome (Hdr × Heap) :=
  if len > 0 then do
    let d ← initM len size (some (h.alloc (calloc (sz (len * size)))).1)
    pure (d, (h.alloc (calloc (sz (len * size)))).2)
  else do
    let d ← initM len size none
    pure (d, h)

/-- zt_array.c 45-58 `zt_array_set_data` with copy; `src` is the caller's memory. The old data pointer is overwritten. -/
def setDataM (h : Heap) (src : List Byte) (len size : Nat) : Outcome (Hdr × Heap) := do
  let d ← initM len size (some (h.alloc (calloc (sz (len * size)))).1)
  let h := (h.alloc (calloc (sz (len * size)))).2
  match d.data with
  | none => .ub
  | some b => do
      let s ← slice src 0 (sz (len * size))
      let m ← h.load b
      let m ← blit m 0 s
      let h ← h.save b m
      pure (d, h)

/-- zt_array.c 46-58 `zt_array_set_data` without copy (line 56): the caller's block is used. -/
def adoptM (h : Heap) (p : Option Nat) (len size : Nat) : Outcome (Hdr × Heap) := do
  let d ← initM len size p
  pure (d, h)

/-- zt_array.c 89-93: clearing the new elements. -/
def clearM (h : Heap) (d : Hdr) (len b : Nat) : Outcome (Hdr × Heap) :=
  if len > d.length then do
    let m ← h.load b
    let m ← blit m (sz (d.length * d.size)) (calloc (sz (sz (len - d.length) * d.size)))
    let h ← h.save b m
    pure (⟨len, d.size, some b⟩, h)
  else .ok (⟨len, d.size, some b⟩, h)

/-- zt_array.c 78-101 `zt_array_resize` -/
def resizeM (junk : Nat → Byte) (h : Heap) (d : Hdr) (len : Nat) : Outcome (Hdr × Heap) :=
  if len > 0 then
    if d.length == 0 then .ok (⟨len, d.size, some (h.alloc (calloc (sz (len * d.size)))).1⟩, (h.alloc (calloc (sz (len * d.size)))).2)
    else do
      let (b, h) ← h.realloc junk (sz (len * d.size)) d.data
      clearM h d len b
  else .abort

/-- zt_array.c 103-118 `zt_array_copy` -/
def copyM (h : Heap) (d : Hdr) (len : Nat) : Outcome (Hdr × Heap) := do
  let (c, h) ← newM h len d.size
  if d.length > 0 && c.length > 0 then
    match d.data, c.data with
    | some s, some t => do
        let m ← h.load s
        let src ← slice m 0 (sz (min d.length c.length * c.size))
        let m ← h.load t
        let m ← blit m 0 src
        let h ← h.save t m
        pure (c, h)
    | _, _ => .ub
  else pure (c, h)

/-- zt_array.c 181-191 `zt_array_put` -/
def putM (h : Heap) (d : Hdr) (offt : Nat) (elem : List Byte) : Outcome (Hdr × Heap) :=
  if offt < d.length then
    match d.data with
    | some b => do
        let e ← slice elem 0 d.size
        let m ← h.load b
        let m ← blit m (sz (offt * d.size)) e
        let h ← h.save b m
        pure (d, h)
    | none => .ub
  else .abort

/-- zt_array.c 37-43 `zt_array_free`; `a` is the structure. -/
def freeM (h : Heap) (a : Nat) (d : Hdr) : Outcome Heap := do
  let _ ← h.load a
  let h ← h.freeOpt d.data
  h.free a

/-- zt_bstream.c 3-18 `_array_put` -/
def arrayPutM (flip : Bool) (s : List Byte) (len : Nat) : (n : Nat) → Heap → Hdr → (offt : Nat) → Outcome (Hdr × Heap × Nat)
  | 0, h, d, offt => .ok (d, h, offt)
  | n + 1, h, d, offt => do
      let (d, h) ← putM h d offt (s.drop (if flip then n else len - (n + 1)))
      arrayPutM flip s len n h d (sz (offt + 1))

/-- zt_bstream.c 183-187: room for `tlen` more bytes. -/
def roomM (junk : Nat → Byte) (h : Heap) (d : Hdr) (offt tlen : Nat) : Outcome (Hdr × Heap) :=
  if tlen > sz (d.length + 2 ^ 64 - offt) then resizeM junk h d (sz ((d.length + tlen) * 2)) else .ok (d, h)

/-- zt_bstream.c 175-194 `zt_bstream_write`: the new structure of the array, the heap, the new offset. -/
def writeM (junk : Nat → Byte) (h : Heap) (flip : Bool) (offt : Nat) (d : Hdr) (data : List Byte) (len size : Nat) : Outcome (Hdr × Heap × Nat) := do
  let (d, h) ← roomM junk h d offt (sz (len * size))
  arrayPutM flip data (sz (len * size)) (sz (len * size)) h d offt

/-- zt_bstream.c 112-120 `zt_bstream_free`; `b` is the stream's structure. -/
def bsFreeM (h : Heap) (b a : Nat) (d : Hdr) : Outcome Heap := do
  let _ ← h.load b
  let h ← freeM h a d
  h.free b

/-! ## Specification -/

/-- The call with the heap does what the call without it does. -/
inductive Agree {α β : Type} (R : α → β → Prop) : Outcome α → Outcome β → Prop
  | ok {a : α} {b : β} : R a b → Agree R (.ok a) (.ok b)
  | abort : Agree R .abort .abort
  | ub : Agree R .ub .ub

/-- The array of Verif.Array.Model that a structure stands for. -/
structure Sees (h : Heap) (d : Hdr) (v : Arr) : Prop where
  len : d.length = v.length
  size : d.size = v.size
  data : d.data.map h.cont = v.data
  live : ∀ b, d.data = some b → b ∈ h.live

/-- Numbers are not used twice. -/
structure Good (h : Heap) : Prop where
  nodup : h.live.Nodup
  lt : ∀ b ∈ h.live, b < h.next

/-- A call that owned the blocks `own` and then owns `own'`, having dropped `lost`; it has left all other blocks alone. -/
structure Upd (h : Heap) (own : List Nat) (h' : Heap) (own' lost : List Nat) : Prop where
  perm : ∀ rest, h.live.Perm (own ++ rest) → h'.live.Perm (own' ++ (lost ++ rest))
  good : Good h'
  keep : ∀ b ∈ h.live, b ∉ own → b ∈ h'.live ∧ b ∉ own' ∧ h'.cont b = h.cont b
  mono : h.next ≤ h'.next
  fresh : ∀ b ∈ h'.live, b ∈ h.live ∨ h.next ≤ b

/-! ## Primitives -/

theorem Agree.bind {α β γ δ : Type} {R : α → β → Prop} {S : γ → δ → Prop} {x : Outcome α} {y : Outcome β} {f : α → Outcome γ} {g : β → Outcome δ} (h : Agree R x y)
    (k : ∀ a b, R a b → Agree S (f a) (g b)) : Agree S (x >>= f) (y >>= g) := by
  cases h with
  | ok r => exact k _ _ r
  | abort => exact .abort
  | ub => exact .ub

theorem Agree.refl {α : Type} (x : Outcome α) : Agree Eq x x := by cases x <;> constructor <;> rfl

theorem Agree.imp {α β : Type} {R S : α → β → Prop} {x : Outcome α} {y : Outcome β} (h : Agree R x y) (k : ∀ a b, R a b → S a b) : Agree S x y := by
  cases h with
  | ok r => exact .ok (k _ _ r)
  | abort => exact .abort
  | ub => exact .ub

theorem Upd.refl {h : Heap} (G : Good h) (own : List Nat) : Upd h own h own [] := ⟨fun _ p => p, G, fun _ hb hn => ⟨hb, hn, rfl⟩, Nat.le_refl _, fun _ hb => .inl hb⟩

theorem Upd.trans {h h1 h2 : Heap} {o o1 o2 l1 l2 : List Nat} (u : Upd h o h1 o1 l1) (v : Upd h1 o1 h2 o2 l2) : Upd h o h2 o2 (l2 ++ l1) := by
  refine ⟨fun rest p => ?_, v.good, fun b hb hn => ?_, Nat.le_trans u.mono v.mono, fun b hb => ?_⟩
  · have := v.perm _ (u.perm rest p)
    rwa [List.append_assoc]
  · obtain ⟨a1, a2, a3⟩ := u.keep b hb hn
    obtain ⟨b1, b2, b3⟩ := v.keep b a1 a2
    exact ⟨b1, b2, b3.trans a3⟩
  · rcases v.fresh b hb with h3 | h3
    · exact u.fresh b h3
    · exact .inr (Nat.le_trans u.mono h3)

theorem alloc_upd {h : Heap} (G : Good h) (c : List Byte) (own : List Nat) : Upd h own (h.alloc c).2 ((h.alloc c).1 :: own) [] := by
  refine ⟨fun rest p => ?_, ⟨?_, ?_⟩, fun b hb hn => ?_, Nat.le_succ _, fun b hb => ?_⟩
  · exact p.cons _
  · exact List.nodup_cons.2 ⟨fun hm => Nat.lt_irrefl _ (G.lt _ hm), G.nodup⟩
  · intro b hb
    rcases List.mem_cons.1 hb with rfl | hb
    · exact Nat.lt_succ_self _
    · exact Nat.lt_succ_of_lt (G.lt _ hb)
  · have hlt := G.lt b hb
    refine ⟨List.mem_cons_of_mem _ hb, fun hm => ?_, if_neg (Nat.ne_of_lt hlt)⟩
    rcases List.mem_cons.1 hm with rfl | hm
    · exact Nat.lt_irrefl _ hlt
    · exact hn hm
  · rcases List.mem_cons.1 hb with rfl | hb
    · exact .inr (Nat.le_refl _)
    · exact .inl hb

theorem free_upd {h : Heap} (G : Good h) {b : Nat} (hb : b ∈ h.live) (own : List Nat) : ∃ h', h.free b = .ok h' ∧ h'.cont = h.cont ∧ Upd h (b :: own) h' own [] := by
  refine ⟨_, if_pos hb, rfl, fun rest p => ?_, ⟨G.nodup.erase b, fun x hx => G.lt x (List.mem_of_mem_erase hx)⟩, fun x hx hn => ?_, Nat.le_refl _, fun x hx => .inl (List.mem_of_mem_erase hx)⟩
  · have h1 := List.perm_cons_erase hb
    have h2 := h1.symm.trans p
    exact List.Perm.cons_inv h2
  · have hne : x ≠ b := fun e => hn (by simp [e])
    exact ⟨(List.mem_erase_of_ne hne).2 hx, fun hm => hn (List.mem_cons_of_mem _ hm), rfl⟩

theorem save_upd {h : Heap} (G : Good h) {b : Nat} (hb : b ∈ h.live) (c : List Byte) {own : List Nat} (ho : b ∈ own) :
    ∃ h', h.save b c = .ok h' ∧ h'.live = h.live ∧ h'.cont b = c ∧ (∀ x, x ≠ b → h'.cont x = h.cont x) ∧ Upd h own h' own [] := by
  refine ⟨_, if_pos hb, rfl, if_pos rfl, fun x hx => if_neg hx, fun rest p => p, ⟨G.nodup, G.lt⟩, fun x hx hn => ⟨hx, hn, if_neg (fun (e : x = b) => hn (e ▸ ho))⟩, Nat.le_refl _, fun x hx => .inl hx⟩

theorem load_ok {h : Heap} {b : Nat} (hb : b ∈ h.live) : h.load b = .ok (h.cont b) := if_pos hb

theorem alloc_cont (h : Heap) (c : List Byte) : (h.alloc c).2.cont (h.alloc c).1 = c := if_pos rfl
theorem alloc_mem (h : Heap) (c : List Byte) : (h.alloc c).1 ∈ (h.alloc c).2.live := List.mem_cons_self

theorem Sees.of_some {h : Heap} {d : Hdr} {v : Arr} (S : Sees h d v) {b : Nat} (e : d.data = some b) : b ∈ h.live ∧ v.data = some (h.cont b) := by
  refine ⟨S.live b e, ?_⟩
  rw [← S.data, e]; rfl

theorem Sees.of_none {h : Heap} {d : Hdr} {v : Arr} (S : Sees h d v) (e : d.data = none) : v.data = none := by
  rw [← S.data, e]; rfl

/-- Other arrays are not affected. -/
theorem Sees.keep {h h' : Heap} {d : Hdr} {v : Arr} (S : Sees h d v) {own own' lost : List Nat} (u : Upd h own h' own' lost) (hd : ∀ b, d.data = some b → b ∉ own) : Sees h' d v := by
  refine ⟨S.len, S.size, ?_, fun b e => (u.keep b (S.live b e) (hd b e)).1⟩
  cases e : d.data with
  | none => rw [← S.data, e]; rfl
  | some b => rw [← S.data, e, Option.map_some, Option.map_some, (u.keep b (S.live b e) (hd b e)).2.2]

/-! ## The functions -/

/-- The result of a function that changes the data of an array. -/
abbrev Res (h : Heap) (own : List Nat) (lost : List Nat) (r : Hdr × Heap) (v : Arr) : Prop := Sees r.2 r.1 v ∧ Upd h own r.2 r.1.data.toList lost

theorem initM_agree {h : Heap} {len size : Nat} {d : Option Nat} (hd : ∀ b, d = some b → b ∈ h.live) :
    Agree (fun (x : Hdr) v => Sees h x v ∧ x.data = d ∧ x.length = len ∧ x.size = size) (initM len size d) (repInit len size (d.map h.cont)) := by
  unfold initM repInit
  rw [Option.isSome_map, Option.isNone_map]
  split
  · split
    · exact .ok ⟨⟨rfl, rfl, rfl, hd⟩, rfl, rfl, rfl⟩
    · exact .abort
  · exact .abort

theorem newM_agree {h : Heap} (G : Good h) (len size : Nat) :
    Agree (fun (r : Hdr × Heap) v => Res h [] [] r v ∧ r.1.length = len ∧ r.1.size = size) (newM h len size) (Arr.new len size) := by
  unfold newM Arr.new
  by_cases c : len > 0
  · rw [if_pos c, if_pos c]
    have k := initM_agree (h := (h.alloc (calloc (sz (len * size)))).2) (len := len) (size := size) (d := some (h.alloc (calloc (sz (len * size)))).1)
      (fun b e => by cases e; exact alloc_mem _ _)
    rw [Option.map_some, alloc_cont] at k
    have k2 := Agree.bind (S := fun (r : Hdr × Heap) v => Res h [] [] r v ∧ r.1.length = len ∧ r.1.size = size) k (f := fun d => pure (d, (h.alloc (calloc (sz (len * size)))).2)) (g := fun v => Outcome.ok v)
      (fun a b hr => .ok ⟨⟨hr.1, by rw [hr.2.1]; exact alloc_upd G _ []⟩, hr.2.2⟩)
    have e : (repInit len size (some (calloc (sz (len * size)))) >>= fun v => Outcome.ok v) = repInit len size (some (calloc (sz (len * size)))) := by
      cases repInit len size (some (calloc (sz (len * size)))) <;> rfl
    rwa [e] at k2
  · rw [if_neg c, if_neg c]
    have k := initM_agree (h := h) (len := len) (size := size) (d := none) (fun b e => by cases e)
    rw [Option.map_none] at k
    have k2 := Agree.bind (S := fun (r : Hdr × Heap) v => Res h [] [] r v ∧ r.1.length = len ∧ r.1.size = size) k (f := fun d => pure (d, h)) (g := fun v => Outcome.ok v)
      (fun a b hr => .ok ⟨⟨hr.1, by rw [hr.2.1]; exact Upd.refl G []⟩, hr.2.2⟩)
    have e : (repInit len size none >>= fun v => Outcome.ok v) = repInit len size none := by
      cases repInit len size none <;> rfl
    rwa [e] at k2

/-- Reading a slice and storing bytes do the same in both models. -/
theorem blit_save {h : Heap} (G : Good h) {b : Nat} (hb : b ∈ h.live) {own : List Nat} (ho : b ∈ own) (k : Nat) (s : List Byte) {d : Hdr} {v : Arr} (hd : d.data = some b) (hl : d.length = v.length) (hz : d.size = v.size) :
    Agree (fun (r : Hdr × Heap) w => Sees r.2 r.1 w ∧ Upd h own r.2 own [] ∧ r.1.data = some b) (do
      let m ← h.load b
      let m ← blit m k s
      let h ← h.save b m
      pure (d, h)) (do
      let m ← blit (h.cont b) k s
      pure { v with data := some m }) := by
  rw [load_ok hb, Outcome.ok_bind]
  refine Agree.bind (Agree.refl _) fun m _ e => ?_
  subst e
  obtain ⟨h', e1, e2, e3, _, u⟩ := save_upd G hb m ho
  rw [e1, Outcome.ok_bind]
  refine .ok ⟨⟨hl, hz, ?_, ?_⟩, u, hd⟩
  · show d.data.map h'.cont = some m
    rw [hd, Option.map_some, e3]
  · intro x hx
    rw [hd] at hx; cases hx
    show b ∈ h'.live
    rw [e2]; exact hb

theorem setDataM_agree {h : Heap} (G : Good h) (own : List Nat) (src : List Byte) (len size : Nat) :
    Agree (fun (r : Hdr × Heap) v => Sees r.2 r.1 v ∧ Upd h own r.2 (r.1.data.toList ++ own) []) (setDataM h src len size) (setData (some src) len size true) := by
  unfold setDataM setData
  rw [if_pos rfl]
  have k := initM_agree (h := (h.alloc (calloc (sz (len * size)))).2) (len := len) (size := size) (d := some (h.alloc (calloc (sz (len * size)))).1)
    (fun b e => by cases e; exact alloc_mem _ _)
  rw [Option.map_some, alloc_cont] at k
  refine Agree.bind k fun d v hr => ?_
  obtain ⟨S, hd, _, _⟩ := hr
  have hv := (S.of_some hd).2
  rw [alloc_cont] at hv
  simp only [hd, hv]
  refine Agree.bind (Agree.refl _) fun s _ e => ?_
  subst e
  have u0 := alloc_upd G (calloc (sz (len * size))) own
  have k2 := blit_save u0.good (alloc_mem _ _) (own := (h.alloc (calloc (sz (len * size)))).1 :: own) (by simp) 0 s hd S.len S.size
  rw [alloc_cont] at k2
  refine k2.imp fun r w hr => ?_
  obtain ⟨h1, h2, h3⟩ := hr
  refine ⟨h1, ?_⟩
  rw [h3]
  exact u0.trans h2

theorem adoptM_agree {h : Heap} (p : Option Nat) (hp : ∀ b, p = some b → b ∈ h.live) (len size : Nat) :
    Agree (fun (r : Hdr × Heap) v => Sees r.2 r.1 v ∧ r.2 = h ∧ r.1.data = p) (adoptM h p len size) (setData (p.map h.cont) len size false) := by
  unfold adoptM setData
  have k2 := Agree.bind (S := fun (r : Hdr × Heap) v => Sees r.2 r.1 v ∧ r.2 = h ∧ r.1.data = p) (initM_agree (len := len) (size := size) hp) (f := fun d => pure (d, h)) (g := fun v => Outcome.ok v)
      (fun a b hr => .ok ⟨hr.1, rfl, hr.2.1⟩)
  have e : (repInit len size (p.map h.cont) >>= fun v => Outcome.ok v) = repInit len size (p.map h.cont) := by
    cases repInit len size (p.map h.cont) <;> rfl
  rw [e] at k2
  exact k2

/-- The blocks that a resize drops: the data of an array whose length is 0. -/
def dropped (d : Hdr) : List Nat := if d.length = 0 then d.data.toList else []

theorem realloc_upd {h : Heap} (G : Good h) (junk : Nat → Byte) (n : Nat) {d : Hdr} {v : Arr} (S : Sees h d v) :
    ∃ b h', h.realloc junk n d.data = .ok (b, h') ∧ b ∈ h'.live ∧ h'.cont b = Arr.realloc junk (v.data.getD []) n ∧ Upd h d.data.toList h' [b] [] := by
  cases e : d.data with
  | none =>
      refine ⟨(h.alloc (Arr.realloc junk [] n)).1, (h.alloc (Arr.realloc junk [] n)).2, rfl, alloc_mem _ _, ?_, alloc_upd G _ []⟩
      rw [alloc_cont, S.of_none e]; rfl
  | some b =>
      obtain ⟨hb, hv⟩ := S.of_some e
      obtain ⟨h', e1, e2, u⟩ := free_upd G hb []
      refine ⟨(h'.alloc (Arr.realloc junk (h.cont b) n)).1, (h'.alloc (Arr.realloc junk (h.cont b) n)).2, Outcome.bind_eq_ok.2 ⟨_, load_ok hb, Outcome.bind_eq_ok.2 ⟨_, e1, rfl⟩⟩, alloc_mem _ _, ?_, u.trans (alloc_upd u.good _ [])⟩
      rw [alloc_cont, hv]; rfl

theorem resizeM_agree {h : Heap} (G : Good h) (junk : Nat → Byte) {d : Hdr} {v : Arr} (S : Sees h d v) (len : Nat) :
    Agree (Res h d.data.toList (dropped d)) (resizeM junk h d len) (resize junk v len) := by
  unfold resizeM resize
  by_cases c : len > 0
  · rw [if_pos c, if_pos c]
    by_cases c0 : d.length = 0
    · have hz : dropped d = d.data.toList := if_pos c0
      rw [hz, if_pos (show (d.length == 0) = true by simpa using c0), if_pos (show (v.length == 0) = true by rw [← S.len]; simpa using c0)]
      refine .ok ⟨⟨rfl, S.size, ?_, ?_⟩, ?_⟩
      · show Option.map _ (some _) = _
        rw [Option.map_some, alloc_cont, S.size]
      · intro b e; cases e; exact alloc_mem _ _
      · have u := alloc_upd G (calloc (sz (len * d.size))) []
        refine ⟨fun rest p => ?_, u.good, fun b hb hn => ?_, u.mono, u.fresh⟩
        · have := u.perm _ p
          exact this
        · have hlt := G.lt b hb
          refine ⟨List.mem_cons_of_mem _ hb, ?_, if_neg (Nat.ne_of_lt hlt)⟩
          intro hm
          rcases List.mem_cons.1 hm with rfl | hm
          · exact Nat.lt_irrefl _ hlt
          · cases hm
    · have hz : dropped d = [] := if_neg c0
      rw [hz, if_neg (show ¬ (d.length == 0) = true by simpa using c0), if_neg (show ¬ (v.length == 0) = true by rw [← S.len]; simpa using c0)]
      obtain ⟨b, h', e1, e2, e3, u⟩ := realloc_upd G junk (sz (len * d.size)) S
      rw [e1, Outcome.ok_bind]
      unfold clearM
      rw [S.size] at e3
      simp only [S.len, S.size]
      by_cases c1 : len > v.length
      · rw [if_pos c1, if_pos c1]
        have k := blit_save u.good e2 (own := [b]) (by simp) (sz (v.length * v.size)) (calloc (sz (sz (len - v.length) * v.size))) (d := ⟨len, v.size, some b⟩) (v := { v with length := len }) rfl rfl rfl
        rw [e3] at k
        refine k.imp fun r w hr => ?_
        obtain ⟨h1, h2, h3⟩ := hr
        refine ⟨h1, ?_⟩
        rw [h3]
        exact u.trans h2
      · rw [if_neg c1, if_neg c1]
        refine .ok ⟨⟨rfl, rfl, ?_, ?_⟩, u⟩
        · show Option.map _ (some _) = _
          rw [Option.map_some, e3]
        · intro x hx; cases hx; exact e2
  · rw [if_neg c, if_neg c]
    exact .abort

theorem putM_agree {h : Heap} (G : Good h) {d : Hdr} {v : Arr} (S : Sees h d v) (offt : Nat) (e : List Byte) :
    Agree (fun (r : Hdr × Heap) w => Res h d.data.toList [] r w ∧ r.1.data = d.data) (putM h d offt e) (put v offt e) := by
  unfold putM put
  rw [S.len]
  by_cases c : offt < v.length
  · rw [if_pos c, if_pos c]
    cases hd : d.data with
    | none => rw [S.of_none hd]; exact .ub
    | some b =>
        obtain ⟨hb, hv⟩ := S.of_some hd
        rw [hv]
        simp only [S.size]
        refine Agree.bind (Agree.refl _) fun s _ es => ?_
        subst es
        refine (blit_save G hb (own := [b]) (by simp) (sz (offt * v.size)) s hd S.len S.size).imp fun r w hr => ?_
        obtain ⟨h1, h2, h3⟩ := hr
        exact ⟨⟨h1, by rw [h3]; exact h2⟩, h3⟩
  · rw [if_neg c, if_neg c]; exact .abort

theorem copyM_agree {h : Heap} (G : Good h) {d : Hdr} {v : Arr} (S : Sees h d v) (len : Nat) :
    Agree (Res h [] []) (copyM h d len) (copy v len) := by
  unfold copyM copy
  rw [S.size]
  refine Agree.bind (newM_agree G len v.size) fun r c hr => ?_
  obtain ⟨⟨Sc, u⟩, k1, k2⟩ := hr
  obtain ⟨cd, h1⟩ := r
  simp only at Sc u k1 k2
  have e1 : (decide (d.length > 0) && decide (cd.length > 0)) = (decide (v.length > 0) && decide (c.length > 0)) := by rw [S.len, Sc.len]
  show Agree _ (if (decide (d.length > 0) && decide (cd.length > 0)) = true then _ else _) (if (decide (v.length > 0) && decide (c.length > 0)) = true then _ else _)
  rw [e1]
  by_cases hc : (decide (v.length > 0) && decide (c.length > 0)) = true
  · rw [if_pos hc, if_pos hc]
    have S1 := S.keep u (fun b _ => by simp)
    cases hs : d.data with
    | none => rw [S.of_none hs]; cases cd.data <;> cases c.data <;> exact .ub
    | some s =>
        cases ht : cd.data with
        | none => rw [Sc.of_none ht]; cases v.data <;> exact .ub
        | some t =>
            obtain ⟨hb, hv⟩ := S1.of_some hs
            obtain ⟨hb2, hv2⟩ := Sc.of_some ht
            rw [hv, hv2]
            simp only [load_ok hb, Outcome.ok_bind, S.len, Sc.len, Sc.size]
            refine Agree.bind (Agree.refl _) fun s' _ es => ?_
            subst es
            refine (blit_save u.good hb2 (own := [t]) (by simp) 0 s' ht Sc.len Sc.size).imp fun r w hr => ?_
            obtain ⟨h1', h2, h3⟩ := hr
            refine ⟨h1', ?_⟩
            rw [h3]
            rw [ht] at u
            exact u.trans h2
  · rw [if_neg hc, if_neg hc]
    exact .ok ⟨Sc, u⟩

theorem arrayPutM_agree (flip : Bool) (s : List Byte) (len : Nat) : ∀ (n : Nat) {h : Heap} (_ : Good h) {d : Hdr} {v : Arr} (_ : Sees h d v) (offt : Nat),
    Agree (fun (r : Hdr × Heap × Nat) w => Res h d.data.toList [] (r.1, r.2.1) w.1 ∧ r.2.2 = w.2) (arrayPutM flip s len n h d offt) (arrayPut flip s len n v offt) := by
  intro n
  induction n with
  | zero =>
      intro h G d v S offt
      exact .ok ⟨⟨S, Upd.refl G _⟩, rfl⟩
  | succ n ih =>
      intro h G d v S offt
      rw [arrayPutM, arrayPut]
      refine Agree.bind (putM_agree G S offt _) fun r w hr => ?_
      obtain ⟨⟨h1, h2⟩, h3⟩ := hr
      refine (ih h2.good h1 _).imp fun a b hab => ?_
      obtain ⟨⟨h4, h5⟩, h6⟩ := hab
      exact ⟨⟨h4, h2.trans h5⟩, h6⟩

/-- The blocks that a write drops: those of a resize, if there is one. -/
def droppedBy (d : Hdr) (offt tlen : Nat) : List Nat := if tlen > sz (d.length + 2 ^ 64 - offt) then dropped d else []

theorem writeM_agree {h : Heap} (G : Good h) (junk : Nat → Byte) (flip : Bool) (offt : Nat) {d : Hdr} {v : Arr} (S : Sees h d v) (data : List Byte) (len size : Nat) :
    Agree (fun (r : Hdr × Heap × Nat) (b : Bs) => Res h d.data.toList (droppedBy d offt (sz (len * size))) (r.1, r.2.1) b.arr ∧ r.2.2 = b.offt ∧ b.flip = flip)
      (writeM junk h flip offt d data len size) (write junk ⟨flip, offt, v⟩ data len size) := by
  have e : write junk ⟨flip, offt, v⟩ data len size = ((if sz (len * size) > sz (v.length + 2 ^ 64 - offt) then resize junk v (sz ((v.length + sz (len * size)) * 2)) else .ok v) >>= fun a =>
      arrayPut flip data (sz (len * size)) (sz (len * size)) a offt >>= fun r => .ok ⟨flip, r.2, r.1⟩) := by
    unfold write
    simp only
    split <;> rfl
  have k : Agree (Res h d.data.toList (droppedBy d offt (sz (len * size)))) (roomM junk h d offt (sz (len * size)))
      (if sz (len * size) > sz (v.length + 2 ^ 64 - offt) then resize junk v (sz ((v.length + sz (len * size)) * 2)) else .ok v) := by
    unfold roomM droppedBy
    rw [S.len]
    by_cases c : sz (len * size) > sz (v.length + 2 ^ 64 - offt)
    · rw [if_pos c, if_pos c, if_pos c]; exact resizeM_agree G junk S _
    · rw [if_neg c, if_neg c, if_neg c]; exact .ok ⟨S, Upd.refl G _⟩
  have e2 : writeM junk h flip offt d data len size = (roomM junk h d offt (sz (len * size)) >>= fun r => arrayPutM flip data (sz (len * size)) (sz (len * size)) r.2 r.1 offt >>= fun x => .ok x) := by
    unfold writeM
    congr 1
    funext ⟨d', h'⟩
    show arrayPutM flip data (sz (len * size)) (sz (len * size)) h' d' offt = (arrayPutM flip data (sz (len * size)) (sz (len * size)) h' d' offt >>= fun x => .ok x)
    cases arrayPutM flip data (sz (len * size)) (sz (len * size)) h' d' offt <;> rfl
  rw [e, e2]
  refine Agree.bind k fun r w hr => ?_
  obtain ⟨h1, h2⟩ := hr
  refine Agree.bind (arrayPutM_agree flip data _ _ h2.good h1 offt) fun x y hxy => ?_
  obtain ⟨⟨h3, h4⟩, h5⟩ := hxy
  have := h2.trans h4
  rw [List.nil_append] at this
  exact .ok ⟨⟨h3, this⟩, h5, rfl⟩

theorem freeOpt_upd {h : Heap} (G : Good h) {d : Option Nat} (hd : ∀ b, d = some b → b ∈ h.live) (own : List Nat) : ∃ h', h.freeOpt d = .ok h' ∧ Upd h (d.toList ++ own) h' own [] := by
  cases d with
  | none => exact ⟨h, rfl, Upd.refl G _⟩
  | some b =>
      obtain ⟨h', e, _, u⟩ := free_upd G (hd b rfl) own
      exact ⟨h', e, u⟩

theorem freeM_upd {h : Heap} (G : Good h) {a : Nat} (ha : a ∈ h.live) {d : Hdr} (hd : ∀ b, d.data = some b → b ∈ h.live) (hne : a ∉ d.data.toList) (own : List Nat) :
    ∃ h', freeM h a d = .ok h' ∧ Upd h (d.data.toList ++ (a :: own)) h' own [] := by
  obtain ⟨h1, e1, u1⟩ := freeOpt_upd G hd (a :: own)
  have ha1 : a ∈ h1.live := by
    obtain ⟨h1', e1', u1'⟩ := freeOpt_upd G hd []
    cases e1.symm.trans e1'
    exact (u1'.keep a ha (by simpa using hne)).1
  obtain ⟨h2, e2, _, u2⟩ := free_upd u1.good ha1 own
  exact ⟨h2, Outcome.bind_eq_ok.2 ⟨_, load_ok ha, Outcome.bind_eq_ok.2 ⟨_, e1, e2⟩⟩, u1.trans u2⟩

end ZT.Arr.Own
