import Verif.Cfg.Ini

/-!
# C97: the memory of configurations (zt_cfg/cfg_private.c, zt_cfg/cfg_ini.c)

The models of C46 and C69 say what a configuration contains; here the same functions are modelled with the memory they allocate and free. A block of memory is a number and
is never used again after it was freed, so that a pointer that is kept for too long is recognized. `calloc` and `strdup` succeed.
-/

namespace ZT.Cfg.Own

open Spec

/-- The heap: the blocks in use, the texts written into them, and the next address. -/
structure Mem where
  live : List Nat
  text : Nat → Str
  next : Nat

/-- malloc, with what is written into the block (strdup; the structures are kept in the lists below). -/
def Mem.alloc (m : Mem) (s : Str) : Nat × Mem := (m.next, ⟨m.next :: m.live, fun a => if a = m.next then s else m.text a, m.next + 1⟩)

/-- free: undefined unless the block is in use. -/
def Mem.free (m : Mem) (a : Nat) : Outcome Mem := if a ∈ m.live then .ok { m with live := m.live.erase a } else .ub

section
variable {F : Type}

/-- cfg_private.h 25-37 `struct zt_cfg_value_ty`: its address, that of its name, the name, the value, and the address of the string if the value is one. `id` stands for the variable
in references (`v.r`), as in Verif.Cfg.Model. -/
structure Val (F : Type) where
  addr : Nat
  nm : Nat
  name : Str
  id : Nat
  cell : Cell F
  sp : Nat

/-- cfg_private.h 39-44 `struct zt_cfg_block_ty`. -/
structure Blk (F : Type) where
  addr : Nat
  nm : Nat
  name : Str
  vals : List (Val F)

/-- The heap and the lists of a configuration; `ids` is the number of variables made. -/
structure St (F : Type) where
  mem : Mem
  nodes : List (Blk F)
  ids : Nat

/-- The first block with the name gets other variables. -/
def setVals (name : Str) (vals : List (Val F)) : List (Blk F) → List (Blk F)
  | [] => []
  | b :: l => if b.name = name then { b with vals := vals } :: l else b :: setVals name vals l

/-- cfg_private.c 78-95 `add_block` -/
def addBlock (st : St F) (name : Str) : St F :=
  match st.nodes.find? (fun b => b.name = name) with
  | some _ => st
  | none =>
    let (a, m) := st.mem.alloc []
    let (c, m) := m.alloc name
    { st with mem := m, nodes := ⟨a, c, name, []⟩ :: st.nodes }

/-- cfg_private.c 109-126 `add_variable` in the block with the name `block`. -/
def addVariable (st : St F) (block name : Str) : Outcome (St F × Nat) :=
  match st.nodes.find? (fun b => b.name = block) with
  | none => .ub
  | some b =>
    match b.vals.find? (fun v => v.name = name) with
    | some v => .ok (st, v.id)
    | none =>
      let (a, m) := st.mem.alloc []
      let (c, m) := m.alloc name
      .ok ({ mem := m, nodes := setVals block (⟨a, c, name, st.ids, .bool 0, 0⟩ :: b.vals) st.nodes, ids := st.ids + 1 }, st.ids)

/-- cfg_private.c 128-168 `get_type`: a string is copied. -/
def getTypeM (fl : Floats F) (m : Mem) (s : Str) : Mem × Cell F × Nat :=
  match getType fl s with
  | .str t => ((m.alloc t).2, .str t, (m.alloc t).1)
  | c => (m, c, 0)

/-- The variable in the block. -/
def findVal (l : List (Blk F)) (block name : Str) : Option (Val F) := (l.find? (fun b => b.name = block)).bind fun b => b.vals.find? (fun v => v.name = name)

/-- cfg_private.c 186-204: the name of the block is copied; the string is freed if it becomes a reference. -/
def refer (m : Mem) (l : List (Blk F)) (c : Cell F) (p : Nat) : Outcome (Mem × Cell F) :=
  match c with
  | .str s =>
    match splitDot s with
    | none => .ok (m, .str s)
    | some (b, n) =>
      let (t, m) := m.alloc b
      match findVal l b n with
      | none => do
        let m ← m.free t
        pure (m, .str s)
      | some w => do
        let m ← m.free p
        let m ← m.free t
        pure (m, .ref w.id)
  | c => .ok (m, c)

/-- Writing through the pointer to the variable: cfg_private.c 184, 198-199. -/
def setVal (x : Nat) (c : Cell F) (p : Nat) (l : List (Blk F)) : List (Blk F) :=
  l.map fun b => { b with vals := b.vals.map fun v => if v.id = x then { v with cell := c, sp := p } else v }

/-- cfg_private.c 170-206 `cfg_insert_bvv` -/
def insertM (fl : Floats F) (st : St F) (block name value : Str) : Outcome (St F) := do
  let (st, x) ← addVariable (addBlock st block) block name
  let (m, c, p) := getTypeM fl st.mem value
  let (m, c) ← refer m st.nodes c p
  pure { st with mem := m, nodes := setVal x c p st.nodes }

/-- cfg_private.c 208-246 `zt_cfg_priv_set`; the copies are not freed when -1 is returned. -/
def setM (fl : Floats F) (st : St F) (block name : Str) (a : Arg F) : Outcome (St F × Int) := do
  let (b, m) := st.mem.alloc block
  let (n, m) := m.alloc name
  let t ← argText fl a
  match t with
  | none => pure ({ st with mem := (m.alloc []).2 }, -1)
  | some v => do
    let (x, m) := m.alloc v
    let st ← insertM fl { st with mem := m } block name v
    let m ← st.mem.free b
    let m ← m.free n
    let m ← m.free x
    pure ({ st with mem := m }, 1)

/-- cfg_private.c 267-269: follow references from the variable. -/
def followM (l : List (Blk F)) : Nat → Val F → Outcome (Val F)
  | 0, _ => .ub
  | fuel + 1, v =>
    match v.cell with
    | .ref r =>
      match (l.flatMap (·.vals)).find? (fun w => w.id = r) with
      | none => .ub
      | some w => followM l fuel w
    | _ => .ok v

/-- cfg_private.c 248-294 `zt_cfg_priv_get` for zt_cfg_string: the pointer stored in `*var`, `none` if -1 is returned. -/
def getStr (fuel : Nat) (st : St F) (block name : Str) : Outcome (Option Nat) :=
  match findVal st.nodes block name with
  | none => .ok none
  | some v => do
    let w ← followM st.nodes fuel v
    match w.cell with
    | .str _ => pure (some w.sp)
    | _ => pure none

/-- `if (value->type == zt_cfg_string) zt_free(value->v.s)`, cfg_private.c 310-312. -/
def freeStr (v : Val F) (m : Mem) : Outcome Mem :=
  match v.cell with
  | .str _ => m.free v.sp
  | _ => .ok m

/-- cfg_private.c 308-318 -/
def freeVals : List (Val F) → Mem → Outcome Mem
  | [], m => .ok m
  | v :: vs, m => do
    let m ← freeStr v m
    let m ← m.free v.nm
    let m ← m.free v.addr
    freeVals vs m

/-- cfg_private.c 305-324 -/
def freeBlocks : List (Blk F) → Mem → Outcome Mem
  | [], m => .ok m
  | b :: l, m => do
    let m ← freeVals b.vals m
    let m ← m.free b.nm
    let m ← m.free b.addr
    freeBlocks l m

/-- An open configuration: the address of its structure and of its file name. -/
structure Conf (F : Type) where
  self : Nat
  file : Nat
  st : St F

/-- cfg_private.c 296-331 `zt_cfg_priv_destructor`, zt_cfg.c 24-30 `zt_cfg_close`. -/
def close (c : Conf F) : Outcome Mem := do
  let m ← freeBlocks c.st.nodes c.st.mem
  let m ← m.free c.file
  m.free c.self

/-- free(bvv.block), which may be NULL. -/
def freeName (b : Option (Nat × Str)) (m : Mem) : Outcome Mem :=
  match b with
  | none => .ok m
  | some (a, _) => m.free a

/-- `bvv->block = strdup(buff)`, unless parse_block failed. -/
def copyName (b : Option Str) (m : Mem) : Option (Nat × Str) × Mem :=
  match b with
  | none => (none, m)
  | some s => (some ((m.alloc s).1, s), (m.alloc s).2)

/-- cfg_ini.c 182-221: the loop of `parse_file`; `block` is `bvv.block`. The result tells whether the file was read to its end. -/
def parseLoopM (fl : Floats F) : Nat → St F → Option (Nat × Str) → Str → Outcome (St F × Bool)
  | 0, _, _, _ => .ub
  | _ + 1, st, block, [] => do
    let m ← freeName block st.mem
    pure ({ st with mem := m }, true)
  | fuel + 1, st, block, c :: t =>
    if c = 0x0A then parseLoopM fl fuel st block t
    else if c = 0x5B then do
      let m ← freeName block st.mem
      let (b, m) := copyName (parseBlock t).1 m
      parseLoopM fl fuel { st with mem := m } b (discardLine (parseBlock t).2)
    else if c = 0x3B ∨ c = 0x23 then parseLoopM fl fuel st block (discardLine t)
    else if isBlank c then parseLoopM fl fuel st block (discardWhitespace t)
    else do
      let (r, rest) ← parseLine (c :: t)
      match r with
      | none => pure (st, false)
      | some (var, value) =>
        match block with
        | none => .ub
        | some (_, b) => do
          let (v, m) := st.mem.alloc var
          let (x, m) := m.alloc value
          let st ← insertM fl { st with mem := m } b var value
          let m ← st.mem.free v
          let m ← m.free x
          parseLoopM fl fuel { st with mem := m } block rest

/-- cfg_ini.c 39-66, 169-181 `zt_cfg_ini` for a file with these bytes: the heap, and the configuration or `none` for NULL. -/
def iniM (fl : Floats F) (m : Mem) (name file : Str) : Outcome (Mem × Option (Conf F)) := do
  let (self, m) := m.alloc []
  let (fn, m) := m.alloc name
  let (g, m) := m.alloc globalName
  let (st, ok) ← parseLoopM fl (file.length + 1) ⟨m, [], 0⟩ (some (g, globalName)) file
  if ok then pure (st.mem, some ⟨self, fn, st⟩)
  else do
    let m ← st.mem.free fn
    let m ← m.free self
    pure (m, none)

/-! ## Specification -/

/-- The history of writes overwrote this many strings. -/
inductive Overwrites (fl : Floats F) : List (Str × Str × Str) → Nat → Prop
  | nil : Overwrites fl [] 0
  | string {h M k b n s t} : Overwrites fl h k → History fl h M → M b n = some (.val (.str t)) → Overwrites fl (h ++ [(b, n, s)]) (k + 1)
  | other {h M k b n s} : Overwrites fl h k → History fl h M → (∀ t, M b n ≠ some (.val (.str t))) → Overwrites fl (h ++ [(b, n, s)]) k

/-- The histories of a configuration: it is read from a well-formed file, then variables are set. `out` is the memory of the rest of the program, `ws` are the writes, `k` counts the calls of
zt_cfg_set that were refused. -/
inductive Hist (fl : Floats F) (out : List Nat) : Conf F → List (Str × Str × Str) → Nat → Prop
  | load {m m' : Mem} {name : Str} {ls : List Line} {c : Conf F} : m.live = out → out.Nodup → (∀ a ∈ out, a < m.next) → (∀ l ∈ ls, l.ok) → iniM fl m name (fileText ls) = .ok (m', some c) →
      Hist fl out c (writes globalName ls) 0
  | set {c ws k b n a v st'} : Hist fl out c ws k → argText fl a = .ok (some v) → setM fl c.st b n a = .ok (st', 1) → Hist fl out { c with st := st' } (ws ++ [(b, n, v)]) k
  | refused {c ws k b n a st'} : Hist fl out c ws k → argText fl a = .ok none → setM fl c.st b n a = .ok (st', -1) → Hist fl out { c with st := st' } ws (k + 1)

/-! ## Memory -/

/-- The heap consists of these blocks. -/
structure Is (m : Mem) (l : List Nat) : Prop where
  perm : m.live.Perm l
  nodup : m.live.Nodup
  bound : ∀ a ∈ m.live, a < m.next

/-- Nothing that was there has gone or changed. -/
structure Keeps (m m' : Mem) : Prop where
  next : m.next ≤ m'.next
  keeps : ∀ a ∈ m.live, a ∈ m'.live ∧ m'.text a = m.text a

theorem Keeps.refl (m : Mem) : Keeps m m := ⟨Nat.le_refl _, fun _ h => ⟨h, rfl⟩⟩

theorem Keeps.trans {a b c : Mem} (h1 : Keeps a b) (h2 : Keeps b c) : Keeps a c :=
  ⟨Nat.le_trans h1.next h2.next, fun x hx => ⟨(h2.keeps x (h1.keeps x hx).1).1, (h2.keeps x (h1.keeps x hx).1).2.trans (h1.keeps x hx).2⟩⟩

theorem Is.congr {m : Mem} {l l' : List Nat} (h : Is m l) (hp : l.Perm l') : Is m l' := ⟨h.perm.trans hp, h.nodup, h.bound⟩

theorem Is.alloc {m : Mem} {l : List Nat} (h : Is m l) (s : Str) : Is (m.alloc s).2 (m.next :: l) :=
  ⟨h.perm.cons _, List.nodup_cons.2 ⟨fun hm => Nat.lt_irrefl _ (h.bound _ hm), h.nodup⟩, fun a ha => by
    rcases List.mem_cons.1 ha with rfl | ha
    · exact Nat.lt_succ_self _
    · exact Nat.lt_succ_of_lt (h.bound a ha)⟩

theorem Is.keeps_alloc {m : Mem} {l : List Nat} (h : Is m l) (s : Str) : Keeps m (m.alloc s).2 :=
  ⟨Nat.le_succ _, fun a ha => ⟨List.mem_cons_of_mem _ ha, by
    have := h.bound a ha
    simp only [Mem.alloc]; rw [if_neg (by omega)]⟩⟩

theorem Is.free {m : Mem} {a : Nat} {l : List Nat} (h : Is m (a :: l)) : ∃ m', m.free a = .ok m' ∧ Is m' l ∧ m'.next = m.next ∧ ∀ m0, Keeps m0 m → a ∉ m0.live → Keeps m0 m' := by
  have hm : a ∈ m.live := h.perm.mem_iff.2 (List.mem_cons_self ..)
  refine ⟨{ m with live := m.live.erase a }, by rw [Mem.free, if_pos hm], ⟨?_, h.nodup.erase _, fun x hx => h.bound x (List.mem_of_mem_erase hx)⟩, rfl, ?_⟩
  · have := h.perm.erase a
    rwa [List.erase_cons_head] at this
  · intro m0 hk ha
    refine ⟨hk.next, fun x hx => ⟨?_, (hk.keeps x hx).2⟩⟩
    exact (List.mem_erase_of_ne (fun (e : x = a) => ha (e ▸ hx))).2 (hk.keeps x hx).1

theorem free_text {m m' : Mem} {a : Nat} (h : m.free a = .ok m') : m'.text = m.text := by
  rw [Mem.free] at h
  split at h
  · cases h; rfl
  · cases h

theorem Is.free' {m : Mem} {a : Nat} {l : List Nat} (h : Is m l) (ha : a ∈ l) : ∃ m', m.free a = .ok m' ∧ Is m' (l.erase a) ∧ m'.next = m.next ∧ ∀ m0, Keeps m0 m → a ∉ m0.live → Keeps m0 m' :=
  (h.congr (List.perm_cons_erase ha)).free

/-- Freeing a list. -/
def freeAll : List Nat → Mem → Outcome Mem
  | [], m => .ok m
  | a :: l, m => do
    let m ← m.free a
    freeAll l m

theorem freeAll_append (a b : List Nat) (m : Mem) : freeAll (a ++ b) m = (freeAll a m).bind (freeAll b) := by
  induction a generalizing m with
  | nil => rfl
  | cons x a ih =>
    rw [List.cons_append, freeAll, freeAll]
    cases m.free x with
    | ok m' => exact ih m'
    | ub => rfl
    | abort => rfl

theorem Is.freeAll : ∀ (l : List Nat) {m : Mem} {r : List Nat}, Is m (l ++ r) → ∃ m', freeAll l m = .ok m' ∧ Is m' r := by
  intro l
  induction l with
  | nil => intro m r h; exact ⟨m, rfl, h⟩
  | cons a l ih =>
    intro m r h
    obtain ⟨m1, e1, h1, -⟩ := h.free
    obtain ⟨m2, e2, h2⟩ := ih h1
    exact ⟨m2, by rw [Own.freeAll, e1]; exact e2, h2⟩

/-! ## What a configuration owns -/

/-- The string of a value. -/
def strOf (v : Val F) : List Nat := match v.cell with
  | .str _ => [v.sp]
  | _ => []

/-- The memory of a variable, in the order in which it is freed. -/
def ownedVal (v : Val F) : List Nat := strOf v ++ [v.nm, v.addr]

def ownedBlk (b : Blk F) : List Nat := b.vals.flatMap ownedVal ++ [b.nm, b.addr]

def owned (l : List (Blk F)) : List Nat := l.flatMap ownedBlk

theorem freeVals_eq (vs : List (Val F)) (m : Mem) : freeVals vs m = freeAll (vs.flatMap ownedVal) m := by
  induction vs generalizing m with
  | nil => rfl
  | cons v vs ih =>
    rw [List.flatMap_cons, freeAll_append, ownedVal, freeAll_append, freeVals]
    have e : freeStr v m = freeAll (strOf v) m := by
      unfold freeStr strOf
      cases v.cell with
      | str s => simp only [freeAll]; cases m.free v.sp <;> rfl
      | _ => rfl
    rw [e]
    cases freeAll (strOf v) m with
    | ub => rfl
    | abort => rfl
    | ok m1 =>
      show Outcome.bind (m1.free v.nm) _ = Outcome.bind (Outcome.bind (m1.free v.nm) _) _
      cases m1.free v.nm with
      | ub => rfl
      | abort => rfl
      | ok m2 =>
        show Outcome.bind (m2.free v.addr) _ = Outcome.bind (Outcome.bind (m2.free v.addr) _) _
        cases m2.free v.addr with
        | ub => rfl
        | abort => rfl
        | ok m3 => exact ih m3

theorem freeBlocks_eq (l : List (Blk F)) (m : Mem) : freeBlocks l m = freeAll (owned l) m := by
  induction l generalizing m with
  | nil => rfl
  | cons b l ih =>
    rw [owned, List.flatMap_cons, freeAll_append, ownedBlk, freeAll_append, freeBlocks, freeVals_eq]
    cases freeAll (b.vals.flatMap ownedVal) m with
    | ub => rfl
    | abort => rfl
    | ok m1 =>
      show Outcome.bind (m1.free b.nm) _ = Outcome.bind (Outcome.bind (m1.free b.nm) _) _
      cases m1.free b.nm with
      | ub => rfl
      | abort => rfl
      | ok m2 =>
        show Outcome.bind (m2.free b.addr) _ = Outcome.bind (Outcome.bind (m2.free b.addr) _) _
        cases m2.free b.addr with
        | ub => rfl
        | abort => rfl
        | ok m3 => exact ih m3

/-! ## Relation to the model without memory -/

def allVals (l : List (Blk F)) : List (Val F) := l.flatMap (·.vals)

def shape (l : List (Blk F)) : List (Str × List (Str × Nat)) := l.map fun b => (b.name, b.vals.map fun v => (v.name, v.id))

structure Sim (st : St F) (cfg : Cfg F) : Prop where
  shape : cfg.blocks = shape st.nodes
  cells : ∀ v ∈ allVals st.nodes, cfg.cells v.id = v.cell
  ids : ((allVals st.nodes).map (·.id)).Nodup
  bound : ∀ v ∈ allVals st.nodes, v.id < st.ids
  next : cfg.next = st.ids

/-- Strings have the text they are thought to have. -/
def Texts (st : St F) : Prop := ∀ v ∈ allVals st.nodes, ∀ s, v.cell = .str s → st.mem.text v.sp = s

theorem lookup_map {α β : Type} (nm : α → Str) (g : α → β) (n : Str) (l : List α) : lookup n (l.map fun a => (nm a, g a)) = (l.find? (fun a => nm a = n)).map g := by
  induction l with
  | nil => rfl
  | cons a l ih =>
    rw [List.map_cons, lookup, List.find?_cons]
    by_cases h : nm a = n
    · simp [h]
    · simp [h, ih]

theorem lookup_shape (n : Str) (l : List (Blk F)) : lookup n (shape l) = (l.find? (fun b => b.name = n)).map (fun b => b.vals.map fun v => (v.name, v.id)) := lookup_map _ _ n l

theorem lookup_vals (n : Str) (vs : List (Val F)) : lookup n (vs.map fun v => (v.name, v.id)) = (vs.find? (fun v => v.name = n)).map (·.id) := lookup_map _ _ n vs

theorem Sim.find {st : St F} {cfg : Cfg F} (h : Sim st cfg) (b n : Str) : find cfg b n = (findVal st.nodes b n).map (·.id) := by
  rw [Cfg.find, h.shape, lookup_shape, findVal]
  cases st.nodes.find? (fun x => x.name = b) with
  | none => rfl
  | some k => simp only [Option.map_some, Option.bind_some]; exact lookup_vals n k.vals

theorem findVal_mem {l : List (Blk F)} {b n : Str} {v : Val F} (h : findVal l b n = some v) : v ∈ allVals l ∧ v.name = n := by
  rw [findVal] at h
  cases hb : l.find? (fun x => x.name = b) with
  | none => rw [hb] at h; cases h
  | some k =>
    rw [hb] at h
    exact ⟨List.mem_flatMap.2 ⟨k, List.mem_of_find?_eq_some hb, List.mem_of_find?_eq_some h⟩, by simpa using List.find?_some h⟩

theorem split_find {l : List (Blk F)} {b : Str} {k : Blk F} (h : l.find? (fun x => x.name = b) = some k) : ∃ l1 l2, l = l1 ++ k :: l2 ∧ k.name = b ∧
    (∀ vs, setVals b vs l = l1 ++ { k with vals := vs } :: l2) ∧ ∀ vars, setHead b vars (shape l) = shape l1 ++ (b, vars) :: shape l2 := by
  induction l with
  | nil => cases h
  | cons a l ih =>
    rw [List.find?_cons] at h
    by_cases ha : a.name = b
    · simp only [ha, decide_true, Option.some.injEq] at h
      subst h
      refine ⟨[], l, rfl, ha, fun vs => ?_, fun vars => ?_⟩
      · rw [setVals, if_pos ha]; rfl
      · show setHead b vars ((a.name, _) :: shape l) = _
        rw [setHead, if_pos ha, ha]; rfl
    · simp only [ha, decide_false] at h
      obtain ⟨l1, l2, e, hk, h1, h2⟩ := ih h
      refine ⟨a :: l1, l2, by rw [e]; rfl, hk, fun vs => ?_, fun vars => ?_⟩
      · rw [setVals, if_neg ha, h1]; rfl
      · show setHead b vars ((a.name, _) :: shape l) = _
        rw [setHead, if_neg ha, h2]; rfl

theorem owned_split (l1 l2 : List (Blk F)) (k : Blk F) : owned (l1 ++ k :: l2) = owned l1 ++ (ownedBlk k ++ owned l2) := by simp [owned]

theorem allVals_split (l1 l2 : List (Blk F)) (k : Blk F) : allVals (l1 ++ k :: l2) = allVals l1 ++ (k.vals ++ allVals l2) := by simp [allVals]

theorem addBlock_spec {st : St F} {cfg : Cfg F} {ext : List Nat} (hm : Is st.mem (owned st.nodes ++ ext)) (hs : Sim st cfg) (b : Str) :
    Sim (addBlock st b) (Cfg.addBlock cfg b) ∧ Is (addBlock st b).mem (owned (addBlock st b).nodes ++ ext) ∧ Keeps st.mem (addBlock st b).mem ∧
      allVals (addBlock st b).nodes = allVals st.nodes ∧ (∀ b' n, findVal (addBlock st b).nodes b' n = findVal st.nodes b' n) ∧ (addBlock st b).nodes.find? (fun x => x.name = b) ≠ none := by
  unfold addBlock Cfg.addBlock
  rw [hs.shape, lookup_shape]
  cases hf : st.nodes.find? (fun x => x.name = b) with
  | some k => exact ⟨hs, hm, .refl _, rfl, fun _ _ => rfl, by rw [hf]; simp⟩
  | none =>
    simp only [Option.map_none]
    refine ⟨⟨?_, hs.cells, hs.ids, hs.bound, hs.next⟩, ?_, (hm.keeps_alloc []).trans ((hm.alloc []).keeps_alloc b), rfl, ?_, by simp⟩
    · simp only [shape, List.map_cons, List.map_nil]
    · refine ((hm.alloc []).alloc b).congr ?_
      simp only [owned, List.flatMap_cons, ownedBlk, List.flatMap_nil, List.nil_append, List.cons_append]
      exact .refl _
    · intro b' n
      simp only [findVal, List.find?_cons]
      by_cases hb : b = b'
      · subst hb; simp [hf]
      · simp [hb]

theorem addVariable_spec {st : St F} {cfg : Cfg F} {ext : List Nat} (hm : Is st.mem (owned st.nodes ++ ext)) (hs : Sim st cfg) {b : Str} (hb : st.nodes.find? (fun x => x.name = b) ≠ none) (n : Str) :
    ∃ st' cfg' v, addVariable st b n = .ok (st', v.id) ∧ Cfg.addVariable cfg b n = .ok (cfg', v.id) ∧ Sim st' cfg' ∧ Is st'.mem (owned st'.nodes ++ ext) ∧ Keeps st.mem st'.mem ∧
      v ∈ allVals st'.nodes ∧ (∀ w ∈ allVals st'.nodes, w ∈ allVals st.nodes ∨ w = v) ∧
      ((findVal st.nodes b n = some v) ∨ (findVal st.nodes b n = none ∧ strOf v = [] ∧ ∀ s, v.cell ≠ .str s)) := by
  cases hf : st.nodes.find? (fun x => x.name = b) with
  | none => exact absurd hf hb
  | some k =>
    obtain ⟨l1, l2, el, hk, h1, h2⟩ := split_find hf
    have hfv : findVal st.nodes b n = k.vals.find? (fun v => v.name = n) := by rw [findVal, hf]; rfl
    cases hv : k.vals.find? (fun v => v.name = n) with
    | some v =>
      refine ⟨st, cfg, v, ?_, ?_, hs, hm, .refl _, (findVal_mem (hfv.trans hv)).1, fun w hw => .inl hw, .inl (hfv.trans hv)⟩
      · simp only [addVariable, hf, hv]
      · simp only [Cfg.addVariable, hs.shape, lookup_shape, hf, Option.map_some, lookup_vals, hv]
    | none =>
      refine ⟨⟨((st.mem.alloc []).2.alloc n).2, setVals b (⟨st.mem.next, st.mem.next + 1, n, st.ids, .bool 0, 0⟩ :: k.vals) st.nodes, st.ids + 1⟩,
        ⟨setHead b ((n, cfg.next) :: k.vals.map fun v => (v.name, v.id)) cfg.blocks, fun y => if y = cfg.next then .bool 0 else cfg.cells y, cfg.next + 1⟩,
        ⟨st.mem.next, st.mem.next + 1, n, st.ids, .bool 0, 0⟩, ?_, ?_, ?_, ?_, (hm.keeps_alloc []).trans ((hm.alloc []).keeps_alloc n), ?_, ?_, .inr ⟨hfv.trans hv, rfl, fun s h => by cases h⟩⟩
      · simp only [addVariable, hf, hv]; rfl
      · simp only [Cfg.addVariable, hs.shape, lookup_shape, hf, Option.map_some, lookup_vals, hv, Option.map_none, hs.next]
      · have hall : ∀ w ∈ allVals (setVals b (⟨st.mem.next, st.mem.next + 1, n, st.ids, .bool 0, 0⟩ :: k.vals) st.nodes), w ∈ allVals st.nodes ∨ w = ⟨st.mem.next, st.mem.next + 1, n, st.ids, .bool 0, 0⟩ := by
          intro w hw
          rw [h1, allVals_split] at hw
          rw [el, allVals_split]
          simp only [List.mem_append, List.mem_cons] at hw ⊢
          rcases hw with h | (h | h) | h
          · exact .inl (.inl h)
          · exact .inr h
          · exact .inl (.inr (.inl h))
          · exact .inl (.inr (.inr h))
        refine ⟨?_, ?_, ?_, ?_, by simp only [hs.next]⟩
        · simp only [hs.shape, h2, h1, hs.next]
          simp [shape, hk]
        · intro w hw
          rcases hall w hw with h | rfl
          · have := hs.bound w h
            simp only [hs.next]
            rw [if_neg (by omega)]; exact hs.cells w h
          · simp only [hs.next]; rw [if_pos trivial]
        · have hn := hs.ids
          have hp : ((allVals (setVals b (⟨st.mem.next, st.mem.next + 1, n, st.ids, .bool 0, 0⟩ :: k.vals) st.nodes)).map (·.id)).Perm (st.ids :: (allVals st.nodes).map (·.id)) := by
            rw [h1, el, allVals_split, allVals_split]
            simp only [List.map_append, List.map_cons, List.cons_append]
            exact List.perm_middle
          refine hp.nodup_iff.2 (List.nodup_cons.2 ⟨fun hx => ?_, hn⟩)
          obtain ⟨w, hw, e⟩ := List.mem_map.1 hx
          have := hs.bound w hw
          omega
        · intro w hw
          rcases hall w hw with h | rfl
          · exact Nat.lt_succ_of_lt (hs.bound w h)
          · exact Nat.lt_succ_self _
      · refine ((hm.alloc []).alloc n).congr ?_
        rw [h1, owned_split]
        have e2 : owned st.nodes = owned l1 ++ (ownedBlk k ++ owned l2) := by rw [el, owned_split]
        rw [e2]
        simp only [ownedBlk, List.flatMap_cons, ownedVal, strOf, List.nil_append, List.cons_append, List.append_assoc, Mem.alloc]
        refine List.perm_iff_count.2 fun a => ?_
        simp only [List.count_append, List.count_cons]
        omega
      · rw [h1, allVals_split]; simp
      · intro w hw
        rw [h1, allVals_split] at hw
        rw [el, allVals_split]
        simp only [List.mem_append, List.mem_cons] at hw ⊢
        rcases hw with h | (h | h) | h
        · exact .inl (.inl h)
        · exact .inr h
        · exact .inl (.inr (.inl h))
        · exact .inl (.inr (.inr h))

theorem setVal_other {x : Nat} (c : Cell F) (p : Nat) {l : List (Blk F)} (h : ∀ v ∈ allVals l, v.id ≠ x) : setVal x c p l = l := by
  rw [setVal]
  refine (List.map_congr_left (g := id) fun b hb => ?_).trans (List.map_id _)
  have : b.vals.map (fun v => if v.id = x then { v with cell := c, sp := p } else v) = b.vals := by
    refine (List.map_congr_left (g := id) fun v hv => ?_).trans (List.map_id _)
    rw [if_neg (h v (List.mem_flatMap.2 ⟨b, hb, hv⟩))]; rfl
  simp only [this, id]

theorem setVal_spec {l : List (Blk F)} (hn : ((allVals l).map (·.id)).Nodup) {v : Val F} (hv : v ∈ allVals l) (c : Cell F) (p : Nat) :
    shape (setVal v.id c p l) = shape l ∧ (∃ a b, allVals l = a ++ v :: b ∧ allVals (setVal v.id c p l) = a ++ { v with cell := c, sp := p } :: b) ∧
    ∃ r, (owned l).Perm (strOf v ++ r) ∧ (owned (setVal v.id c p l)).Perm (strOf { v with cell := c, sp := p } ++ r) := by
  obtain ⟨k, hk, hvk⟩ := List.mem_flatMap.1 hv
  obtain ⟨l1, l2, rfl⟩ := List.append_of_mem hk
  obtain ⟨v1, v2, e⟩ := List.append_of_mem hvk
  rw [allVals_split, e] at hn
  simp only [List.map_append, List.map_cons, List.append_assoc, List.cons_append] at hn
  have hne : (∀ w ∈ allVals l1, w.id ≠ v.id) ∧ (∀ w ∈ v1, w.id ≠ v.id) ∧ (∀ w ∈ v2, w.id ≠ v.id) ∧ ∀ w ∈ allVals l2, w.id ≠ v.id := by
    have hp : (v.id :: ((allVals l1).map (·.id) ++ v1.map (·.id) ++ v2.map (·.id) ++ (allVals l2).map (·.id))).Nodup := by
      refine (List.Perm.nodup_iff ?_).1 hn
      refine List.perm_iff_count.2 fun a => ?_
      simp only [List.count_append, List.count_cons]
      omega
    have hx := (List.nodup_cons.1 hp).1
    simp only [List.mem_append, List.mem_map, not_or, not_exists, not_and] at hx
    obtain ⟨⟨⟨a1, a2⟩, a3⟩, a4⟩ := hx
    exact ⟨a1, a2, a3, a4⟩
  have es : setVal v.id c p (l1 ++ k :: l2) = l1 ++ { k with vals := v1 ++ { v with cell := c, sp := p } :: v2 } :: l2 := by
    have hsp : setVal v.id c p (l1 ++ k :: l2) = setVal v.id c p l1 ++ { k with vals := k.vals.map fun w => if w.id = v.id then { w with cell := c, sp := p } else w } :: setVal v.id c p l2 := by
      simp [setVal]
    have hmap : ∀ vs : List (Val F), (∀ w ∈ vs, w.id ≠ v.id) → vs.map (fun w => if w.id = v.id then { w with cell := c, sp := p } else w) = vs := by
      intro vs hvs
      refine (List.map_congr_left (g := id) fun w hw => ?_).trans (List.map_id _)
      rw [if_neg (hvs w hw)]; rfl
    rw [hsp, setVal_other c p hne.1, setVal_other c p hne.2.2.2, e]
    simp only [List.map_append, List.map_cons, hmap v1 hne.2.1, hmap v2 hne.2.2.1, if_true]
  refine ⟨?_, ⟨allVals l1 ++ v1, v2 ++ allVals l2, ?_, ?_⟩, ?_⟩
  · rw [es]
    simp [shape, e]
  · rw [allVals_split, e]; simp
  · rw [es, allVals_split]; simp
  · refine ⟨owned l1 ++ (v1.flatMap ownedVal ++ ([v.nm, v.addr] ++ (v2.flatMap ownedVal ++ ([k.nm, k.addr] ++ owned l2)))), ?_, ?_⟩
    · rw [owned_split, ownedBlk, e]
      refine List.perm_iff_count.2 fun a => ?_
      simp only [List.flatMap_append, List.flatMap_cons, ownedVal, List.count_append]
      omega
    · rw [es, owned_split, ownedBlk]
      refine List.perm_iff_count.2 fun a => ?_
      simp only [List.flatMap_append, List.flatMap_cons, ownedVal, List.count_append]
      omega

/-- The string that a write to the variable makes unreachable. -/
def lostBy (l : List (Blk F)) (b n : Str) : List Nat := match findVal l b n with
  | some v => strOf v
  | none => []

theorem getTypeM_spec (fl : Floats F) {m : Mem} {l : List Nat} (hm : Is m l) (s : Str) : ∃ m' p, getTypeM fl m s = (m', getType fl s, p) ∧ Keeps m m' ∧
    ((∃ t, getType fl s = .str t ∧ Is m' (p :: l) ∧ m'.text p = t ∧ p ∉ m.live) ∨ ((∀ t, getType fl s ≠ .str t) ∧ Is m' l)) := by
  unfold getTypeM
  cases hc : getType fl s with
  | str t => exact ⟨_, _, rfl, hm.keeps_alloc t, .inl ⟨t, rfl, hm.alloc t, by simp [Mem.alloc], fun h => Nat.lt_irrefl _ (hm.bound _ h)⟩⟩
  | _ => exact ⟨m, 0, rfl, .refl _, .inr ⟨fun t h => by simp at h, hm⟩⟩

theorem refer_spec {st : St F} {cfg : Cfg F} (hs : Sim st cfg) {m0 m : Mem} {l : List Nat} {t : Str} {p : Nat} (hk : Keeps m0 m) (hb : ∀ a ∈ m0.live, a < m0.next) (hm : Is m (p :: l)) (ht : m.text p = t) (hp : p ∉ m0.live) :
    ∃ m' c', refer m st.nodes (.str t) p = .ok (m', c') ∧ c' = deref cfg (.str t) ∧ Keeps m0 m' ∧
      ((c' = .str t ∧ Is m' (p :: l) ∧ m'.text p = t) ∨ ((∀ s, c' ≠ .str s) ∧ Is m' l)) := by
  cases hd : splitDot t with
  | none => exact ⟨m, .str t, by simp only [refer, hd], by simp only [deref, hd], hk, .inl ⟨rfl, hm, ht⟩⟩
  | some r =>
    obtain ⟨b, n⟩ := r
    have ha := hm.alloc b
    have hka := hk.trans (hm.keeps_alloc b)
    have hn0 : m.next ∉ m0.live := fun h => by have := hb _ h; have := hk.next; omega
    cases hv : findVal st.nodes b n with
    | none =>
      obtain ⟨m1, e1, h1, -, k1⟩ := ha.free
      have hpl : p ∈ m.live := hm.perm.mem_iff.2 (List.mem_cons_self ..)
      have hk1 := k1 m (hm.keeps_alloc b) (fun h => Nat.lt_irrefl _ (hm.bound _ h))
      refine ⟨m1, .str t, ?_, by simp only [deref, hd, hs.find, hv, Option.map_none], k1 m0 hka hn0, .inl ⟨rfl, h1, (hk1.keeps p hpl).2.trans ht⟩⟩
      have e1' : (m.alloc b).2.free (m.alloc b).1 = .ok m1 := e1
      simp only [refer, hd, hv, e1', Outcome.ok_bind, Outcome.pure_eq]
    | some w =>
      have hne : (m.next :: p :: l).Perm (p :: m.next :: l) := List.Perm.swap ..
      obtain ⟨m1, e1, h1, -, k1⟩ := (ha.congr hne).free
      obtain ⟨m2, e2, h2, -, k2⟩ := h1.free
      refine ⟨m2, .ref w.id, ?_, by simp only [deref, hd, hs.find, hv, Option.map_some], k2 m0 (k1 m0 hka hp) hn0, .inr ⟨fun s h => (by cases h), h2⟩⟩
      have e2' : m1.free (m.alloc b).1 = .ok m2 := e2
      simp only [refer, hd, hv, e1, e2', Outcome.ok_bind, Outcome.pure_eq]

theorem insertM_spec (fl : Floats F) {st : St F} {cfg : Cfg F} {ext : List Nat} (hm : Is st.mem (owned st.nodes ++ ext)) (hs : Sim st cfg) (ht : Texts st) (b n s : Str) :
    ∃ st' cfg', insertM fl st b n s = .ok st' ∧ Cfg.insert fl cfg b n s = .ok cfg' ∧ Sim st' cfg' ∧ Texts st' ∧ Keeps st.mem st'.mem ∧
      Is st'.mem (owned st'.nodes ++ (lostBy st.nodes b n ++ ext)) := by
  obtain ⟨hs1, hm1, hk1, hall1, hfv1, hf1⟩ := addBlock_spec hm hs b
  obtain ⟨st2, cfg2, v, e2, e2', hs2, hm2, hk2, hv2, hall2, hor⟩ := addVariable_spec hm1 hs1 hf1 n
  obtain ⟨m3, p, e3, hk3, hcase⟩ := getTypeM_spec fl hm2 s
  have hlost : lostBy st.nodes b n = strOf v := by
    rw [lostBy, ← hfv1]
    rcases hor with h | ⟨h, h', -⟩
    · rw [h]
    · rw [h, h']
  have hk12 : Keeps st.mem st2.mem := hk1.trans hk2
  -- the reference
  have href : ∃ m4 c4, refer m3 st2.nodes (getType fl s) p = .ok (m4, c4) ∧ c4 = deref cfg2 (getType fl s) ∧ Keeps st2.mem m4 ∧
      ((∃ t, c4 = .str t ∧ Is m4 (p :: (owned st2.nodes ++ ext)) ∧ m4.text p = t) ∨ ((∀ t, c4 ≠ .str t) ∧ Is m4 (owned st2.nodes ++ ext))) := by
    rcases hcase with ⟨t, et, hi, htx, hp⟩ | ⟨hno, hi⟩
    · rw [et]
      obtain ⟨m4, c4, e4, h4, k4, h5⟩ := refer_spec hs2 hk3 hm2.bound hi htx hp
      refine ⟨m4, c4, e4, h4, k4, ?_⟩
      rcases h5 with ⟨h, h', h''⟩ | h
      · exact .inl ⟨t, h, h', h''⟩
      · exact .inr h
    · refine ⟨m3, getType fl s, ?_, ?_, hk3, .inr ⟨hno, hi⟩⟩
      · cases hc : getType fl s with
        | str t => exact absurd hc (hno t)
        | _ => rfl
      · cases hc : getType fl s with
        | str t => exact absurd hc (hno t)
        | _ => rfl
  obtain ⟨m4, c4, e4, hc4, hk4, h4⟩ := href
  obtain ⟨hsh, ⟨A, B, eA, eB⟩, r, hr1, hr2⟩ := setVal_spec hs2.ids hv2 c4 p
  refine ⟨{ st2 with mem := m4, nodes := setVal v.id c4 p st2.nodes }, { cfg2 with cells := fun y => if y = v.id then deref cfg2 (getType fl s) else cfg2.cells y }, ?_, ?_, ?_, ?_, hk12.trans hk4, ?_⟩
  · rw [insertM, e2]
    simp only [Outcome.ok_bind, e3, e4, Outcome.pure_eq]
  · rw [Cfg.insert, e2']; rfl
  · have hidsp : ((allVals (setVal v.id c4 p st2.nodes)).map (·.id)) = (allVals st2.nodes).map (·.id) := by rw [eA, eB]; simp
    refine ⟨by simp only [hs2.shape, hsh], ?_, ?_, ?_, hs2.next⟩
    · intro w hw
      simp only [eB, List.mem_append, List.mem_cons] at hw
      have hn := hs2.ids
      rw [eA] at hn
      simp only [List.map_append, List.map_cons] at hn
      have hdis : ∀ x, x ∈ A ∨ x ∈ B → x.id ≠ v.id := by
        intro x hx hid
        have hp : (v.id :: (A.map (·.id) ++ B.map (·.id))).Nodup := (List.Perm.nodup_iff List.perm_middle).1 hn
        refine (List.nodup_cons.1 hp).1 ?_
        rw [← hid, List.mem_append]
        rcases hx with h | h
        · exact .inl (List.mem_map_of_mem h)
        · exact .inr (List.mem_map_of_mem h)
      rcases hw with h | rfl | h
      · simp only [if_neg (hdis w (.inl h))]
        exact hs2.cells w (by rw [eA]; simp [h])
      · simp only [if_true]; exact hc4.symm
      · simp only [if_neg (hdis w (.inr h))]
        exact hs2.cells w (by rw [eA]; simp [h])
    · simp only [hidsp]; exact hs2.ids
    · intro w hw
      have : w.id ∈ (allVals st2.nodes).map (·.id) := by rw [← hidsp]; exact List.mem_map_of_mem hw
      obtain ⟨u, hu, e⟩ := List.mem_map.1 this
      rw [← e]; exact hs2.bound u hu
  · have hold : ∀ w ∈ allVals st2.nodes, ∀ t, w.cell = .str t → m4.text w.sp = t := by
      intro w hw t hc
      have hmem : w.sp ∈ st2.mem.live := by
        refine hm2.perm.mem_iff.2 (List.mem_append_left _ ?_)
        obtain ⟨k, hk, hwk⟩ := List.mem_flatMap.1 hw
        refine List.mem_flatMap.2 ⟨k, hk, ?_⟩
        rw [ownedBlk, List.mem_append]
        refine .inl (List.mem_flatMap.2 ⟨w, hwk, ?_⟩)
        simp [ownedVal, strOf, hc]
      have htx : st2.mem.text w.sp = t := by
        rcases hall2 w hw with h | rfl
        · rw [hall1] at h
          have hmem0 : w.sp ∈ st.mem.live := by
            refine hm.perm.mem_iff.2 (List.mem_append_left _ ?_)
            obtain ⟨k, hk, hwk⟩ := List.mem_flatMap.1 h
            refine List.mem_flatMap.2 ⟨k, hk, ?_⟩
            rw [ownedBlk, List.mem_append]
            refine .inl (List.mem_flatMap.2 ⟨w, hwk, ?_⟩)
            simp [ownedVal, strOf, hc]
          rw [(hk12.keeps _ hmem0).2]; exact ht w h t hc
        · rcases hor with h | ⟨_, _, h⟩
          · rw [hfv1] at h
            have h := (findVal_mem h).1
            have hmem0 : w.sp ∈ st.mem.live := by
              refine hm.perm.mem_iff.2 (List.mem_append_left _ ?_)
              obtain ⟨k, hk, hwk⟩ := List.mem_flatMap.1 h
              refine List.mem_flatMap.2 ⟨k, hk, ?_⟩
              rw [ownedBlk, List.mem_append]
              refine .inl (List.mem_flatMap.2 ⟨w, hwk, ?_⟩)
              simp [ownedVal, strOf, hc]
            rw [(hk12.keeps _ hmem0).2]; exact ht w h t hc
          · exact absurd hc (h t)
      exact (hk4.keeps _ hmem).2.trans htx
    intro w hw t hc
    simp only [eB, List.mem_append, List.mem_cons] at hw
    rcases hw with h | rfl | h
    · exact hold w (by rw [eA]; simp [h]) t hc
    · rcases h4 with ⟨t', e', _, h'⟩ | ⟨h', _⟩
      · simp only at hc
        rw [e'] at hc; cases hc
        exact h'
      · exact absurd hc (h' t)
    · exact hold w (by rw [eA]; simp [h]) t hc
  · rw [hlost]
    rcases h4 with ⟨t, et, hi, _⟩ | ⟨hno, hi⟩
    · refine hi.congr ?_
      have e1 : strOf ({ v with cell := c4, sp := p } : Val F) = [p] := by simp [strOf, et]
      rw [e1] at hr2
      refine List.perm_iff_count.2 fun a => ?_
      have q1 := List.perm_iff_count.1 hr1 a
      have q2 := List.perm_iff_count.1 hr2 a
      simp only [List.count_append, List.count_cons, List.count_nil] at q1 q2 ⊢
      omega
    · refine hi.congr ?_
      have e1 : strOf ({ v with cell := c4, sp := p } : Val F) = [] := by
        simp only [strOf]
      rw [e1] at hr2
      refine List.perm_iff_count.2 fun a => ?_
      have q1 := List.perm_iff_count.1 hr1 a
      have q2 := List.perm_iff_count.1 hr2 a
      simp only [List.count_append, List.count_nil] at q1 q2 ⊢
      omega

theorem overwrites_exists (fl : Floats F) (h : List (Str × Str × Str)) : ∃ n, Overwrites fl h n := by
  generalize hn : h.length = k
  induction k generalizing h with
  | zero => rw [List.length_eq_zero_iff] at hn; subst hn; exact ⟨0, .nil⟩
  | succ k ih =>
    obtain ⟨l, ⟨b, n, s⟩, rfl⟩ : ∃ l w, h = l ++ [w] := ⟨h.dropLast, h.getLast (by intro e; rw [e] at hn; cases hn), (List.dropLast_concat_getLast _).symm⟩
    obtain ⟨j, hj⟩ := ih l (by simpa using hn)
    obtain ⟨M, hM⟩ := history_exists fl l
    by_cases hx : ∃ t, M b n = some (.val (.str t))
    · obtain ⟨t, ht⟩ := hx; exact ⟨j + 1, .string hj hM ht⟩
    · exact ⟨j, .other hj hM fun t h => hx ⟨t, h⟩⟩

/-- A state reached by the writes `h`; `e` strings and copies were lost otherwise. -/
structure CI (fl : Floats F) (st : St F) (h : List (Str × Str × Str)) (e : Nat) (lost ext : List Nat) : Prop where
  sim : ∃ cfg, run fl h new = .ok cfg ∧ Sim st cfg
  texts : Texts st
  is : Is st.mem (owned st.nodes ++ (lost ++ ext))
  acc : ∀ n, Overwrites fl h n → lost.length = n + e

theorem Texts.mono {st : St F} {l : List Nat} (ht : Texts st) (hm : Is st.mem (owned st.nodes ++ l)) {m : Mem} (hk : Keeps st.mem m) : Texts { st with mem := m } := by
  intro v hv s hc
  have hmem : v.sp ∈ st.mem.live := by
    refine hm.perm.mem_iff.2 (List.mem_append_left _ ?_)
    obtain ⟨k, hk, hwk⟩ := List.mem_flatMap.1 hv
    refine List.mem_flatMap.2 ⟨k, hk, ?_⟩
    rw [ownedBlk, List.mem_append]
    refine .inl (List.mem_flatMap.2 ⟨v, hwk, ?_⟩)
    simp [ownedVal, strOf, hc]
  exact (hk.keeps _ hmem).2.trans (ht v hv s hc)

theorem Sim.mem {st : St F} {cfg : Cfg F} (h : Sim st cfg) (m : Mem) : Sim { st with mem := m } cfg := ⟨h.shape, h.cells, h.ids, h.bound, h.next⟩

theorem CI.congr {fl : Floats F} {st : St F} {h : List (Str × Str × Str)} {e : Nat} {lost ext ext' : List Nat} (H : CI fl st h e lost ext) (hp : ext.Perm ext') : CI fl st h e lost ext' :=
  ⟨H.sim, H.texts, H.is.congr ((hp.append_left _).append_left _), H.acc⟩

theorem CI.alloc {fl : Floats F} {st : St F} {h : List (Str × Str × Str)} {e : Nat} {lost ext : List Nat} (H : CI fl st h e lost ext) (s : Str) :
    CI fl { st with mem := (st.mem.alloc s).2 } h e lost (st.mem.next :: ext) := by
  obtain ⟨cfg, hc, hs⟩ := H.sim
  refine ⟨⟨cfg, hc, hs.mem _⟩, H.texts.mono H.is (H.is.keeps_alloc s), (H.is.alloc s).congr ?_, H.acc⟩
  refine List.perm_iff_count.2 fun a => ?_
  simp only [List.count_append, List.count_cons]
  omega

theorem CI.free {fl : Floats F} {st : St F} {h : List (Str × Str × Str)} {e : Nat} {lost ext : List Nat} {a : Nat} (H : CI fl st h e lost (a :: ext)) :
    ∃ m', st.mem.free a = .ok m' ∧ CI fl { st with mem := m' } h e lost ext ∧ ∀ m0, Keeps m0 st.mem → a ∉ m0.live → Keeps m0 m' := by
  obtain ⟨cfg, hc, hs⟩ := H.sim
  have hp : (owned st.nodes ++ (lost ++ a :: ext)).Perm (a :: (owned st.nodes ++ (lost ++ ext))) := by
    refine List.perm_iff_count.2 fun a => ?_
    simp only [List.count_append, List.count_cons]
    omega
  obtain ⟨m', e1, h1, -, k1⟩ := (H.is.congr hp).free
  refine ⟨m', e1, ⟨⟨cfg, hc, hs.mem _⟩, ?_, h1, H.acc⟩, k1⟩
  intro v hv s hcell
  simp only [free_text e1]
  exact H.texts v hv s hcell

/-- One more write. -/
theorem CI.insert {fl : Floats F} {st : St F} {h : List (Str × Str × Str)} {e : Nat} {lost ext : List Nat} (H : CI fl st h e lost ext) (b n s : Str) :
    ∃ st' lost', insertM fl st b n s = .ok st' ∧ CI fl st' (h ++ [(b, n, s)]) e lost' ext ∧ Keeps st.mem st'.mem := by
  obtain ⟨cfg, hc, hs⟩ := H.sim
  obtain ⟨st', cfg', e1, e2, hs', ht', hk, hi⟩ := insertM_spec fl H.is hs H.texts b n s
  refine ⟨st', lostBy st.nodes b n ++ lost, e1, ⟨⟨cfg', ?_, hs'⟩, ht', hi.congr (by rw [List.append_assoc]), ?_⟩, hk⟩
  · rw [run_append, hc]
    simp only [Outcome.ok_bind, run, e2]
  · intro k hk
    -- what the map says about the variable
    have hmap : ∀ M, History fl h M → ((∃ t, M b n = some (.val (.str t))) ↔ (lostBy st.nodes b n).length = 1) ∧ ((∀ t, M b n ≠ some (.val (.str t))) ↔ (lostBy st.nodes b n).length = 0) := by
      intro M hM
      obtain ⟨cfg0, hc0, -, hr⟩ := history_rep fl hM
      rw [hc] at hc0; cases hc0
      have hf := hs.find b n
      cases hv : findVal st.nodes b n with
      | none =>
        rw [hv] at hf
        have := rep_none hr hf
        simp [lostBy, hv, this]
      | some v =>
        rw [hv] at hf
        obtain ⟨en, he, hcell⟩ := rep_some hr hf
        rw [hs.cells v (findVal_mem hv).1] at hcell
        have hlost : lostBy st.nodes b n = strOf v := by simp [lostBy, hv]
        rw [hlost]
        cases en with
        | val d =>
          obtain ⟨h1, -⟩ := hcell
          rw [he]
          subst h1
          cases hcv : v.cell <;> simp [strOf, hcv]
        | link p q =>
          obtain ⟨y, -, h1⟩ := hcell
          rw [he]
          simp [strOf, h1]
    generalize hw : h ++ [(b, n, s)] = w at hk
    cases hk with
    | nil => simp at hw
    | @string h' M k b' n' s' t ho hM hMt =>
      obtain ⟨rfl, he⟩ := List.append_inj' hw rfl
      cases he
      rw [List.length_append, H.acc _ ho, ((hmap M hM).1.1 ⟨t, hMt⟩)]; omega
    | @other h' M k b' n' s' ho hM hMt =>
      obtain ⟨rfl, he⟩ := List.append_inj' hw rfl
      cases he
      rw [List.length_append, H.acc _ ho, ((hmap M hM).2.1 hMt)]; omega

theorem not_live_of_ge {fl : Floats F} {st : St F} {h : List (Str × Str × Str)} {e : Nat} {lost ext : List Nat} (H : CI fl st h e lost ext) {a : Nat} (ha : st.mem.next ≤ a) : a ∉ st.mem.live :=
  fun hm => by have := H.is.bound a hm; omega

/-- zt_cfg_set, accepted. -/
theorem CI.set {fl : Floats F} {st : St F} {h : List (Str × Str × Str)} {e : Nat} {lost ext : List Nat} (H : CI fl st h e lost ext) (b n : Str) {a : Arg F} {v : Str} (ha : argText fl a = .ok (some v)) :
    ∃ st' lost', setM fl st b n a = .ok (st', 1) ∧ CI fl st' (h ++ [(b, n, v)]) e lost' ext ∧ Keeps st.mem st'.mem := by
  have H1 := H.alloc b
  have H2 := H1.alloc n
  have H3 := H2.alloc v
  have k3 : Keeps st.mem ((((st.mem.alloc b).2).alloc n).2.alloc v).2 := (H.is.keeps_alloc b).trans ((H1.is.keeps_alloc n).trans (H2.is.keeps_alloc v))
  obtain ⟨st4, lost', e4, H4, k4⟩ := H3.insert b n v
  have H4' := H4.congr (ext' := st.mem.next :: (st.mem.next + 1) :: (st.mem.next + 1 + 1) :: ext) (by
    refine List.perm_iff_count.2 fun a => ?_
    simp only [Mem.alloc, List.count_cons]
    omega)
  obtain ⟨m5, e5, H5, k5⟩ := H4'.free
  obtain ⟨m6, e6, H6, k6⟩ := H5.free
  obtain ⟨m7, e7, H7, k7⟩ := H6.free
  refine ⟨{ st4 with mem := m7 }, lost', ?_, H7, k7 _ (k6 _ (k5 _ (k3.trans k4) (not_live_of_ge H (by omega))) (not_live_of_ge H (by omega))) (not_live_of_ge H (by omega))⟩
  rw [setM]
  simp only [ha, Outcome.ok_bind]
  show (insertM fl { st with mem := ((((st.mem.alloc b).2).alloc n).2.alloc v).2 } b n v >>= _) = _
  rw [e4]
  show (st4.mem.free st.mem.next >>= _) = _
  rw [e5]
  show (m5.free (st.mem.next + 1) >>= _) = _
  rw [e6]
  show (m6.free (st.mem.next + 1 + 1) >>= _) = _
  rw [e7]; rfl

/-- zt_cfg_set, refused: three copies are lost. -/
theorem CI.refused {fl : Floats F} {st : St F} {h : List (Str × Str × Str)} {e : Nat} {lost ext : List Nat} (H : CI fl st h e lost ext) (b n : Str) {a : Arg F} (ha : argText fl a = .ok none) :
    ∃ st' lost', setM fl st b n a = .ok (st', -1) ∧ CI fl st' h (e + 3) lost' ext ∧ Keeps st.mem st'.mem := by
  have H1 := H.alloc b
  have H2 := H1.alloc n
  have H3 := H2.alloc []
  have k3 : Keeps st.mem ((((st.mem.alloc b).2).alloc n).2.alloc []).2 := (H.is.keeps_alloc b).trans ((H1.is.keeps_alloc n).trans (H2.is.keeps_alloc []))
  refine ⟨_, (st.mem.next + 1 + 1) :: (st.mem.next + 1) :: st.mem.next :: lost, ?_, ⟨H3.sim, H3.texts, H3.is.congr ?_, ?_⟩, k3⟩
  · rw [setM]
    simp only [ha, Outcome.ok_bind]; rfl
  · refine List.perm_iff_count.2 fun a => ?_
    simp only [Mem.alloc, List.count_cons, List.count_append]
    omega
  · intro k hk
    simp only [List.length_cons, H.acc k hk]; omega

/-! ## Reading a file -/

/-- The result of the loop, with enough fuel. -/
def ParsesM (fl : Floats F) (st : St F) (block : Option (Nat × Str)) (file : Str) (r : Outcome (St F × Bool)) : Prop := ∀ fuel, file.length < fuel → parseLoopM fl fuel st block file = r

variable {fl : Floats F} {st : St F} {block : Option (Nat × Str)} {r : Outcome (St F × Bool)}

theorem parsesM_newline {t : Str} (h : ParsesM fl st block t r) : ParsesM fl st block (0x0A :: t) r := by
  intro fuel hf
  obtain ⟨k, rfl, hk⟩ := fuel_succ hf
  rw [parseLoopM, if_pos rfl]
  exact h k (by simp at hk; omega)

theorem parsesM_blanks {ws t : Str} (hw : Blank ws) (ht : ∀ b, t.head? = some b → ¬ (b = 0x20 ∨ b = 0x09)) (h : ParsesM fl st block t r) : ParsesM fl st block (ws ++ t) r := by
  cases ws with
  | nil => exact h
  | cons c ws =>
    intro fuel hf
    obtain ⟨k, rfl, hk⟩ := fuel_succ hf
    have hc := hw c (by simp)
    have hn : c ≠ 0x0A ∧ c ≠ 0x5B ∧ ¬ (c = 0x3B ∨ c = 0x23) ∧ isBlank c = true := by rcases hc with rfl | rfl <;> decide
    rw [List.cons_append, parseLoopM, if_neg hn.1, if_neg hn.2.1, if_neg hn.2.2.1, if_pos hn.2.2.2, discardWhitespace_eq ws t (fun b hb => hw b (by simp [hb])) ht]
    exact h k (by simp at hk; omega)

theorem parsesM_comment {m : Byte} {text t : Str} (hm : IsMark m) (hn : 0x0A ∉ text) (h : ParsesM fl st block t r) : ParsesM fl st block (m :: (text ++ 0x0A :: t)) r := by
  intro fuel hf
  obtain ⟨k, rfl, hk⟩ := fuel_succ hf
  have hc : m ≠ 0x0A ∧ m ≠ 0x5B := by rcases hm with rfl | rfl <;> decide
  rw [parseLoopM, if_neg hc.1, if_neg hc.2, if_pos (by exact hm), discardLine_eq text t hn]
  exact h k (by simp at hk; omega)

theorem parsesM_section {m : Mem} {name junk t : Str} (hl : name.length ≤ 1023) (hn : 0x5D ∉ name) (h0 : 0x00 ∉ name) (hj : 0x0A ∉ junk) (hm : freeName block st.mem = .ok m)
    (h : ParsesM fl { st with mem := (m.alloc name).2 } (some (m.next, name)) t r) : ParsesM fl st block (0x5B :: (name ++ 0x5D :: (junk ++ 0x0A :: t))) r := by
  intro fuel hf
  obtain ⟨k, rfl, hk⟩ := fuel_succ hf
  rw [parseLoopM, if_neg (by decide), if_pos rfl, parseBlock_eq hl hn h0, hm]
  simp only [Outcome.ok_bind]
  rw [discardLine_eq junk t hj]
  exact h k (by simp at hk; omega)

theorem parsesM_line {b : Str} {a : Nat} {c : Byte} {t rest var value : Str} (hc : Plain c) (hp : parseLine (c :: t) = .ok (some (var, value), rest)) (hl : rest.length ≤ t.length) {st1 : St F} {m2 m3 : Mem}
    (h1 : insertM fl { st with mem := ((st.mem.alloc var).2.alloc value).2 } b var value = .ok st1) (h2 : st1.mem.free st.mem.next = .ok m2) (h3 : m2.free (st.mem.next + 1) = .ok m3)
    (h : ParsesM fl { st1 with mem := m3 } (some (a, b)) rest r) : ParsesM fl st (some (a, b)) (c :: t) r := by
  intro fuel hf
  obtain ⟨n, rfl, hn⟩ := fuel_succ hf
  rw [parseLoopM, if_neg hc.1, if_neg hc.2.1, if_neg hc.2.2.1, if_neg (by rw [hc.2.2.2]; decide), hp]
  simp only [Outcome.ok_bind]
  show (insertM fl { st with mem := ((st.mem.alloc var).2.alloc value).2 } b var value >>= _) = _
  rw [h1]
  show (st1.mem.free st.mem.next >>= _) = _
  rw [h2]
  show (m2.free (st.mem.next + 1) >>= _) = _
  rw [h3]
  exact h n (by simp at hn; omega)

theorem parsesM_error {c : Byte} {t rest : Str} (hc : Plain c) (hp : parseLine (c :: t) = .ok (none, rest)) : ParsesM fl st block (c :: t) (.ok (st, false)) := by
  intro fuel hf
  obtain ⟨n, rfl, hn⟩ := fuel_succ hf
  rw [parseLoopM, if_neg hc.1, if_neg hc.2.1, if_neg hc.2.2.1, if_neg (by rw [hc.2.2.2]; decide), hp]
  rfl

/-- The lines of a file, and whatever follows. -/
theorem parsesM_lines (ls : List Line) (hls : ∀ l ∈ ls, l.ok) : ∀ {st : St F} {h : List (Str × Str × Str)} {lost ext : List Nat} {a : Nat} (b : Str), CI fl st h 0 lost (a :: ext) →
    ∃ st' a' lost', CI fl st' (h ++ writes b ls) 0 lost' (a' :: ext) ∧
      ∀ rest r, ParsesM fl st' (some (a', lastBlock b ls)) rest r → ParsesM fl st (some (a, b)) (fileText ls ++ rest) r := by
  induction ls with
  | nil =>
    intro st h lost ext a b H
    exact ⟨st, a, lost, by simpa [writes] using H, fun rest r hr => hr⟩
  | cons l ls ih =>
    intro st h lost ext a b H
    have hl := hls l (by simp)
    have ih := fun {st : St F} {h : List (Str × Str × Str)} {lost ext : List Nat} {a : Nat} (b : Str) (H : CI fl st h 0 lost (a :: ext)) => ih (fun x hx => hls x (by simp [hx])) b H
    have hft : ∀ rest, fileText (l :: ls) ++ rest = l.text ++ 0x0A :: (fileText ls ++ rest) := by intro rest; simp [fileText]
    simp only [hft]
    obtain ⟨⟨h0, hnl⟩, hl⟩ := hl
    cases l with
    | blank ws =>
      obtain ⟨st', a', lost', H', hp⟩ := ih b H
      exact ⟨st', a', lost', H', fun rest r hr => parsesM_blanks hl (by simp) (parsesM_newline (hp rest r hr))⟩
    | comment ws mark text =>
      obtain ⟨st', a', lost', H', hp⟩ := ih b H
      refine ⟨st', a', lost', H', fun rest r hr => ?_⟩
      simp only [Line.text] at hnl ⊢
      rw [List.append_assoc, List.cons_append]
      refine parsesM_blanks hl.1 (fun c hc => ?_) (parsesM_comment hl.2 (fun e => hnl (by simp [e])) (hp rest r hr))
      simp only [List.head?_cons, Option.some.injEq] at hc
      subst hc
      rcases hl.2 with e | e <;> rw [e] <;> decide
    | «section» ws name junk =>
      obtain ⟨m1, e1, H1, -⟩ := H.free
      obtain ⟨st', a', lost', H', hp⟩ := ih name (H1.alloc name)
      refine ⟨st', a', lost', H', fun rest r hr => ?_⟩
      simp only [Line.text] at h0 hnl ⊢
      rw [show ws ++ 0x5B :: (name ++ 0x5D :: junk) ++ 0x0A :: (fileText ls ++ rest) = ws ++ 0x5B :: (name ++ 0x5D :: (junk ++ 0x0A :: (fileText ls ++ rest))) by simp]
      refine parsesM_blanks hl.1 (fun c hc => ?_) (parsesM_section hl.2.2 hl.2.1 (fun e => h0 (by simp [e])) (fun e => hnl (by simp [e])) (block := some (a, b)) e1 (hp rest r hr))
      simp only [List.head?_cons, Option.some.injEq] at hc
      subst hc; decide
    | assign ws name gap pad value tail =>
      obtain ⟨st1, lost1, e1, H1, -⟩ := ((H.alloc name).alloc value).insert b name value
      have H1' := H1.congr (ext' := st.mem.next :: (st.mem.next + 1) :: a :: ext) (by
        refine List.perm_iff_count.2 fun a => ?_
        simp only [Mem.alloc, List.count_cons]
        omega)
      obtain ⟨m2, e2, H2, -⟩ := H1'.free
      obtain ⟨m3, e3, H3, -⟩ := H2.free
      obtain ⟨st', a', lost', H', hpp⟩ := ih b H3
      refine ⟨st', a', lost', by simpa [writes] using H', fun rest r hr => ?_⟩
      simp only [Line.text] at h0 hnl ⊢
      rw [List.append_assoc]
      obtain ⟨hw, ha, hlen⟩ := hl
      have hp := parseLine_ok ha (fun e => h0 (List.mem_append_right _ e)) (fun e => hnl (List.mem_append_right _ e)) hlen (fileText ls ++ rest)
      have hcons : ∃ c t, name ++ gap ++ 0x3D :: (pad ++ value ++ tail) ++ 0x0A :: (fileText ls ++ rest) = c :: (t ++ 0x0A :: (fileText ls ++ rest)) ∧ IsNameByte c := by
        cases hn : name with
        | nil => exact absurd hn ha.name.1
        | cons c nm => exact ⟨c, nm ++ gap ++ 0x3D :: (pad ++ value ++ tail), by simp, ha.name.2 c (by rw [hn]; simp)⟩
      obtain ⟨c, t, e, hc⟩ := hcons
      rw [e] at hp ⊢
      refine parsesM_blanks hw (fun x hx => ?_) ?_
      · simp only [List.head?_cons, Option.some.injEq] at hx
        subst hx; exact name_not_blank hc
      · exact parsesM_line (plain_name hc) hp (by simp; omega) e1 e2 e3 (hpp rest r hr)

/-- The configuration before the first line. -/
theorem CI.init (fl : Floats F) {m : Mem} {out : List Nat} (hm : Is m out) : CI fl ⟨m, [], 0⟩ [] 0 [] out := by
  refine ⟨⟨new, rfl, ?_⟩, ?_, ?_, ?_⟩
  · exact ⟨rfl, fun v hv => (by cases hv), List.nodup_nil, fun v hv => (by cases hv), rfl⟩
  · intro v hv; cases hv
  · simpa [owned] using hm
  · intro n hn
    generalize hw : ([] : List (Str × Str × Str)) = w at hn
    cases hn with
    | nil => rfl
    | string => simp at hw
    | other => simp at hw

theorem iniM_spec (fl : Floats F) {m : Mem} {out : List Nat} (hm : Is m out) (name : Str) {ls : List Line} (hls : ∀ l ∈ ls, l.ok) :
    ∃ c lost, iniM fl m name (fileText ls) = .ok (c.st.mem, some c) ∧ CI fl c.st (writes globalName ls) 0 lost (c.file :: c.self :: out) := by
  have H0 := ((CI.init fl hm).alloc [] |>.alloc name).alloc globalName
  obtain ⟨st', a', lost', H', hp⟩ := parsesM_lines ls hls globalName H0
  obtain ⟨m2, e2, H2, -⟩ := H'.free
  refine ⟨⟨m.next, m.next + 1, { st' with mem := m2 }⟩, lost', ?_, by rw [List.nil_append] at H2; exact H2⟩
  have hnil : ParsesM fl st' (some (a', lastBlock globalName ls)) [] (.ok ({ st' with mem := m2 }, true)) := by
    intro fuel hf
    obtain ⟨k, rfl, _⟩ := fuel_succ hf
    rw [parseLoopM]
    show (st'.mem.free a' >>= _) = _
    rw [e2]; rfl
  have := hp [] _ hnil _ (by rw [List.append_nil]; exact Nat.lt_succ_self _)
  rw [List.append_nil] at this
  rw [iniM]
  show (parseLoopM fl (List.length (fileText ls)).succ ⟨(((m.alloc []).2.alloc name).2.alloc globalName).2, [], 0⟩ (some (((m.alloc []).2.alloc name).2.next, globalName)) (fileText ls) >>= _) = _
  rw [this]; rfl

theorem parseLine_error {c : Byte} {bad rest : Str} (hb : 0x3D ∉ c :: bad) : ∃ q, parseLine (c :: (bad ++ 0x0A :: rest)) = .ok (none, q) := by
  refine ⟨(fgets 1023 (c :: bad ++ 0x0A :: rest)).2, ?_⟩
  have h1 := fgets_no_eq 1023 (c :: bad) rest hb
  have h2 := fgets_length 1023 (c :: bad ++ 0x0A :: rest)
  rw [← List.cons_append]
  unfold parseLine
  generalize fgets 1023 (c :: bad ++ 0x0A :: rest) = q at h1 h2 ⊢
  obtain ⟨line, r⟩ := q
  simp only at h1 h2 ⊢
  by_cases hl : line = []
  · rw [if_pos hl]; rfl
  · rw [if_neg hl]
    obtain ⟨k, hk⟩ : ∃ k, 1024 - line.length = k + 1 := ⟨1024 - line.length - 1, by omega⟩
    obtain ⟨s, z, e, he, hs⟩ := cstr_total (m := line ++ List.replicate (1024 - line.length) 0) (o := 0) (by rw [hk]; simp [List.replicate_succ])
    rw [e]
    simp only [Outcome.ok_bind]
    have : s.idxOf? 0x3D = none := by
      rw [List.idxOf?_eq_none_iff]
      intro hm
      have : (0x3D : Byte) ∈ line ++ List.replicate (1024 - line.length) 0 := by rw [List.drop_zero] at he; rw [he]; simp [hm]
      rcases List.mem_append.1 this with h | h
      · exact h1 h
      · have := List.eq_of_mem_replicate h; revert this; decide
    rw [this]; rfl

theorem hist_CI {fl : Floats F} {out : List Nat} {c : Conf F} {ws : List (Str × Str × Str)} {k : Nat} (h : Hist fl out c ws k) : ∃ lost, CI fl c.st ws (3 * k) lost (c.file :: c.self :: out) := by
  induction h with
  | @load m m' name ls c hm hn hb hls e =>
    obtain ⟨c0, lost, e0, H⟩ := iniM_spec fl (m := m) (out := out) ⟨by rw [hm], by rw [hm]; exact hn, by rw [hm]; exact hb⟩ name hls
    rw [e] at e0
    cases e0
    exact ⟨lost, H⟩
  | @set c ws k b n a v st' _ ha e ih =>
    obtain ⟨lost, H⟩ := ih
    obtain ⟨st1, lost1, e1, H1, -⟩ := H.set b n ha
    rw [e] at e1
    cases e1
    exact ⟨lost1, H1⟩
  | @refused c ws k b n a st' _ ha e ih =>
    obtain ⟨lost, H⟩ := ih
    obtain ⟨st1, lost1, e1, H1, -⟩ := H.refused b n ha
    rw [e] at e1
    cases e1
    exact ⟨lost1, H1⟩

theorem CI.close {fl : Floats F} {c : Conf F} {h : List (Str × Str × Str)} {e : Nat} {lost out : List Nat} (H : CI fl c.st h e lost (c.file :: c.self :: out)) :
    ∃ m', close c = .ok m' ∧ m'.live.Perm (lost ++ out) := by
  obtain ⟨m1, e1, h1⟩ := H.is.freeAll
  obtain ⟨m2, e2, h2, -⟩ := (h1.congr (l' := c.file :: c.self :: (lost ++ out)) (by
    refine List.perm_iff_count.2 fun a => ?_
    simp only [List.count_append, List.count_cons]
    omega)).free
  obtain ⟨m3, e3, h3, -⟩ := h2.free
  refine ⟨m3, ?_, h3.perm⟩
  rw [Own.close, freeBlocks_eq, e1]
  show (m1.free c.file >>= _) = _
  rw [e2]
  exact e3

theorem find_id {l : List (Val F)} (hn : (l.map (·.id)).Nodup) {v : Val F} (hv : v ∈ l) : l.find? (fun w => w.id = v.id) = some v := by
  induction l with
  | nil => cases hv
  | cons a l ih =>
    rw [List.map_cons, List.nodup_cons] at hn
    rw [List.find?_cons]
    rcases List.mem_cons.1 hv with rfl | h
    · simp
    · have : a.id ≠ v.id := fun e => hn.1 (by rw [e]; exact List.mem_map_of_mem h)
      simp only [this, decide_false]
      exact ih hn.2 h

theorem followM_resolves {st : St F} {cfg : Cfg F} {M : Map F} (hs : Sim st cfg) (hr : Rep cfg M) {b n : Str} {c : Cell F} (h : Resolves M b n c) :
    ∀ v, findVal st.nodes b n = some v → ∃ w k, w ∈ allVals st.nodes ∧ w.cell = c ∧ ∀ fuel, k ≤ fuel → followM st.nodes fuel v = .ok w := by
  induction h with
  | @val b n c hm =>
    intro v hv
    have hf := hs.find b n
    rw [hv] at hf
    obtain ⟨e, he, hc⟩ := rep_some hr hf
    rw [hm] at he; cases he
    rw [hs.cells v (findVal_mem hv).1] at hc
    refine ⟨v, 1, (findVal_mem hv).1, hc.1, fun fuel hfu => ?_⟩
    obtain ⟨k, rfl⟩ : ∃ k, fuel = k + 1 := ⟨fuel - 1, by omega⟩
    rw [followM, hc.1]
    cases c with
    | ref r => exact absurd rfl (hc.2 r)
    | _ => rfl
  | @link b n p q c hm _ ih =>
    intro v hv
    have hf := hs.find b n
    rw [hv] at hf
    obtain ⟨e, he, hc⟩ := rep_some hr hf
    rw [hm] at he; cases he
    rw [hs.cells v (findVal_mem hv).1] at hc
    obtain ⟨y, hy, hc⟩ := hc
    rw [hs.find p q] at hy
    obtain ⟨u, hu, rfl⟩ := Option.map_eq_some_iff.1 hy
    obtain ⟨w, k, hw, hwc, hk⟩ := ih u hu
    refine ⟨w, k + 1, hw, hwc, fun fuel hfu => ?_⟩
    obtain ⟨j, rfl⟩ : ∃ k, fuel = k + 1 := ⟨fuel - 1, by omega⟩
    have := find_id hs.ids (findVal_mem hu).1
    rw [allVals] at this
    rw [followM, hc]
    simp only [this]
    exact hk j (by omega)

theorem sp_live {st : St F} {l : List Nat} (hm : Is st.mem (owned st.nodes ++ l)) {v : Val F} {s : Str} (hv : v ∈ allVals st.nodes) (hc : v.cell = .str s) : v.sp ∈ st.mem.live := by
  refine hm.perm.mem_iff.2 (List.mem_append_left _ ?_)
  obtain ⟨k, hk, hwk⟩ := List.mem_flatMap.1 hv
  refine List.mem_flatMap.2 ⟨k, hk, ?_⟩
  rw [ownedBlk, List.mem_append]
  refine .inl (List.mem_flatMap.2 ⟨v, hwk, ?_⟩)
  simp [ownedVal, strOf, hc]

/-! ## C97 -/

/-- C97: zt_cfg_ini reads every well-formed file, whatever else is in the heap, so that there is a configuration to start with. -/
theorem c97_load (fl : Floats F) {m : Mem} (hn : m.live.Nodup) (hb : ∀ a ∈ m.live, a < m.next) (name : Str) {ls : List Line} (hls : ∀ l ∈ ls, l.ok) :
    ∃ c m', iniM fl m name (fileText ls) = .ok (m', some c) ∧ Hist fl m.live c (writes globalName ls) 0 := by
  obtain ⟨c, lost, e, -⟩ := iniM_spec fl (m := m) (out := m.live) ⟨.refl _, hn, hb⟩ name hls
  exact ⟨c, _, e, .load rfl hn hb hls e⟩

/-- C97: zt_cfg_set frees nothing that it did not allocate: it is defined in every history for every argument that has a text or is refused. -/
theorem c97_set {fl : Floats F} {out : List Nat} {c : Conf F} {ws : List (Str × Str × Str)} {k : Nat} (h : Hist fl out c ws k) (b n : Str) (a : Arg F) (ha : argText fl a ≠ .ub) :
    ∃ st', (∃ v, argText fl a = .ok (some v) ∧ setM fl c.st b n a = .ok (st', 1) ∧ Hist fl out { c with st := st' } (ws ++ [(b, n, v)]) k) ∨
      (argText fl a = .ok none ∧ setM fl c.st b n a = .ok (st', -1) ∧ Hist fl out { c with st := st' } ws (k + 1)) := by
  obtain ⟨lost, H⟩ := hist_CI h
  cases hv : argText fl a with
  | ub => exact absurd hv ha
  | abort =>
    exfalso
    cases a <;> simp only [argText] at hv <;> first | cases hv | (split at hv <;> cases hv)
  | ok o =>
    cases o with
    | none =>
      obtain ⟨st', l, e, -⟩ := H.refused b n hv
      exact ⟨st', .inr ⟨rfl, e, .refused h hv e⟩⟩
    | some v =>
      obtain ⟨st', l, e, -⟩ := H.set b n hv
      exact ⟨st', .inl ⟨v, rfl, e, .set h hv e⟩⟩

/-- C97: after any history zt_cfg_close succeeds - nothing is freed twice and nothing is freed that was not allocated -, the memory of the rest of the program is still there, and what is
left over besides is exactly one block for each string that was overwritten and three for each refused zt_cfg_set. Missing: that nothing is left over, which fails, see c97_overwrite_violation,
c97_refused_violation and c97_error_violation. -/
theorem c97_close_partial {fl : Floats F} {out : List Nat} {c : Conf F} {ws : List (Str × Str × Str)} {k : Nat} (h : Hist fl out c ws k) {n : Nat} (hn : Overwrites fl ws n) :
    ∃ m' lost, close c = .ok m' ∧ m'.live.Perm (lost ++ out) ∧ lost.length = n + 3 * k := by
  obtain ⟨lost, H⟩ := hist_CI h
  obtain ⟨m', e, hp⟩ := H.close
  exact ⟨m', lost, e, hp, H.acc n hn⟩

/-- C97: every history overwrites some number of strings. -/
theorem c97_overwrites (fl : Floats F) (ws : List (Str × Str × Str)) : ∃ n, Overwrites fl ws n := overwrites_exists fl ws

/-- C97: so nothing is lost if no string is overwritten and nothing is refused. -/
theorem c97_clean {fl : Floats F} {out : List Nat} {c : Conf F} {ws : List (Str × Str × Str)} (h : Hist fl out c ws 0) (hn : Overwrites fl ws 0) : ∃ m', close c = .ok m' ∧ m'.live.Perm out := by
  obtain ⟨m', lost, e, hp, hl⟩ := c97_close_partial h hn
  have : lost = [] := List.length_eq_zero_iff.1 hl
  subst this
  exact ⟨m', e, hp⟩

/-- C97: the pointer that zt_cfg_get stores for a string is that of a block in use, which contains the string. -/
theorem c97_get {fl : Floats F} {out : List Nat} {c : Conf F} {ws : List (Str × Str × Str)} {k : Nat} (h : Hist fl out c ws k) {M : Map F} (hM : History fl ws M) {b n s : Str} (hr : Resolves M b n (.str s)) :
    ∃ p, Runs (fun fuel => getStr fuel c.st b n) (some p) ∧ p ∈ c.st.mem.live ∧ c.st.mem.text p = s ∧ p ∉ out := by
  obtain ⟨lost, H⟩ := hist_CI h
  obtain ⟨cfg, hc, hs⟩ := H.sim
  obtain ⟨cfg0, hc0, -, hrep⟩ := history_rep fl hM
  rw [hc] at hc0; cases hc0
  have hf := hs.find b n
  cases hv : findVal c.st.nodes b n with
  | none =>
    rw [hv] at hf
    have := rep_none hrep hf
    cases hr with
    | val hm => rw [this] at hm; cases hm
    | link hm _ => rw [this] at hm; cases hm
  | some v =>
    obtain ⟨w, k, hw, hwc, hk⟩ := followM_resolves hs hrep hr v hv
    have hlive := sp_live H.is hw hwc
    refine ⟨w.sp, ⟨k, fun fuel hfu => ?_⟩, hlive, H.texts w hw s hwc, ?_⟩
    · simp only [getStr, hv, hk fuel hfu, Outcome.ok_bind, hwc, Outcome.pure_eq]
    · have hnd := H.is.perm.nodup_iff.1 H.is.nodup
      intro ho
      have hmem : w.sp ∈ owned c.st.nodes := by
        obtain ⟨k, hk, hwk⟩ := List.mem_flatMap.1 hw
        refine List.mem_flatMap.2 ⟨k, hk, ?_⟩
        rw [ownedBlk, List.mem_append]
        refine .inl (List.mem_flatMap.2 ⟨w, hwk, ?_⟩)
        simp [ownedVal, strOf, hwc]
      exact (List.nodup_append.1 hnd).2.2 _ hmem _ (by simp [ho]) rfl

/-- C97: zt_cfg_get of a string fails, and stores no pointer, when there is no value under the name and when the value found is not a string. -/
theorem c97_get_fails {fl : Floats F} {out : List Nat} {c : Conf F} {ws : List (Str × Str × Str)} {k : Nat} (h : Hist fl out c ws k) {M : Map F} (hM : History fl ws M) {b n : Str} :
    (M b n = none → ∀ fuel, getStr fuel c.st b n = .ok none) ∧
    (∀ d : Cell F, (∀ s, d ≠ .str s) → Resolves M b n d → Runs (fun fuel => getStr fuel c.st b n) none) := by
  obtain ⟨lost, H⟩ := hist_CI h
  obtain ⟨cfg, hc, hs⟩ := H.sim
  obtain ⟨cfg0, hc0, -, hrep⟩ := history_rep fl hM
  rw [hc] at hc0; cases hc0
  have hf := hs.find b n
  constructor
  · intro hm fuel
    cases hv : findVal c.st.nodes b n with
    | none => simp only [getStr, hv]
    | some v =>
      rw [hv] at hf
      obtain ⟨e, he, -⟩ := rep_some hrep hf
      rw [hm] at he; cases he
  · intro d hd hr
    cases hv : findVal c.st.nodes b n with
    | none => exact ⟨0, fun fuel _ => show getStr fuel c.st b n = _ by simp only [getStr, hv]⟩
    | some v =>
      obtain ⟨w, k, hw, hwc, hk⟩ := followM_resolves hs hrep hr v hv
      refine ⟨k, fun fuel hfu => ?_⟩
      simp only [getStr, hv, hk fuel hfu, Outcome.ok_bind]
      split
      · next s e => rw [hwc] at e; exact absurd e (hd s)
      · rfl

/-- The later states of a configuration. -/
inductive Later (fl : Floats F) : St F → St F → Prop
  | refl {st : St F} : Later fl st st
  | set {st st' st'' : St F} {b n : Str} {a : Arg F} {r : Int} : Later fl st st' → setM fl st' b n a = .ok (st'', r) → Later fl st st''

/-- C97: a string that zt_cfg_get handed out stays valid and unchanged, whatever is set later, until zt_cfg_close; so does everything else in the heap. -/
theorem c97_stable {fl : Floats F} {out : List Nat} {c : Conf F} {ws : List (Str × Str × Str)} {k : Nat} (h : Hist fl out c ws k) {st' : St F} (hl : Later fl c.st st') {p : Nat} (hp : p ∈ c.st.mem.live) :
    p ∈ st'.mem.live ∧ st'.mem.text p = c.st.mem.text p := by
  have : (∃ h e lost ext, CI fl st' h e lost ext) ∧ Keeps c.st.mem st'.mem := by
    obtain ⟨lost, H⟩ := hist_CI h
    generalize c.st = s0 at hl H
    clear hp h
    induction hl with
    | refl => exact ⟨⟨_, _, _, _, H⟩, .refl _⟩
    | @set st1 st2 b n a r _ e ih =>
      obtain ⟨⟨h, x, lost, ext, H1⟩, hk⟩ := ih
      cases hv : argText fl a with
      | ub => rw [setM, hv] at e; cases e
      | abort => rw [setM, hv] at e; cases e
      | ok o =>
        cases o with
        | none =>
          obtain ⟨st', l, e1, H2, k2⟩ := H1.refused b n hv
          rw [e] at e1; cases e1
          exact ⟨⟨_, _, _, _, H2⟩, hk.trans k2⟩
        | some v =>
          obtain ⟨st', l, e1, H2, k2⟩ := H1.set b n hv
          rw [e] at e1; cases e1
          exact ⟨⟨_, _, _, _, H2⟩, hk.trans k2⟩
  exact this.2.keeps p hp

/-- C97 is violated: setting a variable that holds a string loses the old string for good, in every history. -/
theorem c97_overwrite_violation {fl : Floats F} {out : List Nat} {c : Conf F} {ws : List (Str × Str × Str)} {k : Nat} (h : Hist fl out c ws k) {M : Map F} (hM : History fl ws M) {b n t : Str} (ht : M b n = some (.val (.str t))) (s : Str) :
    ∃ st' m' lost, setM fl c.st b n (.str s) = .ok (st', 1) ∧ close { c with st := st' } = .ok m' ∧ m'.live.Perm (lost ++ out) ∧ lost ≠ [] := by
  obtain ⟨st', h1⟩ := c97_set h b n (.str s) (by simp [argText])
  rcases h1 with ⟨v, hv, e, h2⟩ | ⟨hv, -⟩
  · obtain ⟨j, hj⟩ := overwrites_exists fl ws
    obtain ⟨m', lost, e', hp, hl⟩ := c97_close_partial h2 (.string hj hM ht)
    exact ⟨st', m', lost, e, e', hp, fun e => by rw [e, List.length_nil] at hl; omega⟩
  · simp [argText] at hv

/-- C97 is violated: every zt_cfg_set of a truth value 0 or 1, which is refused, loses three blocks. -/
theorem c97_refused_violation {fl : Floats F} {out : List Nat} {c : Conf F} {ws : List (Str × Str × Str)} {k : Nat} (h : Hist fl out c ws k) (b n : Str) {v : Int} (hv : v = 1 ∨ v = 0) :
    ∃ st' m' lost, setM fl c.st b n (.boolInt v) = .ok (st', -1) ∧ close { c with st := st' } = .ok m' ∧ m'.live.Perm (lost ++ out) ∧ 3 ≤ lost.length := by
  have ha : argText fl (.boolInt v) = .ok none := by rw [argText, if_pos hv]
  obtain ⟨st', h1⟩ := c97_set h b n (.boolInt v) (by rw [ha]; simp)
  rcases h1 with ⟨v, hv, -⟩ | ⟨-, e, h2⟩
  · rw [ha] at hv; cases hv
  · obtain ⟨j, hj⟩ := overwrites_exists fl ws
    obtain ⟨m', lost, e', hp, hl⟩ := c97_close_partial h2 hj
    exact ⟨st', m', lost, e, e', hp, by omega⟩

/-- C97 is violated: when zt_cfg_ini returns NULL for a syntax error, everything that was read before the error is lost - at least the name of the section. -/
theorem c97_error_violation (fl : Floats F) {m : Mem} (hn : m.live.Nodup) (hb : ∀ a ∈ m.live, a < m.next) (name : Str) {ls : List Line} (hls : ∀ l ∈ ls, l.ok) {bad rest : Str} {c : Byte}
    (hc : c ≠ 0x0A ∧ c ≠ 0x5B ∧ ¬ IsMark c ∧ ¬ (c = 0x20 ∨ c = 0x09)) (hbad : 0x3D ∉ c :: bad) :
    ∃ m' lost, iniM fl m name (fileText ls ++ c :: (bad ++ 0x0A :: rest)) = .ok (m', none) ∧ m'.live.Perm (lost ++ m.live) ∧ lost ≠ [] := by
  have hm : Is m m.live := ⟨.refl _, hn, hb⟩
  have hplain : Plain c := ⟨hc.1, hc.2.1, hc.2.2.1, by
    cases hb : isBlank c with
    | false => rfl
    | true => exact absurd (blank_iff.1 hb) hc.2.2.2⟩
  have H0 := ((CI.init fl hm).alloc [] |>.alloc name).alloc globalName
  obtain ⟨st', a', lost', H', hp⟩ := parsesM_lines ls hls globalName H0
  obtain ⟨q, hq⟩ := parseLine_error (rest := rest) hbad
  have := hp _ _ (parsesM_error hplain hq) _ (Nat.lt_succ_self _)
  obtain ⟨m1, e1, h1, -⟩ := (H'.is.congr (l' := (m.next + 1) :: m.next :: (a' :: (owned st'.nodes ++ lost') ++ m.live)) (by
    refine List.perm_iff_count.2 fun a => ?_
    simp only [List.count_append, List.count_cons, Mem.alloc]
    omega)).free
  obtain ⟨m2, e2, h2, -⟩ := h1.free
  refine ⟨m2, a' :: (owned st'.nodes ++ lost'), ?_, h2.perm, by simp⟩
  rw [iniM]
  show (parseLoopM fl (List.length (fileText ls ++ c :: (bad ++ 0x0A :: rest))).succ ⟨(((m.alloc []).2.alloc name).2.alloc globalName).2, [], 0⟩ (some (((m.alloc []).2.alloc name).2.next, globalName)) (fileText ls ++ c :: (bad ++ 0x0A :: rest)) >>= _) = _
  rw [this]
  show (st'.mem.free (m.next + 1) >>= _) = _
  rw [e1]
  show (m1.free m.next >>= _) = _
  rw [e2]; rfl

end

/-! ## Examples -/

/-- No number is a floating point number here. -/
def fl0 : Floats Unit := ⟨fun _ => none, fun _ => []⟩

/-- `x = a`, `[s]`, `y = b` -/
def lines0 : List Line := [.assign [] [0x78] [] [] [0x61] [], .section [] [0x73] [], .assign [] [0x79] [] [] [0x62, 0x63] []]

theorem lines0_ok : ∀ l ∈ lines0, l.ok := by
  have h1 : IsAssign [0x78] [] [] [0x61] [] := ⟨by simp [IsNameByte], by simp, by simp [Blank], by simp [IsMark], [], [], rfl, by simp [Blank], Or.inl rfl⟩
  have h2 : IsAssign [0x79] [] [] [0x62, 0x63] [] := ⟨by simp [IsNameByte], by simp, by simp [Blank], by simp [IsMark], [], [], rfl, by simp [Blank], Or.inl rfl⟩
  intro l hl
  simp only [lines0, List.mem_cons, List.not_mem_nil, or_false] at hl
  rcases hl with rfl | rfl | rfl
  · exact ⟨by decide, by simp [Blank], h1, by decide⟩
  · exact ⟨by decide, by simp [Blank], by decide, by decide⟩
  · exact ⟨by decide, by simp [Blank], h2, by decide⟩

/-- A program with two blocks of its own reads the file, sets `x` (which loses its string), is refused once, and then sets `z`. -/
example : ∃ c, Hist fl0 [7, 3] c ([(globalName, [0x78], [0x61]), ([0x73], [0x79], [0x62, 0x63])] ++ [(globalName, [0x78], [0x64])] ++ [(globalName, [0x7A], [0x65])]) 1 := by
  obtain ⟨c, m', -, h⟩ := c97_load fl0 (m := ⟨[7, 3], fun _ => [], 8⟩) (by decide) (by decide) [0x66] lines0_ok
  obtain ⟨s1, h1⟩ := c97_set h globalName [0x78] (.str [0x64]) (by simp [argText])
  rcases h1 with ⟨v, hv, -, h1⟩ | ⟨hv, -⟩
  · cases hv
    obtain ⟨s2, h2⟩ := c97_set h1 globalName [0x78] (.boolInt 1) (by simp [argText])
    rcases h2 with ⟨v, hv, -⟩ | ⟨hv, -, h2⟩
    · cases hv
    · obtain ⟨s3, h3⟩ := c97_set h2 globalName [0x7A] (.str [0x65]) (by simp [argText])
      rcases h3 with ⟨v, hv, -, h3⟩ | ⟨hv, -⟩
      · cases hv; exact ⟨_, h3⟩
      · cases hv
  · cases hv

/-- `x = a` in the global section of a configuration without other variables: set twice, closed; the first string is still there. -/
example : ((iniM fl0 ⟨[], fun _ => [], 0⟩ [0x66] (fileText [.assign [] [0x78] [] [] [0x61, 0x62] []])) >>= fun r => match r.2 with
    | none => .ub
    | some c => setM fl0 c.st globalName [0x78] (.str [0x63]) >>= fun q => close { c with st := q.1 } >>= fun m => (pure (m.live.map m.text) : Outcome (List Str))) = .ok [[0x61, 0x62]] := by
  decide +kernel

end ZT.Cfg.Own
