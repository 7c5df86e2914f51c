import Verif.MemPool.PolicyProps
import Verif.MemPool.Extra
import Verif.Numeral

/-!
# C121: what zt_mem_pool_display, zt_mem_pools_display and zt_mem_pool_group_display print (zt_mem.c 397-510, 745-771)

`ptr` is the text the C library prints for an address (%p). size_t is 64 bits wide. Offsets are not negative.
-/

namespace ZT.MemPool

open EList (Rep IsList Linked)

/-! ## Model -/

/-- zt_macros.h 102, 120, 137: `BLANK` with `INDENT(lvl)`: "%*s" with a width of five per level and an empty string. -/
def blank (lvl : Nat) : List Byte := List.replicate (lvl * 5) 32

/-- Bytes of a literal. -/
def lit (s : String) : List Byte := s.toList.map Num.byte

/-- %zu and %ld of a number that is not negative. -/
def zu (n : Nat) : List Byte := Num.digits 10 n

/-- zt_mem.c 404-407: the loop that adds the free elements of all pages, `cur` being the loop variable; `felts` is a long. -/
def feltsLoop (p : Addr) : (fuel : Nat) → (cur : Addr) → Mem → Nat → Outcome Nat
  | 0, _, _, _ => .ub
  | fuel + 1, cur, M, acc =>
      if cur = pageHead p then .ok acc
      else chk M cur 32 >>= fun _ => if acc + M.nfree cur < 2 ^ 63 then feltsLoop p fuel (M.H.next cur) M (acc + M.nfree cur) else .ub

/-- zt_mem.c 745-761 `zt_mem_elt_list_display`: the loop; `i` tells whether an element has been printed. -/
def eltsDisplay (ptr : Nat → List Byte) (off : Nat) (head : Addr) : (fuel : Nat) → (cur : Addr) → Bool → Mem → Outcome (List Byte)
  | 0, _, _, _ => .ub
  | fuel + 1, cur, i, M =>
      if cur = head then .ok []
      else chk M cur 24 >>= fun _ => eltsDisplay ptr off head fuel (M.H.next cur) true M >>= fun rest =>
        .ok ((if i then lit "\n" else []) ++ blank off ++ lit "elt: " ++ ptr cur ++ lit "  parent_page: " ++ ptr (M.parent cur) ++ lit "  data: " ++ ptr (cur + 24) ++ rest)

/-- zt_mem.c 763-770 `zt_mem_page_display` -/
def pageDisplay (ptr : Nat → List Byte) (off : Nat) (M : Mem) (g : Addr) : Outcome (List Byte) :=
  chk M g 32 >>= fun _ => .ok (blank off ++ lit "page: " ++ ptr g ++ lit " {\n" ++ (blank (off + 1) ++ lit "num_free_elts: " ++ zu (M.nfree g) ++ lit "\n") ++
    (blank (off + 1) ++ lit "parent pool: " ++ ptr (M.ppool g) ++ lit "\n") ++ (blank off ++ lit "}\n"))

/-- zt_mem.c 460-463: the loop over the pages. -/
def pagesDisplay (ptr : Nat → List Byte) (off : Nat) (p : Addr) : (fuel : Nat) → (cur : Addr) → Mem → Outcome (List Byte)
  | 0, _, _ => .ub
  | fuel + 1, cur, M =>
      if cur = pageHead p then .ok []
      else pageDisplay ptr off M cur >>= fun t => pagesDisplay ptr off p fuel (M.H.next cur) M >>= fun rest => .ok (t ++ rest)

/-- zt_mem.c 409-450: the first printf. Products and differences are those of size_t. -/
def header (ptr : Nat → List Byte) (off : Nat) (p : Addr) (P : Pool) (felts : Nat) : List Byte :=
  blank off ++ lit "pool: \"" ++ P.name ++ lit "\" [" ++ ptr p ++ lit "] {\n" ++
  blank (off + 1) ++ lit "elements: {\n" ++
  blank (off + 2) ++ lit "elt cache requested: " ++ zu P.rcache ++ lit " elements\n" ++
  blank (off + 2) ++ lit "elt cache actual: " ++ zu P.ncache ++ lit " elements\n" ++
  blank (off + 2) ++ lit "total elts: " ++ zu (P.epp * P.npages % 2 ^ 64) ++ lit "\n" ++
  blank (off + 2) ++ lit "free elts: " ++ zu felts ++ lit "\n" ++
  blank (off + 1) ++ lit "}\n" ++
  blank (off + 1) ++ lit "pages: {\n" ++
  blank (off + 2) ++ lit "page cache: " ++ zu P.pcache ++ lit " page(s)\n" ++
  blank (off + 2) ++ lit "free pages: " ++ zu P.nfreePages ++ lit "\n" ++
  blank (off + 2) ++ lit "page size: " ++ zu P.pageSize ++ lit "\n" ++
  blank (off + 2) ++ lit "pages in use: " ++ zu ((P.npages + (2 ^ 64 - P.nfreePages)) % 2 ^ 64) ++ lit "\n" ++
  blank (off + 2) ++ lit "total pages: " ++ zu P.npages ++ lit "\n" ++
  blank (off + 2) ++ lit "elements per page: " ++ zu P.epp ++ lit "\n" ++
  blank (off + 2) ++ lit "page allocs: " ++ zu P.pageAllocs ++ lit "\n" ++
  blank (off + 2) ++ lit "page frees: " ++ zu P.pageFrees ++ lit "\n" ++
  blank (off + 1) ++ lit "}\n" ++
  blank (off + 1) ++ lit "overall: {\n" ++
  blank (off + 2) ++ lit "element size: " ++ zu P.eltSize ++ lit " bytes + overhead = " ++ zu ((24 + P.eltSize) % 2 ^ 64) ++ lit " bytes \n" ++
  blank (off + 2) ++ lit "page usage (num elts * elt size): " ++ zu ((24 + P.eltSize) * P.epp % 2 ^ 64) ++ lit " bytes\n" ++
  blank (off + 2) ++ lit "page memory (page size * total pages): " ++ zu (P.pageSize * P.npages % 2 ^ 64) ++ lit " bytes\n" ++
  blank (off + 1) ++ lit "}\n"

/-- zt_mem.c 452-456: the list of free elements. -/
def freePart (ptr : Nat → List Byte) (off : Nat) (M : Mem) (p : Addr) (flags fuel : Nat) : Outcome (List Byte) :=
  if flags &&& 1 ≠ 0 then
    eltsDisplay ptr (off + 2) (freeHead p) fuel (M.H.next (freeHead p)) false M >>= fun t => .ok (blank (off + 1) ++ lit "free_list {\n" ++ t ++ (lit "\n" ++ blank (off + 1) ++ lit "}\n"))
  else .ok []

/-- zt_mem.c 458-465: the list of pages. -/
def pagePart (ptr : Nat → List Byte) (off : Nat) (M : Mem) (p : Addr) (flags fuel : Nat) : Outcome (List Byte) :=
  if flags &&& 2 ≠ 0 then
    pagesDisplay ptr (off + 2) p fuel (M.H.next (pageHead p)) M >>= fun t => .ok (blank (off + 1) ++ lit "pages {\n" ++ t ++ (blank (off + 1) ++ lit "}\n"))
  else .ok []

/-- zt_mem.c 397-468 `zt_mem_pool_display`: what is printed. -/
def display (ptr : Nat → List Byte) (off : Nat) (M : Mem) (p : Addr) (flags fuel : Nat) : Outcome (List Byte) :=
  chk M p 160 >>= fun _ => feltsLoop p fuel (M.H.next (pageHead p)) M 0 >>= fun felts => freePart ptr off M p flags fuel >>= fun a => pagePart ptr off M p flags fuel >>= fun b =>
    .ok (header ptr off p (M.pool p) felts ++ a ++ b ++ (blank off ++ lit "}\n"))

/-- zt_mem.c 477-480: the loop over all pools. -/
def poolsShow (ptr : Nat → List Byte) (off flags fuel2 : Nat) : (fuel : Nat) → (cur : Addr) → Mem → Outcome (List Byte)
  | 0, _, _ => .ub
  | fuel + 1, cur, M =>
      if cur = poolsHead then .ok []
      else display ptr (off + 1) M cur flags fuel2 >>= fun t => poolsShow ptr off flags fuel2 fuel (M.H.next cur) M >>= fun rest => .ok (t ++ rest)

/-- zt_mem.c 470-482 `zt_mem_pools_display` -/
def poolsDisplay (ptr : Nat → List Byte) (off : Nat) (M : Mem) (flags fuel : Nat) : Outcome (List Byte) :=
  poolsShow ptr off flags fuel fuel (M.H.next poolsHead) M >>= fun t => .ok (blank off ++ lit "Pools { \n" ++ t ++ (blank off ++ lit "}\n"))

/-- zt_mem.c 506-508: the loop over the pools of a group. -/
def groupShow (ptr : Nat → List Byte) (off flags fuel : Nat) (M : Mem) : List Addr → Outcome (List Byte)
  | [] => .ok []
  | p :: ps => display ptr (off + 1) M p flags fuel >>= fun t => groupShow ptr off flags fuel M ps >>= fun rest => .ok (t ++ rest)

/-- zt_mem.c 497-510 `zt_mem_pool_group_display`; `ps` are the pools of the group. -/
def groupDisplay (ptr : Nat → List Byte) (off : Nat) (M : Mem) (ps : List Addr) (flags fuel : Nat) : Outcome (List Byte) :=
  groupShow ptr off flags fuel M ps >>= fun t => .ok (blank off ++ lit "Group {\n" ++ t ++ (blank off ++ lit "}\n"))

/-! ## Specification -/

/-- A line of the report: its level (five columns each) and its text. -/
abbrev Line := Nat × List Byte

/-- The text of lines. -/
def ofLines (ls : List Line) : List Byte := ls.flatMap fun l => List.replicate (5 * l.1) 32 ++ l.2 ++ [10]

/-- What there is to say about a pool. -/
structure Facts where
  name : List Byte
  addr : Addr
  requested : Nat
  cacheElts : Nat
  cachePages : Nat
  perPage : Nat
  eltSize : Nat
  pageSize : Nat
  pages : List Addr
  /-- free elements of a page -/
  freeOf : Addr → Nat
  held : Nat
  idlePages : Nat
  allocs : Nat
  frees : Nat
  /-- free elements with their pages, in the order in which they will be used -/
  free : List (Addr × Addr)

/-- The figures of a pool, at a level. -/
def Facts.figures (ptr : Nat → List Byte) (f : Facts) (o : Nat) : List Line :=
  [(o, lit "pool: \"" ++ f.name ++ lit "\" [" ++ ptr f.addr ++ lit "] {"),
   (o + 1, lit "elements: {"),
   (o + 2, lit "elt cache requested: " ++ zu f.requested ++ lit " elements"),
   (o + 2, lit "elt cache actual: " ++ zu f.cacheElts ++ lit " elements"),
   (o + 2, lit "total elts: " ++ zu (f.pages.length * f.perPage)),
   (o + 2, lit "free elts: " ++ zu (f.pages.length * f.perPage - f.held)),
   (o + 1, lit "}"),
   (o + 1, lit "pages: {"),
   (o + 2, lit "page cache: " ++ zu f.cachePages ++ lit " page(s)"),
   (o + 2, lit "free pages: " ++ zu f.idlePages),
   (o + 2, lit "page size: " ++ zu f.pageSize),
   (o + 2, lit "pages in use: " ++ zu (f.pages.length - f.idlePages)),
   (o + 2, lit "total pages: " ++ zu f.pages.length),
   (o + 2, lit "elements per page: " ++ zu f.perPage),
   (o + 2, lit "page allocs: " ++ zu f.allocs),
   (o + 2, lit "page frees: " ++ zu f.frees),
   (o + 1, lit "}"),
   (o + 1, lit "overall: {"),
   (o + 2, lit "element size: " ++ zu f.eltSize ++ lit " bytes + overhead = " ++ zu (f.eltSize + 24) ++ lit " bytes "),
   (o + 2, lit "page usage (num elts * elt size): " ++ zu (f.perPage * (f.eltSize + 24)) ++ lit " bytes"),
   (o + 2, lit "page memory (page size * total pages): " ++ zu (f.pages.length * f.pageSize) ++ lit " bytes"),
   (o + 1, lit "}")]

/-- The list of free elements; a blank line if there are none. -/
def Facts.freeLines (ptr : Nat → List Byte) (f : Facts) (o : Nat) : List Line :=
  [(o + 1, lit "free_list {")] ++ (if f.free = [] then [(0, [])] else f.free.map fun x => (o + 2, lit "elt: " ++ ptr x.1 ++ lit "  parent_page: " ++ ptr x.2 ++ lit "  data: " ++ ptr (x.1 + 24))) ++ [(o + 1, lit "}")]

/-- The list of pages. -/
def Facts.pageLines (ptr : Nat → List Byte) (f : Facts) (o : Nat) : List Line :=
  [(o + 1, lit "pages {")] ++ (f.pages.flatMap fun g => [(o + 2, lit "page: " ++ ptr g ++ lit " {"), (o + 3, lit "num_free_elts: " ++ zu (f.freeOf g)), (o + 3, lit "parent pool: " ++ ptr f.addr), (o + 2, lit "}")]) ++ [(o + 1, lit "}")]

/-- The report on a pool at a level. -/
def Facts.lines (ptr : Nat → List Byte) (f : Facts) (o : Nat) (listFree listPages : Bool) : List Line :=
  f.figures ptr o ++ (if listFree then f.freeLines ptr o else []) ++ (if listPages then f.pageLines ptr o else []) ++ [(o, lit "}")]

/-- The facts are true of a pool `q` (address, element size, name) after a history: the pages of the pool are those of its list and blocks obtained from the system; the elements held are those of the client; the free elements are those of the pages that the client does not hold, each once,
with its page. -/
structure Facts.True (f : Facts) (c : Client) (M : Mem) (q : Addr × Nat × List Byte) : Prop where
  addr : f.addr = q.1
  size : f.eltSize = q.2.1
  name : f.name = q.2.2
  stats : ∃ st, getStats M q.1 = .ok st ∧ f.requested = st.requested ∧ f.cacheElts = st.actual ∧ f.cachePages = st.cached ∧ f.perPage = st.eltsPerPage ∧ f.pageSize = st.pageSize ∧ f.allocs = st.pageAllocs ∧ f.frees = st.pageFrees
  pages : IsList M.H (pageHead q.1) f.pages ∧ ∀ g ∈ f.pages, (g, f.pageSize) ∈ M.blocks
  held : f.held = c.live.countP (fun x => decide (x.2 = q.1)) ∧ f.held ≤ f.pages.length * f.perPage
  freeOf : ∀ g ∈ f.pages, f.freeOf g + c.live.countP (fun x => InPage f.pageSize g x.1) = f.perPage
  balance : f.pages.length + f.frees ≤ f.allocs ∧ (c.odd = false → f.allocs = f.pages.length + f.frees)
  idle : f.idlePages = f.pages.countP (fun g => c.live.all (fun x => !InPage f.pageSize g x.1))
  nodup : (f.free.map (·.1)).Nodup
  free : ∀ e g, (e, g) ∈ f.free ↔ g ∈ f.pages ∧ (∃ k, k < f.perPage ∧ e = g + 32 + k * (24 + f.eltSize)) ∧ (e + 24, q.1) ∉ c.live

/-! ## Proofs -/

theorem feltsLoop_spec {M : Mem} {p : Addr} : ∀ (l : List Addr) (a : Addr) (fuel acc : Nat), Linked M.H a l (pageHead p) → pageHead p ∉ l → (∀ x ∈ l, chk M x 32 = .ok ()) → l.length < fuel →
    acc + (l.map M.nfree).sum < 2 ^ 63 → feltsLoop p fuel (M.H.next a) M acc = .ok (acc + (l.map M.nfree).sum) := by
  intro l
  induction l with
  | nil =>
      intro a fuel acc hl hh hb hf hs
      obtain ⟨f, rfl⟩ : ∃ f, fuel = f + 1 := ⟨fuel - 1, by simp at hf; omega⟩
      rw [feltsLoop, if_pos hl.1]; rfl
  | cons x xs ih =>
      intro a fuel acc hl hh hb hf hs
      obtain ⟨f, rfl⟩ : ∃ f, fuel = f + 1 := ⟨fuel - 1, by simp at hf; omega⟩
      have hx : M.H.next a = x := hl.1
      have hne : x ≠ pageHead p := fun h => hh (by simp [h])
      simp only [List.map_cons, List.sum_cons] at hs ⊢
      have hlt : acc + M.nfree x < 2 ^ 63 := by omega
      rw [feltsLoop, hx, if_neg hne, hb x (by simp), Outcome.ok_bind, if_pos hlt, ih x f _ hl.2.2 (fun h => hh (by simp [h])) (fun y hy => hb y (by simp [hy])) (by simp at hf; omega) (by omega)]
      rw [Nat.add_assoc]

/-- What is printed for the free elements. -/
def eltText (ptr : Nat → List Byte) (off : Nat) (M : Mem) (e : Addr) : List Byte := blank off ++ lit "elt: " ++ ptr e ++ lit "  parent_page: " ++ ptr (M.parent e) ++ lit "  data: " ++ ptr (e + 24)

theorem eltsDisplay_spec {ptr : Nat → List Byte} {off : Nat} {M : Mem} {h : Addr} : ∀ (l : List Addr) (a : Addr) (fuel : Nat) (i : Bool), Linked M.H a l h → h ∉ l → (∀ x ∈ l, chk M x 24 = .ok ()) → l.length < fuel →
    ∃ t, eltsDisplay ptr off h fuel (M.H.next a) i M = .ok t ∧ t ++ (if i || !l.isEmpty then [10] else []) = (if i then [10] else []) ++ l.flatMap fun e => eltText ptr off M e ++ [10] := by
  intro l
  induction l with
  | nil =>
      intro a fuel i hl hh hb hf
      obtain ⟨f, rfl⟩ : ∃ f, fuel = f + 1 := ⟨fuel - 1, by simp at hf; omega⟩
      exact ⟨[], by rw [eltsDisplay, if_pos hl.1], by cases i <;> simp⟩
  | cons x xs ih =>
      intro a fuel i hl hh hb hf
      obtain ⟨f, rfl⟩ : ∃ f, fuel = f + 1 := ⟨fuel - 1, by simp at hf; omega⟩
      have hx : M.H.next a = x := hl.1
      have hne : x ≠ h := fun h => hh (by simp [h])
      obtain ⟨t, e1, e2⟩ := ih x f true hl.2.2 (fun h => hh (by simp [h])) (fun y hy => hb y (by simp [hy])) (by simp at hf; omega)
      refine ⟨(if i then lit "\n" else []) ++ eltText ptr off M x ++ t, ?_, ?_⟩
      · rw [eltsDisplay, hx, if_neg hne, hb x (by simp), Outcome.ok_bind, e1, Outcome.ok_bind]
        simp [eltText]
      · simp only [Bool.true_or, if_true] at e2
        simp only [List.isEmpty_cons, Bool.not_false, Bool.or_true, if_true, List.append_assoc, e2, List.flatMap_cons]
        cases i <;> simp [lit, Num.byte]

/-- What is printed for a page. -/
def pageText (ptr : Nat → List Byte) (off : Nat) (M : Mem) (g : Addr) : List Byte :=
  blank off ++ lit "page: " ++ ptr g ++ lit " {\n" ++ (blank (off + 1) ++ lit "num_free_elts: " ++ zu (M.nfree g) ++ lit "\n") ++ (blank (off + 1) ++ lit "parent pool: " ++ ptr (M.ppool g) ++ lit "\n") ++ (blank off ++ lit "}\n")

theorem pagesDisplay_spec {ptr : Nat → List Byte} {off : Nat} {M : Mem} {p : Addr} : ∀ (l : List Addr) (a : Addr) (fuel : Nat), Linked M.H a l (pageHead p) → pageHead p ∉ l → (∀ x ∈ l, chk M x 32 = .ok ()) → l.length < fuel →
    pagesDisplay ptr off p fuel (M.H.next a) M = .ok (l.flatMap (pageText ptr off M)) := by
  intro l
  induction l with
  | nil =>
      intro a fuel hl hh hb hf
      obtain ⟨f, rfl⟩ : ∃ f, fuel = f + 1 := ⟨fuel - 1, by simp at hf; omega⟩
      rw [pagesDisplay, if_pos hl.1]; rfl
  | cons x xs ih =>
      intro a fuel hl hh hb hf
      obtain ⟨f, rfl⟩ : ∃ f, fuel = f + 1 := ⟨fuel - 1, by simp at hf; omega⟩
      have hx : M.H.next a = x := hl.1
      have hne : x ≠ pageHead p := fun h => hh (by simp [h])
      rw [pagesDisplay, hx, if_neg hne, pageDisplay, hb x (by simp), Outcome.ok_bind, Outcome.ok_bind, ih x f hl.2.2 (fun h => hh (by simp [h])) (fun y hy => hb y (by simp [hy])) (by simp at hf; omega), Outcome.ok_bind]
      rfl

/-- All free elements are counted. -/
theorem sum_nfree {M : Mem} {A : EList.Abs} {S : St} (I : Inv M A S) {p : Addr} (hp : p ∈ S.pools) : ((S.pages p).map M.nfree).sum = (S.free p).length := by
  have hpn : (S.pages p).Nodup := by
    have := (I.rep.lists _ _ (I.apages p hp)).2
    exact (List.nodup_cons.1 this).2
  have hnd := flat_elts_nodup I hp (S.pages p) hpn (fun _ h => h)
  have h1 : (S.free p).length = ((S.pages p).flatMap (elts (M.pool p))).countP (fun x => decide (x ∈ S.free p)) := by
    rw [List.countP_eq_length_filter]
    apply List.Perm.length_eq
    rw [List.perm_ext_iff_of_nodup (free_nodup I hp) (hnd.filter _)]
    intro e
    simp only [List.mem_filter, decide_eq_true_eq, List.mem_flatMap]
    exact ⟨fun h => ⟨I.freeSub p hp e h, h⟩, fun h => h.2⟩
  rw [h1, List.countP_flatMap]
  congr 1
  apply List.map_congr_left
  intro g hg
  exact I.nfree p hp g hg

theorem blank_eq (n : Nat) : blank n = List.replicate (5 * n) 32 := by rw [blank, Nat.mul_comm]

theorem lit_nl (s : String) : lit s ++ [10] = lit (s ++ "\n") := by simp [lit, Num.byte]

theorem lits : lit "] {\n" = lit "] {" ++ [10] ∧ lit "elements: {\n" = lit "elements: {" ++ [10] ∧ lit " elements\n" = lit " elements" ++ [10] ∧ lit "}\n" = lit "}" ++ [10] ∧ lit "pages: {\n" = lit "pages: {" ++ [10] ∧
    lit " page(s)\n" = lit " page(s)" ++ [10] ∧ lit "overall: {\n" = lit "overall: {" ++ [10] ∧ lit " bytes \n" = lit " bytes " ++ [10] ∧ lit " bytes\n" = lit " bytes" ++ [10] ∧ lit "free_list {\n" = lit "free_list {" ++ [10] ∧
    lit "pages {\n" = lit "pages {" ++ [10] ∧ lit " {\n" = lit " {" ++ [10] ∧ lit "Pools { \n" = lit "Pools { " ++ [10] ∧ lit "Group {\n" = lit "Group {" ++ [10] ∧ lit "\n" = [10] := by decide +kernel

/-- The facts of a pool. -/
def factsOf (M : Mem) (S : St) (p held : Nat) : Facts :=
  ⟨(M.pool p).name, p, (M.pool p).rcache, (M.pool p).ncache, (M.pool p).pcache, (M.pool p).epp, (M.pool p).eltSize, (M.pool p).pageSize, S.pages p, M.nfree, held, (M.pool p).nfreePages, (M.pool p).pageAllocs, (M.pool p).pageFrees,
    (S.free p).map fun e => (e, M.parent e)⟩

theorem ofLines_append (a b : List Line) : ofLines (a ++ b) = ofLines a ++ ofLines b := by simp [ofLines]

theorem ofLines_cons (l : Line) (ls : List Line) : ofLines (l :: ls) = List.replicate (5 * l.1) 32 ++ l.2 ++ [10] ++ ofLines ls := by simp [ofLines]

theorem ofLines_nil : ofLines [] = [] := rfl

theorem flatMap_congr2 {α β : Type} {l : List α} {f g : α → List β} (h : ∀ x ∈ l, f x = g x) : l.flatMap f = l.flatMap g := by
  induction l with
  | nil => rfl
  | cons a l ih => rw [List.flatMap_cons, List.flatMap_cons, h a (by simp), ih fun x hx => h x (by simp [hx])]

theorem freePart_spec {M : Mem} {A : EList.Abs} {S : St} (I : Inv M A S) {p : Addr} (hp : p ∈ S.pools) (ptr : Nat → List Byte) (off flags fuel held : Nat) (hf : (S.free p).length < fuel) :
    freePart ptr off M p flags fuel = .ok (if flags &&& 1 ≠ 0 then ofLines ((factsOf M S p held).freeLines ptr off) else []) := by
  have hlf := I.rep.lists _ _ (I.afree p hp)
  have hfr := (List.nodup_cons.1 hlf.2).1
  obtain ⟨t, h2, h3⟩ := eltsDisplay_spec (ptr := ptr) (off := off + 2) (S.free p) (freeHead p) fuel false hlf.1 hfr (fun x hx => by
    obtain ⟨g, hg, he⟩ := I.freeSub p hp x hx
    exact chk_elt I hp hg he) hf
  obtain ⟨l1, l2, l3, l4, l5, l6, l7, l8, l9, l10, l11, l12, -, -, l15⟩ := lits
  unfold freePart
  by_cases hfl : flags &&& 1 ≠ 0
  · rw [if_pos hfl, if_pos hfl, h2, Outcome.ok_bind]
    congr 1
    simp only [Bool.false_or, Bool.false_eq_true, if_false, List.nil_append] at h3
    unfold Facts.freeLines
    rw [ofLines_append, ofLines_append, ofLines_cons, ofLines_nil, ofLines_cons, ofLines_nil, l10, l15, l4, blank_eq]
    have : t ++ [10] = ofLines (if (factsOf M S p held).free = [] then [(0, [])] else (factsOf M S p held).free.map fun x => (off + 2, lit "elt: " ++ ptr x.1 ++ lit "  parent_page: " ++ ptr x.2 ++ lit "  data: " ++ ptr (x.1 + 24))) := by
      unfold factsOf
      dsimp only
      by_cases hz : S.free p = []
      · rw [hz] at h3 ⊢
        simp at h3
        simp [h3, ofLines]
      · have hz' : (S.free p).isEmpty = false := by simpa using hz
        rw [hz'] at h3
        simp only [Bool.not_false, if_true] at h3
        rw [h3, if_neg (by simpa using hz), ofLines, List.map_map, List.flatMap_map]
        simp [eltText, blank_eq]
    rw [← this]
    simp only [List.append_assoc, List.append_nil]
  · rw [if_neg hfl, if_neg hfl]

theorem pagePart_spec {M : Mem} {A : EList.Abs} {S : St} (I : Inv M A S) {p : Addr} (hp : p ∈ S.pools) (ptr : Nat → List Byte) (off flags fuel held : Nat) (hf : (S.pages p).length < fuel) :
    pagePart ptr off M p flags fuel = .ok (if flags &&& 2 ≠ 0 then ofLines ((factsOf M S p held).pageLines ptr off) else []) := by
  have hlp := I.rep.lists _ _ (I.apages p hp)
  have hpg := (List.nodup_cons.1 hlp.2).1
  have h4 := pagesDisplay_spec (ptr := ptr) (off := off + 2) (S.pages p) (pageHead p) fuel hlp.1 hpg (fun x hx => chk_page I hp hx) hf
  obtain ⟨l1, l2, l3, l4, l5, l6, l7, l8, l9, l10, l11, l12, -, -, l15⟩ := lits
  unfold pagePart
  by_cases hfl : flags &&& 2 ≠ 0
  · rw [if_pos hfl, if_pos hfl, h4, Outcome.ok_bind]
    congr 1
    unfold Facts.pageLines
    rw [ofLines_append, ofLines_append, ofLines_cons, ofLines_nil, ofLines_cons, ofLines_nil, l11, l4, blank_eq]
    have : (S.pages p).flatMap (pageText ptr (off + 2) M) = ofLines ((factsOf M S p held).pages.flatMap fun g => [(off + 2, lit "page: " ++ ptr g ++ lit " {"), (off + 3, lit "num_free_elts: " ++ zu ((factsOf M S p held).freeOf g)), (off + 3, lit "parent pool: " ++ ptr (factsOf M S p held).addr), (off + 2, lit "}")]) := by
      rw [ofLines, List.flatMap_assoc]
      refine flatMap_congr2 fun g hg => ?_
      simp only [factsOf, pageText, I.ppool p hp g hg, l12, l15, l4, blank_eq, List.flatMap_cons, List.flatMap_nil, List.append_assoc, List.append_nil]
    rw [← this]
    simp only [List.append_assoc, List.append_nil]
  · rw [if_neg hfl, if_neg hfl]

theorem header_spec {c : Client} {M : Mem} {A : EList.Abs} {S : St} (R : Rel c M A S) {p : Addr} (hp : p ∈ S.pools) (hsz : (S.pages p).length * (M.pool p).pageSize < 2 ^ 63) (hps : (M.pool p).pageSize < 2 ^ 63) (ptr : Nat → List Byte) (off : Nat) :
    header ptr off p (M.pool p) (S.free p).length = ofLines ((factsOf M S p (c.live.countP fun x => decide (x.2 = p))).figures ptr off) ∧ (S.free p).length < 2 ^ 63 := by
  have I := R.inv
  obtain ⟨e1, e2⟩ := I.epp p hp
  have hnp := I.npages p hp
  have hfp : (M.pool p).nfreePages ≤ (S.pages p).length := by rw [I.nfreePages p hp]; exact List.countP_le_length
  have ht := R.total hp
  have hel : (S.pages p).length * (M.pool p).epp ≤ (S.pages p).length * (M.pool p).pageSize := by
    apply Nat.mul_le_mul_left
    have : (M.pool p).epp * 1 ≤ (M.pool p).epp * (24 + (M.pool p).eltSize) := Nat.mul_le_mul_left _ (by omega)
    omega
  have hesz : 24 + (M.pool p).eltSize ≤ (M.pool p).epp * (24 + (M.pool p).eltSize) := Nat.le_mul_of_pos_left _ e1
  have hpl : (S.pages p).length ≤ (S.pages p).length * (M.pool p).epp := Nat.le_mul_of_pos_right _ e1
  have m1 : (M.pool p).epp * (M.pool p).npages % 2 ^ 64 = (S.pages p).length * (M.pool p).epp := by
    rw [hnp, Nat.mul_comm]; exact Nat.mod_eq_of_lt (by omega)
  have m2 : ((M.pool p).npages + (2 ^ 64 - (M.pool p).nfreePages)) % 2 ^ 64 = (S.pages p).length - (M.pool p).nfreePages := by
    rw [hnp]; omega
  have m3 : (24 + (M.pool p).eltSize) % 2 ^ 64 = (M.pool p).eltSize + 24 := by omega
  have m4 : (24 + (M.pool p).eltSize) * (M.pool p).epp % 2 ^ 64 = (M.pool p).epp * ((M.pool p).eltSize + 24) := by
    rw [Nat.mul_comm, Nat.add_comm 24]
    rw [Nat.add_comm 24] at e2
    exact Nat.mod_eq_of_lt (by omega)
  have m5 : (M.pool p).pageSize * (M.pool p).npages % 2 ^ 64 = (S.pages p).length * (M.pool p).pageSize := by
    rw [hnp, Nat.mul_comm]; exact Nat.mod_eq_of_lt (by omega)
  have m6 : (S.pages p).length * (M.pool p).epp - c.live.countP (fun x => decide (x.2 = p)) = (S.free p).length := by omega
  obtain ⟨l1, l2, l3, l4, l5, l6, l7, l8, l9, l10, l11, l12, -, -, l15⟩ := lits
  refine ⟨?_, by omega⟩
  unfold header Facts.figures
  rw [m1, m2, m3, m4, m5, hnp]
  simp only [factsOf, m6]
  generalize (S.free p).length = fl
  generalize (S.pages p).length * (M.pool p).epp = x1
  generalize (S.pages p).length - (M.pool p).nfreePages = x2
  generalize (M.pool p).epp * ((M.pool p).eltSize + 24) = x3
  generalize (S.pages p).length * (M.pool p).pageSize = x4
  simp only [ofLines_cons, ofLines_nil, l1, l2, l3, l4, l5, l6, l7, l8, l9, l15, blank_eq, List.append_assoc, List.append_nil]

/-- Sizes that occur on a machine with 64-bit addresses: all pages of the pool together have less than 2^63 bytes, and so would one. -/
def Sized (M : Mem) (p : Addr) (pages : List Addr) : Prop := pages.length * (M.pool p).pageSize < 2 ^ 63 ∧ (M.pool p).pageSize < 2 ^ 63

theorem display_spec {c : Client} {M : Mem} {A : EList.Abs} {S : St} (R : Rel c M A S) {p : Addr} (hp : p ∈ S.pools) (hsz : Sized M p (S.pages p)) (ptr : Nat → List Byte) (off flags fuel : Nat)
    (hf : (S.pages p).length < fuel ∧ (S.free p).length < fuel) :
    display ptr off M p flags fuel = .ok (ofLines ((factsOf M S p (c.live.countP fun x => decide (x.2 = p))).lines ptr off (flags &&& 1 ≠ 0) (flags &&& 2 ≠ 0))) := by
  have I := R.inv
  have hlp := I.rep.lists _ _ (I.apages p hp)
  have hpg := (List.nodup_cons.1 hlp.2).1
  have hs := sum_nfree I hp
  obtain ⟨hH, hlt⟩ := header_spec R hp hsz.1 hsz.2 ptr off
  have h1 : feltsLoop p fuel (M.H.next (pageHead p)) M 0 = .ok (S.free p).length := by
    rw [feltsLoop_spec (S.pages p) (pageHead p) fuel 0 hlp.1 hpg (fun x hx => chk_page I hp hx) hf.1 (by omega), hs, Nat.zero_add]
  have hA := freePart_spec I hp ptr off flags fuel (c.live.countP fun x => decide (x.2 = p)) hf.2
  have hB := pagePart_spec I hp ptr off flags fuel (c.live.countP fun x => decide (x.2 = p)) hf.1
  generalize factsOf M S p (c.live.countP fun x => decide (x.2 = p)) = F at *
  obtain ⟨l1, l2, l3, l4, -⟩ := lits
  unfold display
  rw [chk_pool I hp, Outcome.ok_bind, h1, Outcome.ok_bind, hA, Outcome.ok_bind, hB, Outcome.ok_bind, hH]
  unfold Facts.lines
  rw [ofLines_append, ofLines_append, ofLines_append, ofLines_cons, ofLines_nil, l4, blank_eq]
  have k1 : ofLines (if decide (flags &&& 1 ≠ 0) = true then F.freeLines ptr off else []) = if flags &&& 1 ≠ 0 then ofLines (F.freeLines ptr off) else [] := by
    by_cases h : flags &&& 1 ≠ 0
    · rw [if_pos h, if_pos (decide_eq_true h)]
    · rw [if_neg h, if_neg (by simpa using h)]; rfl
  have k2 : ofLines (if decide (flags &&& 2 ≠ 0) = true then F.pageLines ptr off else []) = if flags &&& 2 ≠ 0 then ofLines (F.pageLines ptr off) else [] := by
    by_cases h : flags &&& 2 ≠ 0
    · rw [if_pos h, if_pos (decide_eq_true h)]
    · rw [if_neg h, if_neg (by simpa using h)]; rfl
  rw [k1, k2]
  simp only [List.append_assoc, List.append_nil]

theorem factsOf_true {c : Client} {M : Mem} {A : EList.Abs} {S : St} (R : Rel c M A S) {q : Addr × Nat × List Byte} (hq : q ∈ c.pools) : (factsOf M S q.1 (c.live.countP fun x => decide (x.2 = q.1))).True c M q := by
  have hp := (R.mem hq).2
  have I := R.inv
  have ht := R.total hp
  have hc := I.count _ hp
  have hn := I.npages _ hp
  refine ⟨rfl, (R.sizes q hq).1, (R.sizes q hq).2, ⟨⟨(M.pool q.1).npages, (M.pool q.1).nfreePages, (M.pool q.1).pageAllocs, (M.pool q.1).pageFrees, (M.pool q.1).epp, (M.pool q.1).eltSize,
    (M.pool q.1).pageSize, (M.pool q.1).rcache, (M.pool q.1).ncache, (M.pool q.1).pcache, (M.pool q.1).flags⟩, ?_, rfl, rfl, rfl, rfl, rfl, rfl, rfl⟩, ⟨I.rep.lists _ _ (I.apages _ hp), I.bpage _ hp⟩, ⟨rfl, ?_⟩, fun g hg => R.held hp hg, ⟨?_, ?_⟩, ?_, ?_, ?_⟩
  · rw [getStats, chk_pool I hp]; rfl
  · simp only [factsOf]; omega
  · simp only [factsOf]; omega
  · intro ho
    have := R.lost ho _ hp
    simp only [factsOf]; omega
  · simp only [factsOf]
    rw [I.nfreePages _ hp]
    apply List.countP_congr
    intro g hg
    have := R.idle hp hg
    unfold Idle at this
    rw [this]
  · have := free_nodup I hp
    simpa [factsOf, Function.comp_def] using this
  · intro e g
    simp only [factsOf, List.mem_map, Prod.mk.injEq]
    constructor
    · rintro ⟨e', he, rfl, rfl⟩
      obtain ⟨g, hg, hm⟩ := I.freeSub _ hp _ he
      rw [I.parent _ hp g hg _ hm]
      refine ⟨hg, mem_elts.1 hm, fun hl => ?_⟩
      obtain ⟨e2, h1, -, g2, h2, h3, h4⟩ := (R.live _ _).1 hl
      have : e' = e2 := by omega
      subst this
      exact h4 he
    · rintro ⟨hg, hm, hl⟩
      have hm := mem_elts.2 hm
      refine ⟨e, ?_, rfl, I.parent _ hp g hg _ hm⟩
      by_cases he : e ∈ S.free q.1
      · exact he
      · exact absurd ((R.live _ _).2 ⟨e, rfl, hp, g, hg, hm, he⟩) hl

/-! ## C121 -/

/-- Sizes that occur on a machine with 64-bit addresses: all pages of the pool together have less than 2^63 bytes, and so would one. -/
def Fitting (M : Mem) (q : Addr × Nat × List Byte) : Prop := ∀ s, getStats M q.1 = .ok s → s.pages * s.pageSize < 2 ^ 63 ∧ s.pageSize < 2 ^ 63

theorem Fitting.sized {c : Client} {M : Mem} {A : EList.Abs} {S : St} (R : Rel c M A S) {q : Addr × Nat × List Byte} (hq : q ∈ c.pools) (h : Fitting M q) : Sized M q.1 (S.pages q.1) := by
  have hp := (R.mem hq).2
  have := h _ (by rw [getStats, chk_pool R.inv hp]; rfl)
  simp only [R.inv.npages _ hp] at this
  exact this

/-- **C121 (one pool).** After any history the display of a pool shows facts that are true of it, whatever its level and the lists asked for. -/
theorem c121_pool {al : Alloc} (G : Good al) {c : Client} {M : Mem} (h : Hist al c M) {q : Addr × Nat × List Byte} (hq : q ∈ c.pools) (hz : Fitting M q) :
    ∃ f : Facts, f.True c M q ∧ ∀ ptr off flags, Runs (display ptr off M q.1 flags) (ofLines (f.lines ptr off (flags &&& 1 ≠ 0) (flags &&& 2 ≠ 0))) := by
  obtain ⟨A, S, R⟩ := rel_of_hist G h
  refine ⟨_, factsOf_true R hq, fun ptr off flags => ⟨(S.pages q.1).length + (S.free q.1).length + 1, fun fuel hf => ?_⟩⟩
  exact display_spec R (R.mem hq).2 (hz.sized R hq) ptr off flags fuel ⟨by omega, by omega⟩

/-- Enough iterations for every pool. -/
def room (S : St) (l : List Addr) : Nat := (l.map fun p => (S.pages p).length + (S.free p).length + 1).sum + 1

theorem room_le {S : St} {l : List Addr} {p : Addr} (h : p ∈ l) : (S.pages p).length + (S.free p).length + 1 ≤ room S l := by
  unfold room
  induction l with
  | nil => cases h
  | cons x l ih =>
      rw [List.map_cons, List.sum_cons]
      rcases List.mem_cons.1 h with rfl | h
      · omega
      · have := ih h; omega

theorem length_room {S : St} (l : List Addr) : l.length < room S l := by
  unfold room
  induction l with
  | nil => simp
  | cons x l ih => rw [List.map_cons, List.sum_cons, List.length_cons]; omega

theorem poolsShow_spec {M : Mem} {ptr : Nat → List Byte} {off flags fuel2 : Nat} {F : Addr → List Line} : ∀ (l : List Addr) (a : Addr) (fuel : Nat), Linked M.H a l poolsHead → poolsHead ∉ l →
    (∀ p ∈ l, display ptr (off + 1) M p flags fuel2 = .ok (ofLines (F p))) → l.length < fuel → poolsShow ptr off flags fuel2 fuel (M.H.next a) M = .ok (ofLines (l.flatMap F)) := by
  intro l
  induction l with
  | nil =>
      intro a fuel hl hh hb hf
      obtain ⟨f, rfl⟩ : ∃ f, fuel = f + 1 := ⟨fuel - 1, by simp at hf; omega⟩
      rw [poolsShow, if_pos hl.1]; rfl
  | cons x xs ih =>
      intro a fuel hl hh hb hf
      obtain ⟨f, rfl⟩ : ∃ f, fuel = f + 1 := ⟨fuel - 1, by simp at hf; omega⟩
      have hx : M.H.next a = x := hl.1
      have hne : x ≠ poolsHead := fun h => hh (by simp [h])
      rw [poolsShow, hx, if_neg hne, hb x (by simp), Outcome.ok_bind, ih x f hl.2.2 (fun h => hh (by simp [h])) (fun y hy => hb y (by simp [hy])) (by simp at hf; omega), Outcome.ok_bind, List.flatMap_cons, ofLines_append]

/-- **C121 (all pools).** zt_mem_pools_display shows every pool there is, in the order of creation, one level further in, with facts that are true of it. -/
theorem c121_all {al : Alloc} (G : Good al) {c : Client} {M : Mem} (h : Hist al c M) (hz : ∀ q ∈ c.pools, Fitting M q) :
    ∃ f : Addr × Nat × List Byte → Facts, (∀ q ∈ c.pools, (f q).True c M q) ∧
      ∀ ptr off flags, Runs (poolsDisplay ptr off M flags) (ofLines ([(off, lit "Pools { ")] ++ (c.pools.flatMap fun q => (f q).lines ptr (off + 1) (flags &&& 1 ≠ 0) (flags &&& 2 ≠ 0)) ++ [(off, lit "}")])) := by
  obtain ⟨A, S, R⟩ := rel_of_hist G h
  refine ⟨fun q => factsOf M S q.1 (c.live.countP fun x => decide (x.2 = q.1)), fun q hq => factsOf_true R hq, fun ptr off flags => ⟨room S S.linked, fun fuel hf => ?_⟩⟩
  have hl := R.inv.rep.lists _ _ R.inv.aroot
  have hd : ∀ p ∈ S.linked, display ptr (off + 1) M p flags fuel = .ok (ofLines ((factsOf M S p (c.live.countP fun x => decide (x.2 = p))).lines ptr (off + 1) (flags &&& 1 ≠ 0) (flags &&& 2 ≠ 0))) := by
    intro p hp
    have hp' := hp
    rw [R.linked] at hp'
    obtain ⟨q, hq, rfl⟩ := List.mem_map.1 hp'
    have := room_le (S := S) hp
    exact display_spec R (R.mem hq).2 ((hz q hq).sized R hq) ptr (off + 1) flags fuel ⟨by omega, by omega⟩
  have hlen := length_room (S := S) S.linked
  have e := poolsShow_spec (ptr := ptr) (off := off) S.linked poolsHead fuel hl.1 (List.nodup_cons.1 hl.2).1 hd (by omega)
  obtain ⟨-, -, -, l4, -, -, -, -, -, -, -, -, l13, -, -⟩ := lits
  rw [poolsDisplay, e, Outcome.ok_bind, R.linked, List.flatMap_map, l13, l4, blank_eq, ofLines_append, ofLines_append, ofLines_cons, ofLines_cons, ofLines_nil]
  simp only [List.append_assoc, List.append_nil]

theorem groupShow_spec {M : Mem} {ptr : Nat → List Byte} {off flags fuel : Nat} {F : Addr → List Line} : ∀ (l : List Addr), (∀ p ∈ l, display ptr (off + 1) M p flags fuel = .ok (ofLines (F p))) →
    groupShow ptr off flags fuel M l = .ok (ofLines (l.flatMap F)) := by
  intro l
  induction l with
  | nil => intro _; rfl
  | cons x xs ih =>
      intro hb
      rw [groupShow, hb x (by simp), Outcome.ok_bind, ih (fun y hy => hb y (by simp [hy])), Outcome.ok_bind, List.flatMap_cons, ofLines_append]

/-- **C121 (a group).** zt_mem_pool_group_display shows the pools of the group in their order. -/
theorem c121_group {al : Alloc} (G : Good al) {c : Client} {M : Mem} (h : Hist al c M) {g : List (Addr × Nat × List Byte)} (hg : ∀ q ∈ g, q ∈ c.pools) (hz : ∀ q ∈ g, Fitting M q) :
    ∃ f : Addr × Nat × List Byte → Facts, (∀ q ∈ g, (f q).True c M q) ∧
      ∀ ptr off flags, Runs (groupDisplay ptr off M (g.map (·.1)) flags) (ofLines ([(off, lit "Group {")] ++ (g.flatMap fun q => (f q).lines ptr (off + 1) (flags &&& 1 ≠ 0) (flags &&& 2 ≠ 0)) ++ [(off, lit "}")])) := by
  obtain ⟨A, S, R⟩ := rel_of_hist G h
  refine ⟨fun q => factsOf M S q.1 (c.live.countP fun x => decide (x.2 = q.1)), fun q hq => factsOf_true R (hg q hq), fun ptr off flags => ⟨room S (g.map (·.1)), fun fuel hf => ?_⟩⟩
  have hd : ∀ p ∈ g.map (·.1), display ptr (off + 1) M p flags fuel = .ok (ofLines ((factsOf M S p (c.live.countP fun x => decide (x.2 = p))).lines ptr (off + 1) (flags &&& 1 ≠ 0) (flags &&& 2 ≠ 0))) := by
    intro p hp
    have := room_le (S := S) hp
    obtain ⟨q, hq, rfl⟩ := List.mem_map.1 hp
    exact display_spec R (R.mem (hg q hq)).2 ((hz q hq).sized R (hg q hq)) ptr (off + 1) flags fuel ⟨by omega, by omega⟩
  obtain ⟨-, -, -, l4, -, -, -, -, -, -, -, -, -, l14, -⟩ := lits
  rw [groupDisplay, groupShow_spec _ hd, Outcome.ok_bind, List.flatMap_map, l14, l4, blank_eq, ofLines_append, ofLines_append, ofLines_cons, ofLines_cons, ofLines_nil]
  simp only [List.append_assoc, List.append_nil]

/-- Violation of C121: after zt_mem_pool_release_free_pages the display says that one page was allocated, none freed and none is there. -/
theorem c121_frees_violation : ∃ t, ((init bump start [97] 2 3000 defaultTest 0).bind fun r => (releaseFreePages r.2 (r.1.getD 0) 5).bind fun M => display (fun _ => lit "p") 0 M (r.1.getD 0) 0 5) = .ok t ∧
    lit "total pages: 0\n" <:+: t ∧ lit "page allocs: 1\n" <:+: t ∧ lit "page frees: 0\n" <:+: t := by
  refine ⟨_, rfl, ?_⟩
  decide +kernel

/-- A pool with an element held. -/
example : ∃ c M q, Hist bump c M ∧ q ∈ c.pools ∧ Fitting M q ∧ c.live ≠ [] := by
  have h0 : Hist bump ⟨[], [], false⟩ start := .start rfl rfl rfl
  obtain ⟨p, M1, e1⟩ := (c30_total bump_good h0).1 [97] 2 3000 defaultTest 0 (by simp [Fits])
  have h1 := Hist.init h0 (by simp [Fits]) e1
  obtain ⟨⟨d, M2, e2⟩, _⟩ := (c30_total bump_good h1).2.1 (p, 3000, [97]) (by simp)
  have k : ((init bump start [97] 2 3000 defaultTest 0).bind fun r => (alloc bump r.2 (r.1.getD 0)).bind fun s => (getStats s.2 (r.1.getD 0)).bind fun st => .ok [st.pages, st.pageSize]) = .ok [1, 6080] := by decide +kernel
  rw [e1] at k
  simp only [Outcome.bind, Option.getD_some, e2] at k
  refine ⟨_, M2, (p, 3000, [97]), .alloc (sz := 3000) (name := [97]) h1 (by simp) e2, by simp, fun s hs => ?_, by simp⟩
  rw [hs] at k
  simp only [Outcome.ok.injEq, List.cons.injEq] at k
  rw [k.1, k.2.1]
  decide

end ZT.MemPool
