import Verif.Array.Own

/-!
# C114: the allocation functions and macros (zt_malloc.c, zt.h 33-42)

The C library's allocator is a parameter: for which sizes it finds memory, what fresh memory contains, and whether `realloc(p, 0)` frees `p` and returns NULL, as the C standard allows.
-/

namespace ZT.Alloc

open Arr.Own (Heap Good Upd alloc_upd free_upd load_ok alloc_cont alloc_mem)

/-- The C library's allocator. -/
structure Libc where
  avail : Nat → Bool
  junk : Nat → Byte
  zeroFrees : Bool

/-- SIZE_MAX + 1. -/
def sizeMod : Nat := 18446744073709551616

/-- malloc -/
def malloc (L : Libc) (h : Heap) (n : Nat) : Option Nat × Heap :=
  if L.avail n then (some (h.alloc ((List.range n).map L.junk)).1, (h.alloc ((List.range n).map L.junk)).2) else (none, h)

/-- calloc: the product is checked. -/
def calloc (L : Libc) (h : Heap) (num size : Nat) : Option Nat × Heap :=
  if num * size < sizeMod ∧ L.avail (num * size) then (some (h.alloc (List.replicate (num * size) 0)).1, (h.alloc (List.replicate (num * size) 0)).2) else (none, h)

/-- realloc -/
def realloc (L : Libc) (h : Heap) (p : Option Nat) (n : Nat) : Outcome (Option Nat × Heap) :=
  match p with
  | none => .ok (malloc L h n)
  | some b => do
      let m ← h.load b
      if n = 0 ∧ L.zeroFrees then do
        let h ← h.free b
        .ok (none, h)
      else if L.avail n then do
        let h ← h.free b
        .ok (some (h.alloc (Arr.realloc L.junk m n)).1, (h.alloc (Arr.realloc L.junk m n)).2)
      else .ok (none, h)

/-- `zt_assert_always(mem)` and `return mem` (zt_assert.h 53) -/
def checked (r : Option Nat × Heap) : Outcome (Nat × Heap) :=
  match r.1 with
  | some b => .ok (b, r.2)
  | none => .abort

/-- zt_malloc.c 18-28 `zt_calloc_p` -/
def callocP (L : Libc) (h : Heap) (num size : Nat) : Outcome (Nat × Heap) := checked (calloc L h num size)

/-- zt_malloc.c 30-39 `zt_malloc_p` -/
def mallocP (L : Libc) (h : Heap) (num : Nat) : Outcome (Nat × Heap) := checked (malloc L h num)

/-- zt_malloc.c 41-50 `zt_realloc_p` -/
def reallocP (L : Libc) (h : Heap) (p : Option Nat) (num : Nat) : Outcome (Nat × Heap) := do
  let r ← realloc L h p num
  checked r

/-- zt_malloc.c 53-63 `zt_strdup_p`: `s` is the memory from `string` on, or NULL. -/
def strdupP (L : Libc) (h : Heap) : Option (List Byte) → Outcome (Nat × Heap)
  | none => .abort
  | some s => do
      let n ← strlen s
      if L.avail (n + 1) then checked (some (h.alloc (s.take n ++ [0])).1, (h.alloc (s.take n ++ [0])).2) else checked (none, h)

/-- zt.h 35 `zt_calloc(type, num)`; `size` is sizeof(type). -/
def ztCalloc (L : Libc) (h : Heap) (size num : Nat) : Outcome (Nat × Heap) := callocP L h num size

/-- zt.h 36 `zt_malloc(type, num)`: the product is a size_t. -/
def ztMalloc (L : Libc) (h : Heap) (size num : Nat) : Outcome (Nat × Heap) := mallocP L h (num * size % sizeMod)

/-- zt.h 37 `zt_realloc(type, p, num)` -/
def ztRealloc (L : Libc) (h : Heap) (size : Nat) (p : Option Nat) (num : Nat) : Outcome (Nat × Heap) := reallocP L h p (num * size % sizeMod)

/-- zt.h 38-41 `zt_free(stale)`: the variable and the heap. -/
def ztFree (h : Heap) : Option Nat → Outcome (Option Nat × Heap)
  | some b => do
      let h ← h.free b
      .ok (none, h)
  | none => .ok (none, h)

/-! ## Specification -/

/-- The caller has one more block, `b`; all other blocks are as they were. -/
def Fresh (h : Heap) (r : Nat × Heap) : Prop :=
  r.1 ∉ h.live ∧ (∀ x, x ∈ r.2.live ↔ x = r.1 ∨ x ∈ h.live) ∧ (∀ x ∈ h.live, r.2.cont x = h.cont x) ∧ Good r.2

/-! ## Proofs -/

theorem fresh_alloc {h : Heap} (G : Good h) (c : List Byte) : Fresh h ((h.alloc c).1, (h.alloc c).2) := by
  have u := alloc_upd G c []
  refine ⟨fun hb => (u.keep _ hb (by simp)).2.1 (by simp), fun x => ?_, fun x hx => (u.keep x hx (by simp)).2.2, u.good⟩
  have := (u.perm h.live (List.Perm.refl _)).mem_iff (a := x)
  simpa using this

/-- **C114**: zt_calloc gives a new block of exactly `num` zeroed elements, or ends the program; never NULL, never less. -/
theorem c114_calloc (L : Libc) {h : Heap} (G : Good h) (size num : Nat) :
    ztCalloc L h size num = .abort ∨ ∃ r, ztCalloc L h size num = .ok r ∧ Fresh h r ∧ r.2.cont r.1 = List.replicate (num * size) 0 := by
  unfold ztCalloc callocP calloc checked
  by_cases c : num * size < sizeMod ∧ L.avail (num * size)
  · rw [if_pos c]
    exact .inr ⟨_, rfl, fresh_alloc G _, alloc_cont _ _⟩
  · rw [if_neg c]; exact .inl rfl

/-- **C114**: it ends the program only if there is no memory for that many bytes. -/
theorem c114_calloc_abort (L : Libc) (h : Heap) (size num : Nat) : ztCalloc L h size num = .abort ↔ sizeMod ≤ num * size ∨ L.avail (num * size) = false := by
  unfold ztCalloc callocP calloc checked
  by_cases c : num * size < sizeMod ∧ L.avail (num * size)
  · rw [if_pos c]
    simp [c.2]; omega
  · rw [if_neg c]
    simp only [true_iff]
    cases e : L.avail (num * size) with
    | false => exact .inr rfl
    | true => rw [e] at c; simp at c; exact .inl c

/-- **C114**: zt_malloc gives a new block with room for `num` elements, or ends the program, if the number of bytes is a size_t. -/
theorem c114_malloc_partial (L : Libc) {h : Heap} (G : Good h) (size num : Nat) (hs : num * size < sizeMod) :
    (ztMalloc L h size num = .abort ∧ L.avail (num * size) = false) ∨ ∃ r, ztMalloc L h size num = .ok r ∧ Fresh h r ∧ (r.2.cont r.1).length = num * size := by
  unfold ztMalloc mallocP malloc checked
  rw [Nat.mod_eq_of_lt hs]
  by_cases c : L.avail (num * size)
  · rw [if_pos c]
    exact .inr ⟨_, rfl, fresh_alloc G _, by rw [alloc_cont]; simp⟩
  · rw [if_neg c]; exact .inl ⟨rfl, by simpa using c⟩

/-- **C114**: otherwise the block is too small, and the caller does not learn of it. -/
theorem c114_malloc_violation (L : Libc) {h : Heap} (size num : Nat) (hs : sizeMod ≤ num * size) (hL : L.avail (num * size % sizeMod) = true) :
    ∃ r, ztMalloc L h size num = .ok r ∧ (r.2.cont r.1).length < num * size := by
  unfold ztMalloc mallocP malloc checked
  rw [if_pos hL]
  refine ⟨_, rfl, ?_⟩
  rw [alloc_cont, List.length_map, List.length_range]
  have : num * size % sizeMod < sizeMod := Nat.mod_lt _ (by decide)
  omega

/-- **C114**: zt_realloc of a block gives a block with room for `num` elements, which begins with the old contents, and takes the old one back; or it ends the program, if there is no memory. -/
theorem c114_realloc_partial (L : Libc) {h : Heap} (G : Good h) (size num b : Nat) (hb : b ∈ h.live) (h0 : 0 < num * size) (hs : num * size < sizeMod) :
    (ztRealloc L h size (some b) num = .abort ∧ L.avail (num * size) = false) ∨
      ∃ p h', ztRealloc L h size (some b) num = .ok (p, h') ∧ p ∉ h.live ∧ (∀ x, x ∈ h'.live ↔ x = p ∨ (x ∈ h.live ∧ x ≠ b)) ∧ (∀ x ∈ h.live, x ≠ b → h'.cont x = h.cont x) ∧ Good h' ∧
        (h'.cont p).length = num * size ∧ ∀ i, i < num * size → i < (h.cont b).length → (h'.cont p)[i]? = (h.cont b)[i]? := by
  unfold ztRealloc reallocP realloc
  rw [Nat.mod_eq_of_lt hs]
  dsimp only
  rw [load_ok hb, Outcome.ok_bind, if_neg (by omega)]
  by_cases c : L.avail (num * size)
  · rw [if_pos c]
    obtain ⟨h1, e1, e2, u⟩ := free_upd G hb []
    rw [e1, Outcome.ok_bind, Outcome.ok_bind]
    have F := fresh_alloc u.good (Arr.realloc L.junk (h.cont b) (num * size))
    have hc := alloc_cont h1 (Arr.realloc L.junk (h.cont b) (num * size))
    have hn : b ∉ h1.live := by
      have hp := u.perm (h.live.erase b) (List.perm_cons_erase hb)
      intro hm
      have := hp.mem_iff.1 hm
      simp only [List.nil_append] at this
      exact (G.nodup.mem_erase_iff.1 this).1 rfl
    have hl : ∀ x, x ∈ h1.live ↔ x ∈ h.live ∧ x ≠ b := by
      intro x
      have hp := (u.perm (h.live.erase b) (List.perm_cons_erase hb)).mem_iff (a := x)
      simp only [List.nil_append] at hp
      rw [hp, G.nodup.mem_erase_iff]; exact And.comm
    have hnx : (h1.alloc (Arr.realloc L.junk (h.cont b) (num * size))).1 ∉ h.live := by
      intro hm
      have h2 := G.lt _ hm
      have h3 := u.mono
      have h4 : (h1.alloc (Arr.realloc L.junk (h.cont b) (num * size))).1 = h1.next := rfl
      omega
    refine .inr ⟨_, _, rfl, hnx, fun x => ?_, fun x hx hne => ?_, F.2.2.2, ?_, fun i hi hi2 => ?_⟩
    · rw [F.2.1 x, hl]
    · have := F.2.2.1 x ((hl x).2 ⟨hx, hne⟩)
      rw [this, e2]
    · rw [hc]; simp [Arr.realloc]; omega
    · rw [hc, Arr.realloc, List.getElem?_append_left (by simp; omega), List.getElem?_take_of_lt hi]
  · rw [if_neg c]; exact .inl ⟨rfl, by simpa using c⟩

/-- **C114**: shrinking a block to nothing ends the program where `realloc(p, 0)` returns NULL. -/
theorem c114_realloc_violation (L : Libc) {h : Heap} (size b : Nat) (hb : b ∈ h.live) (hz : L.zeroFrees = true) : ztRealloc L h size (some b) 0 = .abort := by
  unfold ztRealloc reallocP realloc
  dsimp only
  rw [load_ok hb, Outcome.ok_bind, if_pos ⟨by simp, hz⟩]
  show ((h.free b >>= fun h => Outcome.ok (none, h)) >>= fun r => checked r) = _
  rw [Heap.free, if_pos hb]; rfl

/-- **C114**: zt_strdup gives a new block that holds the string; it ends the program for NULL or if there is no memory. -/
theorem c114_strdup (L : Libc) {h : Heap} (G : Good h) (t rest : List Byte) (ht : ∀ b ∈ t, b ≠ 0) :
    strdupP L h none = .abort ∧
    ((strdupP L h (some (t ++ 0 :: rest)) = .abort ∧ L.avail (t.length + 1) = false) ∨
      ∃ r, strdupP L h (some (t ++ 0 :: rest)) = .ok r ∧ Fresh h r ∧ r.2.cont r.1 = t ++ [0]) := by
  refine ⟨rfl, ?_⟩
  unfold strdupP checked
  dsimp only
  rw [strlen_eq t rest ht, Outcome.ok_bind]
  by_cases c : L.avail (t.length + 1)
  · rw [if_pos c]
    refine .inr ⟨_, rfl, fresh_alloc G _, ?_⟩
    rw [alloc_cont]; simp
  · rw [if_neg c]; exact .inl ⟨rfl, by simpa using c⟩

/-- **C114**: zt_free takes the block back and forgets it, so that a second zt_free of the same variable does nothing. -/
theorem c114_free {h : Heap} (G : Good h) (b : Nat) (hb : b ∈ h.live) :
    ∃ h', ztFree h (some b) = .ok (none, h') ∧ (∀ x, x ∈ h'.live ↔ x ∈ h.live ∧ x ≠ b) ∧ h'.cont = h.cont ∧ ztFree h' none = .ok (none, h') := by
  obtain ⟨h1, e1, e2, u⟩ := free_upd G hb []
  refine ⟨h1, ?_, fun x => ?_, e2, rfl⟩
  · unfold ztFree; dsimp only; rw [e1]; rfl
  · have hp := (u.perm (h.live.erase b) (List.perm_cons_erase hb)).mem_iff (a := x)
    simp only [List.nil_append] at hp
    rw [hp, G.nodup.mem_erase_iff]; exact And.comm

/-- **C114**: a copy of the variable is not forgotten: freeing it too is undefined. -/
theorem c114_free_violation {h : Heap} (G : Good h) (b : Nat) (hb : b ∈ h.live) : ∃ h', ztFree h (some b) = .ok (none, h') ∧ ztFree h' (some b) = .ub := by
  obtain ⟨h1, e1, e2, _, _⟩ := c114_free G b hb
  refine ⟨h1, e1, ?_⟩
  unfold ztFree; dsimp only
  rw [Heap.free, if_neg fun k => ((e2 b).1 k).2 rfl]; rfl

/-! ## Examples -/

/-- An allocator with a gigabyte. -/
def gig : Libc := ⟨fun n => n ≤ 1073741824, fun _ => 7, true⟩

def heap1 : Heap := ⟨[0], fun _ => [1, 2, 3], 1⟩

theorem heap1_good : Good heap1 := ⟨by simp [heap1], by simp [heap1]⟩

example : ∃ r, ztMalloc gig heap1 8 (2 ^ 61 + 1) = .ok r ∧ (r.2.cont r.1).length < (2 ^ 61 + 1) * 8 := c114_malloc_violation gig 8 (2 ^ 61 + 1) (by decide) (by decide)
example : ztRealloc gig heap1 4 (some 0) 0 = .abort := c114_realloc_violation gig 4 0 (by simp [heap1]) rfl
example : (∃ r, ztRealloc gig heap1 1 (some 0) 5 = .ok r ∧ r.2.cont r.1 = [1, 2, 3, 7, 7]) := ⟨_, rfl, by decide⟩

end ZT.Alloc
