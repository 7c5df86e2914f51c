import Verif.MemPool.Oom

/-!
# C90: heaps (zt_mem.c 94-137, 651-668)

A heap is a block with a name and a size; the name is a copy in a block of its own. The allocator may refuse any request.
-/

namespace ZT.MemPool.Heaps

open ZT.MemPool (Alloc Block Sound Disj)

/-- The blocks and the fields of the heaps (name pointer, 0 for NULL; size) and the texts, by address. -/
structure State where
  blocks : List Block
  tick : Nat
  name : Nat → Nat
  size : Nat → Nat
  text : Nat → List Byte

/-- Access to `n` bytes at `a`. -/
def chk (M : State) (a n : Nat) : Outcome Unit := if M.blocks.any (fun b => b.1 ≤ a && a + n ≤ b.1 + b.2) then .ok () else .ub

/-- GLOBAL_zmt.alloc, the size being a size_t. -/
def malloc (al : Alloc) (M : State) (n : Nat) : Option (Nat × State) :=
  match al M.tick M.blocks (n % 2 ^ 64) with
  | none => none
  | some a => some (a, { M with blocks := (a, n % 2 ^ 64) :: M.blocks, tick := M.tick + 1 })

/-- GLOBAL_zmt.dealloc (free): NULL is allowed. -/
def dealloc (M : State) (a : Nat) : Outcome State :=
  if a = 0 then .ok M
  else if M.blocks.any (fun b => b.1 = a) then .ok { M with blocks := M.blocks.filter (fun b => b.1 ≠ a) } else .ub

/-- "*unknown*" -/
def unknown : List Byte := [0x2A, 0x75, 0x6E, 0x6B, 0x6E, 0x6F, 0x77, 0x6E, 0x2A]

/-- zt_mem.c 652-668 `zt_mem_strdup` on a text: the address of the copy, 0 for NULL. -/
def strdup (al : Alloc) (M : State) (s : List Byte) : Outcome (Nat × State) :=
  match malloc al M (s.length + 1) with
  | none => .ok (0, M)
  | some (a, M) => do
      chk M a (s.length + 1)
      .ok (a, { M with text := fun x => if x = a then s else M.text x })

/-- zt_mem.c 94-107 `zt_mem_heap_init`; sizeof(zt_mem_heap) is 16. The result is 0 for NULL. -/
def init (al : Alloc) (M : State) (name : Option (List Byte)) (size : Nat) : Outcome (Nat × State) :=
  match malloc al M (16 + size) with
  | none => .ok (0, M)
  | some (a, M) => do
      let (s, M) ← strdup al M (name.getD unknown)
      chk M a 16
      .ok (a, { M with name := fun x => if x = a then s else M.name x, size := fun x => if x = a then size else M.size x })

/-- zt_mem.c 109-122 `zt_mem_heap_destroy` on the address of a heap pointer. -/
def destroy (M : State) (a : Nat) : Outcome State := do
  chk M a 16
  let M ← dealloc M (M.name a)
  chk M a 16
  dealloc M a

/-- zt_mem.c 124-128 `zt_mem_heap_get_data`. -/
def data (a : Nat) : Nat := a + 16

/-- zt_mem.c 130-137 `zt_mem_heap_get_name`: the text; `none` for NULL. -/
def getName (M : State) (a : Nat) : Outcome (Option (List Byte)) :=
  if a = 0 then .ok none
  else do
    chk M a 16
    .ok (if M.name a = 0 then none else some (M.text (M.name a)))

/-! ### C90 -/

/-- Histories of heaps: the heaps that exist, with the size and the name asked for. -/
inductive Hist (al : Alloc) : List (Nat × Nat × List Byte) → State → Prop
  | start {M} : M.blocks = [] → Hist al [] M
  | init {hs M name size a M'} : Hist al hs M → 16 + size < 2 ^ 64 → (name.getD unknown).length + 1 < 2 ^ 64 → init al M name size = .ok (a, M') → a ≠ 0 → Hist al ((a, size, name.getD unknown) :: hs) M'
  | refused {hs M name size M'} : Hist al hs M → 16 + size < 2 ^ 64 → (name.getD unknown).length + 1 < 2 ^ 64 → init al M name size = .ok (0, M') → Hist al hs M'
  | destroy {hs M h M'} : Hist al hs M → h ∈ hs → destroy M h.1 = .ok M' → Hist al (hs.erase h) M'

/-- The blocks of a heap: its own and the one of the name, if there was memory for it. -/
def blocksOf (M : State) (h : Nat × Nat × List Byte) : List Block :=
  (h.1, 16 + h.2.1) :: if M.name h.1 = 0 then [] else [(M.name h.1, h.2.2.length + 1)]

structure Inv (hs : List (Nat × Nat × List Byte)) (M : State) : Prop where
  perm : M.blocks.Perm (hs.flatMap (blocksOf M))
  disj : M.blocks.Pairwise Disj
  pos : ∀ b ∈ M.blocks, 0 < b.1 ∧ 0 < b.2
  text : ∀ h ∈ hs, M.name h.1 ≠ 0 → M.text (M.name h.1) = h.2.2

theorem chk_mem {M : State} {b : Block} (h : b ∈ M.blocks) {a n : Nat} (h1 : b.1 ≤ a) (h2 : a + n ≤ b.1 + b.2) : chk M a n = .ok () := by
  unfold chk
  rw [if_pos]
  rw [List.any_eq_true]
  exact ⟨b, h, by simp [h1, h2]⟩

theorem starts_ne {b c : Block} (hb : 0 < b.2) (hc : 0 < c.2) (h : Disj b c) : b.1 ≠ c.1 := by
  unfold Disj at h
  omega

theorem filter_start {bs : List Block} (hd : bs.Pairwise Disj) (hp : ∀ b ∈ bs, 0 < b.1 ∧ 0 < b.2) {b : Block} (hb : b ∈ bs) : bs.filter (fun x => x.1 ≠ b.1) = bs.erase b := by
  induction bs with
  | nil => cases hb
  | cons x xs ih =>
      rw [List.pairwise_cons] at hd
      have hx := hp x (by simp)
      by_cases e : x = b
      · subst e
        rw [List.erase_cons_head, List.filter_cons_of_neg (by simp), List.filter_eq_self]
        intro y hy
        have := starts_ne hx.2 (hp y (by simp [hy])).2 (hd.1 y hy)
        simpa using fun h => this h.symm
      · have hb' : b ∈ xs := by
          rcases List.mem_cons.1 hb with h | h
          · exact absurd h.symm e
          · exact h
        have hne : x.1 ≠ b.1 := starts_ne hx.2 (hp b (by simp [hb'])).2 (hd.1 b hb')
        rw [List.erase_cons_tail (by simpa using e), List.filter_cons_of_pos (by simpa using hne), ih hd.2 (fun y hy => hp y (by simp [hy])) hb']

theorem dealloc_mem {M : State} (hd : M.blocks.Pairwise Disj) (hp : ∀ b ∈ M.blocks, 0 < b.1 ∧ 0 < b.2) {b : Block} (hb : b ∈ M.blocks) : dealloc M b.1 = .ok { M with blocks := M.blocks.erase b } := by
  unfold dealloc
  rw [if_neg (by have := (hp b hb).1; omega), if_pos (List.any_eq_true.2 ⟨b, hb, by simp⟩), filter_start hd hp hb]

theorem Inv.own {hs : List (Nat × Nat × List Byte)} {M : State} (I : Inv hs M) {h : Nat × Nat × List Byte} (hm : h ∈ hs) : (h.1, 16 + h.2.1) ∈ M.blocks :=
  I.perm.mem_iff.2 (List.mem_flatMap.2 ⟨h, hm, by simp [blocksOf]⟩)

theorem Inv.nameBlock {hs : List (Nat × Nat × List Byte)} {M : State} (I : Inv hs M) {h : Nat × Nat × List Byte} (hm : h ∈ hs) (hn : M.name h.1 ≠ 0) : (M.name h.1, h.2.2.length + 1) ∈ M.blocks :=
  I.perm.mem_iff.2 (List.mem_flatMap.2 ⟨h, hm, by simp [blocksOf, hn]⟩)

theorem flatMap_congr' {α β : Type} {l : List α} {f g : α → List β} (h : ∀ x ∈ l, f x = g x) : l.flatMap f = l.flatMap g := by
  induction l with
  | nil => rfl
  | cons x xs ih => rw [List.flatMap_cons, List.flatMap_cons, h x (by simp), ih fun y hy => h y (by simp [hy])]

theorem init_spec {al : Alloc} (S : Sound al) {hs : List (Nat × Nat × List Byte)} {M : State} (I : Inv hs M) (name : Option (List Byte)) {size : Nat} (h1 : 16 + size < 2 ^ 64) (h2 : (name.getD unknown).length + 1 < 2 ^ 64) :
    init al M name size = .ok (0, M) ∨ ∃ a M', init al M name size = .ok (a, M') ∧ a ≠ 0 ∧ Inv ((a, size, name.getD unknown) :: hs) M' ∧ (∀ b ∈ M.blocks, Disj (a, 16 + size) b) := by
  have e1 : (16 + size) % 2 ^ 64 = 16 + size := Nat.mod_eq_of_lt h1
  have e2 : ((name.getD unknown).length + 1) % 2 ^ 64 = (name.getD unknown).length + 1 := Nat.mod_eq_of_lt h2
  unfold init malloc
  rw [e1]
  cases ha : al M.tick M.blocks (16 + size) with
  | none => exact .inl rfl
  | some a =>
      right
      obtain ⟨hpos, hdisj⟩ := S _ _ _ _ ha
      have hne : ∀ h ∈ hs, h.1 ≠ a := by
        intro h hm
        have := starts_ne (b := (a, 16 + size)) (c := (h.1, 16 + h.2.1)) (by simp; omega) (by simp; omega) (hdisj _ (I.own hm))
        exact fun e => this e.symm
      unfold strdup malloc
      rw [e2]
      simp only
      cases hs2 : al (M.tick + 1) ((a, 16 + size) :: M.blocks) ((name.getD unknown).length + 1) with
      | none =>
          simp only [Outcome.ok_bind]
          rw [chk_mem (b := (a, 16 + size)) (by simp) (by simp) (by simp)]
          refine ⟨a, _, rfl, by omega, ⟨?_, ?_, ?_, ?_⟩, hdisj⟩
          · simp only [List.flatMap_cons, blocksOf, if_true, List.cons_append, List.nil_append]
            refine List.Perm.cons _ (I.perm.trans (List.Perm.of_eq (flatMap_congr' fun x hx => ?_)))
            simp [blocksOf, hne x hx]
          · exact List.pairwise_cons.2 ⟨hdisj, I.disj⟩
          · intro b hb
            rcases List.mem_cons.1 hb with rfl | hb
            · exact ⟨hpos, by simp; omega⟩
            · exact I.pos b hb
          · intro h hm hn
            rcases List.mem_cons.1 hm with rfl | hm
            · simp at hn
            · simp only [if_neg (hne h hm)] at hn ⊢
              exact I.text h hm hn
      | some s =>
          obtain ⟨hpos2, hdisj2⟩ := S _ _ _ _ hs2
          have hs0 : s ≠ 0 := by omega
          have hsa : a ≠ s := starts_ne (b := (a, 16 + size)) (c := (s, (name.getD unknown).length + 1)) (by simp; omega) (by simp) (by have := hdisj2 (a, 16 + size) (by simp); unfold Disj at *; omega)
          simp only
          rw [chk_mem (b := (s, (name.getD unknown).length + 1)) (by simp) (by simp) (by simp)]
          simp only [Outcome.ok_bind]
          rw [chk_mem (b := (a, 16 + size)) (by simp) (by simp) (by simp)]
          refine ⟨a, _, rfl, by omega, ⟨?_, ?_, ?_, ?_⟩, hdisj⟩
          · simp only [List.flatMap_cons, blocksOf, if_true, if_neg hs0, List.cons_append, List.nil_append]
            refine (List.Perm.swap _ _ _).trans (List.Perm.cons _ (List.Perm.cons _ (I.perm.trans (List.Perm.of_eq (flatMap_congr' fun x hx => ?_)))))
            simp [blocksOf, hne x hx]
          · exact List.pairwise_cons.2 ⟨hdisj2, List.pairwise_cons.2 ⟨hdisj, I.disj⟩⟩
          · intro b hb
            rcases List.mem_cons.1 hb with rfl | hb
            · exact ⟨hpos2, by simp⟩
            · rcases List.mem_cons.1 hb with rfl | hb
              · exact ⟨hpos, by simp; omega⟩
              · exact I.pos b hb
          · intro h hm hn
            rcases List.mem_cons.1 hm with rfl | hm
            · simp
            · simp only [if_neg (hne h hm)] at hn ⊢
              have := starts_ne (b := (s, (name.getD unknown).length + 1)) (c := (M.name h.1, h.2.2.length + 1)) (by simp) (by simp) (hdisj2 _ (by simp [I.nameBlock hm hn]))
              rw [if_neg fun e => this e.symm]
              exact I.text h hm hn

theorem destroy_spec {hs : List (Nat × Nat × List Byte)} {M : State} (I : Inv hs M) {h : Nat × Nat × List Byte} (hm : h ∈ hs) : ∃ M', destroy M h.1 = .ok M' ∧ Inv (hs.erase h) M' := by
  have hown := I.own hm
  have hp : M.blocks.Perm (blocksOf M h ++ (hs.erase h).flatMap (blocksOf M)) :=
    I.perm.trans ((List.perm_cons_erase hm).flatMap_right _)
  unfold destroy
  rw [chk_mem hown (by simp) (by simp)]
  simp only [Outcome.ok_bind]
  by_cases hn : M.name h.1 = 0
  · rw [show dealloc M (M.name h.1) = .ok M by simp [dealloc, hn]]
    simp only [Outcome.ok_bind]
    rw [chk_mem hown (by simp) (by simp)]
    simp only [Outcome.ok_bind]
    refine ⟨_, dealloc_mem I.disj I.pos hown, ⟨?_, I.disj.sublist List.erase_sublist, fun b hb => I.pos b (List.mem_of_mem_erase hb), fun x hx => I.text x (List.mem_of_mem_erase hx)⟩⟩
    simp only [blocksOf, hn, if_true, List.cons_append, List.nil_append] at hp
    have := hp.erase (h.1, 16 + h.2.1)
    rw [List.erase_cons_head] at this
    exact this
  · have hnb := I.nameBlock hm hn
    rw [show dealloc M (M.name h.1) = _ from dealloc_mem I.disj I.pos hnb]
    simp only [Outcome.ok_bind]
    have hp2 := hp.erase (M.name h.1, h.2.2.length + 1)
    have hd := I.disj
    have hne : (h.1, 16 + h.2.1) ≠ (M.name h.1, h.2.2.length + 1) := by
      intro e
      have hnd : M.blocks.Nodup := List.Pairwise.imp_of_mem (R := Disj) (fun {a b} ha _ hab e => by
        subst e
        have := (I.pos a ha).2
        unfold Disj at hab
        omega) I.disj
      have := hp.nodup_iff.1 hnd
      simp only [blocksOf, hn, if_false, List.cons_append, List.nil_append, List.nodup_cons, List.mem_cons] at this
      exact this.1 (.inl e)
    have hown2 : (h.1, 16 + h.2.1) ∈ M.blocks.erase (M.name h.1, h.2.2.length + 1) := (List.mem_erase_of_ne hne).2 hown
    rw [chk_mem (b := (h.1, 16 + h.2.1)) hown2 (by simp) (by simp)]
    simp only [Outcome.ok_bind]
    have hd2 : (M.blocks.erase (M.name h.1, h.2.2.length + 1)).Pairwise Disj := I.disj.sublist List.erase_sublist
    have hpos2 : ∀ b ∈ M.blocks.erase (M.name h.1, h.2.2.length + 1), 0 < b.1 ∧ 0 < b.2 := fun b hb => I.pos b (List.mem_of_mem_erase hb)
    refine ⟨_, dealloc_mem (M := { M with blocks := M.blocks.erase (M.name h.1, h.2.2.length + 1) }) hd2 hpos2 hown2, ⟨?_, hd2.sublist List.erase_sublist, fun b hb => hpos2 b (List.mem_of_mem_erase hb), fun x hx => I.text x (List.mem_of_mem_erase hx)⟩⟩
    simp only [blocksOf, hn, if_false, List.cons_append, List.nil_append] at hp2
    rw [List.erase_cons_tail (by simpa using hne), List.erase_cons_head] at hp2
    have := hp2.erase (h.1, 16 + h.2.1)
    rw [List.erase_cons_head] at this
    exact this

theorem inv_of_hist {al : Alloc} (S : Sound al) {hs : List (Nat × Nat × List Byte)} {M : State} (h : Hist al hs M) : Inv hs M := by
  induction h with
  | start hb => exact ⟨by simp [hb], by simp [hb], by simp [hb], by simp⟩
  | @init hs M name size a M' _ h1 h2 e ha ih =>
      rcases init_spec S ih name h1 h2 with e' | ⟨a', M1, e', _, I', _⟩
      · rw [e] at e'; cases e'; exact absurd rfl ha
      · rw [e] at e'; cases e'; exact I'
  | @refused hs M name size M' _ h1 h2 e ih =>
      rcases init_spec S ih name h1 h2 with e' | ⟨a', M1, e', hne, _⟩
      · rw [e] at e'; cases e'; exact ih
      · rw [e] at e'; cases e'; exact absurd rfl hne
  | @destroy hs M h M' _ hm e ih =>
      obtain ⟨M1, e', I'⟩ := destroy_spec ih hm
      rw [e] at e'; cases e'; exact I'

/-- **C90 (memory).** After any history the data of every heap lies in a block of its own with room for the size asked for; the data of different heaps do not overlap. -/
theorem c90_data {al : Alloc} (S : Sound al) {hs : List (Nat × Nat × List Byte)} {M : State} (h : Hist al hs M) :
    (∀ x ∈ hs, ∃ b ∈ M.blocks, b.1 ≤ data x.1 ∧ data x.1 + x.2.1 ≤ b.1 + b.2) ∧ (hs.Pairwise fun x y => data x.1 + x.2.1 ≤ data y.1 ∨ data y.1 + y.2.1 ≤ data x.1) := by
  have I := inv_of_hist S h
  refine ⟨fun x hx => ⟨_, I.own hx, by simp [data], by simp [data]; omega⟩, ?_⟩
  have hd : (hs.flatMap (blocksOf M)).Pairwise Disj := (I.perm.pairwise_iff (fun {a b} h => by unfold Disj at *; omega)).1 I.disj
  rw [List.pairwise_flatMap] at hd
  refine hd.2.imp ?_
  intro x y hxy
  have := hxy (x.1, 16 + x.2.1) (by simp [blocksOf]) (y.1, 16 + y.2.1) (by simp [blocksOf])
  unfold Disj at this
  simp only at this
  unfold data
  omega

/-- **C90 (names).** zt_mem_heap_get_name gives the name of the heap, "*unknown*" for a heap created without one, or NULL if there was no memory for the copy. -/
theorem c90_name {al : Alloc} (S : Sound al) {hs : List (Nat × Nat × List Byte)} {M : State} (h : Hist al hs M) {x : Nat × Nat × List Byte} (hx : x ∈ hs) :
    getName M x.1 = .ok (some x.2.2) ∨ getName M x.1 = .ok none := by
  have I := inv_of_hist S h
  have hpos := (I.pos _ (I.own hx)).1
  unfold getName
  rw [if_neg (by simp only at hpos; omega), chk_mem (I.own hx) (by simp) (by simp)]
  simp only [Outcome.ok_bind]
  by_cases hn : M.name x.1 = 0
  · exact .inr (by rw [if_pos hn])
  · exact .inl (by rw [if_neg hn, I.text x hx hn])

theorem getName_eq {hs : List (Nat × Nat × List Byte)} {M : State} (I : Inv hs M) {x : Nat × Nat × List Byte} (hx : x ∈ hs) : getName M x.1 = .ok (if M.name x.1 = 0 then none else some x.2.2) := by
  have hpos := (I.pos _ (I.own hx)).1
  unfold getName
  rw [if_neg (by simp only at hpos; omega), chk_mem (I.own hx) (by simp) (by simp)]
  simp only [Outcome.ok_bind]
  by_cases hn : M.name x.1 = 0
  · rw [if_pos hn, if_pos hn]
  · rw [if_neg hn, if_neg hn, I.text x hx hn]

theorem dealloc_name {M M' : State} {a : Nat} (e : dealloc M a = .ok M') : M'.name = M.name := by
  unfold dealloc at e
  split at e
  · cases e; rfl
  · split at e
    · cases e; rfl
    · cases e

theorem destroy_name {M M' : State} {a : Nat} (e : destroy M a = .ok M') : M'.name = M.name := by
  unfold destroy at e
  obtain ⟨_, _, e⟩ := Outcome.bind_eq_ok.1 e
  obtain ⟨M1, e1, e⟩ := Outcome.bind_eq_ok.1 e
  obtain ⟨_, _, e⟩ := Outcome.bind_eq_ok.1 e
  rw [dealloc_name e, dealloc_name e1]

theorem init_name {al : Alloc} {M M' : State} {name : Option (List Byte)} {size a : Nat} (e : init al M name size = .ok (a, M')) {y : Nat} (hy : y ≠ a) : M'.name y = M.name y := by
  unfold init at e
  cases hm : malloc al M (16 + size) with
  | none => rw [hm] at e; cases e; rfl
  | some r =>
      obtain ⟨b, M1⟩ := r
      rw [hm] at e
      obtain ⟨⟨s, M2⟩, e1, e⟩ := Outcome.bind_eq_ok.1 e
      obtain ⟨_, _, e⟩ := Outcome.bind_eq_ok.1 e
      cases e
      simp only [if_neg hy]
      have h1 : M1.name = M.name := by
        unfold malloc at hm
        split at hm
        · cases hm
        · cases hm; rfl
      have h2 : M2.name = M1.name := by
        unfold strdup at e1
        cases hm2 : malloc al M1 ((name.getD unknown).length + 1) with
        | none => rw [hm2] at e1; cases e1; rfl
        | some r =>
            obtain ⟨c, M3⟩ := r
            rw [hm2] at e1
            obtain ⟨_, _, e1⟩ := Outcome.bind_eq_ok.1 e1
            cases e1
            unfold malloc at hm2
            split at hm2
            · cases hm2
            · cases hm2; rfl
      rw [h2, h1]

/-- **C90 (the name is kept).** Making another heap and destroying another heap change no heap's name; the name of no heap (NULL) is NULL. -/
theorem c90_steady {al : Alloc} (S : Sound al) {hs : List (Nat × Nat × List Byte)} {M : State} (h : Hist al hs M) {x : Nat × Nat × List Byte} (hx : x ∈ hs) :
    (∀ name size a M', 16 + size < 2 ^ 64 → (name.getD unknown).length + 1 < 2 ^ 64 → init al M name size = .ok (a, M') → getName M' x.1 = getName M x.1) ∧
    (∀ y M', y ∈ hs → x ∈ hs.erase y → destroy M y.1 = .ok M' → getName M' x.1 = getName M x.1) ∧ getName M 0 = .ok none := by
  have I := inv_of_hist S h
  refine ⟨fun name size a M' h1 h2 e => ?_, fun y M' hy hxy e => ?_, rfl⟩
  · rcases init_spec S I name h1 h2 with e' | ⟨a', M1, e', _, I', hd⟩
    · rw [e] at e'; cases e'; rfl
    · rw [e] at e'; cases e'
      have hne : x.1 ≠ a := by
        have := starts_ne (b := (a, 16 + size)) (c := (x.1, 16 + x.2.1)) (by simp; omega) (by simp; omega) (hd _ (I.own hx))
        exact fun e => this e.symm
      rw [getName_eq I' (List.mem_cons_of_mem _ hx), getName_eq I hx, init_name e hne]
  · obtain ⟨M1, e', I'⟩ := destroy_spec I hy
    rw [e] at e'; cases e'
    rw [getName_eq I' hxy, getName_eq I hx, destroy_name e]

/-- **C90 (creation).** A creation is always defined; it returns NULL and changes nothing, or a new heap that overlaps nothing allocated before. -/
theorem c90_init {al : Alloc} (S : Sound al) {hs : List (Nat × Nat × List Byte)} {M : State} (h : Hist al hs M) (name : Option (List Byte)) {size : Nat} (h1 : 16 + size < 2 ^ 64) (h2 : (name.getD unknown).length + 1 < 2 ^ 64) :
    init al M name size = .ok (0, M) ∨ ∃ a M', init al M name size = .ok (a, M') ∧ a ≠ 0 ∧ Hist al ((a, size, name.getD unknown) :: hs) M' ∧ ∀ b ∈ M.blocks, data a + size ≤ b.1 ∨ b.1 + b.2 ≤ data a := by
  rcases init_spec S (inv_of_hist S h) name h1 h2 with e | ⟨a, M', e, ha, _, hd⟩
  · exact .inl e
  · refine .inr ⟨a, M', e, ha, .init h h1 h2 e ha, fun b hb => ?_⟩
    have := hd b hb
    unfold Disj at this
    unfold data
    simp only at this
    omega

/-- **C90 (destruction).** Every heap can be destroyed; once all are, all memory has been given back. -/
theorem c90_destroy {al : Alloc} (S : Sound al) {hs : List (Nat × Nat × List Byte)} {M : State} (h : Hist al hs M) :
    (∀ x ∈ hs, ∃ M', destroy M x.1 = .ok M' ∧ Hist al (hs.erase x) M') ∧ (hs = [] → M.blocks = []) := by
  have I := inv_of_hist S h
  refine ⟨fun x hx => ?_, fun e => ?_⟩
  · obtain ⟨M', e, _⟩ := destroy_spec I hx
    exact ⟨M', e, .destroy h hx e⟩
  · have := I.perm
    rw [e] at this
    simpa using this

theorem pairwise_ne {α : Type} {R : α → α → Prop} (hs : ∀ a b, R a b → R b a) {l : List α} (h : l.Pairwise R) {x y : α} (hx : x ∈ l) (hy : y ∈ l) (hne : x ≠ y) : R x y := by
  induction l with
  | nil => cases hx
  | cons a l ih =>
      rw [List.pairwise_cons] at h
      rcases List.mem_cons.1 hx with rfl | _
      · rcases List.mem_cons.1 hy with rfl | hy
        · exact absurd rfl hne
        · exact h.1 y hy
      · rename_i hxl
        rcases List.mem_cons.1 hy with rfl | hy
        · exact hs _ _ (h.1 x hxl)
        · exact ih h.2 hxl hy

/-- **C90 (private data).** The data of a heap shares no byte with the bookkeeping of any heap (the 16 bytes at the handle, which the library reads in zt_mem_heap_get_name and zt_mem_heap_destroy) nor with the copy of any heap's name: whatever the user writes there, names and destruction are not affected. -/
theorem c90_private {al : Alloc} (S : Sound al) {hs : List (Nat × Nat × List Byte)} {M : State} (h : Hist al hs M) {x y : Nat × Nat × List Byte} (hx : x ∈ hs) (hy : y ∈ hs) :
    (data x.1 + x.2.1 ≤ y.1 ∨ y.1 + 16 ≤ data x.1) ∧ (M.name y.1 ≠ 0 → data x.1 + x.2.1 ≤ M.name y.1 ∨ M.name y.1 + (y.2.2.length + 1) ≤ data x.1) := by
  have I := inv_of_hist S h
  have hd : (hs.flatMap (blocksOf M)).Pairwise Disj := (I.perm.pairwise_iff (fun {a b} h => by unfold Disj at *; omega)).1 I.disj
  rw [List.pairwise_flatMap] at hd
  by_cases e : x = y
  · subst e
    refine ⟨by unfold data; omega, fun hn => ?_⟩
    have := hd.1 x hx
    simp only [blocksOf, hn, if_false, List.pairwise_cons, List.mem_singleton, forall_eq, Disj] at this
    unfold data
    omega
  · have hxy := pairwise_ne (R := fun a b => ∀ u ∈ blocksOf M a, ∀ v ∈ blocksOf M b, Disj u v) (fun a b h u hu v hv => by have := h v hv u hu; unfold Disj at *; omega) hd.2 hx hy e
    have h1 := hxy (x.1, 16 + x.2.1) (by simp [blocksOf]) (y.1, 16 + y.2.1) (by simp [blocksOf])
    refine ⟨by unfold Disj at h1; simp only at h1; unfold data; omega, fun hn => ?_⟩
    have h2 := hxy (x.1, 16 + x.2.1) (by simp [blocksOf]) (M.name y.1, y.2.2.length + 1) (by simp [blocksOf, hn])
    unfold Disj at h2; simp only at h2; unfold data; omega

/-- Violation of C90: the size of the header is added without a check. For the last sizes below 2^64 the block that is granted is too small even for the header, which is written nevertheless (zt_mem.c 99-105). -/
theorem c90_size_violation {al : Alloc} (S : Sound al) (M : State) (name : Option (List Byte)) {size : Nat} (h1 : 2 ^ 64 < 16 + size) (h2 : size < 2 ^ 64) (ha : al M.tick M.blocks (16 + size - 2 ^ 64) ≠ none) :
    init al M name size = .ub := by
  obtain ⟨a, ha⟩ := Option.ne_none_iff_exists'.1 ha
  obtain ⟨hpos, hdisj⟩ := S _ _ _ _ ha
  have e1 : (16 + size) % 2 ^ 64 = 16 + size - 2 ^ 64 := by rw [Nat.mod_eq_sub_mod (by omega), Nat.mod_eq_of_lt (by omega)]
  have key : ∀ bs : List Block, (∀ b ∈ bs, b ∈ (a, 16 + size - 2 ^ 64) :: M.blocks ∨ Disj b (a, 16 + size - 2 ^ 64)) → ¬ bs.any (fun b => b.1 ≤ a && a + 16 ≤ b.1 + b.2) = true := by
    intro bs hb hc
    rw [List.any_eq_true] at hc
    obtain ⟨b, hm, hc⟩ := hc
    simp only [Bool.and_eq_true, decide_eq_true_eq] at hc
    rcases hb b hm with h | h
    · rcases List.mem_cons.1 h with rfl | h
      · simp only at hc; omega
      · have := hdisj b h
        unfold Disj at this
        simp only at this
        omega
    · unfold Disj at h
      simp only at h
      omega
  unfold init malloc
  rw [e1, ha]
  simp only
  unfold strdup malloc
  simp only
  split
  · rename_i e
    split at e
    · simp only [Outcome.ok_bind]
      unfold chk
      rw [if_neg (key _ fun b hb => .inl hb)]
      rfl
    · cases e
  · rename_i s M1 e
    split at e
    · cases e
    · rename_i s' hs
      obtain ⟨_, hd2⟩ := S _ _ _ _ hs
      cases e
      unfold chk
      split
      · simp only [Outcome.ok_bind]
        rw [if_neg (key _ fun b hb => ?_)]
        · rfl
        · rcases List.mem_cons.1 hb with rfl | hb
          · exact .inr (hd2 _ (by simp))
          · exact .inl hb
      · rfl

/-- A history with two heaps, of which the first is destroyed. -/
example : ∃ hs M, Hist bump hs M ∧ hs.map (·.2) = [(7, [98])] := by
  have S : Sound bump := fun t bs n a h => by obtain ⟨a', h1, h2⟩ := bump_good t bs n; rw [h1] at h; cases h; exact h2
  have h0 : Hist bump [] ⟨[], 0, fun _ => 0, fun _ => 0, fun _ => []⟩ := .start rfl
  rcases c90_init S h0 (some [97]) (size := 100) (by decide) (by decide) with e | ⟨a, M1, e1, _, h1, _⟩
  · exact absurd (congrArg (fun r => r.bind fun x => Outcome.ok (x.1 == 0)) e) (by decide +kernel)
  · rcases c90_init S h1 (some [98]) (size := 7) (by decide) (by decide) with e | ⟨b, M2, e2, _, h2, _⟩
    · exfalso
      have h : ∀ M : State, init bump M (some [98]) 7 ≠ .ok (0, M) := by
        intro M e
        unfold init malloc bump at e
        simp only at e
        obtain ⟨⟨s, M3⟩, _, e⟩ := Outcome.bind_eq_ok.1 e
        obtain ⟨_, _, e⟩ := Outcome.bind_eq_ok.1 e
        simp only [Outcome.ok.injEq, Prod.mk.injEq] at e
        have := (foldl_max_le M.blocks 16).1
        omega
      exact h _ e
    · obtain ⟨M3, _, h3⟩ := (c90_destroy S h2).1 (a, 100, [97]) (by simp)
      refine ⟨_, M3, h3, ?_⟩
      simp

end ZT.MemPool.Heaps
