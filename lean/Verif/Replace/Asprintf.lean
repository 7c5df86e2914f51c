import Verif.Array.Own
import Verif.Cstr.DumpPrint

/-!
# C111: the replacement of asprintf (replace/asprintf.c)

For systems without asprintf and vasprintf. The C library's `vsnprintf` is specified, not modelled: what the format and its arguments print is a text, or an error.
The model lets the two calls of `vsnprintf` find different texts (an argument may point to memory that another thread changes).
`VA_COPY` makes an independent copy of the argument list, so both calls see the same arguments.
-/

namespace ZT.Replace

open Arr.Own (Heap)

/-- INT_MAX. -/
def intMax : Nat := 2147483647

/-- errno of a failed allocation. -/
def ENOMEM : Nat := 12

/-- What the rest of the system does during a call. -/
structure Env where
  /-- malloc finds memory. -/
  mallocOk : Bool
  /-- realloc finds memory. -/
  reallocOk : Bool
  /-- The contents of fresh memory. -/
  junk : Nat → Byte
  /-- What the format prints at the first call of vsnprintf; nothing if it cannot be printed. -/
  first : Option (List Byte)
  /-- What it prints at the second call. -/
  second : Option (List Byte)

/-- What a call leaves: the value returned, `*str`, `errno` and the heap. -/
structure Res where
  ret : Int
  str : Option Nat
  errno : Nat
  heap : Heap

/-- The C library's `vsnprintf(b, size, fmt, ap)`: at most `size` bytes are written, the last one a NUL; the value returned is the length of the whole text, or -1 if the text cannot be printed or its length is not an int. -/
def vsnprintf (h : Heap) (b size : Nat) : Option (List Byte) → Outcome (Int × Heap)
  | none => .ok (-1, h)
  | some t =>
      if t.length > intMax then .ok (-1, h) else do
      let m ← h.load b
      let r ← Cstr.snprintf m 0 size t
      let h ← h.save b r.1
      .ok (r.2, h)

/-- replace/asprintf.c 80-84 (`fail:`) -/
def fail (h : Heap) : Outcome Res := .ok ⟨-1, none, ENOMEM, h⟩

/-- replace/asprintf.c 68-75, 77-78: the second attempt, in a block of the right size. -/
def retry (env : Env) (errno : Nat) (h : Heap) (b len : Nat) : Outcome Res := do
  let r ← vsnprintf h b len env.second
  if r.1 ≥ 0 ∧ r.1.toNat < len then .ok ⟨r.1, some b, errno, r.2⟩
  else do
    let h ← r.2.free b
    fail h

/-- replace/asprintf.c 62-76: a block for the whole text. -/
def grow (env : Env) (errno : Nat) (h : Heap) (b len : Nat) : Outcome Res :=
  if env.reallocOk then do
    let r ← h.realloc env.junk len (some b)
    retry env errno r.2 r.1 len
  else do
    let h ← h.free b
    fail h

/-- replace/asprintf.c 54-78 -/
def attempt (env : Env) (errno : Nat) (h : Heap) (b : Nat) : Outcome Res := do
  let r ← vsnprintf h b 128 env.first
  if r.1 ≥ 0 ∧ r.1 < 128 then .ok ⟨r.1, some b, errno, r.2⟩
  else if r.1 = intMax ∨ r.1 < 0 then do
    let h ← r.2.free b
    fail h
  else grow env errno r.2 b (r.1.toNat + 1)

/-- replace/asprintf.c 42-85 `vasprintf`; INIT_SZ is 128. -/
def vasprintf (env : Env) (errno : Nat) (h : Heap) : Outcome Res :=
  if env.mallocOk then attempt env errno (h.alloc (Arr.realloc env.junk [] 128)).2 (h.alloc (Arr.realloc env.junk [] 128)).1
  else fail h

/-- replace/asprintf.c 89-100 `asprintf`: `*str = NULL` first, which the call overwrites. -/
def asprintf (env : Env) (errno : Nat) (h : Heap) : Outcome Res := vasprintf env errno h

/-! ## Specification -/

/-- The call has failed and left no trace but `*str` and `errno`. -/
def Failed (h : Heap) (r : Res) : Prop :=
  r.ret = -1 ∧ r.str = none ∧ r.errno = ENOMEM ∧ (∀ x, x ∈ r.heap.live ↔ x ∈ h.live) ∧ ∀ x ∈ h.live, r.heap.cont x = h.cont x

/-- The caller has a new block, and nothing else has changed; the block holds the text `t` and a NUL. -/
def Printed (errno : Nat) (h : Heap) (t : List Byte) (r : Res) : Prop :=
  r.ret = t.length ∧ r.errno = errno ∧ ∃ b, r.str = some b ∧ b ∉ h.live ∧ (∀ x, x ∈ r.heap.live ↔ x = b ∨ x ∈ h.live) ∧ (∀ x ∈ h.live, r.heap.cont x = h.cont x) ∧ t ++ [0] <+: r.heap.cont b

/-! ## Proofs -/

open Arr.Own (Good Upd alloc_upd free_upd save_upd load_ok alloc_cont alloc_mem)

theorem Upd.failed {h h' : Heap} (u : Upd h [] h' [] []) : Failed h ⟨-1, none, ENOMEM, h'⟩ := by
  refine ⟨rfl, rfl, rfl, fun x => ?_, fun x hx => (u.keep x hx (by simp)).2.2⟩
  exact (u.perm h.live (List.Perm.refl _)).mem_iff

theorem Upd.printed {errno : Nat} {h h' : Heap} {b : Nat} {t : List Byte} (u : Upd h [] h' [b] []) (p : t ++ [0] <+: h'.cont b) : Printed errno h t ⟨t.length, some b, errno, h'⟩ := by
  refine ⟨rfl, rfl, b, rfl, fun hb => (u.keep b hb (by simp)).2.1 (by simp), fun x => ?_, fun x hx => (u.keep x hx (by simp)).2.2, p⟩
  have := (u.perm h.live (List.Perm.refl _)).mem_iff (a := x)
  simpa using this

theorem free_failed {h h1 : Heap} {b : Nat} (u : Upd h [] h1 [b] []) (hb : b ∈ h1.live) : ∃ r, (h1.free b >>= fun h => fail h) = .ok r ∧ Failed h r := by
  obtain ⟨h2, e, _, v⟩ := free_upd u.good hb []
  refine ⟨_, Outcome.bind_eq_ok.2 ⟨_, e, rfl⟩, Upd.failed ?_⟩
  exact u.trans v

theorem mem_own {h h1 : Heap} {b : Nat} (u : Upd h [] h1 [b] []) : b ∈ h1.live := by
  have := (u.perm h.live (List.Perm.refl _)).mem_iff (a := b)
  simpa using this

/-- vsnprintf in a block that is large enough. -/
theorem vsnprintf_upd {h h1 : Heap} {b size : Nat} (u : Upd h [] h1 [b] []) (hs : (h1.cont b).length = size) (h0 : 0 < size) (x : Option (List Byte)) :
    ∃ n h2, vsnprintf h1 b size x = .ok (n, h2) ∧ Upd h [] h2 [b] [] ∧
      ((n = -1 ∧ ∀ t, x = some t → t.length > intMax) ∨ ∃ t, x = some t ∧ t.length ≤ intMax ∧ n = t.length ∧ (h2.cont b).length = size ∧ (t.length < size → t ++ [0] <+: h2.cont b)) := by
  cases x with
  | none => exact ⟨-1, h1, rfl, u, .inl ⟨rfl, by simp⟩⟩
  | some t =>
    by_cases c : t.length > intMax
    · refine ⟨-1, h1, by simp [vsnprintf, c], u, .inl ⟨rfl, ?_⟩⟩
      intro t' e; cases e; exact c
    · have hb := mem_own u
      have e2 : Cstr.snprintf (h1.cont b) 0 size t = .ok (t.take (size - 1) ++ 0 :: (h1.cont b).drop ((t.take (size - 1)).length + 1), t.length) := by
        unfold Cstr.snprintf
        rw [if_neg (by omega), if_pos (by simp; omega)]
        simp
      obtain ⟨h2, e3, e4, e5, _, v⟩ := save_upd u.good hb (t.take (size - 1) ++ 0 :: (h1.cont b).drop ((t.take (size - 1)).length + 1)) (own := [b]) (by simp)
      refine ⟨t.length, h2, ?_, u.trans v, .inr ⟨t, rfl, by omega, rfl, ?_, fun hlt => ?_⟩⟩
      · unfold vsnprintf
        simp only [c, if_false]
        rw [load_ok hb, Outcome.ok_bind, e2, Outcome.ok_bind, e3]
        rfl
      · rw [e5]; simp; omega
      · rw [e5, List.take_of_length_le (by omega)]
        exact ⟨(h1.cont b).drop (t.length + 1), by simp⟩

theorem realloc_length (junk : Nat → Byte) (m : List Byte) (n : Nat) : (Arr.realloc junk m n).length = n := by
  simp [Arr.realloc]; omega

/-- What the outcome of a call depends on. -/
def fits (env : Env) : Option (List Byte) :=
  match env.mallocOk, env.first with
  | true, some t =>
      if t.length < 128 then some t
      else if t.length < intMax ∧ env.reallocOk then
        match env.second with
        | some u => if u.length ≤ t.length then some u else none
        | none => none
      else none
  | _, _ => none

theorem retry_spec {env : Env} {errno : Nat} {h h1 : Heap} {b len : Nat} (u : Upd h [] h1 [b] []) (hs : (h1.cont b).length = len) (h0 : 0 < len) (hm : len ≤ intMax) :
    ∃ r, retry env errno h1 b len = .ok r ∧ ((∃ t, env.second = some t ∧ t.length < len ∧ Printed errno h t r) ∨ ((∀ t, env.second = some t → len ≤ t.length) ∧ Failed h r)) := by
  obtain ⟨n, h2, e, v, k⟩ := vsnprintf_upd u hs h0 env.second
  unfold retry
  rw [e, Outcome.ok_bind]
  dsimp only
  rcases k with ⟨rfl, k⟩ | ⟨t, e1, e2, rfl, e3, e4⟩
  · rw [if_neg (by omega)]
    obtain ⟨r, f1, f2⟩ := free_failed v (mem_own v)
    exact ⟨r, f1, .inr ⟨fun t ht => by have := k t ht; omega, f2⟩⟩
  · by_cases c : t.length < len
    · rw [if_pos (by omega)]
      exact ⟨_, rfl, .inl ⟨t, e1, c, Upd.printed v (e4 c)⟩⟩
    · rw [if_neg (by omega)]
      obtain ⟨r, f1, f2⟩ := free_failed v (mem_own v)
      exact ⟨r, f1, .inr ⟨fun t' ht => by rw [e1] at ht; cases ht; omega, f2⟩⟩

/-- Every call ends; it has printed the text that `fits` gives, or failed. -/
theorem asprintf_spec (env : Env) (errno : Nat) {h : Heap} (G : Good h) :
    ∃ r, asprintf env errno h = .ok r ∧ ((∃ t, fits env = some t ∧ Printed errno h t r) ∨ (fits env = none ∧ Failed h r)) := by
  unfold asprintf vasprintf
  by_cases cm : env.mallocOk
  · rw [if_pos cm]
    have u := alloc_upd G (Arr.realloc env.junk [] 128) []
    have hs : ((h.alloc (Arr.realloc env.junk [] 128)).2.cont (h.alloc (Arr.realloc env.junk [] 128)).1).length = 128 := by rw [alloc_cont, realloc_length]
    generalize (h.alloc (Arr.realloc env.junk [] 128)).2 = h1 at u hs
    generalize (h.alloc (Arr.realloc env.junk [] 128)).1 = b at u hs
    obtain ⟨n, h2, e, v, k⟩ := vsnprintf_upd u hs (by omega) env.first
    unfold attempt
    rw [e, Outcome.ok_bind]
    dsimp only
    rcases k with ⟨rfl, k⟩ | ⟨t, e1, e2, rfl, e3, e4⟩
    · rw [if_neg (by omega), if_pos (by omega)]
      obtain ⟨r, f1, f2⟩ := free_failed v (mem_own v)
      refine ⟨r, f1, .inr ⟨?_, f2⟩⟩
      unfold fits
      cases ef : env.first with
      | none => simp
      | some t =>
        have := k t ef
        simp only [cm]
        rw [if_neg (by simp [intMax] at this; omega), if_neg (by omega)]
    · by_cases c : t.length < 128
      · rw [if_pos (by omega)]
        exact ⟨_, rfl, .inl ⟨t, by simp [fits, cm, e1, c], Upd.printed v (e4 c)⟩⟩
      · rw [if_neg (by omega)]
        by_cases c2 : t.length = intMax
        · rw [if_pos (by omega)]
          obtain ⟨r, f1, f2⟩ := free_failed v (mem_own v)
          refine ⟨r, f1, .inr ⟨?_, f2⟩⟩
          simp only [fits, cm, e1]
          rw [if_neg c, if_neg (by omega)]
        · rw [if_neg (by omega)]
          unfold grow
          by_cases cr : env.reallocOk
          · rw [if_pos cr]
            obtain ⟨h3, f1, f2, w⟩ := free_upd v.good (mem_own v) []
            have x := alloc_upd w.good (Arr.realloc env.junk (h2.cont b) ((t.length : Int).toNat + 1)) []
            have hl : ((h3.alloc (Arr.realloc env.junk (h2.cont b) ((t.length : Int).toNat + 1))).2.cont (h3.alloc (Arr.realloc env.junk (h2.cont b) ((t.length : Int).toNat + 1))).1).length = (t.length : Int).toNat + 1 := by
              rw [alloc_cont, realloc_length]
            have er : h2.realloc env.junk ((t.length : Int).toNat + 1) (some b) = .ok (h3.alloc (Arr.realloc env.junk (h2.cont b) ((t.length : Int).toNat + 1))) := by
              unfold Heap.realloc
              dsimp only
              rw [load_ok (mem_own v), Outcome.ok_bind, f1]; rfl
            rw [er, Outcome.ok_bind]
            have vx := (v.trans w).trans x
            generalize (h3.alloc (Arr.realloc env.junk (h2.cont b) ((t.length : Int).toNat + 1))).2 = h4 at vx hl
            generalize (h3.alloc (Arr.realloc env.junk (h2.cont b) ((t.length : Int).toNat + 1))).1 = b4 at vx hl
            obtain ⟨r, g1, g2⟩ := retry_spec (env := env) (errno := errno) vx hl (by omega) (by omega)
            refine ⟨r, g1, ?_⟩
            rcases g2 with ⟨t2, k1, k2, k3⟩ | ⟨k1, k2⟩
            · refine .inl ⟨t2, ?_, k3⟩
              simp only [fits, cm, e1, k1]
              rw [if_neg c, if_pos ⟨by omega, cr⟩, if_pos (by omega)]
            · refine .inr ⟨?_, k2⟩
              simp only [fits, cm, e1]
              rw [if_neg c, if_pos ⟨by omega, cr⟩]
              cases es : env.second with
              | none => rfl
              | some t2 =>
                have := k1 t2 es
                dsimp only
                rw [if_neg (by omega)]
          · rw [if_neg cr]
            obtain ⟨r, f1, f2⟩ := free_failed v (mem_own v)
            refine ⟨r, f1, .inr ⟨?_, f2⟩⟩
            simp only [fits, cm, e1]
            rw [if_neg c, if_neg (by simp [cr])]
  · rw [if_neg cm]
    refine ⟨_, rfl, .inr ⟨?_, ?_⟩⟩
    · unfold fits; simp [cm]
    · exact Upd.failed (Arr.Own.Upd.refl G [])

/-- **C111**: if there is memory, the whole text is in a new block that the caller owns, whatever its length (below INT_MAX), and its length is returned. -/
theorem c111_text (env : Env) (errno : Nat) {h : Heap} (G : Good h) (t : List Byte) (h1 : env.first = some t) (h2 : env.second = some t) (hm : env.mallocOk = true) (hr : env.reallocOk = true) (hl : t.length < intMax) :
    ∃ r, asprintf env errno h = .ok r ∧ Printed errno h t r := by
  obtain ⟨r, e, k⟩ := asprintf_spec env errno G
  refine ⟨r, e, ?_⟩
  have ef : fits env = some t := by
    simp only [fits, hm, h1, h2, hr]
    by_cases c : t.length < 128
    · rw [if_pos c]
    · rw [if_neg c, if_pos ⟨hl, trivial⟩, if_pos (Nat.le_refl _)]
  rcases k with ⟨t', k1, k2⟩ | ⟨k1, _⟩
  · rw [ef] at k1; cases k1; exact k2
  · rw [ef] at k1; cases k1

/-- **C111**: whatever the system does, a call that does not print the whole text fails cleanly: nothing is leaked, nothing else is touched, `*str` is NULL. Texts of fewer than 128 bytes need only the first allocation. -/
theorem c111_always (env : Env) (errno : Nat) {h : Heap} (G : Good h) :
    ∃ r, asprintf env errno h = .ok r ∧ (Failed h r ∨ ∃ t, (env.first = some t ∨ env.second = some t) ∧ Printed errno h t r) := by
  obtain ⟨r, e, k⟩ := asprintf_spec env errno G
  refine ⟨r, e, ?_⟩
  rcases k with ⟨t', k1, k2⟩ | ⟨_, k2⟩
  · refine .inr ⟨t', ?_, k2⟩
    unfold fits at k1
    split at k1
    · rename_i t _ ef
      split at k1
      · cases k1; exact .inl ef
      · split at k1
        · split at k1
          · rename_i u eu
            split at k1
            · cases k1; exact .inr eu
            · cases k1
          · cases k1
        · cases k1
    · cases k1
  · exact .inl k2

/-- **C111**: exactly when a call fails, if the arguments do not change while it runs. -/
theorem c111_fails (env : Env) (errno : Nat) {h : Heap} (G : Good h) (he : env.second = env.first) :
    (∃ r, asprintf env errno h = .ok r ∧ r.ret = -1) ↔
      env.mallocOk = false ∨ env.first = none ∨ ∃ t, env.first = some t ∧ 128 ≤ t.length ∧ (env.reallocOk = false ∨ intMax ≤ t.length) := by
  obtain ⟨r, e, k⟩ := asprintf_spec env errno G
  have key : (∃ r, asprintf env errno h = .ok r ∧ r.ret = -1) ↔ fits env = none := by
    constructor
    · rintro ⟨r', e', hr⟩
      rw [e] at e'; cases e'
      rcases k with ⟨t', k1, k2⟩ | ⟨k1, _⟩
      · have := k2.1; omega
      · exact k1
    · intro hf
      rcases k with ⟨t', k1, k2⟩ | ⟨k1, k2⟩
      · rw [hf] at k1; cases k1
      · exact ⟨r, e, k2.1⟩
  rw [key]
  unfold fits
  cases hm : env.mallocOk with
  | false => simp
  | true =>
    cases hf : env.first with
    | none => simp
    | some t =>
      rw [he, hf]
      simp only [Nat.le_refl, if_true, Bool.true_eq_false, false_or, Option.some.injEq, reduceCtorEq]
      by_cases c : t.length < 128
      · rw [if_pos c]
        constructor
        · intro h; cases h
        · rintro ⟨t', rfl, h2, _⟩; omega
      · rw [if_neg c]
        by_cases c2 : t.length < intMax ∧ env.reallocOk = true
        · rw [if_pos c2]
          constructor
          · intro h; cases h
          · rintro ⟨t', rfl, h2, h3⟩
            rcases h3 with h3 | h3
            · rw [c2.2] at h3; cases h3
            · omega
        · rw [if_neg c2]
          refine ⟨fun _ => ⟨t, rfl, by omega, ?_⟩, fun _ => rfl⟩
          cases hr : env.reallocOk with
          | false => exact .inl rfl
          | true => refine .inr ?_; simp [hr] at c2; omega

/-! ## Examples -/

def emptyHeap : Heap := ⟨[], fun _ => [], 0⟩

theorem emptyHeap_good : Good emptyHeap := ⟨List.nodup_nil, by simp [emptyHeap]⟩

/-- A text of 200 bytes. -/
def longText : List Byte := List.replicate 200 65

example : ∃ r, asprintf ⟨true, true, fun _ => 7, some longText, some longText⟩ 0 emptyHeap = .ok r ∧ Printed 0 emptyHeap longText r :=
  c111_text _ 0 emptyHeap_good longText rfl rfl rfl rfl (by rw [longText, List.length_replicate]; decide)

example : ∃ r, asprintf ⟨true, false, fun _ => 7, some longText, some longText⟩ 0 emptyHeap = .ok r ∧ r.ret = -1 :=
  (c111_fails _ 0 emptyHeap_good rfl).2 (.inr (.inr ⟨longText, rfl, by rw [longText, List.length_replicate]; decide, .inl rfl⟩))

end ZT.Replace
