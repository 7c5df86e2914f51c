import Verif.Cstr.Slices

/-!
# C41: mapping characters
-/

namespace ZT.Cstr

/-- The function `g` maps `from` to `to`: a character of `from` to the character of `to` at its last occurrence, other characters to themselves, as far as `ok` says. -/
structure Maps (fs ts : List Byte) (ok : Byte → Prop) (g : Byte → Byte) : Prop where
  hit : ∀ (k : Nat) (c : Byte), fs[k]? = some c → (∀ k' : Nat, k < k' → fs[k']? ≠ some c) → ts[k]? = some (g c)
  miss : ∀ c, c ∉ fs → ok c → g c = c

/-- Reading a table of 256 entries. -/
def look (tbl : List Byte) (c : Byte) : Byte := (tbl[c.toNat]?).getD 0

theorem look_rd {tbl : List Byte} (h : tbl.length = 256) (c : Byte) : rd tbl c.toNat = .ok (look tbl c) := by
  have hc : c.toNat < tbl.length := by rw [h]; exact c.toNat_lt
  rw [rd_lt hc, look]
  simp [hc]

theorem look_set {tbl : List Byte} (h : tbl.length = 256) (x y c : Byte) : look (tbl.set x.toNat y) c = if c = x then y else look tbl c := by
  have hc : c.toNat < tbl.length := by rw [h]; exact c.toNat_lt
  rw [look, look, List.getElem?_set]
  by_cases e : c = x
  · subst e; simp [hc]
  · have : ¬ x.toNat = c.toNat := fun h => e (UInt8.toNat_inj.1 h.symm)
    simp [e, this]

theorem fillMap_spec : ∀ {fs ts mf mt tbl : List Byte}, IsStr mf fs → IsStr mt ts → fs.length = ts.length → tbl.length = 256 →
    ∃ tbl', fillMap mf mt tbl = .ok tbl' ∧ tbl'.length = 256 ∧ (∀ c, c ∉ fs → look tbl' c = look tbl c) ∧
      (∀ (k : Nat) (c : Byte), fs[k]? = some c → (∀ k' : Nat, k < k' → fs[k']? ≠ some c) → ts[k]? = some (look tbl' c)) := by
  intro fs
  induction fs with
  | nil =>
      intro ts mf mt tbl hf ht hl htb
      have : ts = [] := by cases ts with | nil => rfl | cons x xs => simp at hl
      subst this
      obtain ⟨_, r1, rfl⟩ := hf
      obtain ⟨_, r2, rfl⟩ := ht
      exact ⟨tbl, by simp [fillMap], htb, fun _ _ => rfl, fun k c h => by simp at h⟩
  | cons x fs ih =>
      intro ts mf mt tbl hf ht hl htb
      cases ts with
      | nil => simp at hl
      | cons y ts =>
          obtain ⟨f0, r1, rfl⟩ := hf
          obtain ⟨t0, r2, rfl⟩ := ht
          have hx := f0 x (by simp)
          have hy := t0 y (by simp)
          obtain ⟨tbl', e, h1, h2, h3⟩ := ih (ts := ts) (mf := fs ++ 0 :: r1) (mt := ts ++ 0 :: r2) (tbl := tbl.set x.toNat y) ⟨fun b hb => f0 b (by simp [hb]), r1, rfl⟩ ⟨fun b hb => t0 b (by simp [hb]), r2, rfl⟩
            (by simpa using hl) (by simpa using htb)
          refine ⟨tbl', ?_, h1, ?_, ?_⟩
          · rw [List.cons_append, List.cons_append, fillMap, if_pos ⟨hx, hy⟩, wr_lt (by rw [htb]; exact x.toNat_lt)]
            exact e
          · intro c hc
            rw [h2 c (fun h => hc (by simp [h])), look_set htb, if_neg (fun h => hc (by simp [h]))]
          · intro k c hk hlast
            cases k with
            | zero =>
                simp only [List.getElem?_cons_zero, Option.some.injEq] at hk
                subst hk
                have hno : x ∉ fs := by
                  intro hm
                  obtain ⟨k, hk, e⟩ := List.getElem_of_mem hm
                  exact hlast (k + 1) (by omega) (by simp [hk, e])
                rw [h2 x hno, look_set htb, if_pos rfl]
                rfl
            | succ k =>
                simp only [List.getElem?_cons_succ] at hk ⊢
                exact h3 k c hk fun k' hk' he => hlast (k' + 1) (by omega) (by simpa using he)

theorem fillMap_abort : ∀ {fs ts mf mt tbl : List Byte}, IsStr mf fs → IsStr mt ts → fs.length ≠ ts.length → tbl.length = 256 → fillMap mf mt tbl = .abort := by
  intro fs
  induction fs with
  | nil =>
      intro ts mf mt tbl hf ht hl htb
      obtain ⟨_, r1, rfl⟩ := hf
      obtain ⟨t0, r2, rfl⟩ := ht
      cases ts with
      | nil => simp at hl
      | cons y ts => simp [fillMap, t0 y (by simp)]
  | cons x fs ih =>
      intro ts mf mt tbl hf ht hl htb
      obtain ⟨f0, r1, rfl⟩ := hf
      obtain ⟨t0, r2, rfl⟩ := ht
      have hx := f0 x (by simp)
      cases ts with
      | nil => simp [fillMap, hx]
      | cons y ts =>
          rw [List.cons_append, List.cons_append, fillMap, if_pos ⟨hx, t0 y (by simp)⟩, wr_lt (by rw [htb]; exact x.toNat_lt)]
          exact ih ⟨fun b hb => f0 b (by simp [hb]), r1, rfl⟩ ⟨fun b hb => t0 b (by simp [hb]), r2, rfl⟩ (by simpa using hl) (by simpa using htb)

theorem identity_length : identity.length = 256 := by simp [identity]

theorem identity_look {c : Byte} (h : c < 226) : look identity c = c := by
  have h' : c.toNat < 226 := UInt8.lt_iff_toNat_lt.1 h
  rw [look, identity, List.getElem?_append_left (by simp; exact h')]
  simp [h']

theorem map_run (junk : Byte) {m s : List Byte} (h : IsStr m s) (hs : s ≠ []) (i j : Int) (f t : Option (List Byte)) {tbl : List Byte} (ht : mapTable f t = .ok tbl) (hl : tbl.length = 256) :
    map junk (some m) i j f t = orAbort ((slice s i j).map fun u => some (u.map (look tbl) ++ [0])) := by
  rw [map, ht]
  simp only [Outcome.ok_bind]
  cases hsl : slice s i j with
  | none => rw [convert_abort h hs (slice_none hsl)]; rfl
  | some u =>
      obtain ⟨a, b, hb, hab, hbn, rfl, hlen⟩ := slice_bounds hs hsl
      rw [convert_ok h hs hb]
      simp only [Outcome.ok_bind]
      rw [idxlen_eq hab]
      simp only [Outcome.ok_bind]
      have hml := h.length
      have := copyUp_spec (m := m) (f := fun c => rd tbl c.toNat) (g := look tbl) (fun c _ => look_rd hl c) (b := b) (by omega) (b + 1 - a) a [] (List.replicate (b + 1 - a + 1) junk) (rounds a b) (by omega) (by simp)
        (by rw [rounds_eq]; omega)
      simp only [List.nil_append, List.length_nil, Nat.zero_add, List.drop_replicate] at this
      rw [this]
      simp only [Outcome.ok_bind]
      rw [h.chars hbn, show b + 1 - a + 1 - (b + 1 - a) = 1 by omega]
      have e : b + 1 - a = ((chars s a b).map (look tbl)).length := by rw [List.length_map, hlen]
      rw [e, show List.replicate 1 junk = junk :: [] from rfl, wr_last]
      rfl

/-- **C41** (partial): zt_cstr_map replaces every character of the slice that occurs in `from` by the corresponding one of `to`, and leaves every other character below 226 unchanged. Not proved, since false:
characters from 226 on that do not occur in `from` (`c41_high_violation`). -/
theorem c41_map_partial (junk : Byte) {m s mf fs mt ts : List Byte} (h : IsStr m s) (hs : s ≠ []) (hf : IsStr mf fs) (ht : IsStr mt ts) (hl : fs.length = ts.length) (i j : Int) :
    ∃ g, Maps fs ts (· < 226) g ∧ map junk (some m) i j (some mf) (some mt) = orAbort ((slice s i j).map fun u => some (u.map g ++ [0])) := by
  obtain ⟨tbl, e, h1, h2, h3⟩ := fillMap_spec hf ht hl identity_length
  refine ⟨look tbl, ⟨h3, fun c hc hlt => ?_⟩, map_run junk h hs i j (some mf) (some mt) e h1⟩
  rw [h2 c hc]
  exact identity_look hlt

/-- **C41**: strings of different lengths end the program. -/
theorem c41_lengths (junk : Byte) (s : Option (List Byte)) {mf fs mt ts : List Byte} (hf : IsStr mf fs) (ht : IsStr mt ts) (hl : fs.length ≠ ts.length) (i j : Int) : map junk s i j (some mf) (some mt) = .abort := by
  have : mapTable (some mf) (some mt) = .abort := fillMap_abort hf ht hl identity_length
  rw [map, this]
  rfl

/-- **C41**: no string, no result. -/
theorem c41_null (junk : Byte) (i j : Int) : map junk none i j none none = .ok none := rfl

/-- Violation: a character from 226 on becomes NUL, although `from` is empty; the result is cut there. -/
theorem c41_high_violation : map 7 (some [97, 230, 98, 0]) 0 (-1) (some [0]) (some [0]) = .ok (some [97, 0, 98, 0]) := by decide +kernel

example : map 7 (some [97, 98, 99, 0]) 0 (-1) (some [98, 99, 0]) (some [88, 89, 0]) = .ok (some [97, 88, 89, 0]) := by decide +kernel
example : IsStr [98, 99, 0] [98, 99] := ⟨by decide, [], rfl⟩

end ZT.Cstr
