import Verif.Cstr.Slices

/-!
# C39: searches, C40: comparison
-/

namespace ZT.Cstr

/-- The character at position `k` satisfies `q`. -/
def At (s : List Byte) (q : Byte → Prop) (k : Nat) : Prop := ∃ c, s[k]? = some c ∧ q c

/-- A search from the front: the first position with `P`, or `no` when there is none. -/
def Found (P : Nat → Prop) (a b : Nat) (no : Int) (r : Int) : Prop := (∃ k : Nat, r = k ∧ IsFirst P a b k) ∨ (r = no ∧ ∀ k, a ≤ k → k ≤ b → ¬ P k)

/-- A search from the back. -/
def FoundLast (P : Nat → Prop) (a b : Nat) (no : Int) (r : Int) : Prop := (∃ k : Nat, r = k ∧ IsLast P a b k) ∨ (r = no ∧ ∀ k, a ≤ k → k ≤ b → ¬ P k)

theorem scanUp_spec {m s : List Byte} (h : IsStr m s) {P : Byte → Outcome Bool} {q : Byte → Bool} (hP : ∀ c ∈ s, P c = .ok (q c)) {b : Nat} (hb : b < s.length) : ∀ (n a fuel : Nat), a + n = b + 1 → n < fuel →
    (scanUp m P b fuel a = .ok none ∧ ∀ k, a ≤ k → k ≤ b → ¬ At s (q · = true) k) ∨ ∃ k : Nat, scanUp m P b fuel a = .ok (some (k : Int)) ∧ IsFirst (At s (q · = true)) a b k := by
  intro n
  induction n with
  | zero =>
      intro a fuel ha hf
      cases fuel with
      | zero => omega
      | succ fuel => exact .inl ⟨by rw [scanUp, if_neg (by omega)], fun k h1 h2 => by omega⟩
  | succ n ih =>
      intro a fuel ha hf
      cases fuel with
      | zero => omega
      | succ fuel =>
          have has : a < s.length := by omega
          have hstep : scanUp m P b (fuel + 1) a = if q s[a] then .ok (some (a : Int)) else scanUp m P b fuel ((a : Int) + 1) := by
            rw [scanUp, if_pos (by omega), rdI_nat, h.get has, Outcome.ok_bind, hP _ (List.getElem_mem has), Outcome.ok_bind]
          rw [hstep]
          by_cases hq : q s[a] = true
          · rw [if_pos hq]
            exact .inr ⟨a, rfl, Nat.le_refl _, by omega, ⟨s[a], by simp [has], hq⟩, fun k h1 h2 => by omega⟩
          · rw [if_neg hq]
            have hna : ¬ At s (q · = true) a := by
              rintro ⟨c, hc, hqc⟩
              rw [List.getElem?_eq_getElem has] at hc
              cases hc
              exact hq hqc
            have hcast : ((a : Int) + 1) = ((a + 1 : Nat) : Int) := by omega
            rw [hcast]
            rcases ih (a + 1) fuel (by omega) (by omega) with ⟨e, hno⟩ | ⟨k, e, h1, h2, h3, h4⟩
            · refine .inl ⟨e, fun k hk1 hk2 => ?_⟩
              rcases Nat.eq_or_lt_of_le hk1 with rfl | hlt
              · exact hna
              · exact hno k hlt hk2
            · refine .inr ⟨k, e, by omega, h2, h3, fun k' hk1 hk2 => ?_⟩
              rcases Nat.eq_or_lt_of_le hk1 with rfl | hlt
              · exact hna
              · exact h4 k' hlt hk2

theorem scanDown_spec {m s : List Byte} (h : IsStr m s) {P : Byte → Outcome Bool} {q : Byte → Bool} (hP : ∀ c ∈ s, P c = .ok (q c)) {a : Nat} : ∀ (n : Nat) (j : Int) (fuel : Nat), j + 1 = a + n → a + n ≤ s.length → n < fuel →
    (scanDown m P a fuel j = .ok none ∧ ∀ k : Nat, a ≤ k → (k : Int) ≤ j → ¬ At s (q · = true) k) ∨
    ∃ k : Nat, scanDown m P a fuel j = .ok (some (k : Int)) ∧ a ≤ k ∧ (k : Int) ≤ j ∧ At s (q · = true) k ∧ ∀ k' : Nat, k < k' → (k' : Int) ≤ j → ¬ At s (q · = true) k' := by
  intro n
  induction n with
  | zero =>
      intro j fuel hj _ hf
      cases fuel with
      | zero => omega
      | succ fuel => exact .inl ⟨by rw [scanDown, if_neg (by omega)], fun k h1 h2 => by omega⟩
  | succ n ih =>
      intro j fuel hj hs hf
      cases fuel with
      | zero => omega
      | succ fuel =>
          obtain ⟨b, rfl⟩ : ∃ b : Nat, j = b := ⟨j.toNat, by omega⟩
          have has : b < s.length := by omega
          have hstep : scanDown m P a (fuel + 1) b = if q s[b] then .ok (some (b : Int)) else scanDown m P a fuel ((b : Int) - 1) := by
            rw [scanDown, if_pos (by omega), rdI_nat, h.get has, Outcome.ok_bind, hP _ (List.getElem_mem has), Outcome.ok_bind]
          rw [hstep]
          by_cases hq : q s[b] = true
          · rw [if_pos hq]
            exact .inr ⟨b, rfl, by omega, by omega, ⟨s[b], by simp [has], hq⟩, fun k h1 h2 => by omega⟩
          · rw [if_neg hq]
            have hna : ¬ At s (q · = true) b := by
              rintro ⟨c, hc, hqc⟩
              rw [List.getElem?_eq_getElem has] at hc
              cases hc
              exact hq hqc
            rcases ih ((b : Int) - 1) fuel (by omega) (by omega) (by omega) with ⟨e, hno⟩ | ⟨k, e, h1, h2, h3, h4⟩
            · refine .inl ⟨e, fun k hk1 hk2 => ?_⟩
              by_cases hkb : k = b
              · subst hkb; exact hna
              · exact hno k hk1 (by omega)
            · refine .inr ⟨k, e, h1, by omega, h3, fun k' hk1 hk2 => ?_⟩
              by_cases hkb : k' = b
              · subst hkb; exact hna
              · exact h4 k' hk1 (by omega)

theorem scanUp_found {m s : List Byte} (h : IsStr m s) {P : Byte → Outcome Bool} {q : Byte → Bool} (hP : ∀ c ∈ s, P c = .ok (q c)) {a b : Nat} (hab : a ≤ b) (hb : b < s.length) (no : Int) :
    ∃ r, scanUp m P b (rounds a b) a = .ok r ∧ Found (At s (q · = true)) a b no (r.getD no) ∧ (r = none → ∀ k, a ≤ k → k ≤ b → ¬ At s (q · = true) k) := by
  rw [rounds_eq]
  rcases scanUp_spec h hP hb (b + 1 - a) a (b + 1 - a + 1) (by omega) (by omega) with ⟨e, hno⟩ | ⟨k, e, hk⟩
  · exact ⟨none, e, .inr ⟨rfl, hno⟩, fun _ => hno⟩
  · exact ⟨some k, e, .inl ⟨k, rfl, hk⟩, fun hc => by cases hc⟩

theorem scanDown_found {m s : List Byte} (h : IsStr m s) {P : Byte → Outcome Bool} {q : Byte → Bool} (hP : ∀ c ∈ s, P c = .ok (q c)) {a b : Nat} (hab : a ≤ b) (hb : b < s.length) (no : Int) :
    ∃ r, scanDown m P a (rounds a b) b = .ok r ∧ FoundLast (At s (q · = true)) a b no (r.getD no) ∧ (r = none → ∀ k, a ≤ k → k ≤ b → ¬ At s (q · = true) k) := by
  rw [rounds_eq]
  rcases scanDown_spec h hP (a := a) (b + 1 - a) b (b + 1 - a + 1) (by omega) (by omega) (by omega) with ⟨e, hno⟩ | ⟨k, e, h1, h2, h3, h4⟩
  · exact ⟨none, e, .inr ⟨rfl, fun k h1 h2 => hno k h1 (by omega)⟩, fun _ k h1 h2 => hno k h1 (by omega)⟩
  · exact ⟨some k, e, .inl ⟨k, rfl, h1, by omega, h3, fun k' g1 g2 => h4 k' g1 (by omega)⟩, fun hc => by cases hc⟩

theorem strchr_spec {ms set : List Byte} (h : IsStr ms set) (c : Byte) : ∃ r, strchr ms c = .ok r ∧ (r.isSome = true ↔ (c ∈ set ∨ c = 0)) := by
  obtain ⟨h0, rest, rfl⟩ := h
  induction set with
  | nil =>
      by_cases hc : c = 0
      · exact ⟨some 0, by simp [strchr, hc], by simp [hc]⟩
      · exact ⟨none, by simp [strchr, Ne.symm hc], by simp [hc]⟩
  | cons x set ih =>
      have hx : x ≠ 0 := h0 x (by simp)
      by_cases hxc : x = c
      · exact ⟨some 0, by simp [strchr, hxc], by simp [hxc]⟩
      · obtain ⟨r, e, hr⟩ := ih fun b hb => h0 b (by simp [hb])
        refine ⟨r.map (· + 1), by rw [List.cons_append, strchr, if_neg hxc, if_neg hx, e]; rfl, ?_⟩
        rw [Option.isSome_map, hr]
        simp [Ne.symm hxc]

theorem inSet_spec {ms set : List Byte} (h : IsStr ms set) (c : Byte) : inSet ms c = .ok (decide (c ∈ set ∨ c = 0)) := by
  obtain ⟨r, e, hr⟩ := strchr_spec h c
  rw [inSet, e]
  simp only [Outcome.ok_bind, Outcome.pure_eq]
  refine congrArg _ ?_
  by_cases hc : c ∈ set ∨ c = 0
  · rw [hr.2 hc]; simp [hc]
  · cases hrs : r.isSome with
    | true => exact absurd (hr.1 hrs) hc
    | false => simp [hc]

/-- Is one of the characters of a set. -/
theorem inSet_nz {m s ms set : List Byte} (hm : IsStr m s) (h : IsStr ms set) : ∀ c ∈ s, inSet ms c = .ok (decide (c ∈ set)) := by
  intro c hc
  rw [inSet_spec h]
  simp [hm.1 c hc]

theorem inSetNz_nz {m s ms set : List Byte} (hm : IsStr m s) (h : IsStr ms set) : ∀ c ∈ s, inSetNz ms c = .ok (decide (c ∈ set)) := by
  intro c hc
  rw [inSetNz, if_pos (hm.1 c hc), inSet_nz hm h c hc]

theorem At_decide (s : List Byte) (q : Byte → Prop) [DecidablePred q] : At s (fun c => decide (q c) = true) = At s q := by
  funext k
  simp [At]

/-- **C39**: zt_cstr_upto finds the first position in the slice holding a character of the set, -1 when there is none. -/
theorem c39_upto {m s ms set : List Byte} (h : IsStr m s) (hs : s ≠ []) (hset : IsStr ms set) {i j : Int} {a b : Nat} (hb : bounds s.length i j = some (a, b)) :
    ∃ r, upto m i j ms = .ok r ∧ Found (At s (· ∈ set)) a b (-1) r := by
  have hab := bounds_some (List.length_pos_iff.2 hs) hb
  obtain ⟨r, e, hf, _⟩ := scanUp_found h (inSet_nz h hset) hab.1 hab.2 (-1)
  rw [At_decide] at hf
  refine ⟨r.getD (-1), ?_, hf⟩
  rw [upto, convert_ok h hs hb]
  simp only [Outcome.ok_bind]
  rw [e]
  rfl

/-- **C39**: zt_cstr_any does the same. -/
theorem c39_any {m s ms set : List Byte} (h : IsStr m s) (hs : s ≠ []) (hset : IsStr ms set) {i j : Int} {a b : Nat} (hb : bounds s.length i j = some (a, b)) :
    ∃ r, any m i j ms = .ok r ∧ Found (At s (· ∈ set)) a b (-1) r := by
  have hab := bounds_some (List.length_pos_iff.2 hs) hb
  obtain ⟨r, e, hf, _⟩ := scanUp_found h (inSetNz_nz h hset) hab.1 hab.2 (-1)
  rw [At_decide] at hf
  refine ⟨r.getD (-1), ?_, hf⟩
  rw [any, convert_ok h hs hb]
  simp only [Outcome.ok_bind]
  rw [if_pos (by omega), e]
  rfl

/-- **C39**: zt_cstr_rupto finds the last position in the slice holding a character of the set. -/
theorem c39_rupto {m s ms set : List Byte} (h : IsStr m s) (hs : s ≠ []) (hset : IsStr ms set) {i j : Int} {a b : Nat} (hb : bounds s.length i j = some (a, b)) :
    ∃ r, rupto m i j ms = .ok r ∧ FoundLast (At s (· ∈ set)) a b (-1) r := by
  have hab := bounds_some (List.length_pos_iff.2 hs) hb
  obtain ⟨r, e, hf, _⟩ := scanDown_found h (inSet_nz h hset) hab.1 hab.2 (-1)
  rw [At_decide] at hf
  refine ⟨r.getD (-1), ?_, hf⟩
  rw [rupto, convert_ok h hs hb]
  simp only [Outcome.ok_bind]
  rw [e]
  rfl

/-- **C39** (partial): zt_cstr_rany finds the last position in the slice holding a character of the set, but returns it relative to the start of the slice, so the property holds for slices starting at 0 only. -/
theorem c39_rany_partial {m s ms set : List Byte} (h : IsStr m s) (hs : s ≠ []) (hset : IsStr ms set) {i j : Int} {a b : Nat} (hb : bounds s.length i j = some (a, b)) :
    ∃ r, rany m i j ms = .ok r ∧ ((∃ k : Nat, r = (k : Int) - a ∧ IsLast (At s (· ∈ set)) a b k) ∨ (r = -1 ∧ ∀ k, a ≤ k → k ≤ b → ¬ At s (· ∈ set) k)) := by
  have hab := bounds_some (List.length_pos_iff.2 hs) hb
  have hsp := scanDown_spec h (inSetNz_nz h hset) (a := a) (b + 1 - a) b (b + 1 - a + 1) (by omega) (by omega) (by omega)
  rw [At_decide, ← rounds_eq] at hsp
  rw [rany, convert_ok h hs hb]
  simp only [Outcome.ok_bind]
  rw [if_pos (by omega)]
  rcases hsp with ⟨e, hno⟩ | ⟨k, e, h1, h2, h3, h4⟩
  · exact ⟨-1, by rw [e]; rfl, .inr ⟨rfl, fun k g1 g2 => hno k g1 (by omega)⟩⟩
  · exact ⟨(k : Int) - a, by rw [e]; rfl, .inl ⟨k, rfl, h1, by omega, h3, fun k' g1 g2 => h4 k' g1 (by omega)⟩⟩

theorem schar_emod (x : Byte) : schar x % 256 = x.toNat := by
  have h : x.toNat < 256 := x.toNat_lt
  have e : Int.bmod (x.toNat : Int) 256 % ((256 : Nat) : Int) = (x.toNat : Int) % ((256 : Nat) : Int) := Int.bmod_emod
  have e2 : (x.toNat : Int) % ((256 : Nat) : Int) = x.toNat := Int.emod_eq_of_lt (Int.natCast_nonneg _) (by omega)
  exact e.trans e2

theorem schar_inj (x c : Byte) : schar x = schar c ↔ x = c := by
  refine ⟨fun h => ?_, fun h => congrArg schar h⟩
  have h1 := schar_emod x
  have h2 := schar_emod c
  generalize schar x = u at h h1
  generalize schar c = v at h h2
  exact UInt8.toNat_inj.1 (by omega)

/-- **C39** (partial): zt_cstr_chr finds the first position in the slice of the character (given as a char); failure is reported as 0, which is also a position. -/
theorem c39_chr_partial {m s : List Byte} (h : IsStr m s) (hs : s ≠ []) (c : Byte) {i j : Int} {a b : Nat} (hb : bounds s.length i j = some (a, b)) :
    ∃ r, chr m i j (schar c) = .ok r ∧ Found (At s (· = c)) a b 0 r := by
  have hab := bounds_some (List.length_pos_iff.2 hs) hb
  have hinj : ∀ x : Byte, (schar x = schar c) ↔ x = c := fun x => schar_inj x c
  obtain ⟨r, e, hf, _⟩ := scanUp_found h (P := fun x => .ok (decide (schar x = schar c))) (fun _ _ => rfl) hab.1 hab.2 0
  have : At s (fun x => decide (schar x = schar c) = true) = At s (· = c) := by
    funext k
    simp [At, hinj]
  rw [this] at hf
  refine ⟨r.getD 0, ?_, hf⟩
  rw [chr, convert_ok h hs hb]
  simp only [Outcome.ok_bind]
  rw [e]
  rfl

/-- **C39** (partial): zt_cstr_rchr finds the last position in the slice of the character; failure is reported as 0. -/
theorem c39_rchr_partial {m s : List Byte} (h : IsStr m s) (hs : s ≠ []) (c : Byte) {i j : Int} {a b : Nat} (hb : bounds s.length i j = some (a, b)) :
    ∃ r, rchr m i j (schar c) = .ok r ∧ FoundLast (At s (· = c)) a b 0 r := by
  have hab := bounds_some (List.length_pos_iff.2 hs) hb
  have hinj : ∀ x : Byte, (schar x = schar c) ↔ x = c := fun x => schar_inj x c
  obtain ⟨r, e, hf, _⟩ := scanDown_found h (P := fun x => .ok (decide (schar x = schar c))) (fun _ _ => rfl) hab.1 hab.2 0
  have : At s (fun x => decide (schar x = schar c) = true) = At s (· = c) := by
    funext k
    simp [At, hinj]
  rw [this] at hf
  refine ⟨r.getD 0, ?_, hf⟩
  rw [rchr, convert_ok h hs hb]
  simp only [Outcome.ok_bind]
  rw [e]
  rfl

/-! ## Comparing -/

theorem strncmp_lex : ∀ (n : Nat) {p u q t : List Byte}, IsStr p u → IsStr q t → strncmp n p q = .ok (lex (u.take n) (t.take n)) := by
  intro n
  induction n with
  | zero => intro p u q t _ _; simp [strncmp, lex]
  | succ n ih =>
      intro p u q t hp hq
      obtain ⟨h0, r1, rfl⟩ := hp
      obtain ⟨g0, r2, rfl⟩ := hq
      have hpos : ∀ x : Byte, x ≠ 0 → ((0 : Byte) < x) ∧ ¬ (x < (0 : Byte)) := by
        intro x hx
        constructor
        · refine UInt8.lt_iff_toNat_lt.2 ?_
          have : x.toNat ≠ 0 := fun e => hx (UInt8.toNat_inj.1 e)
          simp only [UInt8.toNat_ofNat]; omega
        · rw [UInt8.lt_iff_toNat_lt]; simp
      cases u with
      | nil =>
          cases t with
          | nil => simp [strncmp, lex]
          | cons y t =>
              have hy := g0 y (by simp)
              simp only [List.nil_append, List.cons_append, strncmp, List.take_nil, List.take_succ_cons, lex]
              rw [if_pos (Ne.symm hy), if_pos (hpos y hy).1]
      | cons x u =>
          have hx := h0 x (by simp)
          cases t with
          | nil =>
              simp only [List.nil_append, List.cons_append, strncmp, List.take_nil, List.take_succ_cons, lex]
              rw [if_pos hx, if_neg (hpos x hx).2]
          | cons y t =>
              simp only [List.cons_append, strncmp, List.take_succ_cons, lex]
              by_cases hxy : x = y
              · subst hxy
                have hirr : ¬ x < x := by rw [UInt8.lt_iff_toNat_lt]; omega
                rw [if_neg (by simp), if_neg hx, if_neg hirr, if_neg hirr]
                exact ih ⟨fun b hb => h0 b (by simp [hb]), r1, rfl⟩ ⟨fun b hb => g0 b (by simp [hb]), r2, rfl⟩
              · rw [if_pos hxy]
                refine congrArg _ ?_
                by_cases hlt : x < y
                · rw [if_pos hlt, if_pos hlt]
                · have hgt : y < x := by
                    rw [UInt8.lt_iff_toNat_lt] at hlt ⊢
                    have : x.toNat ≠ y.toNat := fun e => hxy (UInt8.toNat_inj.1 e)
                    omega
                  rw [if_neg hlt, if_neg hlt, if_pos hgt]

theorem lex_self : ∀ s : List Byte, lex s s = 0 := by
  intro s
  induction s with
  | nil => rfl
  | cons x s ih =>
      have hirr : ¬ x < x := by rw [UInt8.lt_iff_toNat_lt]; omega
      simp [lex, hirr, ih]

/-- The order is an order. -/
theorem lex_eq_zero : ∀ {s t : List Byte}, lex s t = 0 ↔ s = t := by
  intro s
  induction s with
  | nil => intro t; cases t <;> simp [lex]
  | cons x s ih =>
      intro t
      cases t with
      | nil => simp [lex]
      | cons y t =>
          simp only [lex]
          split
          · rename_i h
            have : x ≠ y := by rintro rfl; rw [UInt8.lt_iff_toNat_lt] at h; omega
            simp [this]
          · split
            · rename_i h
              have : x ≠ y := by rintro rfl; rw [UInt8.lt_iff_toNat_lt] at h; omega
              simp [this]
            · rename_i h1 h2
              have : x = y := by
                rw [UInt8.lt_iff_toNat_lt] at h1 h2
                exact UInt8.toNat_inj.1 (by omega)
              simp [this, ih]

theorem lex_antisymm : ∀ (s t : List Byte), lex s t = - lex t s := by
  intro s
  induction s with
  | nil => intro t; cases t <;> simp [lex]
  | cons x s ih =>
      intro t
      cases t with
      | nil => simp [lex]
      | cons y t =>
          simp only [lex]
          by_cases h1 : x < y
          · have h2 : ¬ y < x := by rw [UInt8.lt_iff_toNat_lt] at h1 ⊢; omega
            rw [if_pos h1, if_neg h2, if_pos h1]
          · by_cases h2 : y < x
            · rw [if_neg h1, if_pos h2, if_pos h2]; rfl
            · rw [if_neg h1, if_neg h2, if_neg h2, if_neg h1]; exact ih t

theorem lex_trans : ∀ {s t u : List Byte}, lex s t ≤ 0 → lex t u ≤ 0 → lex s u ≤ 0 := by
  intro s
  induction s with
  | nil => intro t u _ _; cases u <;> simp [lex]
  | cons x s ih =>
      intro t u h1 h2
      cases t with
      | nil => simp [lex] at h1
      | cons y t =>
          cases u with
          | nil => simp [lex] at h2
          | cons z u =>
              simp only [lex] at h1 h2 ⊢
              by_cases hxz : x < z
              · rw [if_pos hxz]; omega
              · rw [if_neg hxz]
                by_cases hzx : z < x
                · exfalso
                  by_cases hxy : x < y
                  · have : ¬ y < z := by rw [UInt8.lt_iff_toNat_lt] at *; omega
                    have h3 : z < y := by rw [UInt8.lt_iff_toNat_lt] at *; omega
                    rw [if_neg this, if_pos h3] at h2; omega
                  · rw [if_neg hxy] at h1
                    by_cases hyx : y < x
                    · rw [if_pos hyx] at h1; omega
                    · have h3 : ¬ y < z := by rw [UInt8.lt_iff_toNat_lt] at *; omega
                      have h4 : z < y := by rw [UInt8.lt_iff_toNat_lt] at *; omega
                      rw [if_neg h3, if_pos h4] at h2; omega
                · rw [if_neg hzx]
                  have hx : ¬ (x < y ∧ y < z) := by rw [UInt8.lt_iff_toNat_lt] at *; rw [UInt8.lt_iff_toNat_lt]; omega
                  by_cases hxy : x < y
                  · have h3 : z < y := by rw [UInt8.lt_iff_toNat_lt] at *; omega
                    have h4 : ¬ y < z := by rw [UInt8.lt_iff_toNat_lt] at *; omega
                    rw [if_neg h4, if_pos h3] at h2; omega
                  · rw [if_neg hxy] at h1
                    by_cases hyx : y < x
                    · rw [if_pos hyx] at h1; omega
                    · rw [if_neg hyx] at h1
                      have h3 : ¬ y < z := by rw [UInt8.lt_iff_toNat_lt] at *; omega
                      have h4 : ¬ z < y := by rw [UInt8.lt_iff_toNat_lt] at *; omega
                      rw [if_neg h3, if_neg h4] at h2
                      exact ih h1 h2

theorem lex_take : ∀ {s t : List Byte}, s.length < t.length → lex s t = if lex s (t.take s.length) = 0 then -1 else lex s (t.take s.length) := by
  intro s
  induction s with
  | nil =>
      intro t h
      cases t with
      | nil => simp at h
      | cons y t => simp [lex]
  | cons x s ih =>
      intro t h
      cases t with
      | nil => simp at h
      | cons y t =>
          simp only [List.length_cons, List.take_succ_cons, lex]
          by_cases h1 : x < y
          · simp [h1]
          · by_cases h2 : y < x
            · simp [h1, h2]
            · simp only [if_neg h1, if_neg h2]
              exact ih (by simpa using h)

theorem take_chars (s : List Byte) (a b n : Nat) (hn : a + n ≤ b + 1) : (s.drop a).take n = (chars s a b).take n := by
  rw [chars, List.drop_take, List.take_take]
  refine congrArg (fun k => List.take k (s.drop a)) ?_
  omega

/-- **C40** (partial): when the slices differ in length the result is their lexicographic order; when they have the same length, it is the order of the slices without their last characters, which is wrong. -/
theorem c40_cmp_partial {m1 s1 m2 s2 : List Byte} (h1 : IsStr m1 s1) (h2 : IsStr m2 s2) (hs1 : s1 ≠ []) (hs2 : s2 ≠ []) {i1 j1 i2 j2 : Int} {t1 t2 : List Byte}
    (ht1 : slice s1 i1 j1 = some t1) (ht2 : slice s2 i2 j2 = some t2) :
    cmp m1 i1 j1 m2 i2 j2 = .ok (if t1.length = t2.length then lex t1.dropLast t2.dropLast else lex t1 t2) := by
  obtain ⟨a, b, hb, hab, hbn, e1, hl1⟩ := slice_bounds hs1 ht1
  obtain ⟨c, d, hd, hcd, hdn, e2, hl2⟩ := slice_bounds hs2 ht2
  have g1 := h1.length
  have g2 := h2.length
  have key : ∀ n, a + n ≤ b + 1 → c + n ≤ d + 1 → strncmp n (m1.drop a) (m2.drop c) = .ok (lex (t1.take n) (t2.take n)) := by
    intro n hn1 hn2
    rw [strncmp_lex n (h1.drop (k := a) (by omega)) (h2.drop (k := c) (by omega)), take_chars s1 a b n hn1, take_chars s2 c d n hn2, e1, e2]
  rw [cmp, convert_ok h1 hs1 hb]
  simp only [Outcome.ok_bind]
  rw [convert_ok h2 hs2 hd]
  simp only [Outcome.ok_bind]
  rw [ptr_nat (by omega), ptr_nat (by omega)]
  simp only [Outcome.ok_bind]
  by_cases hlt : (b : Int) - a < d - c
  · rw [if_pos hlt, idxlen_eq hab]
    simp only [Outcome.ok_bind]
    rw [key _ (by omega) (by omega), if_neg (by omega), ← hl1, List.take_length]
    simp only [Outcome.ok_bind, Outcome.pure_eq]
    rw [lex_take (s := t1) (t := t2) (by omega)]
  · rw [if_neg hlt]
    by_cases hgt : (b : Int) - a > d - c
    · rw [if_pos hgt, idxlen_eq hcd]
      simp only [Outcome.ok_bind]
      rw [key _ (by omega) (by omega), if_neg (by omega), ← hl2, List.take_length]
      simp only [Outcome.ok_bind, Outcome.pure_eq]
      rw [lex_antisymm t1 t2, lex_take (s := t2) (t := t1) (by omega), lex_antisymm (t1.take t2.length) t2]
      refine congrArg _ ?_
      split <;> split <;> omega
    · rw [if_neg hgt, key _ (by omega) (by omega), if_pos (by omega), List.dropLast_eq_take, List.dropLast_eq_take]
      rw [show ((b : Int) - a).toNat = t1.length - 1 by omega, show t2.length - 1 = t1.length - 1 by omega]

/-- **C40**: hence the result is 0 for equal slices, and its sign changes when the arguments are exchanged. -/
theorem c40_reflexive {m1 s1 m2 s2 : List Byte} (h1 : IsStr m1 s1) (h2 : IsStr m2 s2) (hs1 : s1 ≠ []) (hs2 : s2 ≠ []) {i1 j1 i2 j2 : Int} {t : List Byte}
    (ht1 : slice s1 i1 j1 = some t) (ht2 : slice s2 i2 j2 = some t) : cmp m1 i1 j1 m2 i2 j2 = .ok 0 := by
  rw [c40_cmp_partial h1 h2 hs1 hs2 ht1 ht2, if_pos rfl, lex_self]

theorem c40_antisymmetric {m1 s1 m2 s2 : List Byte} (h1 : IsStr m1 s1) (h2 : IsStr m2 s2) (hs1 : s1 ≠ []) (hs2 : s2 ≠ []) {i1 j1 i2 j2 : Int} {t1 t2 : List Byte}
    (ht1 : slice s1 i1 j1 = some t1) (ht2 : slice s2 i2 j2 = some t2) : ∃ r, cmp m1 i1 j1 m2 i2 j2 = .ok r ∧ cmp m2 i2 j2 m1 i1 j1 = .ok (-r) := by
  refine ⟨_, c40_cmp_partial h1 h2 hs1 hs2 ht1 ht2, ?_⟩
  rw [c40_cmp_partial h2 h1 hs2 hs1 ht2 ht1]
  refine congrArg _ ?_
  by_cases h : t1.length = t2.length
  · rw [if_pos h, if_pos h.symm]; exact lex_antisymm _ _
  · rw [if_neg h, if_neg (fun e => h e.symm)]; exact lex_antisymm _ _

/-- Violation: "a" and "b" compare equal; "" and "a" too. -/
theorem c40_equal_violation : cmp [97, 0] 0 (-1) [98, 0] 0 (-1) = .ok 0 ∧ cmp [0] 0 (-1) [97, 0] 0 (-1) = .ok 0 := by decide +kernel

/-- Violation: "equal to" is not transitive: "ab" ~ "ac", and "ab" < "abc" but "ac" > "abc". -/
theorem c40_transitive_violation : cmp [97, 98, 0] 0 (-1) [97, 99, 0] 0 (-1) = .ok 0 ∧ cmp [97, 98, 0] 0 (-1) [97, 98, 99, 0] 0 (-1) = .ok (-1) ∧
    cmp [97, 99, 0] 0 (-1) [97, 98, 99, 0] 0 (-1) = .ok 1 := by decide +kernel

/-! ## Finding strings -/

theorem match_spec {m s mt str : List Byte} (h : IsStr m s) (ht : IsStr mt str) {k : Nat} (hk : k ≤ s.length) : ∃ r, strncmp str.length (m.drop k) mt = .ok r ∧ (r = 0 ↔ (s.drop k).take str.length = str) := by
  refine ⟨_, strncmp_lex str.length (h.drop hk) ht, ?_⟩
  rw [List.take_length, lex_eq_zero]

theorem findUp_spec {m s mt str : List Byte} (h : IsStr m s) (ht : IsStr mt str) (hne : str ≠ []) {b : Nat} (hb : b < s.length) : ∀ (n a fuel : Nat), a + n = b + 1 → n < fuel →
    ∃ r, findUp m mt str.length b fuel a = .ok r ∧ Found (Occurs s str b) a b (-1) r := by
  have hlen : 0 < str.length := List.length_pos_iff.2 hne
  intro n
  induction n with
  | zero =>
      intro a fuel ha hf
      cases fuel with
      | zero => omega
      | succ fuel => exact ⟨-1, by rw [findUp, if_neg (by omega)], .inr ⟨rfl, fun k h1 h2 => by omega⟩⟩
  | succ n ih =>
      intro a fuel ha hf
      cases fuel with
      | zero => omega
      | succ fuel =>
          have hml := h.length
          by_cases hfit : a + str.length ≤ b + 1
          · obtain ⟨r, e, hr⟩ := match_spec h ht (k := a) (by omega)
            have hstep : findUp m mt str.length b (fuel + 1) a = if r = 0 then .ok (a : Int) else findUp m mt str.length b fuel ((a : Int) + 1) := by
              rw [findUp, if_pos (by omega), ptr_nat (by omega), Outcome.ok_bind, e, Outcome.ok_bind]
            rw [hstep]
            by_cases h0 : r = 0
            · rw [if_pos h0]
              exact ⟨a, rfl, .inl ⟨a, rfl, Nat.le_refl _, by omega, ⟨hfit, hr.1 h0⟩, fun k h1 h2 => by omega⟩⟩
            · rw [if_neg h0, show ((a : Int) + 1) = ((a + 1 : Nat) : Int) by omega]
              have hna : ¬ Occurs s str b a := fun ho => h0 (hr.2 ho.2)
              obtain ⟨x, ex, hx⟩ := ih (a + 1) fuel (by omega) (by omega)
              refine ⟨x, ex, ?_⟩
              rcases hx with ⟨k, rfl, h1, h2, h3, h4⟩ | ⟨rfl, hno⟩
              · refine .inl ⟨k, rfl, by omega, h2, h3, fun k' hk1 hk2 => ?_⟩
                rcases Nat.eq_or_lt_of_le hk1 with rfl | hlt
                · exact hna
                · exact h4 k' hlt hk2
              · refine .inr ⟨rfl, fun k hk1 hk2 => ?_⟩
                rcases Nat.eq_or_lt_of_le hk1 with rfl | hlt
                · exact hna
                · exact hno k hlt hk2
          · exact ⟨-1, by rw [findUp, if_neg (by omega)], .inr ⟨rfl, fun k h1 h2 ho => by have := ho.1; omega⟩⟩

theorem findDown_spec {m s mt str : List Byte} (h : IsStr m s) (ht : IsStr mt str) (hne : str ≠ []) {b : Nat} (hb : b < s.length) {a : Nat} : ∀ (n : Nat) (o : Int) (fuel : Nat), o + 1 ≤ a + n → o + str.length ≤ b + 1 → n < fuel →
    (findDown m mt str.length a fuel o = .ok (-1) ∧ ∀ k : Nat, a ≤ k → (k : Int) ≤ o → ¬ Occurs s str b k) ∨
    ∃ k : Nat, findDown m mt str.length a fuel o = .ok k ∧ a ≤ k ∧ (k : Int) ≤ o ∧ Occurs s str b k ∧ ∀ k' : Nat, k < k' → (k' : Int) ≤ o → ¬ Occurs s str b k' := by
  have hlen : 0 < str.length := List.length_pos_iff.2 hne
  intro n
  induction n with
  | zero =>
      intro o fuel ho _ hf
      cases fuel with
      | zero => omega
      | succ fuel => exact .inl ⟨by rw [findDown, if_neg (by omega)], fun k h1 h2 => by omega⟩
  | succ n ih =>
      intro o fuel ho hob hf
      cases fuel with
      | zero => omega
      | succ fuel =>
          have hml := h.length
          by_cases hge : o ≥ a
          · obtain ⟨q, rfl⟩ : ∃ q : Nat, o = q := ⟨o.toNat, by omega⟩
            obtain ⟨r, e, hr⟩ := match_spec h ht (k := q) (by omega)
            have hstep : findDown m mt str.length a (fuel + 1) q = if r = 0 then .ok (q : Int) else findDown m mt str.length a fuel ((q : Int) - 1) := by
              rw [findDown, if_pos (by omega), ptr_nat (by omega), Outcome.ok_bind, e, Outcome.ok_bind]
            rw [hstep]
            by_cases h0 : r = 0
            · rw [if_pos h0]
              exact .inr ⟨q, rfl, by omega, by omega, ⟨by omega, hr.1 h0⟩, fun k h1 h2 => by omega⟩
            · rw [if_neg h0]
              have hna : ¬ Occurs s str b q := fun ho => h0 (hr.2 ho.2)
              rcases ih ((q : Int) - 1) fuel (by omega) (by omega) (by omega) with ⟨ex, hno⟩ | ⟨k, ex, h1, h2, h3, h4⟩
              · refine .inl ⟨ex, fun k hk1 hk2 => ?_⟩
                by_cases hkq : k = q
                · subst hkq; exact hna
                · exact hno k hk1 (by omega)
              · refine .inr ⟨k, ex, h1, by omega, h3, fun k' hk1 hk2 => ?_⟩
                by_cases hkq : k' = q
                · subst hkq; exact hna
                · exact h4 k' hk1 (by omega)
          · exact .inl ⟨by rw [findDown, if_neg (by omega)], fun k h1 h2 => by omega⟩

theorem occurs_one {s : List Byte} {x : Byte} {b k : Nat} (hb : b < s.length) (hk : k ≤ b) : Occurs s [x] b k ↔ At s (fun y => (y == x) = true) k := by
  have hks : k < s.length := by omega
  simp only [Occurs, At, List.length_singleton]
  rw [List.drop_eq_getElem_cons hks, List.take_succ_cons, List.take_zero]
  simp [hks]
  omega

/-- **C39**: zt_cstr_find returns the first position at which the string occurs within the slice, -1 when there is none. -/
theorem c39_find {m s mt str : List Byte} (h : IsStr m s) (hs : s ≠ []) (ht : IsStr mt str) (hne : str ≠ []) {i j : Int} {a b : Nat} (hb : bounds s.length i j = some (a, b)) :
    ∃ r, find m i j mt = .ok r ∧ Found (Occurs s str b) a b (-1) r := by
  have hab := bounds_some (List.length_pos_iff.2 hs) hb
  have hlen : 0 < str.length := List.length_pos_iff.2 hne
  rw [find, convert_ok h hs hb]
  simp only [Outcome.ok_bind]
  rw [ht.strlen]
  simp only [Outcome.ok_bind]
  rw [if_neg (by omega)]
  by_cases h1 : str.length = 1
  · rw [if_pos h1]
    obtain ⟨x, rfl⟩ : ∃ x, str = [x] := List.length_eq_one_iff.1 h1
    rw [ht.get (k := 0) (by simp)]
    simp only [Outcome.ok_bind, List.getElem_cons_zero]
    rcases scanUp_spec h (P := fun y => .ok (y == x)) (q := fun y => y == x) (fun _ _ => rfl) hab.2 (b + 1 - a) a (b + 1 - a + 1) (by omega) (by omega) with ⟨e, hno⟩ | ⟨k, e, g1, g2, g3, g4⟩
    · rw [rounds_eq, e]
      simp only [Outcome.ok_bind]
      refine ⟨-1, by rw [findUp, if_neg (by simp only [List.length_singleton]; omega)], .inr ⟨rfl, fun k hk1 hk2 => ?_⟩⟩
      rw [occurs_one hab.2 hk2]
      exact hno k hk1 hk2
    · rw [rounds_eq, e]
      refine ⟨k, rfl, .inl ⟨k, rfl, g1, g2, (occurs_one hab.2 g2).2 g3, fun k' hk1 hk2 => ?_⟩⟩
      rw [occurs_one hab.2 (by omega)]
      exact g4 k' hk1 hk2
  · rw [if_neg h1]
    exact findUp_spec h ht hne hab.2 (b + 1 - a) a _ (by omega) (by rw [rounds_eq]; omega)

/-- **C39**: zt_cstr_rfind returns the last such position. -/
theorem c39_rfind {m s mt str : List Byte} (h : IsStr m s) (hs : s ≠ []) (ht : IsStr mt str) (hne : str ≠ []) {i j : Int} {a b : Nat} (hb : bounds s.length i j = some (a, b)) :
    ∃ r, rfind m i j mt = .ok r ∧ FoundLast (Occurs s str b) a b (-1) r := by
  have hab := bounds_some (List.length_pos_iff.2 hs) hb
  have hlen : 0 < str.length := List.length_pos_iff.2 hne
  rw [rfind, convert_ok h hs hb]
  simp only [Outcome.ok_bind]
  rw [ht.strlen]
  simp only [Outcome.ok_bind]
  rw [if_neg (by omega)]
  by_cases h1 : str.length = 1
  · rw [if_pos h1]
    obtain ⟨x, rfl⟩ : ∃ x, str = [x] := List.length_eq_one_iff.1 h1
    rw [ht.get (k := 0) (by simp)]
    simp only [Outcome.ok_bind, List.getElem_cons_zero]
    rcases scanDown_spec h (P := fun y => .ok (y == x)) (q := fun y => y == x) (fun _ _ => rfl) (a := a) (b + 1 - a) b (b + 1 - a + 1) (by omega) (by omega) (by omega) with ⟨e, hno⟩ | ⟨k, e, g1, g2, g3, g4⟩
    · rw [rounds_eq, e]
      simp only [Outcome.ok_bind]
      refine ⟨-1, by rw [findDown, if_neg (by simp only [List.length_singleton]; omega)], .inr ⟨rfl, fun k hk1 hk2 => ?_⟩⟩
      rw [occurs_one hab.2 hk2]
      exact hno k hk1 (by omega)
    · rw [rounds_eq, e]
      refine ⟨k, rfl, .inl ⟨k, rfl, g1, by omega, (occurs_one hab.2 (by omega)).2 g3, fun k' hk1 hk2 => ?_⟩⟩
      rw [occurs_one hab.2 (by omega)]
      exact g4 k' hk1 (by omega)
  · rw [if_neg h1]
    rcases findDown_spec h ht hne hab.2 (a := a) (b + 1 - a) ((b : Int) - str.length + 1) (rounds a b) (by omega) (by omega) (by rw [rounds_eq]; omega) with ⟨e, hno⟩ | ⟨k, e, g1, g2, g3, g4⟩
    · refine ⟨-1, e, .inr ⟨rfl, fun k hk1 hk2 ho => hno k hk1 ?_ ho⟩⟩
      have := ho.1; omega
    · refine ⟨k, e, .inl ⟨k, rfl, g1, by omega, g3, fun k' hk1 hk2 ho => g4 k' hk1 ?_ ho⟩⟩
      have := ho.1; omega

/-- The empty string is never found. -/
theorem c39_find_empty {m s mt : List Byte} (h : IsStr m s) (ht : IsStr mt []) {i j : Int} (hb : (bounds s.length i j).isSome ∨ s = []) : find m i j mt = .ok (-1) ∧ rfind m i j mt = .ok (-1) := by
  have hc : ∃ x, convert m i j = .ok x := by
    by_cases hs : s = []
    · subst hs; exact ⟨_, convert_empty h i j⟩
    · rcases hb with hb | hb
      · obtain ⟨⟨a, b⟩, hab⟩ := Option.isSome_iff_exists.1 hb
        exact ⟨_, convert_ok h hs hab⟩
      · exact absurd hb hs
  obtain ⟨x, hx⟩ := hc
  constructor
  · rw [find, hx]
    simp only [Outcome.ok_bind]
    rw [ht.strlen]
    rfl
  · rw [rfind, hx]
    simp only [Outcome.ok_bind]
    rw [ht.strlen]
    rfl

/-! ## Violations and concrete cases -/

/-- "The rain in Spain" -/
def spain : List Byte := [84, 104, 101, 32, 114, 97, 105, 110, 32, 105, 110, 32, 83, 112, 97, 105, 110]

/-- Violation: a missing character gives 0 (here 'x'), the same as a character at position 0 ('T'). -/
theorem c39_chr_violation : chr (spain ++ [0]) 0 (-1) 120 = .ok 0 ∧ chr (spain ++ [0]) 0 (-1) 84 = .ok 0 ∧ rchr (spain ++ [0]) 0 (-1) 120 = .ok 0 := by decide +kernel

/-- Violation: zt_cstr_rany counts from the start of the slice: 'S' at 12 is reported as 8 for the slice from 4. -/
theorem c39_rany_violation : rany (spain ++ [0]) 4 (-1) [83, 0] = .ok 8 ∧ any (spain ++ [0]) 4 (-1) [83, 0] = .ok 12 := by decide +kernel

/-- Violation: a character above 127 given as its code (here 233) is not found. -/
theorem c39_char_violation : chr [97, 233, 0] 0 (-1) 233 = .ok 0 ∧ chr [97, 233, 0] 0 (-1) (schar 233) = .ok 1 := by decide +kernel

/-- Violation: zt_cstr_upto finds the terminator of the empty string. -/
theorem c39_upto_empty_violation : upto [0] 0 (-1) [97, 0] = .ok 0 := by decide +kernel

example : find (spain ++ [0]) 0 (-1) [105, 110, 0] = .ok 6 := by decide +kernel
example : rfind (spain ++ [0]) 0 (-1) [105, 110, 0] = .ok 15 := by decide +kernel
example : bounds spain.length 0 (-1) = some (0, 16) := by decide
example : Occurs spain [105, 110] 16 6 := by simp [Occurs, spain]

end ZT.Cstr
