import Verif.Format.Props

/-!
# The '#' flag of %s (C36)

libzt gives '#' a meaning the C standard leaves open: a width is the number of bytes to skip at the front of the string, not a field.
-/

namespace ZT.Format

open Std

/-- The part of a string left when `n` bytes at its front are skipped; a string not longer than that is printed whole. -/
def skipped (n : Nat) (s : List Byte) : List Byte := if n < s.length then s.drop n else s

/-- At most `p` bytes; a negative `p` is no limit. -/
def limited (p : Int) (s : List Byte) : List Byte := if p < 0 then s else s.take p.toNat

theorem cvtS_hash {w p : Int} {s : List Byte} {fl : Flags} (hf : fl 35 ≠ 0) (hw : w ≠ INT_MIN) (hs : (s.length : Int) < INT_MAX) (l : List Byte) :
    ∃ t, cvtS out (some s) fl w p l = .ok (t, l ++ limited p (skipped w.natAbs s)) := by
  have e1 : hashStr s fl w = .ok (skipped w.natAbs s, INT_MIN) := by
    rw [hashStr, if_pos ⟨hf, hw⟩, if_pos hs]
    simp only [skipped]
    by_cases h0 : w < 0
    · simp only [h0, if_true]
      rw [show (-w).toNat = w.natAbs by omega]
      by_cases h1 : w.natAbs < s.length
      · rw [if_pos h1, if_pos (by omega)]
      · rw [if_neg h1, if_neg (by omega)]
    · simp only [h0, if_false]
      rw [show w.toNat = w.natAbs by omega]
      by_cases h1 : w.natAbs < s.length
      · rw [if_pos h1, if_pos (by omega)]
      · rw [if_neg h1, if_neg (by omega)]
  simp only [cvtS]
  rw [e1, Outcome.ok_bind]
  simp only [puts_eq]
  obtain ⟨t, ht⟩ := feed_out (putsCodes (skipped w.natAbs s) fl INT_MIN p) 0 l
  refine ⟨t, ?_⟩
  rw [ht]
  have hz : (normAll INT_MIN fl p).1 = 0 := by simp [normAll, normWidth]
  have hc : (if p ≥ 0 ∧ p < (skipped w.natAbs s).length then (skipped w.natAbs s).take p.toNat else skipped w.natAbs s) = limited p (skipped w.natAbs s) := by
    rw [limited]
    by_cases hp : p < 0
    · rw [if_neg (by omega), if_pos hp]
    · rw [if_neg hp]
      split
      · rfl
      · rw [List.take_of_length_le]; omega
  simp only [putsCodes]
  rw [hc, hz, List.map_append, map_codes]
  have : rep (0 - ((limited p (skipped w.natAbs s)).length : Int)) 32 = [] := by
    have : (0 - ((limited p (skipped w.natAbs s)).length : Int)).toNat = 0 := by omega
    rw [rep, this]; rfl
  rw [this]
  simp

/-- **C36**: `%#*.*s` skips as many bytes at the front of the string as the width says (a string not longer than that is not shortened), prints at most as many of the rest as the precision says, and pads nothing. A
negative width counts as its absolute value, a negative precision is no limit. -/
theorem c36_hash (w p : Int) (hw : w ≠ INT_MIN) (hp : p ≠ INT_MIN) (s : List Byte) (hs : (s.length : Int) < INT_MAX) :
    text [37, 35, 42, 46, 42, 115] [.int w, .int p, .str (some s)] = .ok (limited p (skipped w.natAbs s)) := by
  have hf : (Flags.set (fun _ => 0) 35 1) 35 ≠ 0 := by simp [Flags.set]
  obtain ⟨t, ht⟩ := cvtS_hash (p := p) hf hw hs []
  have hd : directive out [35, 42, 46, 42, 115] [.int w, .int p, .str (some s)] [] = .ok (t, limited p (skipped w.natAbs s), [], []) := by
    rw [directive, show scanFlags (fun _ => 0) [35, 42, 46, 42, 115] = .ok (Flags.set (fun _ => 0) 35 1, [42, 46, 42, 115]) from rfl, Outcome.ok_bind]
    simp only
    rw [show scanWidth [42, 46, 42, 115] [.int w, .int p, .str (some s)] = .ok (w, [46, 42, 115], [.int p, .str (some s)]) by
      rw [scanWidth, if_pos (show starts [42, 46, 42, 115] = true by decide)]; simp only [scanStar]; rw [if_pos hw], Outcome.ok_bind]
    simp only
    rw [show scanPrec [46, 42, 115] [.int p, .str (some s)] = .ok (p, [115], [.str (some s)]) by
      simp only [scanPrec]; rw [if_pos (show starts [42, 115] = true by decide)]; simp only [scanStar]; rw [if_pos hp], Outcome.ok_bind]
    simp only
    rw [show convert out 115 [.str (some s)] (Flags.set (fun _ => 0) 35 1) w p [] = (cvtS out (some s) (Flags.set (fun _ => 0) 35 1) w p [] >>= fun x => .ok (x.1, x.2, [])) from rfl, ht]
    rfl
  rw [text, vformat]
  show (vformatLoop out (6 + 1) [37, 35, 42, 46, 42, 115] [.int w, .int p, .str (some s)] 0 [] >>= fun x => pure x.2) = _
  unfold vformatLoop
  simp only
  rw [if_neg (by decide), if_neg (by decide), hd]
  rfl

/-- **C36**: the same with the width written in the format, `%#<w>s`. -/
theorem c36_hash_num (w : Nat) (hw : 0 < w) (hm : (w : Int) ≤ INT_MAX) (s : List Byte) (hs : (s.length : Int) < INT_MAX) :
    text (37 :: 35 :: (Num.digits 10 w ++ [115])) [.str (some s)] = .ok (skipped w s) := by
  have hf : (Flags.set (fun _ => 0) 35 1) 35 ≠ 0 := by simp [Flags.set]
  have hne : (w : Int) ≠ INT_MIN := by simp only [INT_MIN]; omega
  obtain ⟨t, ht⟩ := cvtS_hash (p := INT_MIN) hf hne hs []
  have hl : limited INT_MIN (skipped (w : Int).natAbs s) = skipped w s := by rw [limited, if_pos (by decide)]; rfl
  rw [hl] at ht
  obtain ⟨c, r, e, h1, h2⟩ := digits_head w hw
  have hns : c ≠ 42 := by rintro rfl; exact absurd h1 (by decide)
  have hd : directive out (35 :: (Num.digits 10 w ++ [115])) [.str (some s)] [] = .ok (t, skipped w s, [], []) := by
    have e1 : scanFlags (fun _ => 0) (35 :: (Num.digits 10 w ++ [115])) = .ok (Flags.set (fun _ => 0) 35 1, Num.digits 10 w ++ [115]) := by
      rw [e]
      simp only [List.cons_append, scanFlags]
      rw [if_pos (by decide), if_pos (by decide), if_neg (by simp [h2])]
    rw [directive, e1, Outcome.ok_bind]
    simp only
    have hnd : ∀ (c : Byte) (r : List Byte), ([115] : List Byte) = c :: r → isDigit c = false := by
      intro c r h
      rw [← (List.cons.inj h).1]
      decide
    obtain ⟨h3, h4⟩ := scanStar_spec (l := .num w) (by simp) ⟨by omega, hm⟩ (ap := [.str (some s)]) (w := some (w : Int)) (ap' := [.str (some s)]) (by simp only [takeLen]) (by intro x hx; rw [Nat.sub_self] at hx; cases hx) [115] hnd
    simp only [Len.text] at h3 h4
    rw [scanWidth, if_pos h4, h3, Outcome.ok_bind]
    simp only
    rw [show scanPrec [115] [.str (some s)] = .ok (INT_MIN, [115], [.str (some s)]) from rfl, Outcome.ok_bind]
    simp only
    rw [show convert out 115 [.str (some s)] (Flags.set (fun _ => 0) 35 1) (toLib (some (w : Int))) INT_MIN [] = (cvtS out (some s) (Flags.set (fun _ => 0) 35 1) w INT_MIN [] >>= fun x => .ok (x.1, x.2, [])) from rfl, ht]
    rfl
  rw [text, vformat]
  simp only [List.length_cons, vformatLoop]
  rw [if_neg (by decide), if_neg (by decide), hd]
  simp only [Outcome.ok_bind]
  rfl

/-- "%#2s" of "abcde" is "cde"; of "ab" it is "ab". -/
example : text [37, 35, 50, 115] [.str (some [97, 98, 99, 100, 101])] = .ok [99, 100, 101] ∧ text [37, 35, 50, 115] [.str (some [97, 98])] = .ok [97, 98] := by decide +kernel

end ZT.Format
