import Verif.Format.Sink

/-!
# C37: bounded formatting
-/

namespace ZT.Format

/-! ## Specification -/

/-- An unbounded sink: every character is appended to the text. -/
def out : Put (List Byte) := fun c t => .ok (c, t ++ [toByte c])

/-- The formatted text: what zt_fmt_format hands to the sink. -/
def text (fmt : List Byte) (ap : List Arg) : Outcome (List Byte) := do
  let (_, t) ← vformat out fmt ap []
  pure t

/-! ## Proofs -/

theorem feed_out : ∀ (cs : List Int) (t : Int) (l : List Byte), ∃ s, feed out cs t l = .ok (s, l ++ cs.map toByte) := by
  intro cs
  induction cs with
  | nil => intro t l; exact ⟨t, by simp [feed]⟩
  | cons c cs ih =>
      intro t l
      obtain ⟨s, h⟩ := ih (t + c) (l ++ [toByte c])
      refine ⟨s, ?_⟩
      simp only [feed, out, Outcome.ok_bind]
      have h : feed out cs (t + c) (l ++ [toByte c]) = _ := h
      rw [h]
      simp

/-- The text and the way formatting ends, in terms of the characters. -/
theorem text_codes (fmt : List Byte) (ap : List Arg) : ∃ cs, ∃ fin : Outcome Unit, (∀ (σ : Type) (put : Put σ) (cl : σ), vformat put fmt ap cl = (feed put cs 0 cl >>= fun x => fin >>= fun _ => .ok x)) ∧
    text fmt ap = (fin >>= fun _ => .ok (cs.map toByte)) := by
  obtain ⟨cs, fin, h⟩ := vformat_emits fmt ap
  refine ⟨cs, fin, h, ?_⟩
  obtain ⟨s, hf⟩ := feed_out cs 0 []
  rw [text, h, hf]
  cases fin <;> simp

/-- The state of zt_fmt_insert: `done` has been stored at the beginning of the block `b`. -/
theorem feed_insert (b : List Byte) (size : Nat) (hb : size ≤ b.length) : ∀ (cs : List Int) (done : List Byte) (t : Int), done.length ≤ size →
    (done.length + cs.length ≤ size → ∃ s, feed insert cs t ⟨done ++ b.drop done.length, done.length, size⟩ =
      .ok (s, ⟨(done ++ cs.map toByte) ++ b.drop (done ++ cs.map toByte).length, (done ++ cs.map toByte).length, size⟩)) ∧
    (size < done.length + cs.length → feed insert cs t ⟨done ++ b.drop done.length, done.length, size⟩ = .abort) := by
  intro cs
  induction cs with
  | nil =>
      intro done t hd
      refine ⟨fun _ => ⟨t, by simp [feed]⟩, fun h => ?_⟩
      simp at h; omega
  | cons c cs ih =>
      intro done t hd
      by_cases hlt : done.length < size
      · have hstep : insert c ⟨done ++ b.drop done.length, done.length, size⟩ = .ok (c, ⟨(done ++ [toByte c]) ++ b.drop (done ++ [toByte c]).length, (done ++ [toByte c]).length, size⟩) := by
          simp only [insert, if_pos hlt]
          have hdrop : b.drop done.length = b[done.length]'(by omega) :: b.drop (done.length + 1) := List.drop_eq_getElem_cons (by omega)
          rw [wr_lt (by simp; omega)]
          simp only [Outcome.ok_bind]
          rw [hdrop, List.set_append_right _ _ (Nat.le_refl _), Nat.sub_self, List.set_cons_zero]
          simp
        obtain ⟨h1, h2⟩ := ih (done ++ [toByte c]) (t + c) (by simp; omega)
        constructor
        · intro hl
          obtain ⟨s, e⟩ := h1 (by simp at hl ⊢; omega)
          refine ⟨s, ?_⟩
          simp only [feed]
          rw [hstep]
          simp only [Outcome.ok_bind]
          rw [e]
          simp
        · intro hl
          simp only [feed]
          rw [hstep]
          simp only [Outcome.ok_bind]
          exact h2 (by simp at hl ⊢; omega)
      · constructor
        · intro hl; simp at hl; omega
        · intro _
          simp only [feed, insert, if_neg hlt]
          rfl

/-- C37: formatting into a buffer of `size` bytes. If the text and its terminator fit they are stored at the beginning, everything behind them is unchanged and the length of the text is returned; if they do
not fit the call aborts. Nothing is ever stored outside. -/
theorem c37_sprintf (b : List Byte) (size : Nat) (hb : size ≤ b.length) (fmt : List Byte) (ap : List Arg) {t : List Byte} (ht : text fmt ap = .ok t) :
    vsprintf (some b) size fmt ap = if t.length < size then .ok (t.length, t ++ 0 :: b.drop (t.length + 1)) else .abort := by
  obtain ⟨cs, fin, h, e⟩ := text_codes fmt ap
  have hfin : fin = .ok () ∧ t = cs.map toByte := by
    rw [e] at ht
    cases fin with
    | ok u => cases ht; exact ⟨rfl, rfl⟩
    | abort => cases ht
    | ub => cases ht
  obtain ⟨rfl, rfl⟩ := hfin
  simp only [vsprintf]
  by_cases hs : size > 0
  · rw [if_pos hs, h]
    obtain ⟨h1, h2⟩ := feed_insert b size hb cs [] 0 (by simp)
    simp only [List.nil_append, List.length_nil, List.drop_zero, Nat.zero_add] at h1 h2
    by_cases hl : cs.length ≤ size
    · obtain ⟨s, e1⟩ := h1 hl
      rw [e1]
      simp only [Outcome.ok_bind, List.length_map]
      by_cases hlt : cs.length < size
      · rw [if_pos hlt]
        simp only [insert, if_pos hlt]
        have hdrop : b.drop cs.length = b[cs.length]'(by omega) :: b.drop (cs.length + 1) := List.drop_eq_getElem_cons (by omega)
        rw [wr_lt (by simp; omega)]
        have hset := List.set_append_right (s := cs.map toByte) (t := b[cs.length]'(by omega) :: b.drop (cs.length + 1)) cs.length (toByte 0) (by simp)
        simp only [Outcome.ok_bind, Outcome.pure_eq]
        rw [hdrop, hset, List.length_map, Nat.sub_self, List.set_cons_zero]
        simp [toByte]
      · rw [if_neg hlt]
        simp only [insert, if_neg hlt]
        rfl
    · rw [h2 (by omega)]
      rw [if_neg (by simp; omega)]
      rfl
  · rw [if_neg hs, if_neg (by omega)]

/-- C37: a format that aborts by itself also aborts here, and undefined behaviour comes only from the format and its arguments. -/
theorem c37_sprintf_abort (b : List Byte) (size : Nat) (hb : size ≤ b.length) (fmt : List Byte) (ap : List Arg) : (text fmt ap = .abort → vsprintf (some b) size fmt ap = .abort) ∧
    (vsprintf (some b) size fmt ap = .ub → text fmt ap = .ub) := by
  obtain ⟨cs, fin, h, e⟩ := text_codes fmt ap
  have hfeed : (∃ x, feed insert cs 0 ⟨b, 0, size⟩ = .ok x) ∨ feed insert cs 0 ⟨b, 0, size⟩ = .abort := by
    obtain ⟨h1, h2⟩ := feed_insert b size hb cs [] 0 (by simp)
    simp only [List.nil_append, List.length_nil, List.drop_zero, Nat.zero_add] at h1 h2
    rcases Nat.lt_or_ge size cs.length with hl | hl
    · exact .inr (h2 hl)
    · obtain ⟨s, e⟩ := h1 hl; exact .inl ⟨_, e⟩
  constructor
  · intro ht
    have hfin : fin = .abort := by
      rw [e] at ht
      cases fin with
      | ok u => cases ht
      | abort => rfl
      | ub => cases ht
    subst hfin
    simp only [vsprintf]
    split
    · rw [h]
      rcases hfeed with ⟨x, hx⟩ | hx <;> rw [hx] <;> rfl
    · rfl
  · intro hu
    cases ht : text fmt ap with
    | ub => rfl
    | ok t =>
        rw [c37_sprintf b size hb fmt ap ht] at hu
        split at hu <;> cases hu
    | abort =>
        rw [e] at ht
        have hfin : fin = .abort := by
          cases fin with
          | ok u => cases ht
          | abort => rfl
          | ub => cases ht
        subst hfin
        simp only [vsprintf] at hu
        split at hu
        · rw [h] at hu
          rcases hfeed with ⟨x, hx⟩ | hx <;> rw [hx] at hu <;> cases hu
        · cases hu

/-- The state of zt_fmt_append. -/
structure App (done : List Byte) (p : Obuf) : Prop where
  len : p.buf.length = p.size
  bp : p.bp = done.length
  le : p.bp ≤ p.size
  pos : 0 < p.size
  pre : p.buf.take p.bp = done

theorem append_step (junk : Byte) (c : Int) {done : List Byte} {p : Obuf} (A : App done p) : ∃ q, append junk c p = .ok (c, q) ∧ App (done ++ [toByte c]) q := by
  have key : ∀ q : Obuf, App done q → q.bp < q.size → ∃ r, (wr q.buf q.bp (toByte c) >>= fun buf => (.ok (c, { q with buf := buf, bp := q.bp + 1 }) : Outcome (Int × Obuf))) = .ok (c, r) ∧ App (done ++ [toByte c]) r := by
    intro q B hlt
    have hl := B.len
    have hbp := B.bp
    rw [wr_lt (by omega)]
    refine ⟨_, rfl, ⟨by simp [B.len], by simp [B.bp], by simp; omega, B.pos, ?_⟩⟩
    show (q.buf.set q.bp (toByte c)).take (q.bp + 1) = _
    rw [List.take_succ, List.take_set_of_le (Nat.le_refl _), B.pre, List.getElem?_set_self (by omega)]
    rfl
  by_cases hge : p.bp ≥ p.size
  · simp only [append, if_pos hge]
    have hsz : p.bp = p.size := by have := A.le; omega
    have hpos := A.pos
    obtain ⟨r, e, B⟩ := key ⟨p.buf.take p.size ++ List.replicate (p.size * 2 - p.size) junk, p.size, p.size * 2⟩ ⟨by simp [A.len]; omega, by rw [← A.bp, hsz], by simp; omega, by simp; omega, by
      simp only
      rw [List.take_append_of_le_length (by simp [A.len]), List.take_take, Nat.min_self, ← hsz]
      exact A.pre⟩ (by simp; omega)
    exact ⟨r, e, B⟩
  · simp only [append, if_neg hge]
    exact key p A (by omega)

theorem feed_appendS (junk : Byte) : ∀ (cs : List Int) {done : List Byte} {p : Obuf} (t : Int), App done p → ∃ s q, feed (append junk) cs t p = .ok (s, q) ∧ App (done ++ cs.map toByte) q := by
  intro cs
  induction cs with
  | nil => intro done p t A; exact ⟨t, p, rfl, by simpa using A⟩
  | cons c cs ih =>
      intro done p t A
      obtain ⟨q, e, B⟩ := append_step junk c A
      obtain ⟨s, r, e2, C⟩ := ih (t + c) B
      refine ⟨s, r, ?_, by simpa using C⟩
      simp only [feed]
      rw [e]
      exact e2

/-- C37: zt_fmt_strprintf returns a block that holds exactly the formatted text and its terminator; it aborts, or is undefined, exactly when formatting is. -/
theorem c37_strprintf (junk : Byte) (fmt : List Byte) (ap : List Arg) : vstrprintf junk fmt ap = (text fmt ap >>= fun t => .ok (t ++ [0])) := by
  obtain ⟨cs, fin, h, e⟩ := text_codes fmt ap
  obtain ⟨s, q, e1, A⟩ := feed_appendS junk cs (done := []) (p := ⟨List.replicate 256 junk, 0, 256⟩) 0 ⟨List.length_replicate .., rfl, Nat.zero_le _, Nat.succ_pos _, rfl⟩
  rw [vstrprintf, h, e1, e]
  cases fin with
  | abort => rfl
  | ub => rfl
  | ok u =>
      obtain ⟨r, e2, B⟩ := append_step junk 0 A
      simp only [Outcome.ok_bind]
      rw [e2]
      simp only [Outcome.ok_bind, Outcome.pure_eq, B.pre]
      simp [toByte]

/-- zt_fmt_format and zt_fmt_printf return the sum of the character codes, not the number of characters: "ab" gives 195. -/
theorem c37_return_violation : vformat out [97, 98] [] [] = .ok (195, [97, 98]) := by decide +kernel

example : text [37, 100, 44, 37, 53, 115] [.int (-7), .str (some [120, 121])] = .ok [45, 55, 44, 32, 32, 32, 120, 121] := by decide +kernel
example : vsprintf (some [1, 1, 1, 1]) 4 [37, 100] [.int (-7)] = .ok (2, [45, 55, 0, 1]) := by decide +kernel
example : vsprintf (some [1, 1, 1, 1]) 2 [37, 100] [.int (-7)] = .abort := by decide +kernel

end ZT.Format
