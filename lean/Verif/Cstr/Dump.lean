import Verif.Cstr.DumpModel
import Verif.Fuel

/-!
# C50: hexadecimal dumps
-/

namespace ZT.Cstr

/-! ## Specification -/

/-- The digit of a number below 16. -/
def hexDigit (n : Nat) : Byte := if n < 10 then UInt8.ofNat (48 + n) else UInt8.ofNat (87 + n)

/-- Two digits and a blank for each byte. -/
def hexText (bs : List Byte) : List Byte := bs.flatMap fun c => [hexDigit (c.toNat / 16), hexDigit (c.toNat % 16), 32]

/-- The bytes as text, with "." for everything that is not printable ASCII. -/
def asciiText (bs : List Byte) : List Byte := bs.map fun c => if 32 ≤ c ∧ c ≤ 126 then c else 46

/-- The line for at most 16 bytes at position `a` of the data: both texts in buffers of 51 and 17 bytes, otherwise zero. -/
def lineOf (a : Nat) (bs : List Byte) : Line := ⟨a % 2 ^ 32, hexText bs ++ List.replicate (51 - 3 * bs.length) 0, asciiText bs ++ List.replicate (17 - bs.length) 0⟩

/-- The lines for data at position `a`: 16 bytes each, except perhaps the last. -/
def linesFrom (a : Nat) (bs : List Byte) : List Line := (List.range ((bs.length + 15) / 16)).map fun k => lineOf (a + 16 * k) ((bs.drop (16 * k)).take 16)

/-- Giving lines to the output callback until it returns -1; was every line given (and accepted)? -/
def report {τ : Type} (out : τ → Option Line → Int × τ) : τ → List Line → τ × Bool
  | t, [] => (t, true)
  | t, l :: ls => if (out t (some l)).1 = -1 then ((out t (some l)).2, false) else report out (out t (some l)).2 ls

/-- The source gives the characters `bs` and then end of file. -/
def Delivers {σ : Type} (get : σ → Int × σ) : σ → List Byte → Prop
  | s, [] => (get s).1 = -1
  | s, b :: bs => (get s).1 = b.toNat ∧ Delivers get (get s).2 bs

/-- The result of a dump that shows `ls` and has read `n` bytes. -/
def dumped {τ : Type} (out : τ → Option Line → Int × τ) (t : τ) (ls : List Line) (n : Nat) : Nat × τ :=
  if (report out t ls).2 then (n % 2 ^ 64, (out (report out t ls).1 none).2) else (2 ^ 64 - 1, (report out t ls).1)

/-! ## Proof -/

theorem digit_rd {n : Nat} (h : n < 16) : rd HEX_DIGITS n = .ok (hexDigit n) := by
  have : ∀ d : Fin 16, rd HEX_DIGITS d.val = .ok (hexDigit d.val) := by decide
  exact this ⟨n, h⟩

theorem length_hexText (bs : List Byte) : (hexText bs).length = 3 * bs.length := by
  induction bs with
  | nil => rfl
  | cons c bs ih => rw [hexText, List.flatMap_cons, List.length_append, ← hexText, ih]; simp; omega

theorem hexText_append (a b : List Byte) : hexText (a ++ b) = hexText a ++ hexText b := by simp [hexText]

theorem toChar_nat (c : Byte) : toChar (c.toNat : Int) = c := by
  have : (c.toNat : Int) % 256 = (c.toNat : Int) := by have := c.toNat_lt; omega
  rw [toChar, this]
  simp

theorem wr_mid {done tail : List Byte} {x c : Byte} {k : Nat} (hk : k = done.length) : wr (done ++ x :: tail) k c = .ok (done ++ c :: tail) := by
  subst hk
  rw [wr_lt (by simp)]
  simp

/-- The state within a line: `cur` are the bytes of the line so far, `n` bytes came before it. -/
structure Mid (n : Nat) (cur : List Byte) (st : DumpSt) : Prop where
  mod : n % 16 = 0
  short : cur.length < 16
  bytes : st.bytes = (n + cur.length) % 2 ^ 64
  addr : st.addr = (n + cur.length) % 2 ^ 32
  line : cur ≠ [] → st.line = lineOf n cur ∧ st.hpos = 3 * cur.length ∧ st.cpos = cur.length

theorem Mid.addr_mod {n : Nat} {cur : List Byte} {st : DumpSt} (h : Mid n cur st) : st.addr % 16 = cur.length := by
  have h1 := h.mod
  have h2 := h.short
  rw [h.addr]
  omega

theorem Mid.start {n : Nat} {cur : List Byte} {st : DumpSt} (h : Mid n cur st) :
    (dumpStart st).line = lineOf n cur ∧ (dumpStart st).hpos = 3 * cur.length ∧ (dumpStart st).cpos = cur.length ∧ (dumpStart st).bytes = st.bytes ∧ (dumpStart st).addr = st.addr := by
  have hm := h.addr_mod
  rw [dumpStart]
  cases cur with
  | nil =>
      simp at hm
      rw [if_pos hm]
      have := h.addr
      simp at this
      simp [DumpSt.line, lineOf, hexText, asciiText, this]
  | cons c cur =>
      simp at hm
      rw [if_neg (by omega)]
      have := h.line (by simp)
      exact ⟨this.1, this.2.1, this.2.2, rfl, rfl⟩

theorem dumpChar_ok {n : Nat} {cur : List Byte} {st : DumpSt} (h : Mid n cur st) (c : Byte) :
    ∃ st', dumpChar st (c.toNat : Int) = .ok st' ∧ st'.line = lineOf n (cur ++ [c]) ∧ st'.hpos = 3 * (cur ++ [c]).length ∧ st'.cpos = (cur ++ [c]).length ∧ st'.bytes = st.bytes ∧ st'.addr = st.addr := by
  obtain ⟨hl, hh, hc, hb, ha⟩ := h.start
  have hshort := h.short
  have hclt := c.toNat_lt
  rw [dumpChar]
  generalize dumpStart st = s at *
  obtain ⟨bytes, hpos, cpos, addr, start, txt, hex⟩ := s
  simp only [DumpSt.line, lineOf, Line.mk.injEq] at hl
  simp only at hh hc hb ha
  obtain ⟨rfl, rfl, rfl⟩ := hl
  subst hh hc
  have e1 : ((c.toNat : Int) / 16 % 16).toNat = c.toNat / 16 := by omega
  have e2 : ((c.toNat : Int) % 16).toNat = c.toNat % 16 := by omega
  have hr3 : List.replicate (51 - 3 * cur.length) (0 : Byte) = 0 :: 0 :: 0 :: List.replicate (51 - 3 * (cur.length + 1)) 0 := by
    rw [show 51 - 3 * cur.length = (51 - 3 * (cur.length + 1)) + 1 + 1 + 1 by omega]
    simp [List.replicate_succ]
  have hr1 : List.replicate (17 - cur.length) (0 : Byte) = 0 :: List.replicate (17 - (cur.length + 1)) 0 := by
    rw [show 17 - cur.length = (17 - (cur.length + 1)) + 1 by omega]
    simp [List.replicate_succ]
  have hlen := length_hexText cur
  have halen : (asciiText cur).length = cur.length := by simp [asciiText]
  simp only [e1, e2, digit_rd (show c.toNat / 16 < 16 by omega), digit_rd (show c.toNat % 16 < 16 by omega), Outcome.ok_bind, hr3, hr1]
  rw [wr_mid hlen.symm]
  simp only [Outcome.ok_bind]
  rw [show hexText cur ++ hexDigit (c.toNat / 16) :: 0 :: 0 :: List.replicate (51 - 3 * (cur.length + 1)) 0 = (hexText cur ++ [hexDigit (c.toNat / 16)]) ++ 0 :: 0 :: List.replicate (51 - 3 * (cur.length + 1)) 0 by simp,
    wr_mid (by simp [hlen])]
  simp only [Outcome.ok_bind]
  rw [show hexText cur ++ [hexDigit (c.toNat / 16)] ++ hexDigit (c.toNat % 16) :: 0 :: List.replicate (51 - 3 * (cur.length + 1)) 0 =
      (hexText cur ++ [hexDigit (c.toNat / 16), hexDigit (c.toNat % 16)]) ++ 0 :: List.replicate (51 - 3 * (cur.length + 1)) 0 by simp, wr_mid (by simp [hlen])]
  simp only [Outcome.ok_bind]
  rw [isprint, if_pos (by omega)]
  simp only [Outcome.ok_bind]
  rw [wr_mid halen.symm]
  simp only [Outcome.ok_bind, Outcome.pure_eq]
  refine ⟨_, rfl, ?_, by simp; omega, by simp, hb, ha⟩
  simp only [DumpSt.line, lineOf, Line.mk.injEq]
  have hp : (decide (32 ≤ (c.toNat : Int) ∧ (c.toNat : Int) ≤ 126) = true) ↔ (32 ≤ c ∧ c ≤ 126) := by
    rw [decide_eq_true_iff, UInt8.le_iff_toNat_le, UInt8.le_iff_toNat_le]
    have h1 : (32 : UInt8).toNat = 32 := rfl
    have h2 : (126 : UInt8).toNat = 126 := rfl
    omega
  refine ⟨trivial, ?_, ?_⟩
  · rw [hexText_append, show (hexText [c]) = [hexDigit (c.toNat / 16), hexDigit (c.toNat % 16), 32] by simp [hexText]]
    simp
  · simp only [asciiText, List.map_append, List.map_cons, List.map_nil, toChar_nat, List.length_append, List.length_singleton]
    by_cases hpp : 32 ≤ c ∧ c ≤ 126
    · rw [if_pos (hp.2 hpp), if_pos hpp]; simp
    · rw [if_neg (fun e => hpp (hp.1 e)), if_neg hpp]; simp

/-- The lines still to be given, the current line containing `cur` already. -/
def pending (n : Nat) : List Byte → List Byte → List Line
  | cur, [] => if cur.length ≠ 15 ∧ cur ≠ [] then [lineOf n cur] else []
  | cur, c :: bs => if cur.length = 15 then lineOf n (cur ++ [c]) :: pending (n + 16) [] bs else pending n (cur ++ [c]) bs
termination_by _ bs => bs.length

theorem Mid.fresh {n : Nat} {st : DumpSt} (hn : n % 16 = 0) (hb : st.bytes = n % 2 ^ 64) (ha : st.addr = n % 2 ^ 32) : Mid n [] st := ⟨hn, by simp, by simpa using hb, by simpa using ha, fun h => absurd rfl h⟩

theorem dumpLoop_ok {σ τ : Type} {get : σ → Int × σ} (out : τ → Option Line → Int × τ) : ∀ (bs : List Byte) (n : Nat) (cur : List Byte) (st : DumpSt) (s : σ) (t : τ) (fuel : Nat), Mid n cur st → Delivers get s bs → bs.length < fuel →
    dumpLoop get out fuel st s t = .ok (dumped out t (pending n cur bs) (n + cur.length + bs.length)) := by
  intro bs
  induction bs with
  | nil =>
      intro n cur st s t fuel hm hd hf
      cases fuel with
      | zero => omega
      | succ fuel =>
          have hd' : (get s).1 = -1 := hd
          have hmod := hm.addr_mod
          rw [dumpLoop, if_neg (by rw [hd']; simp), dumpEnd, hmod, pending]
          have hb := hm.bytes
          by_cases hc : cur.length ≠ 15 ∧ cur ≠ []
          · rw [if_pos ⟨hc.1, fun e => hc.2 (List.length_eq_zero_iff.1 e)⟩, if_pos hc, (hm.line hc.2).1]
            simp only [dumped, report]
            split
            · simp
            · simp [hb]
          · rw [if_neg (by rintro ⟨h1, h2⟩; exact hc ⟨h1, fun e => h2 (by simp [e])⟩), if_neg hc]
            simp [dumped, report, hb]
  | cons c bs ih =>
      intro n cur st s t fuel hm hd hf
      cases fuel with
      | zero => omega
      | succ fuel =>
          obtain ⟨hg, hd'⟩ := hd
          simp at hf
          obtain ⟨st', e, hl, hh, hc, hb, ha⟩ := dumpChar_ok hm c
          have hmod := hm.addr_mod
          have hshort := hm.short
          have hbytes := hm.bytes
          have haddr := hm.addr
          have hnmod := hm.mod
          have hclt := c.toNat_lt
          rw [dumpLoop, if_pos (by rw [hg]; omega), hg, e]
          simp only [Outcome.ok_bind]
          rw [ha, hmod, hl, pending]
          by_cases h15 : cur.length = 15
          · rw [if_pos h15, if_pos h15]
            rw [dumped, report]
            by_cases hout : (out t (some (lineOf n (cur ++ [c])))).1 = -1
            · rw [if_pos hout, if_pos hout]
              simp
            · rw [if_neg hout, if_neg hout]
              have := ih (n + 16) [] st'.next (get s).2 (out t (some (lineOf n (cur ++ [c])))).2 fuel
                (Mid.fresh (by omega) (by simp only [DumpSt.next]; omega) (by simp only [DumpSt.next]; omega)) hd' (by omega)
              rw [this, dumped]
              simp only [List.length_nil, List.length_cons]
              rw [show n + 16 + 0 + bs.length = n + cur.length + (bs.length + 1) by omega]
          · rw [if_neg h15, if_neg h15]
            have := ih n (cur ++ [c]) st'.next (get s).2 t fuel
              ⟨hnmod, by simp; omega, by simp only [DumpSt.next, List.length_append, List.length_singleton]; omega, by simp only [DumpSt.next, List.length_append, List.length_singleton]; omega,
                fun _ => ⟨hl, hh, hc⟩⟩ hd' (by omega)
            rw [this]
            simp only [List.length_append, List.length_cons, List.length_nil, Nat.zero_add]
            rw [show n + (cur.length + 1) + bs.length = n + cur.length + (bs.length + 1) by omega]

theorem linesFrom_nil (n : Nat) : linesFrom n [] = [] := rfl

theorem linesFrom_short {n : Nat} {bs : List Byte} (h : bs.length ≤ 16) (hne : bs ≠ []) : linesFrom n bs = [lineOf n bs] := by
  have := List.length_pos_iff.2 hne
  rw [linesFrom, show (bs.length + 15) / 16 = 1 by omega]
  simp [List.take_of_length_le h]

theorem linesFrom_long {n : Nat} {a bs : List Byte} (h : a.length = 16) : linesFrom n (a ++ bs) = lineOf n a :: linesFrom (n + 16) bs := by
  rw [linesFrom, show ((a ++ bs).length + 15) / 16 = (bs.length + 15) / 16 + 1 by rw [List.length_append]; omega, List.range_succ_eq_map, List.map_cons, List.map_map, linesFrom]
  congr 1
  · rw [Nat.mul_zero, List.drop_zero, ← h, List.take_left]; rfl
  · apply List.map_congr_left
    intro k _
    simp only [Function.comp]
    rw [show n + 16 * (k + 1) = n + 16 + 16 * k by omega, show 16 * (k + 1) = a.length + 16 * k by omega, ← List.drop_drop, List.drop_left]

/-- The bytes shown: all, except 15 at the end if 15 remain there. -/
def shown (bs : List Byte) : List Byte := if bs.length % 16 = 15 then bs.take (bs.length - 15) else bs

theorem pending_ok : ∀ (bs : List Byte) (n : Nat) (cur : List Byte), cur.length < 16 → pending n cur bs = linesFrom n (shown (cur ++ bs)) := by
  intro bs
  induction bs with
  | nil =>
      intro n cur hc
      rw [pending, List.append_nil, shown]
      by_cases h15 : cur.length = 15
      · rw [if_neg (by simp [h15]), if_pos (by omega), h15]
        simp [linesFrom_nil]
      · rw [if_neg (show ¬ cur.length % 16 = 15 by omega)]
        by_cases hne : cur = []
        · subst hne; rfl
        · rw [if_pos ⟨h15, hne⟩, linesFrom_short (by omega) hne]
  | cons c bs ih =>
      intro n cur hc
      rw [pending]
      by_cases h15 : cur.length = 15
      · rw [if_pos h15, ih (n + 16) [] (by simp)]
        have hl : (cur ++ [c]).length = 16 := by simp [h15]
        rw [show cur ++ c :: bs = (cur ++ [c]) ++ bs by simp, List.nil_append]
        rw [← linesFrom_long hl]
        congr 1
        rw [shown, shown, List.length_append, hl]
        by_cases hb : bs.length % 16 = 15
        · rw [if_pos hb, if_pos (by omega), show 16 + bs.length - 15 = (cur ++ [c]).length + (bs.length - 15) by omega, List.take_length_add_append]
        · rw [if_neg hb, if_neg (by omega)]
      · rw [if_neg h15, ih n (cur ++ [c]) (by simp; omega)]
        simp

/-! ## The property -/

/-- What zt_hexdump does with any source of characters: the lines of `shown`, in order, until the output refuses one; then the final call; the number of characters is returned. -/
theorem dump_exact {σ τ : Type} (txt hex : List Byte) {get : σ → Int × σ} {s : σ} {bs : List Byte} (h : Delivers get s bs) (out : τ → Option Line → Int × τ) (t : τ) :
    Runs (hexdump txt hex get s out t) (dumped out t (linesFrom 0 (shown bs)) bs.length) := by
  refine ⟨bs.length + 1, fun fuel hf => ?_⟩
  rw [hexdump, dumpLoop_ok out bs 0 [] _ s t fuel (Mid.fresh rfl rfl rfl) h (by omega), pending_ok bs 0 [] (by simp)]
  simp

/-- **C50** (partial): zt_hexdump gives every byte to the output exactly once and in order, 16 to a line, and returns their number, or stops where the output refuses a line. Not proved, since false: data that leaves 15
bytes for the last line (`c50_tail_violation`); positions are given modulo 2^32. -/
theorem c50_dump_partial {σ τ : Type} (txt hex : List Byte) {get : σ → Int × σ} {s : σ} {bs : List Byte} (h : Delivers get s bs) (h15 : bs.length % 16 ≠ 15) (out : τ → Option Line → Int × τ) (t : τ) :
    Runs (hexdump txt hex get s out t) (dumped out t (linesFrom 0 bs) bs.length) := by
  have := dump_exact txt hex h out t
  rwa [shown, if_neg h15] at this

/-- Violation: 15 remaining bytes are counted but not given to the output. -/
theorem c50_tail_violation {σ τ : Type} (txt hex : List Byte) {get : σ → Int × σ} {s : σ} {bs : List Byte} (h : Delivers get s bs) (h15 : bs.length % 16 = 15) (out : τ → Option Line → Int × τ) (t : τ) :
    Runs (hexdump txt hex get s out t) (dumped out t (linesFrom 0 (bs.take (bs.length - 15))) bs.length) := by
  have := dump_exact txt hex h out t
  rwa [shown, if_pos h15] at this

/-- The bytes of the lines are the data: nothing is left out or given twice. -/
theorem c50_lines_complete (bs : List Byte) : ((List.range ((bs.length + 15) / 16)).flatMap fun k => (bs.drop (16 * k)).take 16) = bs := by
  have : ∀ n, ((List.range n).flatMap fun k => (bs.drop (16 * k)).take 16) = bs.take (16 * n) := by
    intro n
    induction n with
    | zero => simp
    | succ n ih => rw [List.range_succ, List.flatMap_append, ih]; simp only [List.flatMap_cons, List.flatMap_nil, List.append_nil]; rw [show 16 * (n + 1) = 16 * n + 16 by omega, List.take_add]
  rw [this, List.take_of_length_le (by omega)]

theorem schar_small (b : Byte) (h : b.toNat < 128) : schar b = (b.toNat : Int) := by
  unfold schar
  generalize b.toNat = n at h
  exact Int.bmod_eq_of_le (by omega) (by omega)

theorem delivers_str : ∀ (bs : List Byte), (∀ b ∈ bs, b.toNat < 128) → Delivers readStr bs bs := by
  intro bs
  induction bs with
  | nil => intro _; rfl
  | cons b bs ih =>
      intro h
      have h1 := schar_small b (h b (by simp))
      have h2 := ih fun x hx => h x (by simp [hx])
      rw [Delivers]
      refine ⟨?_, h2⟩
      simp only [readStr]
      rw [h1]

/-- **C50** (partial): the same for zt_hexdump_str, for ASCII data. Not proved, since false: bytes above 127 (`c50_str_violation`). -/
theorem c50_str_partial {τ : Type} (txt hex data : List Byte) (h : ∀ b ∈ data, b.toNat < 128) (h15 : data.length % 16 ≠ 15) (out : τ → Option Line → Int × τ) (t : τ) :
    Runs (hexdumpStr txt hex data out t) (dumped out t (linesFrom 0 data) data.length) :=
  c50_dump_partial txt hex (delivers_str data h) h15 out t

/-- An output that remembers what it is given, and refuses nothing. -/
def record (t : List (Option Line)) (l : Option Line) : Int × List (Option Line) := (0, t ++ [l])

/-- Violation: the byte 255 ends the dump, other bytes above 127 are given to isprint as negative numbers. -/
theorem c50_str_violation : hexdumpStr [] [] [97, 255, 98] record [] 9 = .ok (1, [some (lineOf 0 [97]), none]) ∧ hexdumpStr [] [] [97, 200, 98] record [] 9 = .ub := by decide +kernel

/-- An output that accepts every line gets them all. -/
theorem record_all : ∀ (ls : List Line) (t : List (Option Line)), report record t ls = (t ++ ls.map some, true) := by
  intro ls
  induction ls with
  | nil => intro t; simp [report]
  | cons l ls ih => intro t; rw [report, if_neg (by simp [record]), ih]; simp [record]

/-- Instance: 17 bytes, of any value, give two lines. -/
example (b : Byte) : (linesFrom 0 (List.replicate 17 b)).length = 2 := by simp [linesFrom]
example : Delivers readStr [97, 98] [97, 98] := ⟨by decide, by decide, rfl⟩
example : hexdumpStr [] [] [97, 10] record [] 9 = .ok (2, [some ⟨0, [54, 49, 32, 48, 97, 32] ++ List.replicate 45 0, [97, 46] ++ List.replicate 15 0⟩, none]) := by decide +kernel

end ZT.Cstr
