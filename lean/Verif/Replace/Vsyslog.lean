import Verif.Cstr.DumpPrint
import Verif.Numeral

/-!
# C112: the replacement of vsyslog (replace/vsyslog.c)

For systems without vsyslog. The C library's `vsprintf` with the caller's arguments is a function `render` from formats to texts; the message table `sys_errlist` is given.
Allocations succeed (zt_calloc ends the program otherwise).
-/

namespace ZT.Replace

/-- Part of replace/vsyslog.c 35-39: the text of `errno`. -/
def errText (table : List (List Byte)) (errno : Int) : List Byte :=
  if errno < table.length ∧ errno > 0 then (table[errno.toNat]?).getD []
  else "Unknown Error ".toUTF8.toList ++ Num.signed errno

/-- `strcpy(m + i, e)`, also the effect of sprintf with the text `e`. -/
def strcpyAt (m : List Byte) (i : Nat) (e : List Byte) : Outcome (List Byte) :=
  if i + e.length + 1 ≤ m.length then .ok (m.take i ++ e ++ 0 :: m.drop (i + e.length + 1)) else .ub

/-- replace/vsyslog.c 27-48 `percent_m`: `cp` is the memory from `cp` on, `bp` the offset in `obuf`. `e` is the text of errno, a C string, so `bp += strlen(bp)` advances by its length. -/
def percentM (e : List Byte) (len : Nat) : (cp : List Byte) → (obuf : List Byte) → (bp : Nat) → Outcome (List Byte)
  | [], obuf, bp => if bp < len then .ub else .ok obuf
  | [c], obuf, bp =>
      if bp < len then do
        let obuf ← wr obuf bp c
        if c = 0 then .ok obuf
        else if c = 37 then .ub
        else percentM e len [] obuf (bp + 1)
      else .ok obuf
  | c :: d :: cp, obuf, bp =>
      if bp < len then do
        let obuf ← wr obuf bp c
        if c = 0 then .ok obuf
        else if c = 37 ∧ d = 109 then do
          let obuf ← strcpyAt obuf bp e
          percentM e len cp obuf (bp + e.length)
        else percentM e len (d :: cp) obuf (bp + 1)
      else .ok obuf

/-- replace/vsyslog.c 50-78 `vsyslog`: what is given to syslog, a severity and a text. `fmt` is the memory from `format` on, or NULL. -/
def vsyslog (e : List Byte) (render : List Byte → List Byte) (severity : Nat) : Option (List Byte) → Outcome (Nat × List Byte)
  | none => .abort
  | some fmt => do
      let n ← strlen fmt
      if 6 * n + 1 > 2147483647 then .ub else do
      let fbuf ← percentM e (2 * n) fmt (List.replicate (2 * n + 1) 0) 0
      let ftmp ← Cstr.strArg fbuf
      let obuf ← strcpyAt (List.replicate (6 * n + 1) 0) 0 (render ftmp)
      let msg ← Cstr.strArg obuf
      .ok (severity, msg)

/-- replace/vsyslog.c 50-78 with the message table and errno of the system (lines 35-39). -/
def vsyslogErrno (table : List (List Byte)) (errno : Int) (render : List Byte → List Byte) (severity : Nat) (fmt : Option (List Byte)) : Outcome (Nat × List Byte) :=
  vsyslog (errText table errno) render severity fmt

/-! ## Specification -/

/-- The message of an error number: that of the table, or "Unknown Error" with the number. -/
def Message (table : List (List Byte)) (errno : Int) (e : List Byte) : Prop :=
  (∃ n : Nat, errno = n ∧ 1 ≤ n ∧ table[n]? = some e) ∨ ((errno ≤ 0 ∨ (table.length : Int) ≤ errno) ∧ e = "Unknown Error ".toUTF8.toList ++ Num.signed errno)

/-- `%m` in a format as syslog(3) defines it: a conversion of its own, which stands for the error message; all other conversions, such as `%%`, stay. -/
def withError (e : List Byte) : List Byte → List Byte
  | [] => []
  | [c] => [c]
  | c :: d :: r => if c = 37 then (if d = 109 then e ++ withError e r else c :: d :: withError e r) else c :: withError e (d :: r)

/-- A C string in memory, with what follows it. -/
def cstr (s rest : List Byte) : List Byte := s ++ 0 :: rest

/-- No byte is NUL. -/
def NoNul (s : List Byte) : Prop := ∀ b ∈ s, b ≠ 0

/-! ## Proofs -/

/-- What percent_m replaces. -/
def subst (e : List Byte) : List Byte → List Byte
  | [] => []
  | [c] => [c]
  | c :: d :: r => if c = 37 ∧ d = 109 then e ++ subst e r else c :: subst e (d :: r)

theorem wr_buf (w : List Byte) (k : Nat) (c : Byte) : wr (w ++ List.replicate (k + 1) 0) w.length c = .ok ((w ++ [c]) ++ List.replicate k 0) := by
  rw [wr_lt (by simp), List.set_append_right _ _ (Nat.le_refl _)]
  simp [List.replicate_succ]

theorem strcpy_buf (w e : List Byte) (c : Byte) (k : Nat) (h : e.length ≤ k) : strcpyAt ((w ++ [c]) ++ List.replicate k 0) w.length e = .ok ((w ++ e) ++ List.replicate (k + 1 - e.length) 0) := by
  unfold strcpyAt
  rw [if_pos (by simp; omega)]
  simp only [List.append_assoc]
  rw [List.take_left, List.drop_append, List.drop_of_length_le (by omega), show w.length + e.length + 1 - w.length = e.length + 1 from by omega]
  simp only [List.singleton_append, List.drop_succ_cons, List.drop_replicate, List.nil_append]
  congr 3
  rw [← List.replicate_succ]
  congr 1; omega

theorem percentM_eq (e : List Byte) (len : Nat) (s rest w : List Byte) (k : Nat) (hs : NoNul s) (hk : w.length + k = len + 1) (hf : w.length + (subst e s).length ≤ len) :
    percentM e len (cstr s rest) (w ++ List.replicate k 0) w.length = .ok (w ++ subst e s ++ List.replicate (k - (subst e s).length) 0) := by
  fun_induction subst e s generalizing w k with
  | case1 =>
    unfold cstr
    simp only [List.nil_append, List.append_nil, List.length_nil, Nat.sub_zero]
    obtain ⟨k, rfl⟩ : ∃ j, k = j + 1 := ⟨k - 1, by simp at hf; omega⟩
    cases rest with
    | nil =>
      unfold percentM
      split
      · rw [wr_buf]; simp [List.replicate_succ]
      · rfl
    | cons r rest =>
      unfold percentM
      split
      · rw [wr_buf]; simp [List.replicate_succ]
      · rfl
  | case2 c =>
    have hc : c ≠ 0 := hs c (by simp)
    simp at hf
    obtain ⟨k, rfl⟩ : ∃ j, k = j + 1 := ⟨k - 1, by omega⟩
    show percentM e len (c :: 0 :: rest) _ _ = _
    unfold percentM
    rw [if_pos (by omega), wr_buf, Outcome.ok_bind, if_neg hc, if_neg (by rintro ⟨_, h⟩; cases h)]
    obtain ⟨k, rfl⟩ : ∃ j, k = j + 1 := ⟨k - 1, by omega⟩
    have h2 : (w ++ [c]).length = w.length + 1 := by simp
    rw [← h2]
    cases rest with
    | nil =>
      unfold percentM
      split
      · rw [wr_buf]; simp [List.replicate_succ]
      · simp
    | cons r rest =>
      unfold percentM
      split
      · rw [wr_buf]; simp [List.replicate_succ]
      · simp
  | case3 c d r h ih =>
    obtain ⟨rfl, rfl⟩ := h
    rw [List.length_append] at hf
    show percentM e len (37 :: 109 :: cstr r rest) _ _ = _
    unfold percentM
    by_cases hb : w.length < len
    · obtain ⟨k, rfl⟩ : ∃ j, k = j + 1 := ⟨k - 1, by omega⟩
      rw [if_pos hb, wr_buf, Outcome.ok_bind, if_neg (by decide), if_pos ⟨rfl, rfl⟩, strcpy_buf _ _ _ _ (by omega), Outcome.ok_bind]
      have h2 : (w ++ e).length = w.length + e.length := by simp
      rw [← h2, ih (w ++ e) _ (fun b hb => hs b (by simp [hb])) (by simp; omega) (by simp; omega)]
      simp only [List.append_assoc, List.length_append, Nat.sub_sub]
    · rw [if_neg hb]
      have h0 : e = [] := List.length_eq_zero_iff.1 (by omega)
      have h1 : subst e r = [] := List.length_eq_zero_iff.1 (by omega)
      rw [h1, h0]; simp
  | case4 c d r h ih =>
    have hc : c ≠ 0 := hs c (by simp)
    rw [List.length_cons] at hf
    show percentM e len (c :: d :: cstr r rest) _ _ = _
    unfold percentM
    obtain ⟨k, rfl⟩ : ∃ j, k = j + 1 := ⟨k - 1, by omega⟩
    rw [if_pos (by omega), wr_buf, Outcome.ok_bind, if_neg hc, if_neg h]
    have h2 : (w ++ [c]).length = w.length + 1 := by simp
    have h3 := ih (w ++ [c]) k (fun b hb => hs b (List.mem_cons_of_mem _ hb)) (by simp; omega) (by simp; omega)
    rw [h2] at h3
    refine h3.trans ?_
    simp only [List.append_assoc, List.length_cons, List.singleton_append]
    congr 3; congr 1; omega

theorem strArg_eq (s : List Byte) (rest : List Byte) (h : NoNul s) : Cstr.strArg (s ++ 0 :: rest) = .ok s := by
  unfold Cstr.strArg
  rw [strlen_eq s rest h, Outcome.ok_bind]; simp

theorem strArg_zeros (s : List Byte) (k : Nat) (h : NoNul s) (hk : 0 < k) : Cstr.strArg (s ++ List.replicate k 0) = .ok s := by
  obtain ⟨k, rfl⟩ : ∃ j, k = j + 1 := ⟨k - 1, by omega⟩
  rw [List.replicate_succ]; exact strArg_eq s _ h

theorem subst_noNul {e : List Byte} (he : NoNul e) {s : List Byte} (hs : NoNul s) : NoNul (subst e s) := by
  fun_induction subst e s with
  | case1 => exact hs
  | case2 => exact hs
  | case3 c d r h ih =>
    intro b hb
    rcases List.mem_append.1 hb with hb | hb
    · exact he b hb
    · exact ih (fun b hb => hs b (by simp [hb])) b hb
  | case4 c d r h ih =>
    intro b hb
    rcases List.mem_cons.1 hb with rfl | hb
    · exact hs _ (by simp)
    · exact ih (fun b hb => hs b (List.mem_cons_of_mem _ hb)) b hb

/-- The whole call, when both texts fit. -/
theorem vsyslog_eq {e : List Byte} {render : List Byte → List Byte} {severity : Nat} {fmt rest : List Byte} (hf : NoNul fmt) (he : NoNul e) (hn : 6 * fmt.length + 1 ≤ 2147483647)
    (hl : (subst e fmt).length ≤ 2 * fmt.length) :
    vsyslog e render severity (some (cstr fmt rest)) =
      if (render (subst e fmt)).length ≤ 6 * fmt.length then (Cstr.strArg (render (subst e fmt) ++ [0])) >>= fun msg => .ok (severity, msg) else .ub := by
  unfold vsyslog cstr
  dsimp only
  rw [strlen_eq fmt rest hf, Outcome.ok_bind, if_neg (by omega)]
  have h := percentM_eq e (2 * fmt.length) fmt rest [] (2 * fmt.length + 1) hf (by simp) (by simpa using hl)
  simp only [cstr, List.nil_append, List.length_nil] at h
  rw [h, Outcome.ok_bind, strArg_zeros _ _ (subst_noNul he hf) (by omega), Outcome.ok_bind]
  unfold strcpyAt
  rw [List.length_replicate]
  by_cases c : (render (subst e fmt)).length ≤ 6 * fmt.length
  · rw [if_pos (by omega), if_pos c, Outcome.ok_bind]
    have key : ∀ (t z : List Byte), Cstr.strArg (t ++ 0 :: z) = Cstr.strArg (t ++ [0]) := by
      intro t z
      induction t with
      | nil => simp [Cstr.strArg, strlen]
      | cons x xs ih =>
        simp only [Cstr.strArg, List.cons_append, strlen] at ih ⊢
        by_cases hx : x = 0
        · simp [hx]
        · simp only [hx, if_false]
          cases e1 : strlen (xs ++ 0 :: z) with
          | ok n1 =>
            rw [e1] at ih
            cases e2 : strlen (xs ++ [0]) with
            | ok n2 =>
              rw [e2] at ih
              simp at ih ⊢
              exact ih
            | abort => rw [e2] at ih; cases ih
            | ub => rw [e2] at ih; cases ih
          | abort =>
            rw [e1] at ih
            cases e2 : strlen (xs ++ [0]) with
            | ok n2 => rw [e2] at ih; cases ih
            | abort => rfl
            | ub => rw [e2] at ih; cases ih
          | ub =>
            rw [e1] at ih
            cases e2 : strlen (xs ++ [0]) with
            | ok n2 => rw [e2] at ih; cases ih
            | abort => rw [e2] at ih; cases ih
            | ub => rfl
    simp only [List.take_zero, List.nil_append]
    rw [key]
  · rw [if_neg (by omega), if_neg c]; rfl

theorem subst_plain {e s : List Byte} (h : ¬ [37, 109] <:+: s) : subst e s = s := by
  fun_induction subst e s with
  | case1 => rfl
  | case2 => rfl
  | case3 c d r hc ih => exact absurd ⟨[], r, by rw [hc.1, hc.2]; rfl⟩ h
  | case4 c d r hc ih =>
    rw [ih fun ⟨p, q, k⟩ => h ⟨c :: p, q, by rw [← k]; rfl⟩]

theorem subst_withError {e s : List Byte} (h : ¬ [37, 37, 109] <:+: s) : subst e s = withError e s := by
  fun_induction withError e s with
  | case1 => rfl
  | case2 => rfl
  | case3 r ih =>
    rw [subst, if_pos ⟨rfl, rfl⟩, ih fun ⟨p, q, k⟩ => h ⟨37 :: 109 :: p, q, by rw [← k]; rfl⟩]
  | case4 d r hd ih =>
    rw [subst, if_neg fun k => hd k.2]
    have h2 : ¬ [37, 37, 109] <:+: r := fun ⟨p, q, k⟩ => h ⟨37 :: d :: p, q, by rw [← k]; rfl⟩
    cases r with
    | nil => rfl
    | cons x r =>
      rw [subst, if_neg, ih h2]
      rintro ⟨rfl, rfl⟩
      exact h ⟨[], r, rfl⟩
  | case5 c d r hc ih =>
    rw [subst, if_neg fun k => hc k.1, ih fun ⟨p, q, k⟩ => h ⟨c :: p, q, by rw [← k]; rfl⟩]

/-- A text without NUL is logged as it is. -/
theorem logged {t : List Byte} {severity : Nat} (h : NoNul t) : ((Cstr.strArg (t ++ [0])) >>= fun msg => .ok (severity, msg)) = Outcome.ok (severity, t) := by
  rw [strArg_eq t [] h]; rfl

/-- **C112**: a format without `%m` is logged as the C library prints it, if the text is at most six times as long as the format. -/
theorem c112_plain_partial (e : List Byte) (render : List Byte → List Byte) (severity : Nat) (fmt rest : List Byte) (hf : NoNul fmt) (he : NoNul e) (hn : 6 * fmt.length + 1 ≤ 2147483647)
    (hm : ¬ [37, 109] <:+: fmt) (ht : NoNul (render fmt)) (hl : (render fmt).length ≤ 6 * fmt.length) :
    vsyslog e render severity (some (cstr fmt rest)) = .ok (severity, render fmt) := by
  have h := subst_plain (e := e) hm
  rw [vsyslog_eq hf he hn (by rw [h]; omega), h, if_pos hl, logged ht]

theorem errText_eq {table : List (List Byte)} {errno : Int} {e : List Byte} (h : Message table errno e) : errText table errno = e := by
  unfold errText
  rcases h with ⟨n, rfl, h1, h2⟩ | ⟨h1, rfl⟩
  · have h3 := (List.getElem?_eq_some_iff.1 h2).1
    rw [if_pos (by omega), Int.toNat_natCast, h2]; rfl
  · rw [if_neg (by omega)]

/-- **C112**: `%m` stands for the error message, if the format with the message in its place is at most twice as long as the format, and `%m` is not part of `%%m`. -/
theorem c112_error_partial (table : List (List Byte)) (errno : Int) (e : List Byte) (hm0 : Message table errno e) (render : List Byte → List Byte) (severity : Nat) (fmt rest : List Byte) (hf : NoNul fmt) (he : NoNul e) (hn : 6 * fmt.length + 1 ≤ 2147483647)
    (hm : ¬ [37, 37, 109] <:+: fmt) (hw : (withError e fmt).length ≤ 2 * fmt.length) (ht : NoNul (render (withError e fmt))) (hl : (render (withError e fmt)).length ≤ 6 * fmt.length) :
    vsyslogErrno table errno render severity (some (cstr fmt rest)) = .ok (severity, render (withError e fmt)) := by
  have h := subst_withError (e := e) hm
  rw [vsyslogErrno, errText_eq hm0, vsyslog_eq hf he hn (by rw [h]; exact hw), h, if_pos hl, logged ht]

/-- **C112**: a text more than six times as long as the format is written past the end of the buffer. -/
theorem c112_text_violation (e : List Byte) (render : List Byte → List Byte) (severity : Nat) (fmt rest : List Byte) (hf : NoNul fmt) (he : NoNul e)
    (hm : ¬ [37, 109] <:+: fmt) (hl : 6 * fmt.length < (render fmt).length) :
    vsyslog e render severity (some (cstr fmt rest)) = .ub := by
  by_cases hn : 6 * fmt.length + 1 ≤ 2147483647
  · have h := subst_plain (e := e) hm
    rw [vsyslog_eq hf he hn (by rw [h]; omega), h, if_neg (by omega)]
  · unfold vsyslog cstr
    dsimp only
    rw [strlen_eq fmt rest hf, Outcome.ok_bind, if_pos (by omega)]

theorem percentM_copy (e : List Byte) (len : Nat) (p s w : List Byte) (k : Nat) (hp : NoNul p) (hm : ¬ [37, 109] <:+: p) (h37 : p.getLast? ≠ some 37 ∨ s.head? ≠ some 109) (hs : s ≠ []) (hk : p.length ≤ k) (hl : w.length + p.length ≤ len) :
    percentM e len (p ++ s) (w ++ List.replicate k 0) w.length = percentM e len s (w ++ p ++ List.replicate (k - p.length) 0) (w.length + p.length) := by
  induction p generalizing w k with
  | nil => simp
  | cons c p ih =>
    have hc : c ≠ 0 := hp c (by simp)
    rw [List.length_cons] at hk hl
    obtain ⟨k, rfl⟩ : ∃ j, k = j + 1 := ⟨k - 1, by omega⟩
    have h2 : (w ++ [c]).length = w.length + 1 := by simp
    have key : ∀ d r, p ++ s = d :: r → ¬ (c = 37 ∧ d = 109) := by
      rintro d r e1 ⟨rfl, rfl⟩
      cases p with
      | nil =>
        cases s with
        | nil => exact hs rfl
        | cons x s => simp only [List.nil_append, List.cons.injEq] at e1; obtain ⟨rfl, _⟩ := e1; rcases h37 with h | h <;> exact h rfl
      | cons x p =>
        simp only [List.cons_append, List.cons.injEq] at e1
        obtain ⟨rfl, _⟩ := e1
        exact hm ⟨[], p, rfl⟩
    have h3 := ih (w ++ [c]) k (fun b hb => hp b (List.mem_cons_of_mem _ hb)) (fun ⟨x, y, z⟩ => hm ⟨c :: x, y, by rw [← z]; rfl⟩)
      (h37.imp_left fun h => by
        cases p with
        | nil => simp
        | cons x p => rwa [List.getLast?_cons_cons] at h) (by omega) (by simp; omega)
    rw [h2] at h3
    cases er : p ++ s with
    | nil => exact absurd (List.append_eq_nil_iff.1 er).2 hs
    | cons d r =>
      rw [List.cons_append, er, percentM, if_pos (by omega), wr_buf, Outcome.ok_bind, if_neg hc, if_neg (key d r er), ← er, h3]
      simp only [List.append_assoc, List.singleton_append, List.length_cons]
      congr 1
      · congr 3; omega
      · omega

/-- **C112**: an error message that does not fit is written past the end of the buffer: the first `%m` comes after `p`, and `p` with the message is more than twice as long as the format. -/
theorem c112_error_violation (e : List Byte) (render : List Byte → List Byte) (severity : Nat) (p q rest : List Byte) (hp : NoNul p) (hq : NoNul q) (hm : ¬ [37, 109] <:+: p)
    (hl : 2 * (p ++ 37 :: 109 :: q).length < p.length + e.length) :
    vsyslog e render severity (some (cstr (p ++ 37 :: 109 :: q) rest)) = .ub := by
  unfold vsyslog cstr
  dsimp only
  have hf : ∀ b ∈ p ++ 37 :: 109 :: q, b ≠ 0 := by
    intro b hb
    rcases List.mem_append.1 hb with hb | hb
    · exact hp b hb
    · rcases List.mem_cons.1 hb with rfl | hb
      · decide
      · rcases List.mem_cons.1 hb with rfl | hb
        · decide
        · exact hq b hb
  rw [strlen_eq _ rest hf, Outcome.ok_bind]
  split
  · rfl
  · rw [List.length_append, List.length_cons, List.length_cons] at *
    have h := percentM_copy e (2 * (p.length + (q.length + 1 + 1))) p (37 :: 109 :: (q ++ 0 :: rest)) [] (2 * (p.length + (q.length + 1 + 1)) + 1) hp hm (.inr (by simp)) (by simp) (by omega) (by simp; omega)
    simp only [List.nil_append, List.length_nil, Nat.zero_add] at h
    rw [List.append_assoc, List.cons_append, List.cons_append, h]
    obtain ⟨k, hk⟩ : ∃ j, 2 * (p.length + (q.length + 1 + 1)) + 1 - p.length = j + 1 := ⟨2 * (p.length + (q.length + 1 + 1)) - p.length, by omega⟩
    rw [hk, percentM, if_pos (by omega), wr_buf, Outcome.ok_bind, if_neg (by decide), if_pos ⟨rfl, rfl⟩, strcpyAt, if_neg (by simp; omega)]
    rfl

/-- **C112**: `%%m`, which is a percent sign and an m, becomes a percent sign before the error message. -/
theorem c112_percent_violation (e : List Byte) (render : List Byte → List Byte) (severity : Nat) (p rest : List Byte) (hp : NoNul p) (he : NoNul e) (hm : ¬ [37] <:+: p)
    (hn : 6 * (p.length + 3) + 1 ≤ 2147483647) (hl : e.length ≤ p.length + 5) (ht : NoNul (render (p ++ 37 :: e))) (hr : (render (p ++ 37 :: e)).length ≤ 6 * (p.length + 3)) :
    withError e (p ++ [37, 37, 109]) = p ++ [37, 37, 109] ∧
      vsyslog e render severity (some (cstr (p ++ [37, 37, 109]) rest)) = .ok (severity, render (p ++ 37 :: e)) := by
  have h37 : ∀ b ∈ p, b ≠ 37 := by
    rintro b hb rfl
    obtain ⟨x, y, rfl⟩ := List.append_of_mem hb
    exact hm ⟨x, y, by simp⟩
  have e1 : ∀ s, s.length ≠ 0 → subst e (p ++ 37 :: s) = p ++ subst e (37 :: s) := by
    clear hp hm hn hl ht hr
    intro s _
    induction p with
    | nil => rfl
    | cons c p ih =>
      have hc := h37 c (by simp)
      have h1 := ih fun b hb => h37 b (List.mem_cons_of_mem _ hb)
      cases p with
      | nil => rw [List.cons_append, List.nil_append, subst, if_neg fun k => hc k.1]; rfl
      | cons d p =>
        rw [List.cons_append, List.cons_append, subst, if_neg fun k => hc k.1, ← List.cons_append, h1]; rfl
  have e2 : withError e (p ++ [37, 37, 109]) = p ++ [37, 37, 109] := by
    clear hp hm hn hl ht hr e1
    induction p with
    | nil => simp [withError]
    | cons c p ih =>
      have hc := h37 c (by simp)
      have h1 := ih fun b hb => h37 b (List.mem_cons_of_mem _ hb)
      cases p with
      | nil => simp [withError, hc]
      | cons d p =>
        rw [List.cons_append, List.cons_append, withError, if_neg hc, ← List.cons_append, h1]
  refine ⟨e2, ?_⟩
  have e3 : subst e (p ++ [37, 37, 109]) = p ++ 37 :: e := by
    rw [e1 _ (by simp)]; simp [subst]
  have hf : NoNul (p ++ [37, 37, 109]) := by
    intro b hb
    rcases List.mem_append.1 hb with hb | hb
    · exact hp b hb
    · rintro rfl; simp at hb
  have hlen : (p ++ [37, 37, 109]).length = p.length + 3 := by simp
  rw [vsyslog_eq hf he (by rw [hlen]; omega) (by rw [e3, hlen]; simp; omega), e3, hlen, if_pos hr, logged ht]

/-! ## Examples -/

/-- The message of EINVAL. -/
def einval : List Byte := "Invalid argument".toUTF8.toList

/-- A message table in which EINVAL is number 1. -/
def table1 : List (List Byte) := ["Success".toUTF8.toList, einval]

example : Message table1 1 einval := .inl ⟨1, rfl, Nat.le_refl _, rfl⟩
example : Message table1 77 "Unknown Error 77".toUTF8.toList := .inr ⟨by decide +kernel, by decide +kernel⟩

/-- A long format is fine. -/
example : vsyslogErrno table1 1 (fun f => f) 3 (some (cstr "could not open the file: %m".toUTF8.toList [])) = .ok (3, "could not open the file: Invalid argument".toUTF8.toList) := by
  have h := c112_error_partial table1 1 einval (.inl ⟨1, rfl, Nat.le_refl _, rfl⟩) (fun f => f) 3 "could not open the file: %m".toUTF8.toList [] (by unfold NoNul; decide +kernel) (by unfold NoNul; decide +kernel) (by decide +kernel)
    (by decide +kernel) (by decide +kernel) (by unfold NoNul; decide +kernel) (by decide +kernel)
  rw [h]; decide +kernel

/-- A short one is not: "open: %m" overruns the buffer. -/
example : vsyslog einval (fun f => f) 3 (some (cstr ("open: ".toUTF8.toList ++ 37 :: 109 :: []) [])) = .ub :=
  c112_error_violation _ _ 3 "open: ".toUTF8.toList [] [] (by unfold NoNul; decide +kernel) (by unfold NoNul; decide +kernel) (by decide +kernel) (by decide +kernel)

/-- "%s" with an argument of 13 bytes overruns the buffer. -/
example : vsyslog einval (fun _ => "hello, world!".toUTF8.toList) 3 (some (cstr [37, 115] [])) = .ub :=
  c112_text_violation _ _ 3 [37, 115] [] (by unfold NoNul; decide +kernel) (by unfold NoNul; decide +kernel) (by decide +kernel) (by decide +kernel)

example : vsyslog einval (fun f => f) 3 (some (cstr "starting the program".toUTF8.toList [])) = .ok (3, "starting the program".toUTF8.toList) :=
  c112_plain_partial _ _ 3 "starting the program".toUTF8.toList [] (by unfold NoNul; decide +kernel) (by unfold NoNul; decide +kernel) (by decide +kernel) (by decide +kernel) (by unfold NoNul; decide +kernel) (by decide +kernel)

example : vsyslog einval (fun f => f) 3 (some (cstr ("write about: ".toUTF8.toList ++ [37, 37, 109]) [])) = .ok (3, "write about: ".toUTF8.toList ++ 37 :: einval) :=
  (c112_percent_violation einval _ 3 "write about: ".toUTF8.toList [] (by unfold NoNul; decide +kernel) (by unfold NoNul; decide +kernel) (by decide +kernel) (by decide +kernel) (by decide +kernel)
    (by unfold NoNul; decide +kernel) (by decide +kernel)).2

/-- **C112**: a missing format ends the program by an assertion. -/
theorem c112_null (e : List Byte) (render : List Byte → List Byte) (severity : Nat) : vsyslog e render severity none = .abort := rfl

end ZT.Replace
