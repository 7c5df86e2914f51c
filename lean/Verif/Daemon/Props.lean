import Verif.Daemon.Model
import Verif.Fuel

/-!
# C87: the pid file. C88: daemons
-/

namespace ZT.Daemon

/-! ## C87 -/

theorem writeLoop_shape (os : Os) (fd : Nat) (buf : Str) : ∀ (fuel : Nat) (tr tr' : List Ev) (r : Wr), writeLoop os fd buf fuel tr = .ok (r, tr') → r ≠ .eintr ∧ ∃ a, tr' = tr ++ (List.replicate a (.write fd buf .eintr) ++ [.write fd buf r]) := by
  intro fuel
  induction fuel with
  | zero => intro tr tr' r h; cases h
  | succ n ih =>
    intro tr tr' r h
    rw [writeLoop] at h
    by_cases hr : os.write tr = .eintr
    · simp only [hr, if_true] at h
      obtain ⟨h1, a, h2⟩ := ih _ _ _ h
      exact ⟨h1, a + 1, by rw [h2, List.replicate_succ]; simp⟩
    · simp only [hr, if_false] at h
      cases h
      exact ⟨hr, 0, by simp⟩

theorem closeLoop_shape (os : Os) (fd : Nat) : ∀ (fuel : Nat) (tr tr' : List Ev) (r : Cl), closeLoop os fd fuel tr = .ok (r, tr') → r ≠ .eintr ∧ ∃ a, tr' = tr ++ (List.replicate a (.close fd .eintr) ++ [.close fd r]) := by
  intro fuel
  induction fuel with
  | zero => intro tr tr' r h; cases h
  | succ n ih =>
    intro tr tr' r h
    rw [closeLoop] at h
    by_cases hr : os.close tr = .eintr
    · simp only [hr, if_true] at h
      obtain ⟨h1, a, h2⟩ := ih _ _ _ h
      exact ⟨h1, a + 1, by rw [h2, List.replicate_succ]; simp⟩
    · simp only [hr, if_false] at h
      cases h
      exact ⟨hr, 0, by simp⟩

theorem text_length {pid : Int} (h : -2 ^ 31 ≤ pid ∧ pid < 2 ^ 31) : 0 < (text pid).length ∧ (text pid).length < 64 := by
  have h1 : (Num.digits 10 pid.natAbs).length ≤ 10 := (Num.digits_length_le (by decide) (by decide)).2 (by omega)
  rw [text, Num.signed]
  constructor
  · rw [List.length_append]; simp
  · rw [List.length_append, List.length_append]
    split <;> simp <;> omega

/-- The calls of a complete success: creat, the number and a newline in one write after any number of interrupted ones, close. -/
def Success (path : Str) (pid : Int) (tr : List Ev) : Prop :=
  ∃ fd a b, tr = .creat path (some fd) :: (List.replicate a (.write fd (Num.signed pid ++ [0x0A]) .eintr) ++ [.write fd (Num.signed pid ++ [0x0A]) (.wrote (Num.signed pid ++ [0x0A]).length)] ++ List.replicate b (.close fd .eintr) ++ [.close fd .done])

/-- What the calls look like once the file is open. -/
theorem writepid_shape {os : Os} {p : Str} {pid : Int} (hp : -2 ^ 31 ≤ pid ∧ pid < 2 ^ 31) {fuel : Nat} {v : Int} {tr : List Ev} {fd : Nat} (hc : os.creat [] = some fd) (h : writepid os (some p) pid fuel [] = .ok (v, tr)) :
    ∃ a b r c, r ≠ .eintr ∧ c ≠ .eintr ∧ tr = .creat p (some fd) :: (List.replicate a (.write fd (text pid) .eintr) ++ [.write fd (text pid) r] ++ List.replicate b (.close fd .eintr) ++ [.close fd c]) ∧
      v = if c = .done ∧ r = .wrote (text pid).length then 0 else -1 := by
  simp only [writepid, hc, putPid, if_pos (text_length hp)] at h
  obtain ⟨⟨o, tr2⟩, h1, h⟩ := Outcome.bind_eq_ok.1 h
  obtain ⟨⟨r, tr1⟩, h0, h1⟩ := Outcome.bind_eq_ok.1 h1
  obtain ⟨⟨c, tr3⟩, h2, h⟩ := Outcome.bind_eq_ok.1 h
  cases h1
  obtain ⟨hr, a, ha⟩ := writeLoop_shape _ _ _ _ _ _ _ h0
  obtain ⟨hc', b, hb⟩ := closeLoop_shape _ _ _ _ _ _ h2
  cases h
  refine ⟨a, b, r, c, hr, hc', by rw [hb, ha]; simp, ?_⟩
  by_cases h1 : c = .done <;> by_cases h2 : r = .wrote (text pid).length <;> simp [h1, h2]

/-- **C87 (success).** For every behaviour of the system: the result is 0 exactly if the file was opened, the pid and a newline were written as a whole and the file was closed without error; otherwise it is -1. -/
theorem c87_result (os : Os) (p : Str) {pid : Int} (hp : -2 ^ 31 ≤ pid ∧ pid < 2 ^ 31) (fuel : Nat) {v : Int} {tr : List Ev} (h : writepid os (some p) pid fuel [] = .ok (v, tr)) :
    (v = 0 ∨ v = -1) ∧ (v = 0 ↔ Success p pid tr) := by
  cases hc : os.creat [] with
  | none =>
    simp only [writepid, hc] at h
    cases h
    refine ⟨Or.inr rfl, fun h => absurd h (by decide), ?_⟩
    rintro ⟨fd, a, b, e⟩
    simp at e
  | some fd =>
    obtain ⟨a, b, r, c, hr, hc', e, hv⟩ := writepid_shape hp hc h
    refine ⟨by rw [hv]; split <;> simp, ?_⟩
    constructor
    · intro h0
      rw [hv] at h0
      split at h0
      · rename_i hh
        rw [hh.1, hh.2] at e
        exact ⟨fd, a, b, e⟩
      · exact absurd h0 (by decide)
    · rintro ⟨fd', a', b', e'⟩
      rw [show Num.signed pid ++ [0x0A] = text pid from rfl] at e'
      have hfd : fd' = fd := by
        rw [e] at e'
        injection e' with e1 _
        cases e1; rfl
      subst hfd
      have hlast : c = .done := by
        have h1 := congrArg List.getLast? (e.symm.trans e')
        rw [← List.cons_append, List.getLast?_concat, ← List.cons_append, List.getLast?_concat] at h1
        cases h1; rfl
      have hw : Ev.write fd' (text pid) (.wrote (text pid).length) ∈ tr := by rw [e']; simp
      rw [e] at hw
      have hr' : r = .wrote (text pid).length := by
        simp only [List.mem_cons, List.mem_append, List.mem_replicate, List.mem_singleton, Ev.write.injEq, true_and, reduceCtorEq, and_false, false_or, or_false, List.not_mem_nil] at hw
        exact hw.symm
      rw [hv, if_pos ⟨hlast, hr'⟩]

/-- **C87 (nothing stays open).** If the file was opened, the call ends with closing it, also after errors; nothing is done with other descriptors. -/
theorem c87_closes (os : Os) (p : Str) {pid : Int} (hp : -2 ^ 31 ≤ pid ∧ pid < 2 ^ 31) (fuel : Nat) {v : Int} {tr : List Ev} {fd : Nat} (hc : os.creat [] = some fd) (h : writepid os (some p) pid fuel [] = .ok (v, tr)) :
    (∃ c, c ≠ .eintr ∧ tr.getLast? = some (.close fd c)) ∧ ∀ e ∈ tr, e = .creat p (some fd) ∨ (∃ r, e = .write fd (Num.signed pid ++ [0x0A]) r) ∨ ∃ c, e = .close fd c := by
  obtain ⟨a, b, r, c, hr, hc', e, hv⟩ := writepid_shape hp hc h
  refine ⟨⟨c, hc', ?_⟩, ?_⟩
  · rw [e, ← List.cons_append, List.getLast?_concat]
  · intro x hx
    rw [e] at hx
    simp only [List.mem_cons, List.mem_append, List.mem_replicate, List.mem_singleton, List.not_mem_nil, or_false] at hx
    rcases hx with h | ((⟨_, h⟩ | h) | ⟨_, h⟩) | h
    · exact Or.inl h
    · exact Or.inr (Or.inl ⟨_, h⟩)
    · exact Or.inr (Or.inl ⟨_, h⟩)
    · exact Or.inr (Or.inr ⟨_, h⟩)
    · exact Or.inr (Or.inr ⟨_, h⟩)

/-- **C87 (no file).** Without a path nothing is done; if the file cannot be opened, nothing more. Both results are -1. -/
theorem c87_refused (os : Os) (p : Str) (pid : Int) (fuel : Nat) : writepid os none pid fuel [] = .ok (-1, []) ∧ (os.creat [] = none → writepid os (some p) pid fuel [] = .ok (-1, [.creat p none])) := by
  refine ⟨rfl, fun h => ?_⟩
  simp [writepid, h]

theorem writeLoop_ends {os : Os} {N : Nat} (hN : ∀ tr : List Ev, N ≤ tr.length → os.write tr ≠ .eintr) (fd : Nat) (buf : Str) : ∀ (fuel : Nat) (tr : List Ev), N ≤ tr.length + fuel → ∃ r tr', tr.length < tr'.length ∧ ∀ k, writeLoop os fd buf (fuel + 1 + k) tr = .ok (r, tr') := by
  intro fuel
  induction fuel with
  | zero =>
    intro tr h
    refine ⟨os.write tr, tr ++ [.write fd buf (os.write tr)], by simp, fun k => ?_⟩
    · rw [show 0 + 1 + k = k + 1 by omega, writeLoop]
      simp only [if_neg (hN tr (by omega))]
  | succ n ih =>
    intro tr h
    by_cases hr : os.write tr = .eintr
    · obtain ⟨r, tr', h1, h2⟩ := ih (tr ++ [.write fd buf .eintr]) (by simp; omega)
      refine ⟨r, tr', by simp at h1; omega, fun k => ?_⟩
      rw [show n + 1 + 1 + k = (n + 1 + k) + 1 by omega, writeLoop]
      simp only [hr, if_true]
      exact h2 k
    · refine ⟨os.write tr, tr ++ [.write fd buf (os.write tr)], by simp, fun k => ?_⟩
      rw [show n + 1 + 1 + k = (n + 1 + k) + 1 by omega, writeLoop]
      simp only [if_neg hr]

theorem closeLoop_ends {os : Os} {N : Nat} (hN : ∀ tr : List Ev, N ≤ tr.length → os.close tr ≠ .eintr) (fd : Nat) : ∀ (fuel : Nat) (tr : List Ev), N ≤ tr.length + fuel → ∃ r tr', ∀ k, closeLoop os fd (fuel + 1 + k) tr = .ok (r, tr') := by
  intro fuel
  induction fuel with
  | zero =>
    intro tr h
    refine ⟨os.close tr, tr ++ [.close fd (os.close tr)], fun k => ?_⟩
    rw [show 0 + 1 + k = k + 1 by omega, closeLoop]
    simp only [if_neg (hN tr (by omega))]
  | succ n ih =>
    intro tr h
    by_cases hr : os.close tr = .eintr
    · obtain ⟨r, tr', h2⟩ := ih (tr ++ [.close fd .eintr]) (by simp; omega)
      refine ⟨r, tr', fun k => ?_⟩
      rw [show n + 1 + 1 + k = (n + 1 + k) + 1 by omega, closeLoop]
      simp only [hr, if_true]
      exact h2 k
    · refine ⟨os.close tr, tr ++ [.close fd (os.close tr)], fun k => ?_⟩
      rw [show n + 1 + 1 + k = (n + 1 + k) + 1 by omega, closeLoop]
      simp only [if_neg hr]

/-- **C87 (it returns)** unless the system interrupts it forever. -/
theorem c87_returns (os : Os) (p : Option Str) (pid : Int) {N : Nat} (hN : ∀ tr : List Ev, N ≤ tr.length → os.write tr ≠ .eintr ∧ os.close tr ≠ .eintr) : ∃ r, Runs (fun fuel => writepid os p pid fuel []) r := by
  cases p with
  | none => exact ⟨_, 0, fun fuel _ => rfl⟩
  | some p =>
    cases hc : os.creat [] with
    | none => exact ⟨_, 0, fun fuel _ => (c87_refused os p pid fuel).2 hc⟩
    | some fd =>
      by_cases ht : 0 < (text pid).length ∧ (text pid).length < 64
      · obtain ⟨r, tr1, -, h1⟩ := writeLoop_ends (fun tr h => (hN tr h).1) fd (text pid) N [.creat p (some fd)] (by omega)
        obtain ⟨c, tr2, h2⟩ := closeLoop_ends (fun tr h => (hN tr h).2) fd N tr1 (by omega)
        refine ⟨(if c = .done then (if r = .wrote (text pid).length then 0 else -1) else -1, tr2), N + 1, fun fuel hf => ?_⟩
        obtain ⟨k, rfl⟩ : ∃ k, fuel = N + 1 + k := ⟨fuel - (N + 1), by omega⟩
        simp only [writepid, hc, putPid, if_pos ht, List.nil_append, h1 k, Outcome.ok_bind, h2 k]
      · obtain ⟨c, tr2, h2⟩ := closeLoop_ends (fun tr h => (hN tr h).2) fd N [.creat p (some fd)] (by omega)
        refine ⟨(-1, tr2), N + 1, fun fuel hf => ?_⟩
        obtain ⟨k, rfl⟩ : ∃ k, fuel = N + 1 + k := ⟨fuel - (N + 1), by omega⟩
        simp only [writepid, hc, putPid, if_neg ht, List.nil_append, Outcome.ok_bind, h2 k, ite_self]

/-- Violation of C87: an interrupted close is repeated. On Linux the descriptor is free after close in any case (close(2)), so that the second close may hit a file that another thread opened meanwhile. -/
theorem c87_reclose_violation : ∃ os : Os, writepid os (some [0x70]) 42 9 [] =
    .ok (0, [.creat [0x70] (some 5), .write 5 [0x34, 0x32, 0x0A] (.wrote 3), .close 5 .eintr, .close 5 .done]) :=
  ⟨⟨fun _ => some 5, fun _ => .wrote 3, fun tr => if tr.length = 2 then .eintr else .done⟩, by decide +kernel⟩

/-- A run with interrupted writes that succeeds, and one with a short write that fails. -/
example : (∃ os : Os, writepid os (some [0x70]) 42 9 [] = .ok (0, [.creat [0x70] (some 5), .write 5 [0x34, 0x32, 0x0A] .eintr, .write 5 [0x34, 0x32, 0x0A] (.wrote 3), .close 5 .done])) ∧
    ∃ os : Os, writepid os (some [0x70]) 42 9 [] = .ok (-1, [.creat [0x70] (some 5), .write 5 [0x34, 0x32, 0x0A] (.wrote 2), .close 5 .done]) :=
  ⟨⟨⟨fun _ => some 5, fun tr => if tr.length = 1 then .eintr else .wrote 3, fun _ => .done⟩, by decide +kernel⟩, ⟨⟨fun _ => some 5, fun _ => .wrote 2, fun _ => .done⟩, by decide +kernel⟩⟩

/-! ## C88 -/

theorem closeAll_spec {rlim : Nat} (hr : rlim ≤ 2 ^ 31) : ∀ (n i : Nat) (fds : Nat → Option File), rlim - i ≤ n → ∀ fuel, n + 1 ≤ fuel → closeAll rlim fuel i fds = .ok fun k => if i ≤ k ∧ k < rlim then none else fds k := by
  intro n
  induction n with
  | zero =>
    intro i fds h fuel hf
    obtain ⟨fuel, rfl⟩ : ∃ m, fuel = m + 1 := ⟨fuel - 1, by omega⟩
    rw [closeAll, if_neg (by omega)]
    congr 1
    funext k
    rw [if_neg (by omega)]
  | succ n ih =>
    intro i fds h fuel hf
    obtain ⟨fuel, rfl⟩ : ∃ m, fuel = m + 1 := ⟨fuel - 1, by omega⟩
    rw [closeAll]
    by_cases hi : i < rlim
    · have hm : ¬ i > INT_MAX := by unfold INT_MAX; omega
      rw [if_pos hi]
      simp only [if_neg hm]
      rw [ih (i + 1) _ (by omega) fuel (by omega)]
      congr 1
      funext k
      by_cases h1 : i + 1 ≤ k ∧ k < rlim
      · rw [if_pos h1, if_pos (by omega)]
      · rw [if_neg h1]
        by_cases h2 : k = i
        · rw [if_pos h2, if_pos (by omega)]
        · rw [if_neg h2, if_neg (by omega)]
    · rw [if_neg hi]
      congr 1
      funext k
      rw [if_neg (by omega)]

theorem lowest_eq {rlim k : Nat} {fds : Nat → Option File} (hk : k < rlim) (hfree : fds k = none) (hbusy : ∀ j, j < k → fds j ≠ none) : lowest rlim fds = some k := by
  rw [lowest, List.find?_range_eq_some]
  refine ⟨by simp [hfree], by simpa using hk, fun j hj => ?_⟩
  cases h : fds j with
  | none => exact absurd h (hbusy j hj)
  | some _ => simp

theorem std_spec {rlim : Nat} (h3 : 3 ≤ rlim) {fds : Nat → Option File} (hf : ∀ k, k < rlim → fds k = none) : std rlim true fds = fun k => if k < 3 then some .devnull else fds k := by
  have l0 := lowest_eq (rlim := rlim) (k := 0) (fds := fds) (by omega) (hf 0 (by omega)) (by omega)
  have l1 : lowest rlim (fun j => if j = 0 then some File.devnull else fds j) = some 1 := lowest_eq (by omega) (by simp [hf 1 (by omega)]) (fun j hj => by
    have : j = 0 := by omega
    simp [this])
  have l2 : lowest rlim (fun j => if j = 1 then some File.devnull else if j = 0 then some File.devnull else fds j) = some 2 := lowest_eq (by omega) (by simp [hf 2 (by omega)]) (fun j hj => by
    have : j = 0 ∨ j = 1 := by omega
    rcases this with h | h <;> simp [h])
  simp only [std, if_true, install, l0, Option.bind_some, l1]
  rw [show (if (0 : Nat) = 1 then some File.devnull else some File.devnull) = some File.devnull by rfl]
  simp only [l2]
  funext k
  by_cases e0 : k = 0
  · simp [e0]
  · by_cases e1 : k = 1
    · simp [e1]
    · by_cases e2 : k = 2
      · simp [e2]
      · simp only [if_neg e0, if_neg e1, if_neg e2, if_neg (show ¬ k < 3 by omega)]

/-- **C88 (who returns).** The call returns only in the child of the child, with 0, in a session of its own; every other process ends: with 0 if its fork succeeded, with 1 after an error. -/
theorem c88_ends (a : Answers) (root : Option Str) (mask : Nat) (p : Proc) (fuel : Nat) (e : End) (h : daemonize a root mask p fuel = .ok e) :
    (∃ p', e = .ret 0 p' ∧ a.fork1 = .child ∧ a.fork2 = .child ∧ a.setsid = true ∧ p'.ownSession = true ∧ p'.umask = mask ∧ p'.cwd = root.getD p.cwd ∧ (root ≠ none → a.chdir = true)) ∨
    (e = .exit 0 ∧ (a.fork1 = .parent ∨ (a.fork1 = .child ∧ a.fork2 = .parent))) ∨ (e = .exit 1 ∧ a.fork1 ≠ .parent) := by
  unfold daemonize at h
  cases h1 : a.fork1 with
  | failed => rw [h1] at h; cases h; exact Or.inr (Or.inr ⟨rfl, by simp⟩)
  | parent => rw [h1] at h; cases h; exact Or.inr (Or.inl ⟨rfl, Or.inl rfl⟩)
  | child =>
    rw [h1] at h
    simp only at h
    by_cases hs : a.setsid = true
    · rw [if_neg (by simp [hs])] at h
      cases hr : a.rlim with
      | none => rw [hr] at h; cases h; exact Or.inr (Or.inr ⟨rfl, by simp⟩)
      | some rlim =>
        rw [hr] at h
        simp only at h
        obtain ⟨fds, _, h⟩ := Outcome.bind_eq_ok.1 h
        cases h2 : a.fork2 with
        | failed => rw [h2] at h; cases h; exact Or.inr (Or.inr ⟨rfl, by simp⟩)
        | parent => rw [h2] at h; cases h; exact Or.inr (Or.inl ⟨rfl, Or.inr ⟨rfl, rfl⟩⟩)
        | child =>
          rw [h2] at h
          simp only at h
          cases root with
          | none =>
            simp only [enter] at h
            cases h
            exact Or.inl ⟨_, rfl, rfl, rfl, hs, rfl, rfl, rfl, fun h => absurd rfl h⟩
          | some r =>
            by_cases hcd : a.chdir = true
            · simp only [enter, hcd, if_true] at h
              cases h
              exact Or.inl ⟨_, rfl, rfl, rfl, hs, rfl, rfl, rfl, fun _ => hcd⟩
            · simp only [enter, if_neg hcd] at h
              cases h
              exact Or.inr (Or.inr ⟨rfl, by simp⟩)
    · rw [if_pos (by simpa using hs)] at h
      cases h
      exact Or.inr (Or.inr ⟨rfl, by simp⟩)

/-- **C88 (descriptors).** The daemon holds /dev/null as descriptors 0, 1 and 2 and nothing else, if no descriptor at or above the limit was open and the limit is at most 2^31. Missing: other limits (`c88_endless_violation`) and descriptors
(`c88_above_violation`). -/
theorem c88_descriptors_partial (a : Answers) (root : Option Str) (mask : Nat) (p : Proc) {rlim : Nat} (hr : a.rlim = some rlim) (h3 : 3 ≤ rlim) (hm : rlim ≤ 2 ^ 31) (hp : ∀ k, rlim ≤ k → p.fds k = none)
    (h1 : a.fork1 = .child) (h2 : a.fork2 = .child) (hs : a.setsid = true) (hc : a.chdir = true) (hn : a.null = true) :
    ∃ p', Runs (daemonize a root mask p) (.ret 0 p') ∧ ∀ k, p'.fds k = if k < 3 then some .devnull else none := by
  have hcl := fun fuel hf => closeAll_spec hm rlim 0 p.fds (by omega) fuel hf
  have hstd := std_spec h3 (fds := fun k => if 0 ≤ k ∧ k < rlim then none else p.fds k) (fun k hk => by rw [if_pos (by omega)])
  refine ⟨⟨std rlim true (fun k => if 0 ≤ k ∧ k < rlim then none else p.fds k), true, root.getD p.cwd, mask⟩, ⟨rlim + 1, fun fuel hf => ?_⟩, fun k => ?_⟩
  · simp only [daemonize, h1, hs, hr, h2, hn, not_true_eq_false, if_false, hcl fuel hf, Outcome.ok_bind]
    cases root with
    | none => rfl
    | some r => simp only [enter, hc, if_true]; rfl
  · simp only [hstd]
    by_cases hk : k < 3
    · rw [if_pos hk, if_pos hk]
    · rw [if_neg hk, if_neg hk]
      by_cases hl : k < rlim
      · rw [if_pos (by omega)]
      · rw [if_neg (by omega), hp k (by omega)]

/-- Violation of C88: with a limit above 2^31 (RLIM_INFINITY for instance) the call never returns: the last `int` is closed again and again. -/
theorem c88_endless_violation {rlim : Nat} (hr : 2 ^ 31 < rlim) : ∀ fuel i fds r, closeAll rlim fuel i fds ≠ .ok r ∨ rlim ≤ i := by
  intro fuel
  induction fuel with
  | zero => intro i fds r; exact Or.inl (by simp [closeAll])
  | succ n ih =>
    intro i fds r
    by_cases hi : i < rlim
    · left
      rw [closeAll, if_pos hi]
      simp only
      by_cases hm : i > INT_MAX
      · rw [if_pos hm]
        rcases ih (INT_MAX + 1) (fun k => if k = INT_MAX then none else fds k) r with h | h
        · exact h
        · unfold INT_MAX at h; omega
      · rw [if_neg hm]
        rcases ih (i + 1) (fun k => if k = i then none else fds k) r with h | h
        · exact h
        · unfold INT_MAX at hm; omega
    · exact Or.inr (by omega)

theorem c88_endless_call_violation (a : Answers) (root : Option Str) (mask : Nat) (p : Proc) {rlim : Nat} (hr : a.rlim = some rlim) (hm : 2 ^ 31 < rlim) (h1 : a.fork1 = .child) (hs : a.setsid = true) : ∀ fuel e, daemonize a root mask p fuel ≠ .ok e := by
  intro fuel e h
  simp only [daemonize, h1, hs, hr, not_true_eq_false, if_false] at h
  obtain ⟨fds, hf, _⟩ := Outcome.bind_eq_ok.1 h
  rcases c88_endless_violation hm fuel 0 p.fds fds with h | h
  · exact h hf
  · omega

/-- Violation of C88: a descriptor at or above the limit (the limit was lowered after it was opened) stays open in the daemon. -/
theorem c88_above_violation (a : Answers) (root : Option Str) (mask : Nat) (p : Proc) {rlim k f : Nat} (hr : a.rlim = some rlim) (h3 : 3 ≤ rlim) (hm : rlim ≤ 2 ^ 31) (hk : rlim ≤ k) (hp : p.fds k = some (.other f))
    (h1 : a.fork1 = .child) (h2 : a.fork2 = .child) (hs : a.setsid = true) (hc : a.chdir = true) (hn : a.null = true) : ∃ p', Runs (daemonize a root mask p) (.ret 0 p') ∧ p'.fds k = some (.other f) := by
  have hcl := fun fuel hf => closeAll_spec hm rlim 0 p.fds (by omega) fuel hf
  have hstd := std_spec h3 (fds := fun k => if 0 ≤ k ∧ k < rlim then none else p.fds k) (fun k hk => by rw [if_pos (by omega)])
  refine ⟨⟨std rlim true (fun k => if 0 ≤ k ∧ k < rlim then none else p.fds k), true, root.getD p.cwd, mask⟩, ⟨rlim + 1, fun fuel hf => ?_⟩, ?_⟩
  · simp only [daemonize, h1, hs, hr, h2, hn, not_true_eq_false, if_false, hcl fuel hf, Outcome.ok_bind]
    cases root with
    | none => rfl
    | some r => simp only [enter, hc, if_true]; rfl
  · simp only [hstd]
    rw [if_neg (by omega), if_neg (by omega), hp]

/-- The hypotheses of `c88_descriptors_partial`: 1024 descriptors, of which three are open. -/
example : ∃ (a : Answers) (p : Proc), a.rlim = some 1024 ∧ (∀ k, 1024 ≤ k → p.fds k = none) ∧ p.fds 7 ≠ none ∧ a.fork1 = .child ∧ a.fork2 = .child ∧ a.setsid = true ∧ a.chdir = true ∧ a.null = true :=
  ⟨⟨.child, true, some 1024, .child, true, true⟩, ⟨fun k => if k = 0 ∨ k = 1 ∨ k = 7 then some (.other k) else none, false, [], 0⟩, rfl, fun k hk => if_neg (by omega), by decide, rfl, rfl, rfl, rfl, rfl⟩

end ZT.Daemon
