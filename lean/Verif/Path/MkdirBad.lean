import Verif.Path.Mkdir

/-!
# C79: where zt_mkdir fails, and examples
-/

namespace ZT.Path

open ZT.Cstr

variable {W : Type}

theorem makeAll_exist (os : Os W) (w : W) : ∀ (ps : List Str), (∀ p ∈ ps, os.stat w p = true) → makeAll os w ps = (w, true) := by
  intro ps
  induction ps with
  | nil => intro _; rfl
  | cons p ps ih =>
      intro h
      rw [makeAll, parent, if_pos (h p (by simp))]
      exact ih fun q hq => h q (by simp [hq])

/-- C79 (violation). When all parents exist and mkdir fails for another reason than EEXIST (no permission, no space, read-only device, an overlong last name ...), zt_mkdir with the flag never returns. -/
theorem c79_never_returns (os : Os W) {m path : List Byte} (hm : IsStr m path) (pm : Nat) (hpm : path.length ≤ pm) (w : W) (hmk : os.mkdir w path = (w, some .other)) (hst : ∀ p, Parent path p → os.stat w p = true) :
    ∀ fuel r, mkdir os pm m true fuel w ≠ .ok r := by
  intro fuel
  induction fuel with
  | zero => intro r e; cases e
  | succ fuel ih =>
      intro r
      rw [mkdir, text_ok hm]
      simp only [Outcome.ok_bind, hmk, Bool.true_eq_false, if_false, strlen_ok hm]
      rw [parents_all os hm pm hpm _ (Nat.lt_succ_self _) w,
        makeAll_exist os w _ fun p hp => hst p (by simpa using pre_mem path.length [] path (Nat.le_refl _) p hp)]
      exact ih r

/-- A root directory that cannot be written to. -/
def readonlyFs : FS := { kind := fun p => if p = [] then some (.dir false) else none, cwd := [] }

/-- A writable root directory with a file "a". -/
def fileFs : FS := { kind := fun p => if p = [] then some (.dir true) else if p = [[97]] then some .file else none, cwd := [] }

/-- A writable root directory with a directory "a". -/
def dirFs : FS := { kind := fun p => if p = [] then some (.dir true) else if p = [[97]] then some (.dir true) else none, cwd := [] }

/-- A writable root directory. -/
def emptyFs : FS := { kind := fun p => if p = [] then some (.dir true) else none, cwd := [] }

theorem one_ok (fs : FS) (h : fs.isDir [] = true) (hc : fs.cwd = []) (hn : ∀ p : List Str, 2 ≤ p.length → fs.kind p = none) : fs.Ok := by
  refine ⟨h, ?_, by rw [hc]; exact h⟩
  intro p c hp
  cases p with
  | nil => exact h
  | cons x p =>
      unfold FS.has at hp
      rw [hn _ (by simp)] at hp
      cases hp

theorem readonlyFs_ok : readonlyFs.Ok := one_ok _ rfl rfl fun p hp => by
  show (if p = [] then _ else _) = _
  rw [if_neg (fun e => by rw [e] at hp; simp at hp)]
theorem fileFs_ok : fileFs.Ok := one_ok _ rfl rfl fun p hp => by
  show (if p = [] then _ else if p = [[97]] then _ else _) = _
  rw [if_neg (fun e => by rw [e] at hp; simp at hp), if_neg (fun e => by rw [e] at hp; simp at hp)]
theorem dirFs_ok : dirFs.Ok := one_ok _ rfl rfl fun p hp => by
  show (if p = [] then _ else if p = [[97]] then _ else _) = _
  rw [if_neg (fun e => by rw [e] at hp; simp at hp), if_neg (fun e => by rw [e] at hp; simp at hp)]
theorem emptyFs_ok : emptyFs.Ok := one_ok _ rfl rfl fun p hp => by
  show (if p = [] then _ else _) = _
  rw [if_neg (fun e => by rw [e] at hp; simp at hp)]

/-- C79 (violation). zt_mkdir("/a", mode, zt_mkdir_create_parent) never returns when "/" cannot be written to. -/
theorem c79_readonly_violation (nw : Bool) : ∀ fuel r, mkdir (fsOs 4096 nw) 4096 [47, 97, 0] true fuel readonlyFs ≠ .ok r :=
  c79_never_returns _ (path := [47, 97]) ⟨by decide, [], rfl⟩ _ (by decide) _ rfl (by
    rintro p ⟨hp, q, e⟩
    cases p with
    | nil => exact absurd rfl hp
    | cons x p =>
        cases p with
        | nil => simp at e
        | cons y p => simp at e)

/-- C79 (violation). zt_mkdir("", mode, zt_mkdir_create_parent) never returns. -/
theorem c79_empty_violation (fs : FS) (nw : Bool) : ∀ fuel r, mkdir (fsOs 4096 nw) 4096 [0] true fuel fs ≠ .ok r :=
  c79_never_returns _ (path := []) ⟨by decide, [], rfl⟩ _ (by decide) _ rfl (by
    rintro p ⟨hp, q, e⟩
    cases p with
    | nil => exact absurd rfl hp
    | cons x p => simp at e)

/-- C79 (violation). zt_mkdir("a", ...) returns 0 although "a" is a file and no directory. -/
theorem c79_file_violation (nw create : Bool) : mkdir (fsOs 4096 nw) 4096 [97, 0] create 1 fileFs = .ok (fileFs, 0) ∧ fileFs.kind (place (fileFs.start [97]) (comps [97])) = some .file := ⟨rfl, by decide⟩

/-- The file system above with another process that creates "a" just before our mkdir("a"). -/
def raceOs : Os FS :=
  { stat := FS.stat 4096
    mkdir := fun fs p => FS.mkdir 4096 true (if p = [97] then fs.add [[97]] true else fs) p }

/-- C79 (violation). When another process creates the parent "a" between our stat and mkdir, zt_mkdir("a/b", ..., zt_mkdir_create_parent) gives up with -1 although nothing prevents the creation of "a/b". -/
theorem c79_race_violation : ∃ fs', (∀ fuel, mkdir raceOs 4096 [97, 47, 98, 0] true (fuel + 1) emptyFs = .ok (fs', -1)) ∧ fs'.kind [[97]] = some (.dir true) ∧ fs'.has [[97], [98]] = false := by
  refine ⟨emptyFs.add [[97]] true, fun fuel => ?_, by decide, by decide⟩
  have hm : IsStr [97, 47, 98, 0] ([97, 47, 98] : Str) := ⟨by decide, [], rfl⟩
  have h1 : raceOs.mkdir emptyFs [97, 47, 98] = (emptyFs, some .other) := rfl
  rw [mkdir, text_ok hm]
  simp only [Outcome.ok_bind, h1, Bool.true_eq_false, if_false, strlen_ok hm]
  rw [parents_all raceOs hm 4096 (by decide) _ (by decide) emptyFs]
  rfl

theorem strlen_none {m : List Byte} (h : ∀ b ∈ m, b ≠ 0) : strlen m = .ub := by
  induction m with
  | nil => rfl
  | cons x m ih => rw [strlen, if_neg (h x (by simp)), ih fun b hb => h b (by simp [hb])]; rfl

/-- C79 (violation). A component that does not fit into the local buffer fills it without a terminator: stat then reads past the buffer. This is "a/bb...b/c" with PATH_MAX b's where "a" exists, for any value of PATH_MAX. -/
theorem c79_long_violation (pm : Nat) (hpm : 2 ≤ pm) (nw : Bool) (fuel : Nat) : ∃ path, IsStr (path ++ [0]) path ∧ dirFs.Ok ∧ (fsOs pm nw).mkdir dirFs path = (dirFs, some .other) ∧
    parents (fsOs pm nw) (path ++ [0]) path.length (fuel + 2) dirFs (List.replicate (pm + 1) 0) 0 = .ub := by
  have hb : (47 : Byte) ∉ List.replicate pm (98 : Byte) := by intro h; exact absurd (List.eq_of_mem_replicate h) (by decide)
  generalize hB : List.replicate pm (98 : Byte) = B at hb
  have hBl : B.length = pm := by rw [← hB]; simp
  have hB0 : ∀ b ∈ B, b ≠ 0 := by intro b hb e; rw [← hB] at hb; rw [e] at hb; exact absurd (List.eq_of_mem_replicate hb) (by decide)
  have hm : IsStr ((97 :: 47 :: (B ++ [47, 99])) ++ [0]) ((97 :: 47 :: (B ++ [47, 99])) : Str) := by
    refine ⟨?_, [], rfl⟩
    intro b hb e
    subst e
    simp at hb
    exact hB0 0 hb rfl
  have hpl : (97 :: 47 :: (B ++ [47, 99])).length = pm + 4 := by simp [hBl]
  refine ⟨97 :: 47 :: (B ++ [47, 99]), hm, dirFs_ok, ?_, ?_⟩
  · show FS.mkdir pm nw dirFs _ = _
    unfold FS.mkdir
    rw [if_pos (by right; rw [hpl]; omega)]
  · have f1 : find ((97 :: 47 :: (B ++ [47, 99])) ++ [0]) ((0 : Nat) : Int) (-1) SEP = .ok ((1 : Nat) : Int) := by
      rcases find_sep (done := []) (rest := 97 :: 47 :: (B ++ [47, 99])) hm (by simp) with ⟨a, b, e, ha, h⟩ | ⟨h, _⟩
      · have : a = [97] := by
          cases a with
          | nil => simp at e
          | cons x a =>
              cases a with
              | nil => simp at e; rw [e.1]
              | cons y a => simp at e; rw [← e.2.1] at ha; simp at ha
        rw [this] at h
        exact h
      · simp at h
    have f2 : find ((97 :: 47 :: (B ++ [47, 99])) ++ [0]) ((2 : Nat) : Int) (-1) SEP = .ok ((2 + pm : Nat) : Int) := by
      rcases find_sep (done := [97, 47]) (rest := B ++ [47, 99]) hm (by simp) with ⟨a, b, e, ha, h⟩ | ⟨h, _⟩
      · have hal : a.length = pm := by
          have hs := segs_sep a b ha
          rw [← e, show B ++ [47, 99] = B ++ 47 :: [99] from rfl, segs_sep B [99] hb] at hs
          rw [← (List.cons.inj hs).1, hBl]
        rw [hal] at h
        exact h
      · simp at h
    rw [hpl]
    have hcp1 : memcpy (List.replicate (pm + 1) 0) ((97 :: 47 :: (B ++ [47, 99])) ++ [0]) (min (List.replicate (pm + 1) (0 : Byte)).length 1) = .ok (97 :: List.replicate pm 0) := by
      rw [List.length_replicate, show min (pm + 1) 1 = 1 by omega, memcpy, if_pos (by simp), List.drop_replicate]
      rfl
    have hcp2 : memcpy (97 :: List.replicate pm 0) ((97 :: 47 :: (B ++ [47, 99])) ++ [0]) (min (97 :: List.replicate pm (0 : Byte)).length (2 + pm)) = .ok ((97 :: 47 :: (B ++ [47, 99])).take (pm + 1)) := by
      rw [List.length_cons, List.length_replicate, show min (pm + 1) (2 + pm) = pm + 1 by omega, memcpy, if_pos (by simp [hBl]), List.drop_eq_nil_of_le (by simp), List.append_nil,
        List.take_append_of_le_length (by rw [hpl]; omega)]
    have ht1 : text (97 :: List.replicate pm 0) = .ok [97] := text_ok ⟨by decide, List.replicate (pm - 1) 0, by rw [← List.replicate_succ, show pm - 1 + 1 = pm by omega]; rfl⟩
    have hs1 : FS.stat pm dirFs [97] = true := by
      unfold FS.stat
      rw [if_neg (by simp; omega)]
      rfl
    have ht2 : text ((97 :: 47 :: (B ++ [47, 99])).take (pm + 1)) = .ub := by
      rw [text, strlen_none fun b hb => hm.1 b (List.mem_of_mem_take hb)]
      rfl
    rw [parents, if_pos (by omega)]
    have n1 : ¬ (((1 : Nat) : Int) = -1) := by decide
    have n2 : ¬ (((2 + pm : Nat) : Int) = -1) := by omega
    have z1 : ¬ (1 + 1 = 1) := by decide
    have z2 : ¬ (2 + pm + 1 = 1) := by omega
    simp only [f1, Outcome.ok_bind, if_neg n1, Int.toNat_natCast, hcp1, if_neg z1, ht1, parent, fsOs_stat, hs1, if_true]
    rw [parents, if_pos (by omega)]
    simp only [show 1 + 1 = 2 from rfl, f2, Outcome.ok_bind, if_neg n2, Int.toNat_natCast, hcp2, if_neg z2, ht2, Outcome.ub_bind]

/-! ## Examples -/

/-- zt_mkdir("x//y/../z/", ...) in an empty file system creates x, x/y and x/z. -/
example : ∃ fs', mkdir (fsOs 32 true) 32 ("x//y/../z/".toList.map (fun c => UInt8.ofNat c.toNat) ++ [0]) true 2 emptyFs = .ok (fs', 0) ∧ fs'.has [[120]] = true ∧ fs'.has [[120], [121]] = true ∧ fs'.has [[120], [122]] = true := by
  refine ⟨_, rfl, ?_, ?_, ?_⟩ <;> rfl

/-- It meets the hypotheses of `c79_create_partial`: nothing but the root exists, and it is writable. -/
example : emptyFs.Ok ∧ (∀ p, Through emptyFs [120, 47, 121] p → emptyFs.kind p ≠ some .file) ∧ comps [120, 47, 121] = [[120], [121]] := by
  refine ⟨emptyFs_ok, ?_, by decide⟩
  intro p _ e
  have e : (if p = [] then some (Kind.dir true) else none) = some Kind.file := e
  split at e <;> cases e

end ZT.Path
