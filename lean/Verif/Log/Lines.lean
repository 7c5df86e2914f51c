import Verif.Log.Model

/-!
# Log lines of several threads (C116)

zt_log_lprintf, zt_log_set_debug_info and zt_log_close of file and stderr loggers, step by step, with the steps of any number of threads interleaving in any order (sequential consistency). The build is the one CMakeLists.txt
12-20 makes when there are pthreads (WITH_THREADS and HAVE_PTHREADS). vfprintf is taken apart into single characters and nothing is assumed about stdio's own locks: the mutex of the logger is what is examined. A stream is
what was printed to it, whether or not it has left the buffer of stdio. The text of a line is a parameter, a function of what zt_log_gen_fmt and vfprintf are given (`Verif.Log.Fmt` has the actual one). The level and the
options of the loggers do not change while the threads run; the loggers are given (no NULL logger, see `Verif.Log.Threads`).
-/

namespace ZT.Log.Lines

open ZT.Log

/-- log_file.c 19-23, log_private.h 37-47: a logger. `mutex` is `none` once destroyed, `some none` while nobody holds it; `isOpen` is false once fclose was called. -/
structure Lg where
  level : Nat
  opts : Nat
  stream : Nat
  toFile : Bool
  mutex : Option (Option Nat)
  isOpen : Bool

/-- A call of a thread. -/
inductive Req (M : Type) where
  | debug (c : Ctx)
  | print (l level : Nat) (m : M)
  | close (l : Nat)

/-- Where a thread is. -/
inductive Pc (M : Type) where
  | idle
  | debug (c : Ctx)                            -- zt_log.c 198-204
  | check1 (l level : Nat) (m : M)             -- zt_log.c 232, zt_log_lprintf
  | check (l level : Nat) (m : M)              -- zt_log.c 247, zt_log_lvprintf
  | ctx (l level : Nat) (m : M)                -- zt_log.c 251-256
  | fmt (l level : Nat) (m : M) (c : Ctx)      -- log_file.c 52, log_stderr.c 32
  | lock (l : Nat) (s : Str)                   -- log_file.c 55, log_stderr.c 35
  | write (l : Nat) (s : Str) (k : Nat)        -- log_file.c 58, log_stderr.c 38, `k` characters written
  | unlock (l : Nat)                           -- log_file.c 61, log_stderr.c 41
  | reset                                      -- zt_log.c 233, 262
  | closeLock (l : Nat)                        -- log_file.c 32
  | closeFile (l : Nat)                        -- log_file.c 35-36
  | closeUnlock (l : Nat)                      -- log_file.c 39
  | destroy (l : Nat)                          -- log_file.c 40, log_stderr.c 23
  | free (l : Nat)                             -- log_file.c 43, log_stderr.c 26

/-- The loggers (`none` when freed), the streams, the debug information of the threads (zt_log.c 66-88, thread specific), where the threads are. -/
structure W (M : Type) where
  log : Nat → Option Lg
  file : Nat → Str
  ctx : Nat → Ctx
  pc : Nat → Pc M

/-- The effect of a step: it may be impossible for now, or undefined. -/
inductive Res (M : Type) where
  | ok (w : W M)
  | blocked
  | ub

variable {M : Type}

def goto (w : W M) (t : Nat) (p : Pc M) : W M := { w with pc := fun x => if x = t then p else w.pc x }

def setLog (w : W M) (l : Nat) (x : Option Lg) : W M := { w with log := fun k => if k = l then x else w.log k }

def setCtx (w : W M) (t : Nat) (c : Ctx) : W M := { w with ctx := fun k => if k = t then c else w.ctx k }

def put (w : W M) (f : Nat) (c : Byte) : W M := { w with file := fun k => if k = f then w.file k ++ [c] else w.file k }

/-- `*log` -/
def deref (w : W M) (l : Nat) (f : Lg → Res M) : Res M :=
  match w.log l with
  | some x => f x
  | none => .ub

/-- pthread_mutex_lock of the mutex of logger `l`. -/
def acquire (w : W M) (t l : Nat) (p : Pc M) : Res M :=
  deref w l fun x => match x.mutex with
    | some none => .ok (goto (setLog w l (some { x with mutex := some (some t) })) t p)
    | some (some _) => .blocked
    | none => .ub

/-- pthread_mutex_unlock. -/
def release (w : W M) (t l : Nat) (p : Pc M) : Res M :=
  deref w l fun x => match x.mutex with
    | some _ => .ok (goto (setLog w l (some { x with mutex := some none })) t p)
    | none => .ub

/-- zt_log.c 195, 224, 301-312: thread `t` makes a call (it must not be in one). -/
def begin_ (w : W M) (t : Nat) (r : Req M) : Res M :=
  match w.pc t with
  | .idle => match r with
      | .debug c => .ok (goto w t (.debug c))
      | .print l level m => .ok (goto w t (.check1 l level m))
      | .close l => deref w l fun x => .ok (goto w t (if x.toFile then .closeLock l else .destroy l))
  | _ => .blocked

/-- The debug information zt_log_set_debug_info(NULL, -1, NULL) leaves. -/
def cleared : Ctx := ⟨none, -1, none⟩

/-- zt_log.c 195-263, 300-313; log_file.c 27-65; log_stderr.c 20-44: the next step of thread `t`. The comments of `Pc` give the lines. -/
def next (render : Nat → Ctx → Nat → M → Str) (w : W M) (t : Nat) : Res M :=
  match w.pc t with
  | .idle => .blocked
  | .debug c => .ok (goto (setCtx w t c) t .idle)
  | .check1 l level m => deref w l fun x => .ok (goto w t (if level > x.level then .reset else .check l level m))
  | .check l level m => deref w l fun x => .ok (goto w t (if level > x.level then .reset else .ctx l level m))
  | .ctx l level m => deref w l fun _ => .ok (goto w t (.fmt l level m (w.ctx t)))
  | .fmt l level m c => deref w l fun x => .ok (goto w t (.lock l (render x.opts c level m)))
  | .lock l s => acquire w t l (.write l s 0)
  | .write l s k => deref w l fun x =>
      if x.isOpen then
        match s[k]? with
        | some c => .ok (goto (put w x.stream c) t (.write l s (k + 1)))
        | none => .ok (goto w t (.unlock l))
      else .ub
  | .unlock l => release w t l .reset
  | .reset => .ok (goto (setCtx w t cleared) t .idle)
  | .closeLock l => acquire w t l (.closeFile l)
  | .closeFile l => deref w l fun x => if x.isOpen then .ok (goto (setLog w l (some { x with isOpen := false })) t (.closeUnlock l)) else .ub
  | .closeUnlock l => release w t l (.destroy l)
  | .destroy l => deref w l fun x => match x.mutex with
      | some none => .ok (goto (setLog w l (some { x with mutex := none })) t (.free l))
      | _ => .ub
  | .free l => deref w l fun _ => .ok (goto (setLog w l none) t .idle)

/-- A schedule: threads making calls and making steps. -/
inductive Op (M : Type) where
  | call (t : Nat) (r : Req M)
  | go (t : Nat)

def step (render : Nat → Ctx → Nat → M → Str) (w : W M) : Op M → Res M
  | .call t r => begin_ w t r
  | .go t => next render w t

/-- The loggers as created: level, options, stream, and whether it is a file logger. -/
structure Made where
  level : Nat
  opts : Nat
  stream : Nat
  toFile : Bool

/-- No thread is in a call; the loggers have been made (log_file.c 74-97, log_stderr.c 53-64) and the streams contain `old`. A new context is cleared by zt_calloc. -/
def start (made : Nat → Option Made) (old : Nat → Str) : W M :=
  ⟨fun l => (made l).map fun x => ⟨x.level, x.opts, x.stream, x.toFile, some none, true⟩, old, fun _ => ⟨none, 0, none⟩, fun _ => .idle⟩

/-! ## Specification -/

/-- The thread is in a call of zt_log_lprintf with logger `l`. -/
def printing (l : Nat) : Pc M → Prop
  | .check1 k _ _ | .check k _ _ | .ctx k _ _ | .fmt k _ _ _ | .lock k _ | .write k _ _ | .unlock k => k = l
  | _ => False

/-- The thread is in a call of zt_log_close with logger `l`. -/
def closing (l : Nat) : Pc M → Prop
  | .closeLock k | .closeFile k | .closeUnlock k | .destroy k | .free k => k = l
  | _ => False

/-- What the program has to see to: a logger is used until zt_log_close is called for it, and that is done when no other thread is using it. -/
def Legal (w : W M) : Op M → Prop
  | .call _ (.print l _ _) => w.log l ≠ none ∧ ∀ u, ¬ closing l (w.pc u)
  | .call _ (.close l) => w.log l ≠ none ∧ ∀ u, ¬ closing l (w.pc u) ∧ ¬ printing l (w.pc u)
  | _ => True

/-- A schedule that can be executed, in which the calls are legal, and where it leads. -/
inductive Run (render : Nat → Ctx → Nat → M → Str) (w0 : W M) : List (Op M) → W M → Prop where
  | nil : Run render w0 [] w0
  | snoc {os w o w'} : Run render w0 os w → Legal w o → step render w o = .ok w' → Run render w0 (os ++ [o]) w'

/-- The calls thread `t` makes in a schedule. -/
def callsOf (t : Nat) (os : List (Op M)) : List (Req M) := os.filterMap fun o => match o with | .call u r => if u = t then some r else none | .go _ => none

/-- The lines the calls of one thread give on logger `l`, when the debug information is `c` at first: a call of zt_log_lprintf prints with the debug information of this thread and clears it, whether or not the level lets
the message through. -/
def linesOf (render : Nat → Ctx → Nat → M → Str) (x : Made) (l : Nat) : Ctx → List (Req M) → List Str
  | _, [] => []
  | _, .debug c :: rs => linesOf render x l c rs
  | c, .print k level m :: rs => (if k = l ∧ level ≤ x.level then [render x.opts c level m] else []) ++ linesOf render x l cleared rs
  | c, .close _ :: rs => linesOf render x l c rs

/-- No two loggers print to the same stream. -/
def Apart (made : Nat → Option Made) : Prop := ∀ l k x y, made l = some x → made k = some y → x.stream = y.stream → l = k

/-- The lines of thread `t`, from a list of lines with their threads. -/
def ofThread (t : Nat) (d : List (Nat × Str)) : List Str := (d.filter fun e => e.1 = t).map (·.2)

/-- The text of a list of lines. -/
def text (d : List (Nat × Str)) : Str := (d.map (·.2)).flatten

/-! ## Proofs -/

/-- The thread holds the mutex of logger `l`. -/
def holds (l : Nat) : Pc M → Prop
  | .write k _ _ | .unlock k | .closeFile k | .closeUnlock k => k = l
  | _ => False

/-- What zt_log_close finds. -/
def shape (t : Nat) (x : Lg) : Pc M → Prop
  | .closeLock _ => x.mutex = some none ∧ x.isOpen = true
  | .closeFile _ => x.mutex = some (some t) ∧ x.isOpen = true
  | .closeUnlock _ => x.mutex = some (some t)
  | .destroy _ => x.mutex = some none
  | _ => True

structure Safe (made : Nat → Option Made) (w : W M) : Prop where
  same : ∀ l x, w.log l = some x → ∃ y, made l = some y ∧ x.level = y.level ∧ x.opts = y.opts ∧ x.stream = y.stream
  alive : ∀ l t, printing l (w.pc t) → w.log l ≠ none ∧ ∀ u, ¬ closing l (w.pc u)
  fresh : ∀ l x, w.log l = some x → (∀ u, ¬ closing l (w.pc u)) → x.mutex ≠ none ∧ x.isOpen = true
  shut : ∀ l t, closing l (w.pc t) → (∀ u, closing l (w.pc u) → u = t) ∧ ∃ x, w.log l = some x ∧ shape t x (w.pc t)
  lock : ∀ l x, w.log l = some x → ∀ t, holds l (w.pc t) ↔ x.mutex = some (some t)

theorem safe_start (made : Nat → Option Made) (old : Nat → Str) : Safe made (start made old : W M) := by
  refine ⟨?_, ?_, ?_, ?_, ?_⟩
  · intro l x h
    simp only [start, Option.map_eq_some_iff] at h
    obtain ⟨y, e, rfl⟩ := h
    exact ⟨y, e, rfl, rfl, rfl⟩
  · intro l t h; exact h.elim
  · intro l x h _
    simp only [start, Option.map_eq_some_iff] at h
    obtain ⟨y, e, rfl⟩ := h
    exact ⟨by simp, rfl⟩
  · intro l t h; exact h.elim
  · intro l x h t
    simp only [start, Option.map_eq_some_iff] at h
    obtain ⟨y, e, rfl⟩ := h
    simp [start, holds]

/-- A step that changes nothing but where `t` is. -/
theorem safe_goto {made : Nat → Option Made} {w w1 : W M} {t : Nat} {p : Pc M} (S : Safe made w) (hl : w1.log = w.log) (hp : w1.pc = w.pc) (h1 : ∀ l, printing l p → printing l (w.pc t)) (h2 : ∀ l, ¬ closing l p)
    (h3 : ∀ l, ¬ closing l (w.pc t)) (h4 : ∀ l, holds l p ↔ holds l (w.pc t)) : Safe made (goto w1 t p) := by
  obtain ⟨same, alive, fresh, shut, lock⟩ := S
  refine ⟨?_, ?_, ?_, ?_, ?_⟩ <;> simp only [goto, hl, hp] at *
  · exact same
  · intro l u hu
    have : printing l (w.pc u) := by grind
    refine ⟨(alive l u this).1, fun v => ?_⟩
    have := (alive l u this).2 v
    grind
  · intro l x hx hc
    exact fresh l x hx fun u => by have := hc u; grind
  · intro l u hu
    grind
  · intro l x hx u
    have := lock l x hx u
    grind

/-- A step that changes logger `l` and where `t`, which is using it, is. -/
theorem safe_set {made : Nat → Option Made} {w : W M} {t l : Nat} {p : Pc M} {x y : Lg} (S : Safe made w) (hx : w.log l = some x) (hs : y.level = x.level ∧ y.opts = x.opts ∧ y.stream = x.stream)
    (h1 : ∀ k, printing k p → k = l ∧ printing k (w.pc t)) (h2 : ∀ k, closing k p ↔ closing k (w.pc t)) (h0 : printing l (w.pc t) ∨ closing l (w.pc t)) (h3 : printing l (w.pc t) → y.mutex ≠ none ∧ y.isOpen = true) (h4 : closing l p → shape t y p)
    (h5 : ∀ k, k ≠ l → ¬ holds k p ∧ ¬ holds k (w.pc t)) (h6 : holds l p ↔ y.mutex = some (some t)) (h7 : ∀ u, u ≠ t → (y.mutex = some (some u) ↔ x.mutex = some (some u))) : Safe made (goto (setLog w l (some y)) t p) := by
  obtain ⟨same, alive, fresh, shut, lock⟩ := S
  refine ⟨?_, ?_, ?_, ?_, ?_⟩ <;> simp only [goto, setLog] at *
  · intro k z hz
    by_cases e : k = l
    · subst e
      simp only [if_true, Option.some.injEq] at hz
      subst hz
      obtain ⟨q, a, b, c, d⟩ := same k x hx
      exact ⟨q, a, hs.1.trans b, hs.2.1.trans c, hs.2.2.trans d⟩
    · rw [if_neg e] at hz; exact same k z hz
  · intro k u hu
    have hu' : printing k (w.pc u) := by grind
    have := alive k u hu'
    refine ⟨by grind, fun v => ?_⟩
    have := this.2 v
    grind
  · intro k z hz hc
    have hc' : ∀ u, ¬ closing k (w.pc u) := fun u => by have := hc u; grind
    by_cases e : k = l
    · subst e
      simp only [if_true, Option.some.injEq] at hz
      subst hz
      exact h3 (h0.resolve_right (hc' t))
    · rw [if_neg e] at hz
      exact fresh k z hz hc'
  · intro k u hu
    have hu' : closing k (w.pc u) := by grind
    obtain ⟨a, z, b, c⟩ := shut k u hu'
    refine ⟨fun v hv => a v (by grind), ?_⟩
    by_cases e : u = t
    · subst e
      rw [if_pos rfl] at hu ⊢
      by_cases ek : k = l
      · subst ek; exact ⟨y, by simp, h4 hu⟩
      · exfalso
        have hcl : ∀ q : Pc M, closing k q → closing l q → k = l := by intro q; cases q <;> simp [closing] <;> grind
        have hpr : closing k (w.pc u) → printing l (w.pc u) → False := by cases w.pc u <;> simp [closing, printing]
        rcases h0 with h | h
        · exact hpr hu' h
        · exact ek (hcl _ hu' h)
    · rw [if_neg e] at hu ⊢
      by_cases ek : k = l
      · subst ek
        rcases h0 with h | h
        · exact absurd hu ((alive k t h).2 u)
        · exact absurd (a t h).symm e
      · exact ⟨z, by rw [if_neg ek]; exact b, c⟩
  · intro k z hz u
    by_cases ek : k = l
    · subst ek
      simp only [if_true, Option.some.injEq] at hz
      subst hz
      by_cases e : u = t
      · subst e; simpa using h6
      · rw [if_neg e, h7 u e]; exact lock k x hx u
    · rw [if_neg ek] at hz
      have := lock k z hz u
      have := h5 k ek
      grind

/-- Freeing a logger. -/
theorem safe_free {made : Nat → Option Made} {w : W M} {t l : Nat} (S : Safe made w) (hp : w.pc t = .free l) : Safe made (goto (setLog w l none) t .idle) := by
  have hc : closing l (w.pc t) := by rw [hp]; rfl
  obtain ⟨same, alive, fresh, shut, lock⟩ := S
  have ho := (shut l t hc).1
  refine ⟨?_, ?_, ?_, ?_, ?_⟩ <;> simp only [goto, setLog] at *
  · intro k z hz
    have : w.log k = some z := by grind
    exact same k z this
  · intro k u hu
    have hu' : u ≠ t := by rintro rfl; simp [printing] at hu
    rw [if_neg hu'] at hu
    have := alive k u hu
    have hk : k ≠ l := by rintro rfl; exact this.2 t hc
    refine ⟨by rw [if_neg hk]; exact this.1, fun v => ?_⟩
    have := this.2 v
    by_cases hv : v = t
    · rw [if_pos hv]; exact id
    · rw [if_neg hv]; exact this
  · intro k z hz hh
    have hk : k ≠ l := by rintro rfl; simp at hz
    rw [if_neg hk] at hz
    refine fresh k z hz fun u => ?_
    by_cases hu : u = t
    · subst hu; rw [hp]; exact fun e => hk e.symm
    · have := hh u; rwa [if_neg hu] at this
  · intro k u hu
    have hu' : u ≠ t := by rintro rfl; simp [closing] at hu
    rw [if_neg hu'] at hu ⊢
    obtain ⟨a, z, b, c⟩ := shut k u hu
    have hk : k ≠ l := by rintro rfl; exact hu' (ho u hu)
    refine ⟨fun v hv => ?_, z, by rw [if_neg hk]; exact b, c⟩
    by_cases e : v = t
    · rw [if_pos e] at hv; exact hv.elim
    · rw [if_neg e] at hv; exact a v hv
  · intro k z hz u
    have hk : k ≠ l := by rintro rfl; simp at hz
    rw [if_neg hk] at hz
    have := lock k z hz u
    by_cases e : u = t
    · subst e; rw [hp] at this; simpa [holds] using this
    · rw [if_neg e]; exact this

theorem safe_begin {made : Nat → Option Made} {w w' : W M} {t : Nat} {r : Req M} (S : Safe made w) (hr : Legal w (.call t r)) (h : begin_ w t r = .ok w') : Safe made w' := by
  unfold begin_ at h
  split at h
  · rename_i hp
    cases r with
    | debug c =>
        simp only [Res.ok.injEq] at h
        subst h
        exact safe_goto S rfl rfl (by simp [printing]) (by simp [closing]) (by simp [hp, closing]) (by simp [hp, holds])
    | print l level m =>
        simp only [Res.ok.injEq] at h
        subst h
        obtain ⟨h1, h2⟩ := hr
        obtain ⟨same, alive, fresh, shut, lock⟩ := S
        refine ⟨same, ?_, ?_, ?_, ?_⟩ <;> simp only [goto]
        · intro k u hu
          by_cases e : u = t
          · subst e
            simp only [if_true, printing] at hu
            subst hu
            refine ⟨h1, fun v => ?_⟩
            by_cases ev : v = u
            · simp [ev, closing]
            · rw [if_neg ev]; exact h2 v
          · rw [if_neg e] at hu
            have := alive k u hu
            refine ⟨this.1, fun v => ?_⟩
            by_cases ev : v = t
            · simp [ev, closing]
            · rw [if_neg ev]; exact this.2 v
        · intro k x hx hc
          refine fresh k x hx fun u => ?_
          by_cases e : u = t
          · subst e; rw [hp]; exact id
          · have := hc u; rwa [if_neg e] at this
        · intro k u hu
          have e : u ≠ t := by rintro rfl; simp [closing] at hu
          rw [if_neg e] at hu ⊢
          obtain ⟨a, b⟩ := shut k u hu
          refine ⟨fun v hv => a v ?_, b⟩
          by_cases ev : v = t
          · rw [if_pos ev] at hv; exact hv.elim
          · rwa [if_neg ev] at hv
        · intro k x hx u
          have := lock k x hx u
          by_cases e : u = t
          · subst e; rw [hp] at this; simpa [holds] using this
          · rw [if_neg e]; exact this
    | close l =>
        obtain ⟨h1, h2⟩ := hr
        simp only [deref] at h
        split at h
        · rename_i x hx
          simp only [Res.ok.injEq] at h
          subst h
          have f := S.fresh l x hx fun u => (h2 u).1
          have hm : x.mutex = some none := by
            cases e : x.mutex with
            | none => exact absurd e f.1
            | some o =>
                cases o with
                | none => rfl
                | some u =>
                    have hh := (S.lock l x hx u).2 e
                    exfalso
                    have := h2 u
                    revert hh this
                    cases w.pc u <;> simp [holds, printing, closing]
          have hcl : ∀ k, closing k (if x.toFile = true then Pc.closeLock l else Pc.destroy l : Pc M) → k = l := by
            intro k; split <;> simp [closing] <;> exact fun e => e.symm
          have hsh : shape t x (if x.toFile = true then Pc.closeLock l else Pc.destroy l : Pc M) := by
            split
            · exact ⟨hm, f.2⟩
            · exact hm
          have hpr : ∀ k, ¬ printing k (if x.toFile = true then Pc.closeLock l else Pc.destroy l : Pc M) := by
            intro k; split <;> exact id
          have hho : ∀ k, ¬ holds k (if x.toFile = true then Pc.closeLock l else Pc.destroy l : Pc M) := by
            intro k; split <;> exact id
          have hcl' : closing l (if x.toFile = true then Pc.closeLock l else Pc.destroy l : Pc M) := by split <;> rfl
          generalize (if x.toFile = true then Pc.closeLock l else Pc.destroy l : Pc M) = p at hcl hsh hpr hho hcl'
          obtain ⟨same, alive, fresh, shut, lock⟩ := S
          refine ⟨same, ?_, ?_, ?_, ?_⟩ <;> simp only [goto]
          · intro k u hu
            have e : u ≠ t := by rintro rfl; rw [if_pos rfl] at hu; exact hpr k hu
            rw [if_neg e] at hu
            have := alive k u hu
            refine ⟨this.1, fun v => ?_⟩
            by_cases ev : v = t
            · rw [if_pos ev]
              intro hc
              have := hcl k hc
              subst this
              exact (h2 u).2 hu
            · rw [if_neg ev]; exact this.2 v
          · intro k z hz hc
            refine fresh k z hz fun u => ?_
            by_cases e : u = t
            · subst e; rw [hp]; exact id
            · have := hc u; rwa [if_neg e] at this
          · intro k u hu
            by_cases e : u = t
            · subst e
              rw [if_pos rfl] at hu ⊢
              have := hcl k hu
              subst this
              refine ⟨fun v hv => ?_, x, hx, hsh⟩
              by_cases ev : v = u
              · exact ev
              · rw [if_neg ev] at hv; exact absurd hv (h2 v).1
            · rw [if_neg e] at hu ⊢
              obtain ⟨a, b⟩ := shut k u hu
              refine ⟨fun v hv => a v ?_, b⟩
              by_cases ev : v = t
              · rw [if_pos ev] at hv
                have := hcl k hv
                subst this
                exact absurd hu (h2 u).1
              · rwa [if_neg ev] at hv
          · intro k z hz u
            have := lock k z hz u
            by_cases e : u = t
            · subst e
              rw [hp] at this
              rw [if_pos rfl]
              exact ⟨fun q => absurd q (hho k), fun q => (this.2 q).elim⟩
            · rw [if_neg e]; exact this
        · cases h
  · cases h

theorem safe_next {made : Nat → Option Made} {render : Nat → Ctx → Nat → M → Str} {w : W M} (S : Safe made w) (t : Nat) : next render w t ≠ .ub ∧ ∀ w', next render w t = .ok w' → Safe made w' := by
  unfold next
  cases hp : w.pc t with
  | idle => simp
  | debug c =>
      simp only [ne_eq, reduceCtorEq, not_false_eq_true, Res.ok.injEq, true_and, forall_eq']
      exact safe_goto S rfl rfl (by simp [printing]) (by simp [closing]) (by simp [hp, closing]) (by simp [hp, holds])
  | reset =>
      simp only [ne_eq, reduceCtorEq, not_false_eq_true, Res.ok.injEq, true_and, forall_eq']
      exact safe_goto S rfl rfl (by simp [printing]) (by simp [closing]) (by simp [hp, closing]) (by simp [hp, holds])
  | check1 l level m =>
      have hu := S.alive l t (by rw [hp]; rfl)
      obtain ⟨x, hx⟩ := Option.ne_none_iff_exists'.1 hu.1
      simp only [deref, hx, ne_eq, reduceCtorEq, not_false_eq_true, Res.ok.injEq, true_and, forall_eq']
      split
      · exact safe_goto S rfl rfl (by simp [printing]) (by simp [closing]) (by simp [hp, closing]) (by simp [hp, holds])
      · exact safe_goto S rfl rfl (by simp [hp, printing]) (by simp [closing]) (by simp [hp, closing]) (by simp [hp, holds])
  | check l level m =>
      have hu := S.alive l t (by rw [hp]; rfl)
      obtain ⟨x, hx⟩ := Option.ne_none_iff_exists'.1 hu.1
      simp only [deref, hx, ne_eq, reduceCtorEq, not_false_eq_true, Res.ok.injEq, true_and, forall_eq']
      split
      · exact safe_goto S rfl rfl (by simp [printing]) (by simp [closing]) (by simp [hp, closing]) (by simp [hp, holds])
      · exact safe_goto S rfl rfl (by simp [hp, printing]) (by simp [closing]) (by simp [hp, closing]) (by simp [hp, holds])
  | ctx l level m =>
      have hu := S.alive l t (by rw [hp]; rfl)
      obtain ⟨x, hx⟩ := Option.ne_none_iff_exists'.1 hu.1
      simp only [deref, hx, ne_eq, reduceCtorEq, not_false_eq_true, Res.ok.injEq, true_and, forall_eq']
      exact safe_goto S rfl rfl (by simp [hp, printing]) (by simp [closing]) (by simp [hp, closing]) (by simp [hp, holds])
  | fmt l level m c =>
      have hu := S.alive l t (by rw [hp]; rfl)
      obtain ⟨x, hx⟩ := Option.ne_none_iff_exists'.1 hu.1
      simp only [deref, hx, ne_eq, reduceCtorEq, not_false_eq_true, Res.ok.injEq, true_and, forall_eq']
      exact safe_goto S rfl rfl (by simp [hp, printing]) (by simp [closing]) (by simp [hp, closing]) (by simp [hp, holds])
  | lock l s =>
      have hu := S.alive l t (by rw [hp]; rfl)
      obtain ⟨x, hx⟩ := Option.ne_none_iff_exists'.1 hu.1
      have hf := S.fresh l x hx hu.2
      simp only [acquire, deref, hx]
      split
      · rename_i hm
        simp only [ne_eq, reduceCtorEq, not_false_eq_true, Res.ok.injEq, true_and, forall_eq']
        refine safe_set S hx ⟨rfl, rfl, rfl⟩ ?_ ?_ ?_ ?_ ?_ ?_ ?_ ?_
        · intro k hk; rw [hp]; exact ⟨hk.symm, hk⟩
        · intro k; rw [hp]; exact Iff.rfl
        · left; rw [hp]; rfl
        · intro _; exact ⟨by simp, hf.2⟩
        · intro h; exact h.elim
        · intro k hk; rw [hp]; exact ⟨fun e => hk e.symm, id⟩
        · simp [holds]
        · intro u hu; simp [hm]; exact fun e => hu e.symm
      · simp
      · rename_i hm; exact absurd hm hf.1
  | write l s k =>
      have hu := S.alive l t (by rw [hp]; rfl)
      obtain ⟨x, hx⟩ := Option.ne_none_iff_exists'.1 hu.1
      have hf := S.fresh l x hx hu.2
      simp only [deref, hx, hf.2, if_true]
      split
      · simp only [ne_eq, reduceCtorEq, not_false_eq_true, Res.ok.injEq, true_and, forall_eq']
        exact safe_goto S rfl rfl (by simp [hp, printing]) (by simp [closing]) (by simp [hp, closing]) (by simp [hp, holds])
      · simp only [ne_eq, reduceCtorEq, not_false_eq_true, Res.ok.injEq, true_and, forall_eq']
        exact safe_goto S rfl rfl (by simp [hp, printing]) (by simp [closing]) (by simp [hp, closing]) (by simp [hp, holds])
  | unlock l =>
      have hu := S.alive l t (by rw [hp]; rfl)
      obtain ⟨x, hx⟩ := Option.ne_none_iff_exists'.1 hu.1
      have hf := S.fresh l x hx hu.2
      have hm := (S.lock l x hx t).1 (by rw [hp]; rfl)
      simp only [release, deref, hx, hm, ne_eq, reduceCtorEq, not_false_eq_true, Res.ok.injEq, true_and, forall_eq']
      refine safe_set S hx ⟨rfl, rfl, rfl⟩ ?_ ?_ ?_ ?_ ?_ ?_ ?_ ?_
      · intro k hk; exact hk.elim
      · intro k; rw [hp]; exact Iff.rfl
      · left; rw [hp]; rfl
      · intro _; exact ⟨by simp, hf.2⟩
      · intro h; exact h.elim
      · intro k hk; rw [hp]; exact ⟨id, fun e => hk e.symm⟩
      · simp [holds]
      · intro u hu; simp [hm]; exact fun e => hu e.symm
  | closeLock l =>
      obtain ⟨ho, x, hx, hm⟩ := S.shut l t (by rw [hp]; rfl)
      rw [hp] at hm
      obtain ⟨hm, hop⟩ := hm
      simp only [acquire, deref, hx, hm, ne_eq, reduceCtorEq, not_false_eq_true, Res.ok.injEq, true_and, forall_eq']
      refine safe_set S hx ⟨rfl, rfl, rfl⟩ ?_ ?_ ?_ ?_ ?_ ?_ ?_ ?_
      · intro k hk; exact hk.elim
      · intro k; rw [hp]; exact Iff.rfl
      · right; rw [hp]; rfl
      · intro h; rw [hp] at h; exact h.elim
      · intro h; exact ⟨rfl, hop⟩
      · intro k hk; rw [hp]; exact ⟨fun e => hk e.symm, id⟩
      · simp [holds]
      · intro u hu; simp [hm]; exact fun e => hu e.symm
  | closeFile l =>
      obtain ⟨ho, x, hx, hm⟩ := S.shut l t (by rw [hp]; rfl)
      rw [hp] at hm
      obtain ⟨hm, hop⟩ := hm
      simp only [deref, hx, hop, if_true, ne_eq, reduceCtorEq, not_false_eq_true, Res.ok.injEq, true_and, forall_eq']
      refine safe_set S hx ⟨rfl, rfl, rfl⟩ ?_ ?_ ?_ ?_ ?_ ?_ ?_ ?_
      · intro k hk; exact hk.elim
      · intro k; rw [hp]; exact Iff.rfl
      · right; rw [hp]; rfl
      · intro h; rw [hp] at h; exact h.elim
      · intro h; exact hm
      · intro k hk; rw [hp]; exact ⟨fun e => hk e.symm, fun e => hk e.symm⟩
      · simp [holds, hm]
      · intro u hu; simp
  | closeUnlock l =>
      obtain ⟨ho, x, hx, hm⟩ := S.shut l t (by rw [hp]; rfl)
      rw [hp] at hm
      replace hm : x.mutex = some (some t) := hm
      simp only [release, deref, hx, hm, ne_eq, reduceCtorEq, not_false_eq_true, Res.ok.injEq, true_and, forall_eq']
      refine safe_set S hx ⟨rfl, rfl, rfl⟩ ?_ ?_ ?_ ?_ ?_ ?_ ?_ ?_
      · intro k hk; exact hk.elim
      · intro k; rw [hp]; exact Iff.rfl
      · right; rw [hp]; rfl
      · intro h; rw [hp] at h; exact h.elim
      · intro h; exact rfl
      · intro k hk; rw [hp]; exact ⟨id, fun e => hk e.symm⟩
      · simp [holds]
      · intro u hu; simp [hm]; exact fun e => hu e.symm
  | destroy l =>
      obtain ⟨ho, x, hx, hm⟩ := S.shut l t (by rw [hp]; rfl)
      rw [hp] at hm
      replace hm : x.mutex = some none := hm
      simp only [deref, hx, hm, ne_eq, reduceCtorEq, not_false_eq_true, Res.ok.injEq, true_and, forall_eq']
      refine safe_set S hx ⟨rfl, rfl, rfl⟩ ?_ ?_ ?_ ?_ ?_ ?_ ?_ ?_
      · intro k hk; exact hk.elim
      · intro k; rw [hp]; exact Iff.rfl
      · right; rw [hp]; rfl
      · intro h; rw [hp] at h; exact h.elim
      · intro h; exact True.intro
      · intro k hk; rw [hp]; exact ⟨id, id⟩
      · simp [holds]
      · intro u hu; simp [hm]
  | free l =>
      obtain ⟨ho, x, hx, hm⟩ := S.shut l t (by rw [hp]; rfl)
      simp only [deref, hx, ne_eq, reduceCtorEq, not_false_eq_true, Res.ok.injEq, true_and, forall_eq']
      exact safe_free S hp

/-- The streams: the finished lines, and what the thread that is writing has written. -/
structure Text (made : Nat → Option Made) (old : Nat → Str) (done : Nat → List (Nat × Str)) (w : W M) : Prop where
  some_ : ∀ l y, made l = some y → ∀ t s k, w.pc t = .write l s k → w.file y.stream = old y.stream ++ text (done l) ++ s.take k
  none_ : ∀ l y, made l = some y → (∀ t s k, w.pc t ≠ .write l s k) → w.file y.stream = old y.stream ++ text (done l)

/-- The lines a thread has yet to write on `l`. -/
def pend (render : Nat → Ctx → Nat → M → Str) (y : Made) (l : Nat) (c : Ctx) : Pc M → List Str
  | .check1 k level m | .check k level m => if k = l ∧ level ≤ y.level then [render y.opts c level m] else []
  | .ctx k level m => if k = l then [render y.opts c level m] else []
  | .fmt k level m c' => if k = l then [render y.opts c' level m] else []
  | .lock k s => if k = l then [s] else []
  | .write k s _ => if k = l then [s] else []
  | _ => []

/-- The debug information the thread will have when its call is over. -/
def ctxNow (c : Ctx) : Pc M → Ctx
  | .debug c' => c'
  | .check1 _ _ _ | .check _ _ _ | .ctx _ _ _ | .fmt _ _ _ _ | .lock _ _ | .write _ _ _ | .unlock _ | .reset => cleared
  | _ => c

def ctxAfter : Ctx → List (Req M) → Ctx
  | c, [] => c
  | _, .debug c :: rs => ctxAfter c rs
  | _, .print _ _ _ :: rs => ctxAfter cleared rs
  | c, .close _ :: rs => ctxAfter c rs

theorem ctxAfter_append (c : Ctx) (rs qs : List (Req M)) : ctxAfter c (rs ++ qs) = ctxAfter (ctxAfter c rs) qs := by
  induction rs generalizing c with
  | nil => rfl
  | cons r rs ih => cases r <;> simp [ctxAfter, ih]

theorem linesOf_append (render : Nat → Ctx → Nat → M → Str) (x : Made) (l : Nat) (c : Ctx) (rs qs : List (Req M)) :
    linesOf render x l c (rs ++ qs) = linesOf render x l c rs ++ linesOf render x l (ctxAfter c rs) qs := by
  induction rs generalizing c with
  | nil => rfl
  | cons r rs ih => cases r <;> simp [linesOf, ctxAfter, ih]

/-- The debug information of a new thread. -/
def fresh : Ctx := ⟨none, 0, none⟩

structure Prog (render : Nat → Ctx → Nat → M → Str) (made : Nat → Option Made) (P : Nat → List (Req M)) (done : Nat → List (Nat × Str)) (w : W M) : Prop where
  lines : ∀ t l y, made l = some y → ofThread t (done l) ++ pend render y l (w.ctx t) (w.pc t) = linesOf render y l fresh (P t)
  ctx : ∀ t, ctxNow (w.ctx t) (w.pc t) = ctxAfter fresh (P t)

theorem text_same {made : Nat → Option Made} {old : Nat → Str} {done : Nat → List (Nat × Str)} {w w1 : W M} {t : Nat} {p : Pc M} (T : Text made old done w) (hf : w1.file = w.file) (hp : w1.pc = w.pc)
    (h1 : ∀ l s k, w.pc t ≠ .write l s k) (h2 : ∀ l s k, p ≠ .write l s k) : Text made old done (goto w1 t p) := by
  constructor
  · intro l y hy u s k hu
    simp only [goto, hf, hp] at hu ⊢
    by_cases e : u = t
    · rw [if_pos e] at hu; exact absurd hu (h2 l s k)
    · rw [if_neg e] at hu; exact T.some_ l y hy u s k hu
  · intro l y hy hn
    simp only [goto, hf, hp] at hn ⊢
    refine T.none_ l y hy fun u s k hu => ?_
    by_cases e : u = t
    · subst e; exact h1 l s k hu
    · refine hn u s k ?_; rw [if_neg e]; exact hu

theorem prog_same {render : Nat → Ctx → Nat → M → Str} {made : Nat → Option Made} {P : Nat → List (Req M)} {done : Nat → List (Nat × Str)} {w w1 : W M} {t : Nat} {p : Pc M} (G : Prog render made P done w)
    (hp : w1.pc = w.pc) (hc : ∀ u, u ≠ t → w1.ctx u = w.ctx u) (h1 : ∀ l y, made l = some y → pend render y l (w1.ctx t) p = pend render y l (w.ctx t) (w.pc t)) (h2 : ctxNow (w1.ctx t) p = ctxNow (w.ctx t) (w.pc t)) :
    Prog render made P done (goto w1 t p) := by
  constructor
  · intro u l y hy
    simp only [goto, hp]
    by_cases e : u = t
    · subst e; rw [if_pos rfl, h1 l y hy]; exact G.lines u l y hy
    · rw [if_neg e, hc u e]; exact G.lines u l y hy
  · intro u
    simp only [goto, hp]
    by_cases e : u = t
    · subst e; rw [if_pos rfl, h2]; exact G.ctx u
    · rw [if_neg e, hc u e]; exact G.ctx u

/-- Only one thread writes on a logger. -/
theorem writer_unique {made : Nat → Option Made} {w : W M} (S : Safe made w) {l t u k n : Nat} {s r : Str} (h1 : w.pc t = .write l s k) (h2 : w.pc u = .write l r n) : t = u := by
  obtain ⟨x, hx⟩ := Option.ne_none_iff_exists'.1 (S.alive l t (by rw [h1]; rfl)).1
  have a := (S.lock l x hx t).1 (by rw [h1]; rfl)
  have b := (S.lock l x hx u).1 (by rw [h2]; rfl)
  rw [a] at b
  simpa using b

theorem text_snoc (d : List (Nat × Str)) (t : Nat) (s : Str) : text (d ++ [(t, s)]) = text d ++ s := by simp [text]

theorem ofThread_snoc (d : List (Nat × Str)) (t u : Nat) (s : Str) : ofThread u (d ++ [(t, s)]) = ofThread u d ++ if t = u then [s] else [] := by
  by_cases e : t = u <;> simp [ofThread, e]

theorem step_lines {render : Nat → Ctx → Nat → M → Str} {made : Nat → Option Made} (ha : Apart made) {old : Nat → Str} {P : Nat → List (Req M)} {done : Nat → List (Nat × Str)} {w w' : W M} {t : Nat} (S : Safe made w)
    (T : Text made old done w) (G : Prog render made P done w) (h : next render w t = .ok w') : ∃ done', Text made old done' w' ∧ Prog render made P done' w' := by
  unfold next at h
  cases hp : w.pc t with
  | idle => rw [hp] at h; cases h
  | debug c =>
      simp only [hp, Res.ok.injEq] at h
      subst h
      exact ⟨done, text_same T rfl rfl (by simp [hp]) (by simp), prog_same G rfl (by intro u hu; simp [setCtx, hu]) (by intro l y _; simp [pend, hp]) (by simp [ctxNow, hp, setCtx])⟩
  | reset =>
      simp only [hp, Res.ok.injEq] at h
      subst h
      exact ⟨done, text_same T rfl rfl (by simp [hp]) (by simp), prog_same G rfl (by intro u hu; simp [setCtx, hu]) (by intro l y _; simp [pend, hp]) (by simp [ctxNow, hp, setCtx])⟩
  | check1 l level m =>
      simp only [hp, deref] at h
      split at h
      · rename_i x hx
        simp only [Res.ok.injEq] at h
        subst h
        obtain ⟨y, hy, e1, e2, e3⟩ := S.same l x hx
        split
        · refine ⟨done, text_same T rfl rfl (by simp [hp]) (by simp), prog_same G rfl (by simp) ?_ (by simp [ctxNow, hp])⟩
          intro k z hz
          simp only [pend, hp]
          rw [if_neg]
          rintro ⟨rfl, hle⟩
          rw [hy] at hz
          cases hz
          omega
        · exact ⟨done, text_same T rfl rfl (by simp [hp]) (by simp), prog_same G rfl (by simp) (by intro k z _; simp [pend, hp]) (by simp [ctxNow, hp])⟩
      · cases h
  | check l level m =>
      simp only [hp, deref] at h
      split at h
      · rename_i x hx
        simp only [Res.ok.injEq] at h
        subst h
        obtain ⟨y, hy, e1, e2, e3⟩ := S.same l x hx
        split
        · refine ⟨done, text_same T rfl rfl (by simp [hp]) (by simp), prog_same G rfl (by simp) ?_ (by simp [ctxNow, hp])⟩
          intro k z hz
          simp only [pend, hp]
          rw [if_neg]
          rintro ⟨rfl, hle⟩
          rw [hy] at hz
          cases hz
          omega
        · refine ⟨done, text_same T rfl rfl (by simp [hp]) (by simp), prog_same G rfl (by simp) ?_ (by simp [ctxNow, hp])⟩
          intro k z hz
          simp only [pend, hp]
          by_cases ek : l = k
          · subst ek
            rw [hy] at hz
            cases hz
            have hle : level ≤ y.level := by omega
            simp [hle]
          · simp [ek]
      · cases h
  | ctx l level m =>
      simp only [hp, deref] at h
      split at h
      · simp only [Res.ok.injEq] at h
        subst h
        exact ⟨done, text_same T rfl rfl (by simp [hp]) (by simp), prog_same G rfl (by simp) (by intro k z _; simp [pend, hp]) (by simp [ctxNow, hp])⟩
      · cases h
  | fmt l level m c =>
      simp only [hp, deref] at h
      split at h
      · rename_i x hx
        simp only [Res.ok.injEq] at h
        subst h
        obtain ⟨y, hy, e1, e2, e3⟩ := S.same l x hx
        refine ⟨done, text_same T rfl rfl (by simp [hp]) (by simp), prog_same G rfl (by simp) ?_ (by simp [ctxNow, hp])⟩
        intro k z hz
        simp only [pend, hp]
        by_cases ek : l = k
        · subst ek
          rw [hy] at hz
          cases hz
          rw [e2]
        · simp [ek]
      · cases h
  | lock l s =>
      simp only [hp, acquire, deref] at h
      split at h
      · rename_i x hx
        split at h
        · rename_i hm
          simp only [Res.ok.injEq] at h
          subst h
          refine ⟨done, ?_, prog_same G rfl (fun _ _ => rfl) (by intro k z _; simp [pend, hp]) (by simp [ctxNow, hp])⟩
          have hno : ∀ u r n, w.pc u ≠ .write l r n := by
            intro u r n hu
            have := (S.lock l x hx u).1 (by rw [hu]; rfl)
            rw [hm] at this
            simp at this
          constructor
          · intro k y hy u r n hu
            simp only [goto, setLog] at hu ⊢
            by_cases e : u = t
            · rw [if_pos e] at hu
              cases hu
              rw [T.none_ l y hy hno]
              simp
            · rw [if_neg e] at hu; exact T.some_ k y hy u r n hu
          · intro k y hy hn
            simp only [goto, setLog] at hn ⊢
            refine T.none_ k y hy fun u r n hu => ?_
            by_cases e : u = t
            · subst e; rw [hp] at hu; cases hu
            · refine hn u r n ?_; rw [if_neg e]; exact hu
        · cases h
        · cases h
      · cases h
  | write l s k =>
      simp only [hp, deref] at h
      split at h
      · rename_i x hx
        obtain ⟨y, hy, e1, e2, e3⟩ := S.same l x hx
        split at h
        · split at h
          · rename_i c hc
            simp only [Res.ok.injEq] at h
            subst h
            refine ⟨done, ?_, prog_same G rfl (fun _ _ => rfl) (by intro k z _; simp [pend, hp]) (by simp [ctxNow, hp])⟩
            have hk : s.take (k + 1) = s.take k ++ [c] := by
              obtain ⟨h1, h2⟩ := List.getElem?_eq_some_iff.1 hc
              rw [List.take_add_one, hc]
              rfl
            constructor
            · intro j z hz u r n hu
              simp only [goto, put] at hu ⊢
              by_cases e : u = t
              · rw [if_pos e] at hu
                cases hu
                rw [hy] at hz
                cases hz
                rw [e3, if_pos rfl, T.some_ l y hy t s k hp, hk, List.append_assoc]
              · rw [if_neg e] at hu
                have hj : j ≠ l := by rintro rfl; exact e (writer_unique S hu hp)
                have hst : z.stream ≠ x.stream := by
                  intro q
                  exact hj (ha j l z y hz hy (q.trans e3))
                rw [if_neg hst]
                exact T.some_ j z hz u r n hu
            · intro j z hz hn
              simp only [goto, put] at hn ⊢
              have hj : j ≠ l := by rintro rfl; exact hn t s (k + 1) (by simp)
              have hst : z.stream ≠ x.stream := by
                intro q
                exact hj (ha j l z y hz hy (q.trans e3))
              rw [if_neg hst]
              refine T.none_ j z hz fun u r n hu => ?_
              by_cases e : u = t
              · subst e; rw [hp] at hu; cases hu; exact hj rfl
              · refine hn u r n ?_; rw [if_neg e]; exact hu
          · rename_i hc
            simp only [Res.ok.injEq] at h
            subst h
            have hk : s.take k = s := List.take_of_length_le (List.getElem?_eq_none_iff.1 hc)
            refine ⟨fun j => if j = l then done l ++ [(t, s)] else done j, ?_, ?_⟩
            · constructor
              · intro j z hz u r n hu
                simp only [goto] at hu ⊢
                by_cases e : u = t
                · rw [if_pos e] at hu; cases hu
                · rw [if_neg e] at hu
                  have hj : j ≠ l := by rintro rfl; exact e (writer_unique S hu hp)
                  rw [if_neg hj]
                  exact T.some_ j z hz u r n hu
              · intro j z hz hn
                simp only [goto] at hn ⊢
                by_cases hj : j = l
                · subst hj
                  rw [hy] at hz
                  cases hz
                  rw [if_pos rfl, text_snoc, ← List.append_assoc, T.some_ j y hy t s k hp, hk]
                · rw [if_neg hj]
                  refine T.none_ j z hz fun u r n hu => ?_
                  by_cases e : u = t
                  · subst e; rw [hp] at hu; cases hu; exact hj rfl
                  · refine hn u r n ?_; rw [if_neg e]; exact hu
            · constructor
              · intro u j z hz
                have g := G.lines u j z hz
                simp only [goto]
                by_cases e : u = t
                · subst e
                  rw [if_pos rfl, ← g, hp]
                  by_cases hj : j = l
                  · subst hj; simp [ofThread_snoc, pend]
                  · have hj' : ¬ l = j := fun q => hj q.symm
                    simp [hj, hj', pend]
                · have e' : ¬ t = u := fun q => e q.symm
                  rw [if_neg e, ← g]
                  by_cases hj : j = l
                  · subst hj; simp [ofThread_snoc, e']
                  · simp [hj]
              · intro u
                have g := G.ctx u
                simp only [goto]
                by_cases e : u = t
                · subst e; rw [if_pos rfl, ← g, hp]; rfl
                · rw [if_neg e]; exact g
        · cases h
      · cases h
  | unlock l =>
      simp only [hp, release, deref] at h
      split at h
      · split at h
        · simp only [Res.ok.injEq] at h
          subst h
          exact ⟨done, text_same T rfl rfl (by simp [hp]) (by simp), prog_same G rfl (fun _ _ => rfl) (by intro k z _; simp [pend, hp]) (by simp [ctxNow, hp])⟩
        · cases h
      · cases h
  | closeLock l =>
      simp only [hp, acquire, deref] at h
      split at h
      · split at h
        · simp only [Res.ok.injEq] at h
          subst h
          exact ⟨done, text_same T rfl rfl (by simp [hp]) (by simp), prog_same G rfl (fun _ _ => rfl) (by intro k z _; simp [pend, hp]) (by simp [ctxNow, hp, setLog])⟩
        · cases h
        · cases h
      · cases h
  | closeFile l =>
      simp only [hp, deref] at h
      split at h
      · split at h
        · simp only [Res.ok.injEq] at h
          subst h
          exact ⟨done, text_same T rfl rfl (by simp [hp]) (by simp), prog_same G rfl (fun _ _ => rfl) (by intro k z _; simp [pend, hp]) (by simp [ctxNow, hp, setLog])⟩
        · cases h
      · cases h
  | closeUnlock l =>
      simp only [hp, release, deref] at h
      split at h
      · split at h
        · simp only [Res.ok.injEq] at h
          subst h
          exact ⟨done, text_same T rfl rfl (by simp [hp]) (by simp), prog_same G rfl (fun _ _ => rfl) (by intro k z _; simp [pend, hp]) (by simp [ctxNow, hp, setLog])⟩
        · cases h
      · cases h
  | destroy l =>
      simp only [hp, deref] at h
      split at h
      · split at h
        · simp only [Res.ok.injEq] at h
          subst h
          exact ⟨done, text_same T rfl rfl (by simp [hp]) (by simp), prog_same G rfl (fun _ _ => rfl) (by intro k z _; simp [pend, hp]) (by simp [ctxNow, hp, setLog])⟩
        · cases h
      · cases h
  | free l =>
      simp only [hp, deref] at h
      split at h
      · simp only [Res.ok.injEq] at h
        subst h
        exact ⟨done, text_same T rfl rfl (by simp [hp]) (by simp), prog_same G rfl (fun _ _ => rfl) (by intro k z _; simp [pend, hp]) (by simp [ctxNow, hp, setLog])⟩
      · cases h

theorem begin_lines {render : Nat → Ctx → Nat → M → Str} {made : Nat → Option Made} {old : Nat → Str} {P : Nat → List (Req M)} {done : Nat → List (Nat × Str)} {w w' : W M} {t : Nat} {r : Req M} (T : Text made old done w)
    (G : Prog render made P done w) (h : begin_ w t r = .ok w') : Text made old done w' ∧ Prog render made (fun u => P u ++ if t = u then [r] else []) done w' := by
  unfold begin_ at h
  split at h
  · rename_i hp
    have key : ∀ p : Pc M, (∀ l s k, p ≠ .write l s k) → (∀ l y, pend render y l (w.ctx t) p = linesOf render y l (w.ctx t) [r]) → ctxNow (w.ctx t) p = ctxAfter (w.ctx t) [r] →
        Text made old done (goto w t p) ∧ Prog render made (fun u => P u ++ if t = u then [r] else []) done (goto w t p) := by
      intro p h1 h2 h3
      refine ⟨text_same T rfl rfl (by simp [hp]) h1, ?_⟩
      have gc := G.ctx t
      rw [hp] at gc
      replace gc : w.ctx t = ctxAfter fresh (P t) := gc
      constructor
      · intro u l y hy
        have g := G.lines u l y hy
        simp only [goto]
        by_cases e : u = t
        · subst e
          rw [hp] at g
          simp only [pend, List.append_nil] at g
          rw [if_pos rfl, if_pos rfl, linesOf_append, ← g, h2, ← gc]
        · have e' : ¬ t = u := fun q => e q.symm
          rw [if_neg e, if_neg e', List.append_nil]; exact g
      · intro u
        simp only [goto]
        by_cases e : u = t
        · subst e
          rw [if_pos rfl, if_pos rfl, ctxAfter_append, h3, ← gc]
        · have e' : ¬ t = u := fun q => e q.symm
          rw [if_neg e, if_neg e', List.append_nil]; exact G.ctx u
    cases r with
    | debug c =>
        simp only [Res.ok.injEq] at h
        subst h
        exact key _ (by simp) (by simp [pend, linesOf]) rfl
    | print l level m =>
        simp only [Res.ok.injEq] at h
        subst h
        exact key _ (by simp) (by simp [pend, linesOf]) rfl
    | close l =>
        simp only [deref] at h
        split at h
        · simp only [Res.ok.injEq] at h
          subst h
          split
          · exact key _ (by simp) (by simp [pend, linesOf]) rfl
          · exact key _ (by simp) (by simp [pend, linesOf]) rfl
        · cases h
  · cases h

theorem callsOf_snoc (t : Nat) (os : List (Op M)) (o : Op M) : callsOf t (os ++ [o]) = callsOf t os ++ match o with | .call u r => if u = t then [r] else [] | .go _ => [] := by
  cases o with
  | go u => simp [callsOf]
  | call u r => by_cases e : u = t <;> simp [callsOf, e]

theorem run_inv {render : Nat → Ctx → Nat → M → Str} {made : Nat → Option Made} (ha : Apart made) {old : Nat → Str} {os : List (Op M)} {w : W M} (h : Run render (start made old) os w) :
    Safe made w ∧ ∃ done, Text made old done w ∧ Prog render made (fun t => callsOf t os) done w := by
  induction h with
  | nil =>
      refine ⟨safe_start made old, fun _ => [], ⟨?_, ?_⟩, ⟨?_, ?_⟩⟩
      · intro l y _ t s k e; cases e
      · intro l y _ _; simp [start, text]
      · intro t l y _; rfl
      · intro t; rfl
  | @snoc os w o w' _ hl hs ih =>
      obtain ⟨S, done, T, G⟩ := ih
      cases o with
      | call t r =>
          refine ⟨safe_begin S hl hs, done, ?_⟩
          have := begin_lines T G hs
          simp only [callsOf_snoc]
          exact this
      | go t =>
          refine ⟨(safe_next S t).2 _ hs, ?_⟩
          obtain ⟨done', T', G'⟩ := step_lines ha S T G hs
          refine ⟨done', T', ?_⟩
          simp only [callsOf_snoc, List.append_nil]
          exact G'

/-! ## Theorems -/

/-- **C116** (lines are whole): at every moment of every legal schedule, with no two loggers on the same stream, the stream of logger `l` holds what it held at first, then whole lines, then possibly the beginning of one line
that a thread is writing; the whole lines of each thread are, in order, the first lines its calls so far ask for, printed with its own debug information. -/
theorem c116_whole {render : Nat → Ctx → Nat → M → Str} {made : Nat → Option Made} (ha : Apart made) {old : Nat → Str} {os : List (Op M)} {w : W M} (h : Run render (start made old) os w) {l : Nat} {y : Made}
    (hy : made l = some y) : ∃ (done : List (Nat × Str)) (rest : Str), w.file y.stream = old y.stream ++ text done ++ rest ∧ (∀ t, ofThread t done <+: linesOf render y l ⟨none, 0, none⟩ (callsOf t os)) ∧
      (rest ≠ [] → ∃ t s, rest <+: s ∧ ofThread t done ++ [s] = linesOf render y l ⟨none, 0, none⟩ (callsOf t os)) := by
  obtain ⟨S, done, T, G⟩ := run_inv ha h
  have hpre : ∀ t, ofThread t (done l) <+: linesOf render y l ⟨none, 0, none⟩ (callsOf t os) := fun t => ⟨_, G.lines t l y hy⟩
  by_cases hw : ∃ t s k, w.pc t = .write l s k
  · obtain ⟨t, s, k, e⟩ := hw
    refine ⟨done l, s.take k, T.some_ l y hy t s k e, hpre, fun _ => ⟨t, s, List.take_prefix _ _, ?_⟩⟩
    have g := G.lines t l y hy
    rw [e] at g
    simp only [pend, if_true] at g
    exact g
  · refine ⟨done l, [], ?_, hpre, fun h => absurd rfl h⟩
    rw [List.append_nil]
    exact T.none_ l y hy fun t s k e => hw ⟨t, s, k, e⟩

/-- **C116** (nothing lost, nothing mixed): when no thread is in a call, the stream holds what it held at first and then exactly the lines the calls of the threads ask for, each whole, those of each thread in its order. -/
theorem c116_lines {render : Nat → Ctx → Nat → M → Str} {made : Nat → Option Made} (ha : Apart made) {old : Nat → Str} {os : List (Op M)} {w : W M} (h : Run render (start made old) os w) (hq : ∀ t, w.pc t = .idle)
    {l : Nat} {y : Made} (hy : made l = some y) : ∃ done : List (Nat × Str), w.file y.stream = old y.stream ++ text done ∧ ∀ t, ofThread t done = linesOf render y l ⟨none, 0, none⟩ (callsOf t os) := by
  obtain ⟨S, done, T, G⟩ := run_inv ha h
  refine ⟨done l, T.none_ l y hy (fun t s k e => by rw [hq t] at e; cases e), fun t => ?_⟩
  have g := G.lines t l y hy
  rw [hq t] at g
  simp only [pend, List.append_nil] at g
  exact g

theorem run_safe {render : Nat → Ctx → Nat → M → Str} {made : Nat → Option Made} {old : Nat → Str} {os : List (Op M)} {w : W M} (h : Run render (start made old) os w) : Safe made w := by
  induction h with
  | nil => exact safe_start made old
  | @snoc os w o w' _ hl hs ih =>
      cases o with
      | call t r => exact safe_begin ih hl hs
      | go t => exact (safe_next ih t).2 _ hs

/-- **C116** (no undefined behaviour): in a legal schedule nothing undefined happens: no logger is used after it was freed, no mutex after it was destroyed or destroyed while held, no stream after it was closed. -/
theorem c116_safe {render : Nat → Ctx → Nat → M → Str} {made : Nat → Option Made} {old : Nat → Str} {os : List (Op M)} {w : W M} (h : Run render (start made old) os w) (o : Op M) (hl : Legal w o) : step render w o ≠ .ub := by
  cases o with
  | go t => exact (safe_next (run_safe h) t).1
  | call t r =>
      show begin_ w t r ≠ .ub
      unfold begin_
      split
      · cases r with
        | debug c => simp
        | print l level m => simp
        | close l =>
            obtain ⟨x, hx⟩ := Option.ne_none_iff_exists'.1 hl.1
            simp [deref, hx]
      · simp

/-- **C116** (no deadlock): a thread that is in a call can make a step, or the thread that holds the mutex it waits for can. -/
theorem c116_progress {render : Nat → Ctx → Nat → M → Str} {made : Nat → Option Made} {old : Nat → Str} {os : List (Op M)} {w : W M} (h : Run render (start made old) os w) {t : Nat} (ht : w.pc t ≠ .idle) :
    ∃ u w', next render w u = .ok w' ∧ (u = t ∨ ∃ l s, w.pc t = .lock l s ∧ holds l (w.pc u)) := by
  have S := run_safe h
  have hb : ∀ u, next render w u ≠ .blocked → ∃ w', next render w u = .ok w' := by
    intro u hu
    have := (safe_next (render := render) S u).1
    cases e : next render w u with
    | ok w' => exact ⟨w', rfl⟩
    | blocked => exact absurd e hu
    | ub => exact absurd e this
  have nb : ∀ u, w.pc u ≠ .idle → (∀ l s, w.pc u ≠ .lock l s) → next render w u ≠ .blocked := by
    intro u h1 h2
    unfold next
    cases hp : w.pc u with
    | idle => exact absurd hp h1
    | lock l s => exact absurd hp (h2 l s)
    | closeLock l =>
        obtain ⟨_, x, hx, hm⟩ := S.shut l u (by rw [hp]; rfl)
        rw [hp] at hm
        simp [acquire, deref, hx, hm.1]
    | _ =>
        simp only [deref, release, ne_eq]
        repeat' split
        all_goals simp
  by_cases hl : ∃ l s, w.pc t = .lock l s
  · obtain ⟨l, s, e⟩ := hl
    obtain ⟨x, hx⟩ := Option.ne_none_iff_exists'.1 (S.alive l t (by rw [e]; rfl)).1
    by_cases hm : ∃ u, x.mutex = some (some u)
    · obtain ⟨u, hm⟩ := hm
      have hh := (S.lock l x hx u).2 hm
      obtain ⟨w', e'⟩ := hb u (nb u (by intro q; rw [q] at hh; exact hh) (by intro k r q; rw [q] at hh; exact hh))
      exact ⟨u, w', e', .inr ⟨l, s, e, hh⟩⟩
    · have : next render w t ≠ .blocked := by
        unfold next
        rw [e]
        simp only [acquire, deref, hx]
        split
        · simp
        · rename_i u q; exact absurd ⟨u, q⟩ hm
        · simp
      obtain ⟨w', e'⟩ := hb t this
      exact ⟨t, w', e', .inl rfl⟩
  · obtain ⟨w', e'⟩ := hb t (nb t ht fun l s e => hl ⟨l, s, e⟩)
    exact ⟨t, w', e', .inl rfl⟩

/-- How long the line of a call is. -/
def lineLen (render : Nat → Ctx → Nat → M → Str) (made : Nat → Option Made) (l : Nat) (c : Ctx) (level : Nat) (m : M) : Nat :=
  match made l with
  | some y => (render y.opts c level m).length
  | none => 0

/-- The steps the calls of one thread take at most: a message takes eight and one for each character. -/
def work (render : Nat → Ctx → Nat → M → Str) (made : Nat → Option Made) : Ctx → List (Req M) → Nat
  | _, [] => 0
  | _, .debug c :: rs => 1 + work render made c rs
  | c, .print l level m :: rs => 8 + lineLen render made l c level m + work render made cleared rs
  | c, .close _ :: rs => 5 + work render made c rs

def rank (render : Nat → Ctx → Nat → M → Str) (made : Nat → Option Made) (c : Ctx) : Pc M → Nat
  | .idle => 0
  | .debug _ => 1
  | .check1 l level m => 8 + lineLen render made l c level m
  | .check l level m => 7 + lineLen render made l c level m
  | .ctx l level m => 6 + lineLen render made l c level m
  | .fmt l level m c' => 5 + lineLen render made l c' level m
  | .lock _ s => 4 + s.length
  | .write _ s k => 3 + (s.length - k)
  | .unlock _ => 2
  | .reset => 1
  | .closeLock _ => 5
  | .closeFile _ => 4
  | .closeUnlock _ => 3
  | .destroy _ => 2
  | .free _ => 1

theorem next_pc {render : Nat → Ctx → Nat → M → Str} {w w' : W M} {t : Nat} (h : next render w t = .ok w') {u : Nat} (hu : u ≠ t) : w'.pc u = w.pc u ∧ w'.ctx u = w.ctx u := by
  unfold next at h
  simp only [deref, acquire, release] at h
  repeat' split at h
  all_goals first
    | (cases h; done)
    | (simp only [Res.ok.injEq] at h; subst h; simp [goto, setLog, setCtx, put, hu])

theorem rank_next {render : Nat → Ctx → Nat → M → Str} {made : Nat → Option Made} {w w' : W M} {t : Nat} (S : Safe made w) (h : next render w t = .ok w') :
    rank render made (w'.ctx t) (w'.pc t) + 1 ≤ rank render made (w.ctx t) (w.pc t) := by
  unfold next at h
  cases hp : w.pc t with
  | idle => rw [hp] at h; cases h
  | fmt l level m c =>
      simp only [hp, deref] at h
      split at h
      · rename_i x hx
        simp only [Res.ok.injEq] at h
        subst h
        obtain ⟨y, hy, e1, e2, e3⟩ := S.same l x hx
        simp only [goto, if_true, rank, lineLen, hy, e2]
        omega
      · cases h
  | write l s k =>
      simp only [hp, deref] at h
      split at h
      · split at h
        · split at h
          · rename_i c hc
            obtain ⟨h1, _⟩ := List.getElem?_eq_some_iff.1 hc
            simp only [Res.ok.injEq] at h
            subst h
            simp only [goto, if_true, rank]
            omega
          · simp only [Res.ok.injEq] at h
            subst h
            simp only [goto, if_true, rank]
            omega
        · cases h
      · cases h
  | check1 l level m =>
      simp only [hp, deref] at h
      split at h
      · simp only [Res.ok.injEq] at h
        subst h
        simp only [goto, if_true]
        split <;> simp only [rank] <;> omega
      · cases h
  | check l level m =>
      simp only [hp, deref] at h
      split at h
      · simp only [Res.ok.injEq] at h
        subst h
        simp only [goto, if_true]
        split <;> simp only [rank] <;> omega
      · cases h
  | _ =>
      simp only [hp, deref, acquire, release] at h
      repeat' split at h
      all_goals first
        | (cases h; done)
        | (simp only [Res.ok.injEq] at h; subst h; simp [goto, setLog, setCtx, rank]; try omega)

theorem work_append (render : Nat → Ctx → Nat → M → Str) (made : Nat → Option Made) (c : Ctx) (rs qs : List (Req M)) : work render made c (rs ++ qs) = work render made c rs + work render made (ctxAfter c rs) qs := by
  induction rs generalizing c with
  | nil => simp [work, ctxAfter]
  | cons r rs ih => cases r <;> simp [work, ctxAfter, ih] <;> omega

/-- The steps thread `t` makes in a schedule. -/
def stepsOf (t : Nat) (os : List (Op M)) : Nat := os.countP fun o => match o with | .go u => u = t | .call _ _ => false

/-- **C116** (every call returns): a thread never makes more steps than its calls take, eight and one for each character for a message, whatever the other threads do. -/
theorem c116_bounded {render : Nat → Ctx → Nat → M → Str} {made : Nat → Option Made} (ha : Apart made) {old : Nat → Str} {os : List (Op M)} {w : W M} (h : Run render (start made old) os w) (t : Nat) :
    stepsOf t os ≤ work render made ⟨none, 0, none⟩ (callsOf t os) := by
  suffices H : stepsOf t os + rank render made (w.ctx t) (w.pc t) ≤ work render made ⟨none, 0, none⟩ (callsOf t os) by omega
  induction h with
  | nil => simp [stepsOf, start, rank]
  | @snoc os w o w' hr hl hs ih =>
      obtain ⟨S, done, T, G⟩ := run_inv ha hr
      cases o with
      | go u =>
          have e : step render w (.go u) = next render w u := rfl
          rw [e] at hs
          rw [callsOf_snoc]
          simp only [List.append_nil]
          by_cases hu : u = t
          · subst hu
            have := rank_next S hs
            simp only [stepsOf, List.countP_append, List.countP_singleton, decide_true, if_true] at ih ⊢
            omega
          · have := next_pc hs (u := t) (fun q => hu q.symm)
            simp only [stepsOf, List.countP_append, List.countP_singleton, hu, decide_false, Bool.false_eq_true, if_false] at ih ⊢
            rw [this.1, this.2]
            omega
      | call u r =>
          rw [callsOf_snoc]
          have es : stepsOf t (os ++ [Op.call u r]) = stepsOf t os := by simp [stepsOf]
          rw [es]
          replace hs : begin_ w u r = .ok w' := hs
          by_cases hu : u = t
          · subst hu
            have gc := G.ctx u
            simp only [if_true]
            rw [work_append]
            unfold begin_ at hs
            split at hs
            · rename_i hp
              rw [hp] at ih gc
              replace gc : w.ctx u = ctxAfter fresh (callsOf u os) := gc
              simp only [rank] at ih
              rw [show (⟨none, 0, none⟩ : Ctx) = fresh from rfl] at ih ⊢
              rw [← gc]
              cases r with
              | debug c =>
                  simp only [Res.ok.injEq] at hs
                  subst hs
                  simp only [goto, if_true, rank, work]
                  omega
              | print l level m =>
                  simp only [Res.ok.injEq] at hs
                  subst hs
                  simp only [goto, if_true, rank, work]
                  omega
              | close l =>
                  simp only [deref] at hs
                  split at hs
                  · simp only [Res.ok.injEq] at hs
                    subst hs
                    simp only [goto, if_true, work]
                    split <;> simp only [rank] <;> omega
                  · cases hs
            · cases hs
          · simp only [hu, if_false, List.append_nil]
            have : w'.pc t = w.pc t ∧ w'.ctx t = w.ctx t := by
              have hu' : t ≠ u := fun q => hu q.symm
              unfold begin_ at hs
              split at hs
              · cases r <;> simp only [deref] at hs
                · simp only [Res.ok.injEq] at hs; subst hs; simp [goto, hu']
                · simp only [Res.ok.injEq] at hs; subst hs; simp [goto, hu']
                · split at hs
                  · simp only [Res.ok.injEq] at hs; subst hs; simp [goto, hu']
                  · cases hs
              · cases hs
            rw [this.1, this.2]
            exact ih

/-- A thread that has called zt_log_close for `l` is still in that call, or the logger is gone; a file logger that is about to be destroyed has had its file closed. -/
structure Shut (P : Nat → List (Req M)) (w : W M) : Prop where
  gone : ∀ t l, .close l ∈ P t → w.log l = none ∨ closing l (w.pc t)
  file : ∀ t l x, (w.pc t = .closeUnlock l ∨ w.pc t = .destroy l ∨ w.pc t = .free l) → w.log l = some x → x.toFile = true → x.isOpen = false

theorem log_none {render : Nat → Ctx → Nat → M → Str} {w w' : W M} {t l : Nat} (h : next render w t = .ok w') (hl : w.log l = none) : w'.log l = none := by
  unfold next at h
  simp only [deref, acquire, release] at h
  repeat' split at h
  all_goals first
    | (cases h; done)
    | (simp only [Res.ok.injEq] at h; subst h; simp only [goto, setLog, setCtx, put]; grind)

theorem shut_next {render : Nat → Ctx → Nat → M → Str} {made : Nat → Option Made} {P : Nat → List (Req M)} {w w' : W M} {t : Nat} (S : Safe made w) (H : Shut P w) (h : next render w t = .ok w') : Shut P w' := by
  constructor
  · intro u l hm
    rcases H.gone u l hm with hn | hc
    · exact .inl (log_none h hn)
    · by_cases e : u = t
      · subst e
        unfold next at h
        cases hp : w.pc u with
        | free k =>
            rw [hp] at hc
            replace hc : k = l := hc
            subst hc
            simp only [hp, deref] at h
            split at h
            · simp only [Res.ok.injEq] at h
              subst h
              left
              simp [goto, setLog]
            · cases h
        | _ =>
            rw [hp] at hc
            first
              | exact hc.elim
              | (replace hc := show _ = l from hc
                 subst hc
                 right
                 simp only [hp, deref, acquire, release] at h
                 repeat' split at h
                 all_goals first
                   | (cases h; done)
                   | (simp only [Res.ok.injEq] at h; subst h; simp [goto, setLog, closing]))
      · rw [(next_pc h e).1]; exact .inr hc
  · intro u l x hu hx hf
    by_cases e : u = t
    · subst e
      unfold next at h
      cases hp : w.pc u with
      | closeFile k =>
          simp only [hp, deref] at h
          split at h
          · split at h
            · simp only [Res.ok.injEq] at h
              subst h
              simp only [goto, if_true, Pc.closeUnlock.injEq, reduceCtorEq, or_false] at hu
              subst hu
              simp only [goto, setLog, if_true, Option.some.injEq] at hx
              subst hx
              rfl
            · cases h
          · cases h
      | closeUnlock k =>
          simp only [hp, release, deref] at h
          split at h
          · rename_i y hy
            split at h
            · simp only [Res.ok.injEq] at h
              subst h
              simp only [goto, if_true, Pc.destroy.injEq, reduceCtorEq, or_false, false_or] at hu
              subst hu
              simp only [goto, setLog, if_true, Option.some.injEq] at hx
              subst hx
              exact H.file u k y (.inl hp) hy hf
            · cases h
          · cases h
      | destroy k =>
          simp only [hp, deref] at h
          split at h
          · rename_i y hy
            split at h
            · simp only [Res.ok.injEq] at h
              subst h
              simp only [goto, if_true, Pc.free.injEq, reduceCtorEq, false_or] at hu
              subst hu
              simp only [goto, setLog, if_true, Option.some.injEq] at hx
              subst hx
              exact H.file u k y (.inr (.inl hp)) hy hf
            · cases h
          · cases h
      | _ =>
          exfalso
          simp only [hp, deref, acquire, release] at h
          repeat' split at h
          all_goals first
            | (cases h; done)
            | (simp only [Res.ok.injEq] at h; subst h; simp only [goto, if_true] at hu; first | (simp at hu; done) | (split at hu <;> simp at hu))
    · rw [(next_pc h e).1] at hu
      have hc : closing l (w.pc u) := by rcases hu with q | q | q <;> rw [q] <;> rfl
      -- the step of `t` leaves logger `l` alone
      have hsame : w'.log l = w.log l := by
        have hno : ¬ closing l (w.pc t) := fun q => e ((S.shut l u hc).1 t q).symm
        have hnp : ¬ printing l (w.pc t) := fun q => (S.alive l t q).2 u hc
        unfold next at h
        cases hp : w.pc t <;> rw [hp] at hno hnp <;> simp only [hp, deref, acquire, release] at h <;> (repeat' split at h) <;>
          first
            | (cases h; done)
            | (simp only [Res.ok.injEq] at h; subst h; simp only [goto, setLog, setCtx, put]; first | done | rfl | (rw [if_neg]; rintro rfl; first | exact hno rfl | exact hnp rfl))
      rw [hsame] at hx
      exact H.file u l x hu hx hf

theorem shut_run {render : Nat → Ctx → Nat → M → Str} {made : Nat → Option Made} {old : Nat → Str} {os : List (Op M)} {w : W M} (h : Run render (start made old) os w) : Shut (fun t => callsOf t os) w := by
  induction h with
  | nil => exact ⟨fun t l h => by simp [callsOf] at h, fun t l x h => by simp [start] at h⟩
  | @snoc os w o w' hr hl hs ih =>
      have S := run_safe hr
      cases o with
      | go u =>
          have := shut_next S ih hs
          simp only [callsOf_snoc, List.append_nil]
          exact this
      | call u r =>
          simp only [callsOf_snoc]
          replace hs : begin_ w u r = .ok w' := hs
          unfold begin_ at hs
          split at hs
          · rename_i hp
            cases r with
            | debug c =>
                simp only [Res.ok.injEq] at hs
                subst hs
                refine ⟨fun t l hm => ?_, fun t l x hu hx hf => ?_⟩
                · have hm' : Req.close l ∈ callsOf t os := by grind
                  rcases ih.gone t l hm' with q | q
                  · exact .inl q
                  · right
                    have : t ≠ u := by rintro rfl; rw [hp] at q; exact q
                    simpa [goto, this] using q
                · have : t ≠ u := by rintro rfl; simp [goto] at hu
                  simp only [goto, this, if_false] at hu hx
                  exact ih.file t l x hu hx hf
            | print k level m =>
                simp only [Res.ok.injEq] at hs
                subst hs
                refine ⟨fun t l hm => ?_, fun t l x hu hx hf => ?_⟩
                · have hm' : Req.close l ∈ callsOf t os := by grind
                  rcases ih.gone t l hm' with q | q
                  · exact .inl q
                  · right
                    have : t ≠ u := by rintro rfl; rw [hp] at q; exact q
                    simpa [goto, this] using q
                · have : t ≠ u := by rintro rfl; simp [goto] at hu
                  simp only [goto, this, if_false] at hu hx
                  exact ih.file t l x hu hx hf
            | close k =>
                simp only [deref] at hs
                split at hs
                · rename_i y hy
                  simp only [Res.ok.injEq] at hs
                  subst hs
                  refine ⟨fun t l hm => ?_, fun t l x hu hx hf => ?_⟩
                  · by_cases e : t = u
                    · subst e
                      simp only [if_true, List.mem_append, List.mem_singleton, Req.close.injEq] at hm
                      rcases hm with hm | rfl
                      · rcases ih.gone t l hm with q | q
                        · exact .inl q
                        · rw [hp] at q; exact q.elim
                      · right
                        simp only [goto, if_true]
                        split <;> rfl
                    · have hm' : Req.close l ∈ callsOf t os := by grind
                      rcases ih.gone t l hm' with q | q
                      · exact .inl q
                      · right; simpa [goto, e] using q
                  · by_cases e : t = u
                    · subst e
                      simp only [goto, if_true] at hu
                      split at hu
                      · simp at hu
                      · rename_i hn
                        simp only [reduceCtorEq, Pc.destroy.injEq, or_false, false_or] at hu
                        subst hu
                        replace hx : w.log k = some x := hx
                        rw [hy] at hx
                        cases hx
                        exact absurd hf hn
                    · simp only [goto, e, if_false] at hu hx
                      exact ih.file t l x hu hx hf
                · cases hs
          · cases hs

/-- **C116** (closing): when zt_log_close has returned the logger is gone, and before the memory of a file logger is given back its file has been closed. -/
theorem c116_closed {render : Nat → Ctx → Nat → M → Str} {made : Nat → Option Made} {old : Nat → Str} {os : List (Op M)} {w : W M} (h : Run render (start made old) os w) (t l : Nat) :
    (.close l ∈ callsOf t os → w.pc t = .idle → w.log l = none) ∧ (w.pc t = .free l → ∃ x, w.log l = some x ∧ (x.toFile = true → x.isOpen = false)) := by
  have H := shut_run h
  constructor
  · intro h1 h2
    rcases H.gone t l h1 with q | q
    · exact q
    · rw [h2] at q; exact q.elim
  · intro h1
    obtain ⟨_, x, hx, _⟩ := (run_safe h).shut l t (by rw [h1]; rfl)
    exact ⟨x, hx, fun hf => H.file t l x (.inr (.inr h1)) hx hf⟩

/-! ## Instances and violations -/

def printingB (l : Nat) : Pc M → Bool
  | .check1 k _ _ | .check k _ _ | .ctx k _ _ | .fmt k _ _ _ | .lock k _ | .write k _ _ | .unlock k => k == l
  | _ => false

def closingB (l : Nat) : Pc M → Bool
  | .closeLock k | .closeFile k | .closeUnlock k | .destroy k | .free k => k == l
  | _ => false

def Op.thread : Op M → Nat
  | .call t _ => t
  | .go t => t

/-- `Legal`, looking at the threads below `n`. -/
def legalB (n : Nat) (w : W M) : Op M → Bool
  | .call _ (.print l _ _) => (w.log l).isSome && (List.range n).all fun u => !closingB l (w.pc u)
  | .call _ (.close l) => (w.log l).isSome && (List.range n).all fun u => !closingB l (w.pc u) && !printingB l (w.pc u)
  | _ => true

/-- Executes a schedule of threads below `n`, as long as it is legal. -/
def exec (render : Nat → Ctx → Nat → M → Str) (n : Nat) : List (Op M) → W M → Option (W M)
  | [], w => some w
  | o :: os, w => if o.thread < n ∧ legalB n w o = true then (match step render w o with | .ok w' => exec render n os w' | _ => none) else none

theorem exec_run {render : Nat → Ctx → Nat → M → Str} {n : Nat} {w0 : W M} {ps : List (Op M)} {os : List (Op M)} {w w' : W M} (hr : Run render w0 ps w) (hi : ∀ u, n ≤ u → w.pc u = .idle) (h : exec render n os w = some w') :
    Run render w0 (ps ++ os) w' := by
  induction os generalizing ps w with
  | nil =>
      simp only [exec, Option.some.injEq] at h
      subst h
      rwa [List.append_nil]
  | cons o os ih =>
      simp only [exec] at h
      split at h
      · rename_i hc
        obtain ⟨ht, hb⟩ := hc
        split at h
        · rename_i w1 hs
          have hcl : ∀ l (p : Pc M), closing l p → closingB l p = true := by intro l p; cases p <;> simp [closing, closingB]
          have hpr : ∀ l (p : Pc M), printing l p → printingB l p = true := by intro l p; cases p <;> simp [printing, printingB]
          have hl : Legal w o := by
            cases o with
            | go t => exact True.intro
            | call t r =>
                cases r with
                | debug c => exact True.intro
                | print l level m =>
                    simp only [legalB, Bool.and_eq_true, List.all_eq_true, List.mem_range, Bool.not_eq_true'] at hb
                    refine ⟨by rw [← Option.isSome_iff_ne_none]; exact hb.1, fun u hu => ?_⟩
                    by_cases e : u < n
                    · have := hb.2 u e; rw [hcl _ _ hu] at this; cases this
                    · rw [hi u (by omega)] at hu; exact hu
                | close l =>
                    simp only [legalB, Bool.and_eq_true, List.all_eq_true, List.mem_range, Bool.not_eq_true'] at hb
                    refine ⟨by rw [← Option.isSome_iff_ne_none]; exact hb.1, fun u => ⟨fun hu => ?_, fun hu => ?_⟩⟩
                    · by_cases e : u < n
                      · have := (hb.2 u e).1; rw [hcl _ _ hu] at this; cases this
                      · rw [hi u (by omega)] at hu; exact hu
                    · by_cases e : u < n
                      · have := (hb.2 u e).2; rw [hpr _ _ hu] at this; cases this
                      · rw [hi u (by omega)] at hu; exact hu
          have hi' : ∀ u, n ≤ u → w1.pc u = .idle := by
            intro u hu
            rw [← hi u hu]
            cases o with
            | go t => exact (next_pc hs (u := u) (by simp only [Op.thread] at ht; omega)).1
            | call t r =>
                have hu' : u ≠ t := by simp only [Op.thread] at ht; omega
                replace hs : begin_ w t r = .ok w1 := hs
                unfold begin_ at hs
                split at hs
                · cases r <;> simp only [deref] at hs
                  · simp only [Res.ok.injEq] at hs; subst hs; simp [goto, hu']
                  · simp only [Res.ok.injEq] at hs; subst hs; simp [goto, hu']
                  · split at hs
                    · simp only [Res.ok.injEq] at hs; subst hs; simp [goto, hu']
                    · cases hs
                · cases hs
          have := ih (Run.snoc hr hl hs) hi' h
          simpa using this
        · cases h
      · cases h

/-- A line for the instances: the message, preceded by the line number of the debug information if there is one. -/
def plain (_ : Nat) (c : Ctx) (_ : Nat) (m : Str) : Str := (if c.line > 0 then [UInt8.ofNat c.line.toNat] else []) ++ m ++ [10]

/-- Logger 0, at level 4, prints to stream 7. -/
def one : Nat → Option Made := fun l => if l = 0 then some ⟨4, 0, 7, true⟩ else none

/-- Loggers 0 and 1 print to stream 7. -/
def two : Nat → Option Made := fun l => if l < 2 then some ⟨4, 0, 7, true⟩ else none

def go (t n : Nat) : List (Op M) := List.replicate n (.go t)

theorem apart_one : Apart one := by
  intro l k x y h1 h2 _
  simp only [one] at h1 h2
  split at h1 <;> split at h2 <;> simp_all

/-- Instance: thread 1, with debug information, and thread 2 print "ab" and "cd" at the same time, a message of thread 2 is not let through, and thread 1 closes the logger. -/
def both : List (Op Str) := [.call 1 (.debug ⟨none, 65, none⟩), .go 1, .call 1 (.print 0 3 [97, 98]), .call 2 (.print 0 4 [99, 100])] ++ go 1 4 ++ go 2 4 ++ go 1 3 ++ go 1 5 ++ go 2 7 ++ [.call 2 (.print 0 5 [101])] ++ go 2 2 ++
  [.call 1 (.close 0)] ++ go 1 5

example : ∃ w, Run plain (start one fun _ => [120, 10]) both w ∧ w.pc 1 = .idle ∧ w.pc 2 = .idle ∧ w.log 0 = none ∧ w.file 7 = [120, 10, 65, 97, 98, 10, 99, 100, 10] := by
  refine ⟨_, exec_run (ps := []) (n := 3) Run.nil (fun _ _ => rfl) (w' := (exec plain 3 both (start one fun _ => [120, 10])).getD (start one fun _ => [])) ?_, ?_, ?_, ?_, ?_⟩ <;> rfl

example : linesOf plain ⟨4, 0, 7, true⟩ 0 ⟨none, 0, none⟩ (callsOf 1 both) = [[65, 97, 98, 10]] ∧ linesOf plain ⟨4, 0, 7, true⟩ 0 ⟨none, 0, none⟩ (callsOf 2 both) = [[99, 100, 10]] := by decide +kernel

/-- Instance of `c116_progress`: thread 2 waits for thread 1. -/
example : ∃ os w, Run plain (start one fun _ => []) os w ∧ w.pc 2 = .lock 0 [99, 10] ∧ w.pc 1 = .write 0 [97, 10] 1 := by
  refine ⟨_, _, exec_run (ps := []) (n := 3) (os := [.call 1 (.print 0 3 [97]), .call 2 (.print 0 4 [99])] ++ go 1 6 ++ go 2 4) Run.nil (fun _ _ => rfl)
    (w' := (exec plain 3 ([.call 1 (.print 0 3 [97]), .call 2 (.print 0 4 [99])] ++ go 1 6 ++ go 2 4) (start one fun _ => [])).getD (start one fun _ => [])) ?_, ?_, ?_⟩ <;> rfl

/-- Two threads print "ab" and "cd" with two loggers of the same file. -/
def mixed : List (Op Str) := [.call 1 (.print 0 3 [97, 98]), .call 2 (.print 1 3 [99, 100])] ++ go 1 5 ++ go 2 5 ++ [.go 1, .go 2, .go 1, .go 2, .go 1, .go 2] ++ go 1 3 ++ go 2 3

/-- Violation: the mutex belongs to the logger, not to the stream: with two loggers for the same stream (two of zt_log_stderr, say) the lines are mixed: "acbd\n\n". -/
theorem c116_two_violation : ∃ w, Run plain (start two fun _ => []) mixed w ∧ w.pc 1 = .idle ∧ w.pc 2 = .idle ∧ w.file 7 = [97, 99, 98, 100, 10, 10] := by
  refine ⟨_, exec_run (ps := []) (n := 3) Run.nil (fun _ _ => rfl) (w' := (exec plain 3 mixed (start two fun _ => [])).getD (start one fun _ => [])) ?_, ?_, ?_, ?_⟩ <;> rfl

/-- Executes a schedule, legal or not. -/
def runs (render : Nat → Ctx → Nat → M → Str) : List (Op M) → W M → Res M
  | [], w => .ok w
  | o :: os, w => match step render w o with
      | .ok w' => runs render os w'
      | r => r

/-- Violation: the mutex does not protect against zt_log_close: if thread 1 is printing when thread 2 calls zt_log_close, thread 1 writes to the closed file if it takes the mutex as soon as it is released; the mutex is destroyed
while it is held; or the logger is used after it was freed. -/
theorem c116_close_violation : runs plain ([.call 1 (.print 0 3 [97]), .call 2 (.close 0)] ++ go 1 4 ++ go 2 3 ++ [.go 1, .go 1]) (start one fun _ => []) = .ub ∧
    runs plain ([.call 1 (.print 0 3 [97]), .call 2 (.close 0)] ++ go 1 4 ++ go 2 3 ++ [.go 1, .go 2]) (start one fun _ => []) = .ub ∧
    runs plain ([.call 1 (.print 0 3 [97]), .call 2 (.close 0)] ++ go 1 4 ++ go 2 5 ++ [.go 1]) (start one fun _ => []) = .ub := ⟨rfl, rfl, rfl⟩

end ZT.Log.Lines
