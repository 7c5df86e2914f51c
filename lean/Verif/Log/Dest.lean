import Verif.Log.Error

/-!
# C119: where the messages of loggers go (log_file.c, log_stderr.c, log_syslog.c)

One thread; loggers are numbered in the order they are made. Files are byte sequences; a stream has a buffer, of which any part may have been written at any time (`print` says how much). `fopen` may fail. syslog is as in
glibc: the identification, the options and the facility belong to the process, closelog forgets the identification. The build is the one with HAVE_SYSLOG.
-/

namespace ZT.Log.Dest

/-! ## Model -/

/-- The stream behind a file logger: what fopen was given, the offset of the next byte written (not used in append mode) and the buffer. -/
structure Stream where
  path : Str
  append : Bool
  pos : Nat
  buf : Str

/-- The three destinations (log_file.c 22-25, log_stderr.c 50-54, log_syslog.c 75-79). -/
inductive Kind where
  | file (st : Stream)
  | stderr
  | syslog

/-- log_private.h 38-48, log_file.c 22-25 -/
structure Lg where
  kind : Kind
  opts : Nat
  level : Nat

/-- A message received by syslog: facility, priority, identification (`none`: the system's choice), with the process number?, text. -/
structure Sent where
  fac : Nat
  prio : Nat
  ident : Option Str
  pid : Bool
  text : Str
  deriving DecidableEq, Repr

/-- The process: files, loggers, structures in use, the text on stderr, and the state of syslog: has openlog been given the name, LOG_PID, the facility; the program's name (zt_progname.c 15); the messages sent. -/
structure W where
  fs : Str → Option Str
  logs : Nat → Option Lg
  next : Nat
  live : List Nat
  err : Str
  ident : Bool
  pid : Bool
  fac : Nat
  prog : Str
  sent : List Sent

/-- LOG_USER (syslog.h) -/
def LOG_USER : Nat := 8

def setFile (fs : Str → Option Str) (p : Str) (c : Str) : Str → Option Str := fun q => if q = p then some c else fs q
def setLog (w : W) (l : Nat) (x : Option Lg) : W := { w with logs := fun k => if k = l then x else w.logs k }

/-- log_private.c 50-64 `zt_log_new` -/
def new (w : W) (k : Kind) (opts : Nat) : W := { setLog w w.next (some ⟨k, opts, MAX⟩) with next := w.next + 1, live := w.next :: w.live }

/-- log_file.c 88: "Could not open file %s: %s\n" -/
def couldNot (path e : Str) : Str := "Could not open file ".toList.map Num.byte ++ path ++ [58, 32] ++ e ++ [10]

/-- log_file.c 74-97 `zt_log_file`; `fail` is the text of errno if fopen fails. The structure made in 79 is not freed then. -/
def openFile (w : W) (path : Str) (append : Bool) (opts : Nat) (fail : Option Str) : W :=
  match fail with
  | some e => { w with next := w.next + 1, live := w.next :: w.live, err := w.err ++ couldNot path e }
  | none => new { w with fs := setFile w.fs path (if append then (w.fs path).getD [] else []) } (.file ⟨path, append, 0, []⟩) opts

/-- write(2) at an offset; a gap is filled with zeros. -/
def writeAt (c : Str) (pos : Nat) (s : Str) : Str := c.take pos ++ List.replicate (pos - c.length) 0 ++ s ++ c.drop (pos + s.length)

/-- The first `k` bytes of the buffer are written to the file. -/
def spill (fs : Str → Option Str) (st : Stream) (k : Nat) : (Str → Option Str) × Stream :=
  let c := (fs st.path).getD []
  (setFile fs st.path (if st.append then c ++ st.buf.take k else writeAt c st.pos (st.buf.take k)), { st with pos := st.pos + (st.buf.take k).length, buf := st.buf.drop k })

/-- log_file.c 46-64, log_stderr.c 32-48, log_syslog.c 31-72: `print`. The text is that of zt_log_gen_fmt and vfprintf or vsyslog (`render`, C75 and C100). -/
def emit {M : Type} (render : Nat → Nat → M → Str) (w : W) (l : Nat) (g : Lg) (level : Nat) (m : M) (k : Nat) : W :=
  match g.kind with
  | .file st =>
      let r := spill w.fs { st with buf := st.buf ++ render g.opts level m } k
      setLog { w with fs := r.1 } l (some { g with kind := .file r.2 })
  | .stderr => { w with err := w.err ++ render g.opts level m }
  | .syslog => { w with sent := w.sent ++ [⟨w.fac, syslogPriority level, if w.ident then some w.prog else none, w.pid, render (if has g.opts WITH_LEVEL then WITH_LEVEL else 0) level m⟩] }

/-- zt_log.c 241-263 `zt_log_lvprintf` for a logger. -/
def print {M : Type} (render : Nat → Nat → M → Str) (w : W) (l level : Nat) (m : M) (k : Nat) : Outcome W :=
  match w.logs l with
  | none => .ub
  | some g => if level > g.level then .ok w else .ok (emit render w l g level m k)

/-- log_file.c 27-44, log_stderr.c 20-29, log_syslog.c 23-28: `destructor`; zt_log.c 300-313 `zt_log_close`. -/
def close (w : W) (l : Nat) : Outcome W :=
  match w.logs l with
  | none => .ub
  | some g =>
      let w := { setLog w l none with live := w.live.erase l }
      match g.kind with
      | .file st => .ok { w with fs := (spill w.fs st st.buf.length).1 }
      | .stderr => .ok w
      | .syslog => .ok { w with ident := false }

/-- log_syslog.c 86-100 `zt_log_syslog2`; zt_progname(0, 0) is not NULL (zt_progname.c 49). The options are not given to the logger (94). -/
def syslog2 (w : W) (opt fac : Nat) : W := new { w with ident := true, pid := has opt WITH_PID, fac := fac } .syslog 0

/-- zt_log.c 176-186, 199-209 `zt_log_set_level`, `zt_log_set_opts` -/
def adjust (w : W) (l : Nat) (f : Lg → Lg) : Outcome W :=
  match w.logs l with
  | none => .ub
  | some g => .ok (setLog w l (some (f g)))

/-- The calls. -/
inductive Op (M : Type) where
  | file (path : Str) (append : Bool) (opts : Nat) (fail : Option Str)
  | stderr (opts : Nat)
  | syslog
  | syslog2 (opt fac : Nat)
  | print (l level : Nat) (m : M) (k : Nat)
  | setLevel (l level : Nat)
  | setOpts (l opts : Nat)
  | progname (s : Str)
  | close (l : Nat)

variable {M : Type}

/-- One call: log_file.c 74-97, log_stderr.c 56-67, log_syslog.c 81-100, zt_log.c 176-288, 330-343. -/
def step (render : Nat → Nat → M → Str) (w : W) : Op M → Outcome W
  | .file p a o f => .ok (openFile w p a o f)
  | .stderr o => .ok (new w .stderr o)
  | .syslog => .ok (Dest.syslog2 w WITH_PID LOG_USER)
  | .syslog2 o f => .ok (Dest.syslog2 w o f)
  | .print l level m k => Dest.print render w l level m k
  | .setLevel l v => adjust w l fun g => { g with level := v }
  | .setOpts l v => adjust w l fun g => { g with opts := v }
  | .progname s => .ok { w with prog := s }
  | .close l => Dest.close w l

def run (render : Nat → Nat → M → Str) : W → List (Op M) → Outcome W
  | w, [] => .ok w
  | w, o :: os => step render w o >>= fun w => run render w os

/-- exit(3): the buffers of all open streams are written. -/
def exitFs (w : W) : Str → Option Str := (List.range w.next).foldl (fun fs l => match w.logs l with | some ⟨.file st, _, _⟩ => (spill fs st st.buf.length).1 | _ => fs) w.fs

/-- A process with the files `fs`; `name` is the program's name. -/
def start (fs : Str → Option Str) (name : Str) : W := ⟨fs, fun _ => none, 0, [], [], false, false, LOG_USER, name, []⟩

/-! ## Specification: files grow by lines, loggers have settings of their own -/

/-- A destination with its own settings. -/
inductive To where
  | file (path : Str)
  | stderr
  | syslog (fac : Nat) (pid : Bool)

/-- A logger as its user sees it. -/
structure View where
  to : To
  opts : Nat
  level : Nat

/-- What the user sees: files, loggers, number of attempts to make one, stderr, name, messages sent. -/
structure S where
  files : Str → Option Str
  logs : Nat → Option View
  next : Nat
  err : Str
  prog : Str
  sent : List Sent

def S.add (s : S) (t : To) (opts : Nat) : S := { s with logs := fun k => if k = s.next then some ⟨t, opts, 8⟩ else s.logs k, next := s.next + 1 }

/-- A line for a logger: at the end of its file, of stderr, or to syslog with its own facility and options. -/
def S.line (render : Nat → Nat → M → Str) (s : S) (v : View) (level : Nat) (m : M) : S :=
  match v.to with
  | .file p => { s with files := fun q => if q = p then some ((s.files p).getD [] ++ render v.opts level m) else s.files q }
  | .stderr => { s with err := s.err ++ render v.opts level m }
  | .syslog fac pid => { s with sent := s.sent ++ [⟨fac, if level < 8 then level else 3, some s.prog, pid, render (if has v.opts WITH_LEVEL then WITH_LEVEL else 0) level m⟩] }

/-- The complaint about a file that cannot be opened. -/
def refused (path e : Str) : Str := "Could not open file ".toList.map Num.byte ++ (path ++ (": ".toList.map Num.byte ++ (e ++ "\n".toList.map Num.byte)))

/-- The calls as their user understands them. -/
def spec (render : Nat → Nat → M → Str) (s : S) : Op M → S
  | .file p a o none => S.add { s with files := fun q => if q = p then some (if a then (s.files p).getD [] else []) else s.files q } (.file p) o
  | .file p _ _ (some e) => { s with next := s.next + 1, err := s.err ++ refused p e }
  | .stderr o => s.add .stderr o
  | .syslog => s.add (.syslog 8 true) 0
  | .syslog2 o f => s.add (.syslog f (has o WITH_PID)) 0
  | .print l level m _ => match s.logs l with
    | some v => if level ≤ v.level then s.line render v level m else s
    | none => s
  | .setLevel l x => { s with logs := fun k => if k = l then (s.logs l).map fun v => { v with level := x } else s.logs k }
  | .setOpts l x => { s with logs := fun k => if k = l then (s.logs l).map fun v => { v with opts := x } else s.logs k }
  | .progname n => { s with prog := n }
  | .close l => { s with logs := fun k => if k = l then none else s.logs k }

/-- Does a logger write to the file? -/
def View.writes (v : View) (p : Str) : Prop := v.to = .file p

def View.toSyslog (v : View) : Prop := ∃ f b, v.to = .syslog f b

/-- Correct use: open loggers only, one logger at a time for a file, one at a time for syslog. -/
def Legal (s : S) : Op M → Prop
  | .file p _ _ _ => ∀ l v, s.logs l = some v → ¬ v.writes p
  | .syslog => ∀ l v, s.logs l = some v → ¬ v.toSyslog
  | .syslog2 _ _ => ∀ l v, s.logs l = some v → ¬ v.toSyslog
  | .print l _ _ _ => s.logs l ≠ none
  | .setLevel l _ => s.logs l ≠ none
  | .setOpts l _ => s.logs l ≠ none
  | .close l => s.logs l ≠ none
  | _ => True

def AllLegal (render : Nat → Nat → M → Str) : S → List (Op M) → Prop
  | _, [] => True
  | s, o :: os => Legal s o ∧ AllLegal render (spec render s o) os

/-- The state before any call. -/
def S.start (fs : Str → Option Str) (name : Str) : S := ⟨fs, fun _ => none, 0, [], name, []⟩

/-! ## Proofs -/

/-- The logger as its user sees it. -/
def seen (fac : Nat) (pid : Bool) (g : Lg) : View := ⟨match g.kind with | .file st => .file st.path | .stderr => .stderr | .syslog => .syslog fac pid, g.opts, g.level⟩

/-- The stream of a logger and its file. -/
def Fits (w : W) (s : S) (st : Stream) : Prop := ∃ c, w.fs st.path = some c ∧ s.files st.path = some (c ++ st.buf) ∧ (st.append = false → st.pos = c.length)

/-- The stream of a logger. -/
def Lg.stream : Lg → Option Stream
  | ⟨.file st, _, _⟩ => some st
  | _ => none

def Lg.sys : Lg → Bool
  | ⟨.syslog, _, _⟩ => true
  | _ => false

structure Rel (w : W) (s : S) : Prop where
  logs : ∀ l, s.logs l = (w.logs l).map (seen w.fac w.pid)
  next : s.next = w.next
  err : s.err = w.err
  prog : s.prog = w.prog
  sent : s.sent = w.sent
  fresh : ∀ l, w.next ≤ l → w.logs l = none
  fits : ∀ l g st, w.logs l = some g → g.stream = some st → Fits w s st
  one : ∀ l k g h st u, w.logs l = some g → g.stream = some st → w.logs k = some h → h.stream = some u → st.path = u.path → l = k
  rest : ∀ p, (∀ l g st, w.logs l = some g → g.stream = some st → st.path ≠ p) → w.fs p = s.files p
  ident : ∀ l g, w.logs l = some g → g.sys = true → w.ident = true
  oneSys : ∀ l k g h, w.logs l = some g → g.sys = true → w.logs k = some h → h.sys = true → l = k

theorem rel_start (fs : Str → Option Str) (name : Str) : Rel (start fs name) (S.start fs name) where
  logs := fun _ => rfl
  next := rfl
  err := rfl
  prog := rfl
  sent := rfl
  fresh := fun _ _ => rfl
  fits := fun _ _ _ h => nomatch h
  one := fun _ _ _ _ _ _ h => nomatch h
  rest := fun _ _ => rfl
  ident := fun _ _ h => nomatch h
  oneSys := fun _ _ _ _ h => nomatch h

theorem writeAt_end (c s : Str) : writeAt c c.length s = c ++ s := by
  unfold writeAt
  rw [List.take_of_length_le (Nat.le_refl _), Nat.sub_self, List.drop_of_length_le (by omega)]
  simp

/-- Writing part of a buffer. -/
theorem spill_eq {fs : Str → Option Str} {st : Stream} {c : Str} (h1 : fs st.path = some c) (h3 : st.append = false → st.pos = c.length) (k : Nat) :
    (spill fs st k).1 = setFile fs st.path (c ++ st.buf.take k) ∧ (spill fs st k).2.path = st.path ∧ (spill fs st k).2.append = st.append ∧ (spill fs st k).2.buf = st.buf.drop k ∧
      (st.append = false → (spill fs st k).2.pos = (c ++ st.buf.take k).length) := by
  refine ⟨?_, rfl, rfl, rfl, fun ha => ?_⟩
  · simp only [spill, h1, Option.getD_some]
    congr 1
    cases ha : st.append with
    | true => rfl
    | false =>
        rw [h3 ha, writeAt_end]; rfl
  · simp only [spill, h3 ha, List.length_append]

theorem seen_sys {fac : Nat} {pid : Bool} {g : Lg} : (seen fac pid g).toSyslog ↔ g.sys = true := by
  obtain ⟨k, o, v⟩ := g
  cases k <;> simp [seen, View.toSyslog, Lg.sys]

theorem seen_writes {fac : Nat} {pid : Bool} {g : Lg} {p : Str} : (seen fac pid g).writes p ↔ ∃ st, g.stream = some st ∧ st.path = p := by
  obtain ⟨k, o, v⟩ := g
  cases k <;> simp [seen, View.writes, Lg.stream]

/-- A new logger; the files may change where no logger writes. -/
theorem rel_new {w w1 : W} {s s1 : S} (R : Rel w s) (k : Kind) (t : To) (o : Nat)
    (e1 : w1.logs = w.logs) (e2 : w1.next = w.next) (e3 : s1.logs = s.logs) (e4 : s1.next = s.next) (e5 : s1.err = w1.err) (e6 : s1.prog = w1.prog) (e7 : s1.sent = w1.sent)
    (ht : t = (seen w1.fac w1.pid ⟨k, o, 8⟩).to)
    (hsys : (w1.fac = w.fac ∧ w1.pid = w.pid ∧ w1.ident = w.ident ∧ (Lg.mk k o 8).sys = false) ∨ ((∀ l g, w.logs l = some g → g.sys = false) ∧ w1.ident = true))
    (hfile : (w1.fs = w.fs ∧ s1.files = s.files ∧ (Lg.mk k o 8).stream = none) ∨
      ∃ st c, (Lg.mk k o 8).stream = some st ∧ st.buf = [] ∧ (st.append = false → st.pos = c.length) ∧ w1.fs = setFile w.fs st.path c ∧ s1.files = setFile s.files st.path c ∧
        ∀ l g u, w.logs l = some g → g.stream = some u → u.path ≠ st.path) :
    Rel (new w1 k o) (s1.add t o) := by
  have hlogs : ∀ l, (new w1 k o).logs l = if l = w.next then some ⟨k, o, 8⟩ else w.logs l := fun l => by
    show (if l = w1.next then _ else w1.logs l) = _
    rw [e1, e2]; rfl
  have hold : ∀ l g, w.logs l = some g → l ≠ w.next := fun l g h e => by
    rw [R.fresh l (by omega)] at h; cases h
  have hseen : ∀ l g, w.logs l = some g → seen w1.fac w1.pid g = seen w.fac w.pid g := fun l g h => by
    rcases hsys with ⟨a, b, _⟩ | ⟨a, _⟩
    · rw [a, b]
    · have := a l g h
      obtain ⟨kk, oo, vv⟩ := g
      cases kk <;> first | rfl | cases this
  refine ⟨fun l => ?_, ?_, e5, e6, e7, fun l hl => ?_, ?_, ?_, ?_, ?_, ?_⟩
  · rw [hlogs]
    show (if l = s1.next then _ else s1.logs l) = _
    rw [e4, R.next, e3, R.logs]
    by_cases h : l = w.next
    · rw [if_pos h, if_pos h, ht]; rfl
    · rw [if_neg h, if_neg h]
      cases hw : w.logs l with
      | none => rfl
      | some g => exact congrArg some (hseen l g hw).symm
  · show s1.next + 1 = w1.next + 1
    rw [e4, e2, R.next]
  · rw [hlogs]
    have hl' : w.next + 1 ≤ l := by
      have : (new w1 k o).next = w.next + 1 := by show w1.next + 1 = _; rw [e2]
      omega
    rw [if_neg (by omega)]
    exact R.fresh l (by omega)
  · intro l g st h1 h2
    rw [hlogs] at h1
    by_cases h : l = w.next
    · rw [if_pos h] at h1
      cases h1
      rcases hfile with ⟨_, _, h3⟩ | ⟨u, c, h3, h4, h5, h6, h7, h8⟩
      · rw [h3] at h2; cases h2
      · rw [h3] at h2; cases h2
        refine ⟨c, ?_, ?_, h5⟩
        · show w1.fs _ = _; rw [h6]; exact if_pos rfl
        · show s1.files _ = _; rw [h7, h4, List.append_nil]; exact if_pos rfl
    · rw [if_neg h] at h1
      obtain ⟨c, f1, f2, f3⟩ := R.fits l g st h1 h2
      rcases hfile with ⟨h3, h4, _⟩ | ⟨u, c', h3, h4, h5, h6, h7, h8⟩
      · exact ⟨c, by show w1.fs _ = _; rw [h3]; exact f1, by show s1.files _ = _; rw [h4]; exact f2, f3⟩
      · have hne := h8 l g st h1 h2
        refine ⟨c, ?_, ?_, f3⟩
        · show w1.fs _ = _; rw [h6]; show (if _ then _ else _) = _; rw [if_neg hne]; exact f1
        · show s1.files _ = _; rw [h7]; show (if _ then _ else _) = _; rw [if_neg hne]; exact f2
  · intro l k' g h st u h1 h2 h3 h4 h5
    rw [hlogs] at h1 h3
    by_cases hl : l = w.next <;> by_cases hk : k' = w.next
    · omega
    · rw [if_pos hl] at h1
      rw [if_neg hk] at h3
      cases h1
      rcases hfile with ⟨_, _, f⟩ | ⟨x, c', f3, _, _, _, _, f8⟩
      · rw [f] at h2; cases h2
      · rw [f3] at h2; cases h2
        exact absurd h5.symm (f8 k' h u h3 h4)
    · rw [if_neg hl] at h1
      rw [if_pos hk] at h3
      cases h3
      rcases hfile with ⟨_, _, f⟩ | ⟨x, c', f3, _, _, _, _, f8⟩
      · rw [f] at h4; cases h4
      · rw [f3] at h4; cases h4
        exact absurd h5 (f8 l g st h1 h2)
    · rw [if_neg hl] at h1
      rw [if_neg hk] at h3
      exact R.one l k' g h st u h1 h2 h3 h4 h5
  · intro p hp
    have hp' : ∀ l g st, w.logs l = some g → g.stream = some st → st.path ≠ p := fun l g st h1 h2 => hp l g st (by rw [hlogs, if_neg (hold l g h1)]; exact h1) h2
    show w1.fs p = s1.files p
    rcases hfile with ⟨h3, h4, _⟩ | ⟨u, c', h3, h4, h5, h6, h7, h8⟩
    · rw [h3, h4]; exact R.rest p hp'
    · have hne : p ≠ u.path := fun e => hp w.next ⟨k, o, 8⟩ u (by rw [hlogs, if_pos rfl]) h3 e.symm
      rw [h6, h7]
      show (if _ then _ else _) = (if _ then _ else _)
      rw [if_neg hne, if_neg hne]; exact R.rest p hp'
  · intro l g h1 h2
    show w1.ident = true
    rw [hlogs] at h1
    rcases hsys with ⟨_, _, a, b⟩ | ⟨_, b⟩
    · by_cases hl : l = w.next
      · rw [if_pos hl] at h1; cases h1; rw [b] at h2; cases h2
      · rw [if_neg hl] at h1; rw [a]; exact R.ident l g h1 h2
    · exact b
  · intro l k' g h h1 h2 h3 h4
    rw [hlogs] at h1 h3
    by_cases hl : l = w.next <;> by_cases hk : k' = w.next
    · omega
    · rw [if_pos hl] at h1
      rw [if_neg hk] at h3
      cases h1
      rcases hsys with ⟨_, _, _, b⟩ | ⟨a, _⟩
      · rw [b] at h2; cases h2
      · rw [a k' h h3] at h4; cases h4
    · rw [if_neg hl] at h1
      rw [if_pos hk] at h3
      cases h3
      rcases hsys with ⟨_, _, _, b⟩ | ⟨a, _⟩
      · rw [b] at h4; cases h4
      · rw [a l g h1] at h2; cases h2
    · rw [if_neg hl] at h1
      rw [if_neg hk] at h3
      exact R.oneSys l k' g h h1 h2 h3 h4

/-- A logger replaced by one with the same destination. -/
theorem rel_adjust {w : W} {s : S} (R : Rel w s) {l : Nat} {g : Lg} (hl : w.logs l = some g) (o v : Nat) :
    Rel (setLog w l (some ⟨g.kind, o, v⟩)) { s with logs := fun k => if k = l then some ⟨(seen w.fac w.pid g).to, o, v⟩ else s.logs k } := by
  have hlogs : ∀ k, (setLog w l (some ⟨g.kind, o, v⟩)).logs k = if k = l then some ⟨g.kind, o, v⟩ else w.logs k := fun k => rfl
  have hstream : (Lg.mk g.kind o v).stream = g.stream := by obtain ⟨kk, _, _⟩ := g; cases kk <;> rfl
  have hsysE : (Lg.mk g.kind o v).sys = g.sys := by obtain ⟨kk, _, _⟩ := g; cases kk <;> rfl
  -- every logger has the stream and kind it had
  have back : ∀ k h, (setLog w l (some ⟨g.kind, o, v⟩)).logs k = some h → ∃ h', w.logs k = some h' ∧ h.stream = h'.stream ∧ h.sys = h'.sys := by
    intro k h e
    rw [hlogs] at e
    by_cases hk : k = l
    · rw [if_pos hk] at e; cases e
      exact ⟨g, by rw [hk]; exact hl, hstream, hsysE⟩
    · rw [if_neg hk] at e
      exact ⟨h, e, rfl, rfl⟩
  have forth : ∀ k h, w.logs k = some h → ∃ h', (setLog w l (some ⟨g.kind, o, v⟩)).logs k = some h' ∧ h'.stream = h.stream := by
    intro k h e
    by_cases hk : k = l
    · subst hk
      rw [hl] at e; cases e
      exact ⟨_, by rw [hlogs, if_pos rfl], hstream⟩
    · exact ⟨h, by rw [hlogs, if_neg hk]; exact e, rfl⟩
  refine ⟨fun k => ?_, R.next, R.err, R.prog, R.sent, fun k hk => ?_, ?_, ?_, ?_, ?_, ?_⟩
  · rw [hlogs]
    show (if k = l then _ else s.logs k) = _
    by_cases hk : k = l
    · rw [if_pos hk, if_pos hk]; rfl
    · rw [if_neg hk, if_neg hk]; exact R.logs k
  · rw [hlogs, if_neg]
    · exact R.fresh k hk
    · intro e
      rw [← e, R.fresh k hk] at hl; cases hl
  · intro k h st h1 h2
    obtain ⟨h', e1, e2, _⟩ := back k h h1
    exact R.fits k h' st e1 (e2 ▸ h2)
  · intro a b x y st u h1 h2 h3 h4 h5
    obtain ⟨x', e1, e2, _⟩ := back a x h1
    obtain ⟨y', e3, e4, _⟩ := back b y h3
    exact R.one a b x' y' st u e1 (e2 ▸ h2) e3 (e4 ▸ h4) h5
  · intro p hp
    refine R.rest p fun k h st h1 h2 => ?_
    obtain ⟨h', e1, e2⟩ := forth k h h1
    exact hp k h' st e1 (e2.trans h2)
  · intro k h h1 h2
    obtain ⟨h', e1, _, e3⟩ := back k h h1
    exact R.ident k h' e1 (e3 ▸ h2)
  · intro a b x y h1 h2 h3 h4
    obtain ⟨x', e1, _, e2⟩ := back a x h1
    obtain ⟨y', e3, _, e4⟩ := back b y h3
    exact R.oneSys a b x' y' e1 (e2 ▸ h2) e3 (e4 ▸ h4)

/-- A line in a file. -/
theorem rel_line {w : W} {s : S} (R : Rel w s) {l o v : Nat} {st : Stream} (hl : w.logs l = some ⟨.file st, o, v⟩) (t : Str) (k : Nat) :
    Rel (setLog { w with fs := (spill w.fs { st with buf := st.buf ++ t } k).1 } l (some ⟨.file (spill w.fs { st with buf := st.buf ++ t } k).2, o, v⟩))
      { s with files := fun q => if q = st.path then some ((s.files st.path).getD [] ++ t) else s.files q } := by
  obtain ⟨c, f1, f2, f3⟩ := R.fits l _ st hl rfl
  obtain ⟨p1, p2, p3, p4, p5⟩ := spill_eq (fs := w.fs) (st := { st with buf := st.buf ++ t }) (c := c) f1 f3 k
  generalize spill w.fs { st with buf := st.buf ++ t } k = r at *
  obtain ⟨fs', st'⟩ := r
  dsimp only at *
  have hlogs : ∀ j, (setLog { w with fs := fs' } l (some ⟨.file st', o, v⟩)).logs j = if j = l then some ⟨.file st', o, v⟩ else w.logs j := fun j => rfl
  have back : ∀ j h u, (setLog { w with fs := fs' } l (some ⟨.file st', o, v⟩)).logs j = some h → h.stream = some u → ∃ h' u', w.logs j = some h' ∧ h'.stream = some u' ∧ u.path = u'.path ∧ (j ≠ l → u = u') := by
    intro j h u e1 e2
    rw [hlogs] at e1
    by_cases hj : j = l
    · rw [if_pos hj] at e1; cases e1; cases e2
      exact ⟨_, st, by rw [hj]; exact hl, rfl, p2, fun h => absurd hj h⟩
    · rw [if_neg hj] at e1
      exact ⟨h, u, e1, e2, rfl, fun _ => rfl⟩
  have backS : ∀ j h, (setLog { w with fs := fs' } l (some ⟨.file st', o, v⟩)).logs j = some h → h.sys = true → w.logs j = some h := by
    intro j h e1 e2
    rw [hlogs] at e1
    by_cases hj : j = l
    · rw [if_pos hj] at e1; cases e1; cases e2
    · rw [if_neg hj] at e1; exact e1
  refine ⟨fun j => ?_, R.next, R.err, R.prog, R.sent, fun j hj => ?_, ?_, ?_, ?_, ?_, ?_⟩
  · rw [hlogs]
    show s.logs j = _
    by_cases hj : j = l
    · rw [if_pos hj, R.logs, hj, hl]
      simp [seen, p2, setLog]
    · rw [if_neg hj]; exact R.logs j
  · rw [hlogs, if_neg]
    · exact R.fresh j hj
    · intro e
      rw [← e, R.fresh j hj] at hl; cases hl
  · intro j h u h1 h2
    by_cases hj : j = l
    · rw [hlogs, if_pos hj] at h1; cases h1; cases h2
      refine ⟨c ++ (st.buf ++ t).take k, ?_, ?_, ?_⟩
      · show fs' _ = _
        rw [p1, p2]; exact if_pos rfl
      · show (if _ then _ else _) = _
        rw [if_pos p2, f2, p4]
        simp
      · intro ha
        exact p5 (p3 ▸ ha)
    · obtain ⟨h', u', e1, e2, e3, e4⟩ := back j h u h1 h2
      cases e4 hj
      have hne : u.path ≠ st.path := fun e => hj (R.one j l h' _ u st e1 e2 hl rfl e)
      obtain ⟨d, d1, d2, d3⟩ := R.fits j h' u e1 e2
      refine ⟨d, ?_, ?_, d3⟩
      · show fs' _ = _
        rw [p1]; show (if _ then _ else _) = _; rw [if_neg hne]; exact d1
      · show (if _ then _ else _) = _
        rw [if_neg hne]; exact d2
  · intro a b x y q u h1 h2 h3 h4 h5
    obtain ⟨x', q', e1, e2, e3, _⟩ := back a x q h1 h2
    obtain ⟨y', u', e4, e5, e6, _⟩ := back b y u h3 h4
    exact R.one a b x' y' q' u' e1 e2 e4 e5 (by rw [← e3, ← e6]; exact h5)
  · intro p hp
    have hne : p ≠ st.path := fun e => hp l ⟨.file st', o, v⟩ st' (by rw [hlogs, if_pos rfl]) rfl (p2.trans e.symm)
    show fs' p = (if _ then _ else _)
    rw [p1, if_neg hne]
    show (if _ then _ else _) = _
    rw [if_neg hne]
    refine R.rest p fun j h u e1 e2 => ?_
    by_cases hj : j = l
    · rw [hj, hl] at e1; cases e1; cases e2
      exact fun e => hne e.symm
    · exact hp j h u (by rw [hlogs, if_neg hj]; exact e1) e2
  · intro j h h1 h2
    exact R.ident j h (backS j h h1 h2) h2
  · intro a b x y h1 h2 h3 h4
    exact R.oneSys a b x y (backS a x h1 h2) h2 (backS b y h3 h4) h4

/-- A logger closed: the file has what the specification says. -/
theorem rel_close {w : W} {s : S} (R : Rel w s) {l : Nat} {g : Lg} (hl : w.logs l = some g) {w' : W} (hc : close w l = .ok w') :
    Rel w' { s with logs := fun k => if k = l then none else s.logs k } := by
  have hlogs : ∀ j, w'.logs j = if j = l then none else w.logs j := by
    unfold close at hc
    rw [hl] at hc
    obtain ⟨kk, o, v⟩ := g
    cases kk <;> (cases hc; intro j; rfl)
  have hsame : w'.next = w.next ∧ w'.err = w.err ∧ w'.prog = w.prog ∧ w'.sent = w.sent ∧ w'.fac = w.fac ∧ w'.pid = w.pid := by
    unfold close at hc
    rw [hl] at hc
    obtain ⟨kk, o, v⟩ := g
    cases kk <;> (cases hc; exact ⟨rfl, rfl, rfl, rfl, rfl, rfl⟩)
  obtain ⟨n1, n2, n3, n4, n5, n6⟩ := hsame
  have hident : g.sys = false → w'.ident = w.ident := by
    unfold close at hc
    rw [hl] at hc
    obtain ⟨kk, o, v⟩ := g
    cases kk
    · cases hc; exact fun _ => rfl
    · cases hc; exact fun _ => rfl
    · intro h; cases h
  have hfs : (g.stream = none ∧ w'.fs = w.fs) ∨ ∃ st, g.stream = some st ∧ w'.fs = (spill w.fs st st.buf.length).1 := by
    unfold close at hc
    rw [hl] at hc
    obtain ⟨kk, o, v⟩ := g
    cases kk
    · cases hc; exact .inr ⟨_, rfl, rfl⟩
    · cases hc; exact .inl ⟨rfl, rfl⟩
    · cases hc; exact .inl ⟨rfl, rfl⟩
  have back : ∀ j h, w'.logs j = some h → w.logs j = some h ∧ j ≠ l := by
    intro j h e
    rw [hlogs] at e
    by_cases hj : j = l
    · rw [if_pos hj] at e; cases e
    · rw [if_neg hj] at e; exact ⟨e, hj⟩
  -- other files
  have hother : ∀ p, (∀ st, g.stream = some st → p ≠ st.path) → w'.fs p = w.fs p := by
    intro p hp
    rcases hfs with ⟨_, e⟩ | ⟨st, e1, e⟩
    · rw [e]
    · rw [e]; exact if_neg (hp st e1)
  refine ⟨fun j => ?_, by rw [n1]; exact R.next, by rw [n2]; exact R.err, by rw [n3]; exact R.prog, by rw [n4]; exact R.sent, fun j hj => ?_, ?_, ?_, ?_, ?_, ?_⟩
  · rw [hlogs, n5, n6]
    show (if j = l then none else s.logs j) = _
    by_cases hj : j = l
    · rw [if_pos hj, if_pos hj]; rfl
    · rw [if_neg hj, if_neg hj]; exact R.logs j
  · rw [hlogs]
    split
    · rfl
    · exact R.fresh j (by omega)
  · intro j h u h1 h2
    obtain ⟨e1, hj⟩ := back j h h1
    obtain ⟨d, d1, d2, d3⟩ := R.fits j h u e1 h2
    refine ⟨d, ?_, d2, d3⟩
    rw [hother]
    · exact d1
    · intro st hst e
      exact hj (R.one j l h g u st e1 h2 hl hst e)
  · intro a b x y q u h1 h2 h3 h4 h5
    exact R.one a b x y q u (back a x h1).1 h2 (back b y h3).1 h4 h5
  · intro p hp
    show w'.fs p = s.files p
    have others : ∀ j h u, w.logs j = some h → h.stream = some u → j ≠ l → u.path ≠ p := fun j h u e1 e2 hj => hp j h u (by rw [hlogs, if_neg hj]; exact e1) e2
    rcases hfs with ⟨e1, e⟩ | ⟨st, e1, e⟩
    · rw [e]
      refine R.rest p fun j h u a1 a2 => ?_
      by_cases hj : j = l
      · rw [hj, hl] at a1; cases a1; rw [e1] at a2; cases a2
      · exact others j h u a1 a2 hj
    · obtain ⟨c, f1, f2, f3⟩ := R.fits l g st hl e1
      have q := (spill_eq f1 f3 st.buf.length).1
      rw [e, q, List.take_of_length_le (Nat.le_refl _)]
      by_cases hp2 : p = st.path
      · rw [hp2, f2]; exact if_pos rfl
      · show (if _ then _ else _) = _
        rw [if_neg hp2]
        refine R.rest p fun j h u a1 a2 => ?_
        by_cases hj : j = l
        · rw [hj, hl] at a1; cases a1; rw [e1] at a2; cases a2
          exact fun e => hp2 e.symm
        · exact others j h u a1 a2 hj
  · intro j h h1 h2
    obtain ⟨e1, hj⟩ := back j h h1
    cases hg : g.sys with
    | true => exact absurd (R.oneSys j l h g e1 h2 hl hg) hj
    | false => rw [hident hg]; exact R.ident j h e1 h2
  · intro a b x y h1 h2 h3 h4
    exact R.oneSys a b x y (back a x h1).1 h2 (back b y h3).1 h4

theorem prio (level : Nat) : syslogPriority level = if level < 8 then level else 3 := by
  unfold syslogPriority
  split
  all_goals first | rfl | skip
  rename_i h0 h1 h2 h3 h4 h5 h6 h7
  rw [if_neg]
  intro h
  have : level = 0 ∨ level = 1 ∨ level = 2 ∨ level = 3 ∨ level = 4 ∨ level = 5 ∨ level = 6 ∨ level = 7 := by omega
  rcases this with e | e | e | e | e | e | e | e
  · exact h0 e
  · exact h1 e
  · exact h2 e
  · exact h3 e
  · exact h4 e
  · exact h5 e
  · exact h6 e
  · exact h7 e

theorem rel_step (render : Nat → Nat → M → Str) {w : W} {s : S} (R : Rel w s) (o : Op M) (L : Legal s o) : ∃ w', step render w o = .ok w' ∧ Rel w' (spec render s o) := by
  have hview : ∀ l, s.logs l ≠ none → ∃ g, w.logs l = some g ∧ s.logs l = some (seen w.fac w.pid g) := by
    intro l h
    rw [R.logs] at h
    cases hw : w.logs l with
    | none => rw [hw] at h; exact absurd rfl h
    | some g => exact ⟨g, rfl, by rw [R.logs, hw]; rfl⟩
  have hnosys : (∀ l v, s.logs l = some v → ¬ v.toSyslog) → ∀ l g, w.logs l = some g → g.sys = false := by
    intro h l g hg
    have := h l _ (by rw [R.logs, hg]; rfl)
    rw [seen_sys] at this
    exact Bool.eq_false_iff.2 this
  cases o with
  | file p a o f =>
      cases f with
      | some e =>
          refine ⟨_, rfl, ?_⟩
          have hr : refused p e = couldNot p e := by
            have h1 : ": ".toList.map Num.byte = [58, 32] := by decide
            have h2 : "\n".toList.map Num.byte = [10] := by decide
            unfold refused couldNot
            generalize "Could not open file ".toList.map Num.byte = c
            simp only [h1, h2, List.append_assoc]
          show Rel { w with next := w.next + 1, live := w.next :: w.live, err := w.err ++ couldNot p e } { s with next := s.next + 1, err := s.err ++ refused p e }
          rw [hr]
          exact ⟨R.logs, congrArg (· + 1) R.next, congrArg (· ++ couldNot p e) R.err, R.prog, R.sent, fun l (hl : w.next + 1 ≤ l) => R.fresh l (by omega), R.fits, R.one, R.rest, R.ident, R.oneSys⟩
      | none =>
          have hno : ∀ l g u, w.logs l = some g → g.stream = some u → u.path ≠ p := fun l g u h1 h2 e =>
            L l _ (by rw [R.logs, h1]; rfl) (seen_writes.2 ⟨u, h2, e⟩)
          have hsame : w.fs p = s.files p := R.rest p hno
          refine ⟨_, rfl, ?_⟩
          refine rel_new (w1 := { w with fs := setFile w.fs p (if a then (w.fs p).getD [] else []) })
            (s1 := { s with files := fun q => if q = p then some (if a then (s.files p).getD [] else []) else s.files q }) R (.file ⟨p, a, 0, []⟩) (.file p) o
            rfl rfl rfl rfl R.err R.prog R.sent rfl (.inl ⟨rfl, rfl, rfl, rfl⟩) (.inr ⟨_, if a then (w.fs p).getD [] else [], rfl, rfl, ?_, rfl, ?_, hno⟩)
          · intro (ha : a = false)
            rw [ha]; rfl
          · rw [hsame]; rfl
  | stderr o => exact ⟨_, rfl, rel_new R .stderr .stderr o rfl rfl rfl rfl R.err R.prog R.sent rfl (.inl ⟨rfl, rfl, rfl, rfl⟩) (.inl ⟨rfl, rfl, rfl⟩)⟩
  | syslog =>
      exact ⟨_, rfl, rel_new (w1 := { w with ident := true, pid := has WITH_PID WITH_PID, fac := LOG_USER }) R .syslog (.syslog 8 true) 0 rfl rfl rfl rfl R.err R.prog R.sent rfl
        (.inr ⟨hnosys L, rfl⟩) (.inl ⟨rfl, rfl, rfl⟩)⟩
  | syslog2 o f =>
      exact ⟨_, rfl, rel_new (w1 := { w with ident := true, pid := has o WITH_PID, fac := f }) R .syslog (.syslog f (has o WITH_PID)) 0 rfl rfl rfl rfl R.err R.prog R.sent rfl
        (.inr ⟨hnosys L, rfl⟩) (.inl ⟨rfl, rfl, rfl⟩)⟩
  | progname n =>
      exact ⟨_, rfl, ⟨R.logs, R.next, R.err, rfl, R.sent, R.fresh, R.fits, R.one, R.rest, R.ident, R.oneSys⟩⟩
  | setLevel l v =>
      obtain ⟨g, h1, h2⟩ := hview l L
      refine ⟨setLog w l (some ⟨g.kind, g.opts, v⟩), ?_, ?_⟩
      · simp only [step, adjust, h1]
      · simp only [spec, h2, Option.map_some]
        exact rel_adjust R h1 g.opts v
  | setOpts l v =>
      obtain ⟨g, h1, h2⟩ := hview l L
      refine ⟨setLog w l (some ⟨g.kind, v, g.level⟩), ?_, ?_⟩
      · simp only [step, adjust, h1]
      · simp only [spec, h2, Option.map_some]
        exact rel_adjust R h1 v g.level
  | close l =>
      obtain ⟨g, h1, _⟩ := hview l L
      have : ∃ w', close w l = .ok w' := by
        unfold close
        rw [h1]
        obtain ⟨kk, _, _⟩ := g
        cases kk <;> exact ⟨_, rfl⟩
      obtain ⟨w', e⟩ := this
      exact ⟨w', e, rel_close R h1 e⟩
  | print l level m k =>
      obtain ⟨g, h1, h2⟩ := hview l L
      have hlev : (seen w.fac w.pid g).level = g.level := rfl
      by_cases hv : level > g.level
      · refine ⟨w, ?_, ?_⟩
        · simp only [step, Dest.print, h1]; rw [if_pos hv]
        · simp only [spec, h2]; rw [hlev, if_neg (by omega)]; exact R
      · refine ⟨emit render w l g level m k, ?_, ?_⟩
        · simp only [step, Dest.print, h1]; rw [if_neg hv]
        · simp only [spec, h2]; rw [hlev, if_pos (by omega)]
          obtain ⟨kk, o, v⟩ := g
          cases kk with
          | file st => exact rel_line R h1 (render o level m) k
          | stderr =>
              exact ⟨R.logs, R.next, congrArg (· ++ render o level m) R.err, R.prog, R.sent, R.fresh, R.fits, R.one, R.rest, R.ident, R.oneSys⟩
          | syslog =>
              have hid : w.ident = true := R.ident l _ h1 rfl
              refine ⟨R.logs, R.next, R.err, R.prog, ?_, R.fresh, R.fits, R.one, R.rest, R.ident, R.oneSys⟩
              show s.sent ++ [_] = w.sent ++ [_]
              rw [R.sent, hid, if_pos rfl, R.prog, prio]
              rfl

theorem rel_run (render : Nat → Nat → M → Str) : ∀ (os : List (Op M)) {w : W} {s : S}, Rel w s → AllLegal render s os → ∃ w', run render w os = .ok w' ∧ Rel w' (os.foldl (spec render) s)
  | [], w, _, R, _ => ⟨w, rfl, R⟩
  | o :: os, w, s, R, ⟨h1, h2⟩ => by
      obtain ⟨w1, e1, R1⟩ := rel_step render R o h1
      obtain ⟨w2, e2, R2⟩ := rel_run render os R1 h2
      refine ⟨w2, ?_, R2⟩
      show (step render w o >>= fun w => run render w os) = _
      rw [e1]; exact e2

/-- One logger's buffer written at exit. -/
def flushOne (w : W) (fs : Str → Option Str) (l : Nat) : Str → Option Str := match w.logs l with | some ⟨.file st, _, _⟩ => (spill fs st st.buf.length).1 | _ => fs

theorem flushOne_none {w : W} {l : Nat} (h : ∀ g st, w.logs l = some g → g.stream = some st → False) (fs : Str → Option Str) : flushOne w fs l = fs := by
  unfold flushOne
  split
  · rename_i st _ _ e
    exact (h _ st e rfl).elim
  · rfl

theorem flushOne_some {w : W} {l : Nat} {g : Lg} {st : Stream} (h : w.logs l = some g) (hs : g.stream = some st) (fs : Str → Option Str) : flushOne w fs l = (spill fs st st.buf.length).1 := by
  obtain ⟨k, o, v⟩ := g
  cases k <;> cases hs
  simp only [flushOne, h]

theorem flush_all {w : W} {s : S} (R : Rel w s) : ∀ (n : Nat) (p : Str),
    ((∃ l g st, l < n ∧ w.logs l = some g ∧ g.stream = some st ∧ st.path = p) → (List.range n).foldl (flushOne w) w.fs p = s.files p) ∧
    ((∀ l g st, l < n → w.logs l = some g → g.stream = some st → st.path ≠ p) → (List.range n).foldl (flushOne w) w.fs p = w.fs p)
  | 0, p => ⟨fun ⟨_, _, _, h, _⟩ => absurd h (Nat.not_lt_zero _), fun _ => rfl⟩
  | n + 1, p => by
      obtain ⟨ih1, ih2⟩ := flush_all R n p
      rw [List.range_succ, List.foldl_append]
      generalize hF : (List.range n).foldl (flushOne w) w.fs = F at *
      show (_ → flushOne w F n p = _) ∧ (_ → flushOne w F n p = _)
      by_cases hn : ∃ g st, w.logs n = some g ∧ g.stream = some st
      · obtain ⟨g, st, hg, hst⟩ := hn
        rw [flushOne_some hg hst]
        by_cases hp : st.path = p
        · refine ⟨fun _ => ?_, fun h => absurd hp (h n g st (by omega) hg hst)⟩
          obtain ⟨c, f1, f2, f3⟩ := R.fits n g st hg hst
          have hF2 : F st.path = some c := by
            rw [hp, ih2, ← hp, f1]
            intro l h u hl h1 h2 e
            have := R.one l n h g u st h1 h2 hg hst (e.trans hp.symm)
            omega
          rw [(spill_eq hF2 f3 _).1, ← hp, f2, List.take_of_length_le (Nat.le_refl _)]
          exact if_pos rfl
        · have hsp : (spill F st st.buf.length).1 p = F p := if_neg fun e => hp e.symm
          rw [hsp]
          refine ⟨fun ⟨l, h, u, hl, h1, h2, h3⟩ => ih1 ⟨l, h, u, ?_, h1, h2, h3⟩, fun h => ih2 fun l x u hl => h l x u (by omega)⟩
          have : l ≠ n := fun e => by
            rw [e, hg] at h1; cases h1; rw [hst] at h2; cases h2; exact hp h3
          omega
      · have : flushOne w F n = F := flushOne_none (fun g st h1 h2 => hn ⟨g, st, h1, h2⟩) F
        rw [this]
        refine ⟨fun ⟨l, h, u, hl, h1, h2, h3⟩ => ih1 ⟨l, h, u, ?_, h1, h2, h3⟩, fun h => ih2 fun l x u hl => h l x u (by omega)⟩
        have : l ≠ n := fun e => hn ⟨h, u, by rw [← e]; exact h1, h2⟩
        omega

theorem exitFs_eq (w : W) : exitFs w = (List.range w.next).foldl (flushOne w) w.fs := rfl

/-- **C119 (exactness).** After every history of correct calls, whatever parts of the buffers have been written: the calls were all defined; stderr and syslog have received exactly the lines printed at a level the logger lets through, in order,
each with the options, facility and priority of its logger; a file no logger has open holds exactly what it held when the last logger opened it (nothing, if that one overwrites) and the lines printed since; a file a logger has open holds at least
a beginning of that — so this is what a crash leaves; and after exit every file holds all of it. Partial: for one logger per file and one for syslog at a time, and the options given to zt_log_syslog2 are those of openlog only (see the violations). -/
theorem c119_exact_partial (render : Nat → Nat → M → Str) (fs : Str → Option Str) (name : Str) (os : List (Op M)) (h : AllLegal render (S.start fs name) os) :
    ∃ w, run render (start fs name) os = .ok w ∧ w.err = (os.foldl (spec render) (S.start fs name)).err ∧ w.sent = (os.foldl (spec render) (S.start fs name)).sent ∧
      (∀ p, (∀ l v, (os.foldl (spec render) (S.start fs name)).logs l = some v → ¬ v.writes p) → w.fs p = (os.foldl (spec render) (S.start fs name)).files p) ∧
      (∀ p, (w.fs p = none ↔ (os.foldl (spec render) (S.start fs name)).files p = none) ∧ (w.fs p).getD [] <+: ((os.foldl (spec render) (S.start fs name)).files p).getD []) ∧
      ∀ p, exitFs w p = (os.foldl (spec render) (S.start fs name)).files p := by
  obtain ⟨w, e, R⟩ := rel_run render os (rel_start fs name) h
  have hrest : ∀ p, (∀ l v, (os.foldl (spec render) (S.start fs name)).logs l = some v → ¬ v.writes p) → w.fs p = (os.foldl (spec render) (S.start fs name)).files p := by
    intro p hp
    refine R.rest p fun l g st h1 h2 e => hp l (seen w.fac w.pid g) ?_ (seen_writes.2 ⟨st, h2, e⟩)
    rw [R.logs, h1]; rfl
  refine ⟨w, e, R.err.symm, R.sent.symm, hrest, fun p => ?_, fun p => ?_⟩
  · by_cases hx : ∃ l g st, w.logs l = some g ∧ g.stream = some st ∧ st.path = p
    · obtain ⟨l, g, st, h1, h2, h3⟩ := hx
      obtain ⟨c, f1, f2, _⟩ := R.fits l g st h1 h2
      rw [← h3, f1, f2]
      exact ⟨⟨fun h => (nomatch h), fun h => (nomatch h)⟩, List.prefix_append _ _⟩
    · rw [R.rest p fun l g st h1 h2 h3 => hx ⟨l, g, st, h1, h2, h3⟩]
      exact ⟨Iff.rfl, List.prefix_refl _⟩
  · rw [exitFs_eq]
    obtain ⟨a, b⟩ := flush_all R w.next p
    by_cases hx : ∃ l g st, l < w.next ∧ w.logs l = some g ∧ g.stream = some st ∧ st.path = p
    · exact a hx
    · rw [b fun l g st h0 h1 h2 h3 => hx ⟨l, g, st, h0, h1, h2, h3⟩]
      refine R.rest p fun l g st h1 h2 h3 => hx ⟨l, g, st, ?_, h1, h2, h3⟩
      by_cases hl : l < w.next
      · exact hl
      · rw [R.fresh l (by omega)] at h1; cases h1

/-! ### Structures -/

def Op.opens : Op M → Prop
  | .file _ _ _ (some _) => False
  | _ => True

/-- Structures in use and loggers. -/
def Kept (w : W) : Prop := w.live.Nodup ∧ (∀ l, l ∈ w.live ↔ w.logs l ≠ none) ∧ ∀ l, w.next ≤ l → w.logs l = none

theorem kept_new {w w1 : W} (K : Kept w) (e1 : w1.logs = w.logs) (e2 : w1.next = w.next) (e3 : w1.live = w.live) (k : Kind) (o : Nat) : Kept (new w1 k o) := by
  have hlogs : ∀ l, (new w1 k o).logs l = if l = w.next then some ⟨k, o, MAX⟩ else w.logs l := fun l => by
    show (if l = w1.next then _ else w1.logs l) = _
    rw [e1, e2]
  have hlive : (new w1 k o).live = w.next :: w.live := by show w1.next :: w1.live = _; rw [e2, e3]
  have hnext : (new w1 k o).next = w.next + 1 := by show w1.next + 1 = _; rw [e2]
  obtain ⟨a, b, c⟩ := K
  refine ⟨?_, fun l => ?_, fun l hl => ?_⟩
  · rw [hlive]
    exact List.nodup_cons.2 ⟨fun h => (b _).1 h (c _ (Nat.le_refl _)), a⟩
  · rw [hlive, hlogs]
    by_cases h : l = w.next
    · rw [if_pos h]; simp [h]
    · rw [if_neg h, ← b]; simp [h]
  · rw [hlogs, if_neg (by omega)]
    exact c l (by omega)

theorem kept_set {w w1 : W} (K : Kept w) (e1 : w1.logs = w.logs) (e2 : w1.next = w.next) (e3 : w1.live = w.live) {l : Nat} {g : Lg} (h : w.logs l = some g) (g' : Lg) : Kept (setLog w1 l (some g')) := by
  have hlogs : ∀ k, (setLog w1 l (some g')).logs k = if k = l then some g' else w.logs k := fun k => by
    show (if k = l then _ else w1.logs k) = _
    rw [e1]
  obtain ⟨a, b, c⟩ := K
  refine ⟨by show w1.live.Nodup; rw [e3]; exact a, fun k => ?_, fun k hk => ?_⟩
  · show k ∈ w1.live ↔ _
    rw [e3, hlogs, b]
    by_cases hk : k = l
    · rw [if_pos hk, hk, h]; simp
    · rw [if_neg hk]
  · have hk' : w.next ≤ k := by rw [← e2]; exact hk
    rw [hlogs, if_neg]
    · exact c k hk'
    · intro e
      rw [← e, c k hk'] at h; cases h

theorem kept_step (render : Nat → Nat → M → Str) {w w' : W} (K : Kept w) (o : Op M) (ho : o.opens) (h : step render w o = .ok w') : Kept w' := by
  cases o with
  | file p a o f =>
      cases f with
      | some e => exact ho.elim
      | none => cases h; exact kept_new K rfl rfl rfl _ _
  | stderr o => cases h; exact kept_new K rfl rfl rfl _ _
  | syslog => cases h; exact kept_new K rfl rfl rfl _ _
  | syslog2 o f => cases h; exact kept_new K rfl rfl rfl _ _
  | progname n => cases h; exact K
  | setLevel l v =>
      simp only [step, adjust] at h
      split at h
      · cases h
      · rename_i g hg
        cases h
        exact kept_set K rfl rfl rfl hg _
  | setOpts l v =>
      simp only [step, adjust] at h
      split at h
      · cases h
      · rename_i g hg
        cases h
        exact kept_set K rfl rfl rfl hg _
  | print l level m k =>
      simp only [step, Dest.print] at h
      split at h
      · cases h
      · rename_i g hg
        split at h
        · cases h; exact K
        · cases h
          obtain ⟨kk, o, v⟩ := g
          cases kk with
          | file st => exact kept_set (w1 := { w with fs := (spill w.fs { st with buf := st.buf ++ render o level m } k).1 }) K rfl rfl rfl hg _
          | stderr => exact K
          | syslog => exact K
  | close l =>
      simp only [step, Dest.close] at h
      split at h
      · cases h
      · rename_i g hg
        obtain ⟨a, b, c⟩ := K
        have key : ∀ w1 : W, w1.logs = (setLog w l none).logs → w1.live = w.live.erase l → w1.next = w.next → Kept w1 := by
          intro w1 e1 e2 e3
          have hlogs : ∀ k, w1.logs k = if k = l then none else w.logs k := fun k => by rw [e1]; rfl
          refine ⟨by rw [e2]; exact a.erase l, fun k => ?_, fun k hk => ?_⟩
          · rw [e2, hlogs, a.mem_erase_iff, b]
            by_cases hk : k = l
            · rw [if_pos hk]; simp [hk]
            · rw [if_neg hk]; simp [hk]
          · rw [hlogs]
            split
            · rfl
            · exact c k (by omega)
        obtain ⟨kk, o, v⟩ := g
        cases kk <;> (cases h; exact key _ rfl rfl rfl)

theorem kept_run (render : Nat → Nat → M → Str) : ∀ (os : List (Op M)) {w w' : W}, Kept w → (∀ o, o ∈ os → o.opens) → run render w os = .ok w' → Kept w'
  | [], _, _, K, _, h => by cases h; exact K
  | o :: os, w, w', K, ho, h => by
      obtain ⟨w1, e1, e2⟩ := Outcome.bind_eq_ok.1 h
      exact kept_run render os (kept_step render K o (ho o (List.mem_cons_self ..)) e1) (fun x hx => ho x (List.mem_cons_of_mem _ hx)) e2

/-- **C119 (structures).** After every history of correct calls in which every file can be opened, the structures in use are exactly those of the loggers not yet closed, once each: nothing is freed early and, when all are closed, nothing is left.
Partial: a logger whose file cannot be opened is never freed (see the violation). -/
theorem c119_memory_partial (render : Nat → Nat → M → Str) (fs : Str → Option Str) (name : Str) (os : List (Op M)) (h : AllLegal render (S.start fs name) os) (ho : ∀ o, o ∈ os → o.opens) :
    ∃ w, run render (start fs name) os = .ok w ∧ w.live.Nodup ∧ (∀ l, l ∈ w.live ↔ (os.foldl (spec render) (S.start fs name)).logs l ≠ none) ∧
      ((∀ l, (os.foldl (spec render) (S.start fs name)).logs l = none) → w.live = []) := by
  obtain ⟨w, e, R⟩ := rel_run render os (rel_start fs name) h
  obtain ⟨a, b, _⟩ := kept_run render os (w := start fs name) ⟨List.nodup_nil, fun l => by simp [start], fun _ _ => rfl⟩ ho e
  have hiff : ∀ l, l ∈ w.live ↔ (os.foldl (spec render) (S.start fs name)).logs l ≠ none := fun l => by
    rw [b, R.logs]
    cases w.logs l <;> simp
  refine ⟨w, e, a, hiff, fun hn => List.eq_nil_iff_forall_not_mem.2 fun l hl => (hiff l).1 hl (hn l)⟩

/-! ### Violations -/

/-- **C119 is violated: the structure of a file logger is lost.** Every attempt to log to a file that cannot be opened leaves a structure in use with no logger to close. -/
theorem c119_leak_violation (render : Nat → Nat → M → Str) (fs : Str → Option Str) (name path e : Str) (append : Bool) (opts n : Nat) :
    ∃ w, run render (start fs name) (List.replicate n (Op.file (M := M) path append opts (some e))) = .ok w ∧ w.live.length = n ∧ ∀ l, w.logs l = none := by
  have gen : ∀ (n : Nat) (w : W), (∀ l, w.logs l = none) → ∃ w', run render w (List.replicate n (Op.file (M := M) path append opts (some e))) = .ok w' ∧ w'.live.length = w.live.length + n ∧ ∀ l, w'.logs l = none := by
    intro n
    induction n with
    | zero => intro w h; exact ⟨w, rfl, rfl, h⟩
    | succ n ih =>
        intro w h
        obtain ⟨w', e1, e2, e3⟩ := ih (openFile w path append opts (some e)) h
        refine ⟨w', e1, ?_, e3⟩
        rw [e2]
        show w.live.length + 1 + n = _
        omega
  obtain ⟨w, e1, e2, e3⟩ := gen n (start fs name) fun _ => rfl
  exact ⟨w, e1, by rw [e2]; exact Nat.zero_add n, e3⟩

/-- The lines below are the message alone. -/
def plain : Nat → Nat → Str → Str := fun _ _ m => m

/-- Two loggers overwrite one file: after the exit. -/
def clash (a b : Str) (p : Str) : Option (Option Str) :=
  match run plain (start (fun _ => none) []) [.file p false 0 none, .file p false 0 none, .print 0 0 a 0, .print 1 0 b 0, .close 0, .close 1] with
  | .ok w => some (w.fs p)
  | _ => none

/-- **C119 is violated: two loggers that overwrite one file.** The second writes over the lines of the first, whatever they are. -/
theorem c119_two_violation (a b p : Str) : clash a b p = some (some (b ++ a.drop b.length)) := by
  simp [clash, run, step, openFile, new, setLog, setFile, Dest.print, emit, spill, plain, Dest.close, writeAt, MAX, start]

/-- What syslog receives. -/
def received (os : List (Op Str)) : Option (List Sent) :=
  match run plain (start (fun _ => none) []) os with
  | .ok w => some w.sent
  | _ => none

/-- **C119 is violated: the facility of a logger.** After a second logger for syslog has been made, the lines of the first go to the facility of the second, with its options. -/
theorem c119_facility_violation (n m : Str) (o1 o2 f1 f2 : Nat) :
    received [.progname n, .syslog2 o1 f1, .syslog2 o2 f2, .print 0 3 m 0] = some [⟨f2, 3, some n, has o2 WITH_PID, m⟩] := by
  simp [received, run, step, Dest.syslog2, new, setLog, Dest.print, emit, plain, MAX, start, syslogPriority]

/-- **C119 is violated: the name of the program.** When one of two loggers for syslog is closed, the lines of the other no longer have the name given by the program. -/
theorem c119_closelog_violation (n m : Str) (o1 o2 f1 f2 : Nat) :
    received [.progname n, .syslog2 o1 f1, .syslog2 o2 f2, .close 0, .print 1 3 m 0] = some [⟨f2, 3, none, has o2 WITH_PID, m⟩] := by
  simp [received, run, step, Dest.syslog2, new, setLog, Dest.print, Dest.close, emit, plain, MAX, start, syslogPriority]

/-- **C119 is violated: the options of zt_log_syslog2.** A line of a logger made with any options whatever is rendered without any; only the process number is looked at. -/
theorem c119_options_violation (render : Nat → Nat → M → Str) (fs : Str → Option Str) (n : Str) (m : M) (o f : Nat) :
    ∃ w, run render (start fs n) [.syslog2 o f, .print 0 3 m 0] = .ok w ∧ w.sent = [⟨f, 3, some n, has o WITH_PID, render 0 3 m⟩] := by
  refine ⟨_, rfl, ?_⟩
  simp [setLog, emit, Dest.syslog2, new, start, syslogPriority, has]

/-! ### The hypotheses are met -/

/-- Two files, stderr and syslog, with a file that cannot be opened, a level changed and a file opened again. -/
def demo : List (Op Str) := [.file [97] true 0 none, .file [98] false 0 none, .stderr 0, .progname [112], .syslog2 WITH_PID 24, .print 0 3 [49, 10] 1, .print 1 3 [50, 10] 0, .print 2 3 [51, 10] 0, .print 3 4 [52, 10] 0,
  .setLevel 0 3, .print 0 4 [53, 10] 0, .print 0 2 [54, 10] 0, .close 0, .file [99] false 0 (some [33]), .file [97] true 0 none, .print 5 0 [55, 10] 9, .close 3, .syslog, .print 6 9 [56] 0, .print 6 1 [57] 0]

/-- The files before. -/
def demoFs : Str → Option Str := fun p => if p = [97] then some [48, 10] else none

example : AllLegal plain (S.start demoFs []) demo := by
  simp [demo, AllLegal, Legal, spec, S.start, S.add, S.line, View.writes, View.toSyslog, plain]
  repeat' apply And.intro
  all_goals
    intro l v
    repeat' split
    all_goals first | (intro h; cases h; simp; done) | (intro hl h; first | (cases hl; done) | omega | (cases h; done) | (cases h; simp; done) | (cases h; intro x; simp; done) | (cases h; contradiction))

/-- What there is in the end. -/
example : ∃ w, run plain (start demoFs []) demo = .ok w ∧ w.err = [51, 10] ++ couldNot [99] [33] ∧ exitFs w [97] = some [48, 10, 49, 10, 54, 10, 55, 10] ∧ w.fs [97] = some [48, 10, 49, 10, 54, 10, 55, 10] ∧
    w.fs [98] = some [] ∧ exitFs w [98] = some [50, 10] ∧ w.sent = [⟨24, 4, some [112], true, [52, 10]⟩, ⟨8, 1, some [112], true, [57]⟩] := by
  refine ⟨_, rfl, ?_⟩
  decide +kernel

end ZT.Log.Dest
