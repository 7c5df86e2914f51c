import Verif.Numeral

/-!
# zt_daemon.c

The operating system answers as a function of everything that happened before (`Os`), so a theorem for all `Os` covers every behaviour. Log messages are left out.
-/

namespace ZT.Daemon

abbrev Str := List Byte

/-! ## zt_writepid -/

/-- What write(2) returns: a count, -1 with EINTR, or -1 with another error. -/
inductive Wr where
  | wrote (n : Nat)
  | eintr
  | error
  deriving Repr, DecidableEq

/-- What close(2) returns: 0, -1 with EINTR, or -1 with another error. -/
inductive Cl where
  | done
  | eintr
  | error
  deriving Repr, DecidableEq

/-- A system call and its result. creat truncates the file; its mode is rw-r--r--. -/
inductive Ev where
  | creat (path : Str) (fd : Option Nat)
  | write (fd : Nat) (data : Str) (r : Wr)
  | close (fd : Nat) (r : Cl)
  deriving Repr, DecidableEq

/-- The answers, given the calls so far. -/
structure Os where
  creat : List Ev → Option Nat
  write : List Ev → Wr
  close : List Ev → Cl

/-- zt_daemon.c 134-137: the write and the loop. Result: the last answer and the calls. -/
def writeLoop (os : Os) (fd : Nat) (buf : Str) : (fuel : Nat) → List Ev → Outcome (Wr × List Ev)
  | 0, _ => .ub
  | fuel + 1, tr =>
      let r := os.write tr
      let tr := tr ++ [.write fd buf r]
      if r = .eintr then writeLoop os fd buf fuel tr else .ok (r, tr)

/-- zt_daemon.c 147-150: the close and the loop. -/
def closeLoop (os : Os) (fd : Nat) : (fuel : Nat) → List Ev → Outcome (Cl × List Ev)
  | 0, _ => .ub
  | fuel + 1, tr =>
      let r := os.close tr
      let tr := tr ++ [.close fd r]
      if r = .eintr then closeLoop os fd fuel tr else .ok (r, tr)

/-- snprintf(buf, 64, "%i\n", pid), if it fits. -/
def text (pid : Int) : Str := Num.signed pid ++ [0x0A]

/-- zt_daemon.c 132-145: the value of `oVal` afterwards. -/
def putPid (os : Os) (fd : Nat) (pid : Int) (fuel : Nat) (tr : List Ev) : Outcome (Int × List Ev) :=
  if 0 < (text pid).length ∧ (text pid).length < 64 then do
    let (r, tr) ← writeLoop os fd (text pid) fuel tr
    .ok (if r = .wrote (text pid).length then 0 else -1, tr)
  else .ok (-1, tr)

/-- zt_daemon.c 113-163 `zt_writepid`. -/
def writepid (os : Os) (path : Option Str) (pid : Int) (fuel : Nat) (tr : List Ev) : Outcome (Int × List Ev) :=
  match path with
  | none => .ok (-1, tr)
  | some p =>
      let r := os.creat tr
      let tr := tr ++ [.creat p r]
      match r with
      | none => .ok (-1, tr)
      | some fd => do
          let (oVal, tr) ← putPid os fd pid fuel tr
          let (v, tr) ← closeLoop os fd fuel tr
          .ok (if v = .done then oVal else -1, tr)

/-! ## zt_daemonize -/

/-- What a descriptor refers to. -/
inductive File where
  | devnull
  | other (k : Nat)
  deriving Repr, DecidableEq

/-- The state of a process: descriptors, whether it leads a session or belongs to one of its own parent's, the current directory and the umask. -/
structure Proc where
  fds : Nat → Option File
  ownSession : Bool
  cwd : Str
  umask : Nat

/-- How the call ends in a process. -/
inductive End where
  | exit (code : Int)
  | ret (value : Int) (p : Proc)

inductive Fork where
  | failed
  | parent
  | child
  deriving DecidableEq

/-- limits.h -/
def INT_MAX : Nat := 2 ^ 31 - 1

/-- zt_daemon.c 66-72: closing the descriptors; `i` is a rlim_t (64 bits). -/
def closeAll (rlim : Nat) : (fuel : Nat) → (i : Nat) → (Nat → Option File) → Outcome (Nat → Option File)
  | 0, _, _ => .ub
  | fuel + 1, i, fds =>
      if i < rlim then
        let i := if i > INT_MAX then INT_MAX else i
        closeAll rlim fuel (i + 1) (fun k => if k = i then none else fds k)
      else .ok fds

/-- The lowest free descriptor below the limit (open, dup). -/
def lowest (rlim : Nat) (fds : Nat → Option File) : Option Nat := (List.range rlim).find? fun k => fds k == none

/-- dup(fd), or open: the descriptor gets the file, if there is a free one. -/
def install (rlim : Nat) (f : Option File) (fds : Nat → Option File) : (Nat → Option File) × Option Nat :=
  match f, lowest rlim fds with
  | some f, some k => ((fun j => if j = k then some f else fds j), some k)
  | _, _ => (fds, none)

/-- zt_daemon.c 90-99: /dev/null as stdin, stdout and stderr. `null`: it can be opened. dup of -1 or of a closed descriptor fails. -/
def std (rlim : Nat) (null : Bool) (fds : Nat → Option File) : Nat → Option File :=
  let (fds, fd) := install rlim (if null then some .devnull else none) fds
  let (fds, _) := install rlim (fd.bind fds) fds
  (install rlim (fd.bind fds) fds).1

/-- The answers to the calls of zt_daemonize. -/
structure Answers where
  fork1 : Fork
  setsid : Bool
  rlim : Option Nat
  fork2 : Fork
  chdir : Bool
  null : Bool

/-- zt_daemon.c 81-87: the current directory afterwards; `none` for exit. -/
def enter (a : Answers) (root : Option Str) (p : Proc) : Option Proc :=
  match root with
  | none => some p
  | some r => if a.chdir then some { p with cwd := r } else none

/-- zt_daemon.c 42-110 `zt_daemonize`, as seen by the process that gets these answers. -/
def daemonize (a : Answers) (root : Option Str) (mask : Nat) (p : Proc) (fuel : Nat) : Outcome End :=
  match a.fork1 with
  | .failed => .ok (.exit 1)
  | .parent => .ok (.exit 0)
  | .child =>
      if ¬ a.setsid then .ok (.exit 1)
      else
        match a.rlim with
        | none => .ok (.exit 1)
        | some rlim => do
            let fds ← closeAll rlim fuel 0 p.fds
            match a.fork2 with
            | .failed => .ok (.exit 1)
            | .parent => .ok (.exit 0)
            | .child =>
                match enter a root { p with fds := fds, ownSession := true } with
                | none => .ok (.exit 1)
                | some p => .ok (.ret 0 { p with umask := mask, fds := std rlim a.null p.fds })

end ZT.Daemon
