import Verif.Cstr.Paths

/-!
# zt_progname.c (Linux)

The two static buffers are lists of `pm + 1` bytes, where `pm` is PATH_MAX (zt_progname.c 35-36). Blocks hold C strings (`Cstr.IsStr`). The operating system is a parameter (`Env`). Log messages are left out.
-/

namespace ZT.Prog

open ZT.Cstr

abbrev Str := List Byte

/-- zt_progname.c 38-50 `zt_progname`: the contents of the static buffer afterwards, which is also the result. `strip`: `opts == STRIP_DIR`. The name does not lie in the buffer itself. -/
def progname (pm : Nat) (st : List Byte) (name : Option (List Byte)) (strip : Bool) : Outcome (List Byte) :=
  match name with
  | none => .ok st
  | some m => do
      let c ← rd m 0
      if c = 0 then .ok st
      else do
        let st ← memset0 st pm
        if strip then basename st pm m none
        else do
          let n ← strlen m
          memcpy st m (min pm n)

/-- zt_progname.c 38-50 for a name that lies in the static buffer, at offset `k` (such as the result of an earlier call, `k = 0`): the memset also clears the name. -/
def prognameSelf (pm : Nat) (st : List Byte) (k : Nat) (strip : Bool) : Outcome (List Byte) := do
  let c ← rd st k
  if c = 0 then .ok st
  else do
    let st ← memset0 st pm
    if strip then basename st pm (st.drop k) none
    else do
      let n ← strlen (st.drop k)
      memcpy st (st.drop k) (min pm n)

/-- What the operating system answers: `getenv("PATH")`; the block of zt_os_progpath (lines 76-108: calloc'ed, then readlink; `none`: no memory); whether `stat(path)` is 0; `getcwd` (`none`: it failed). -/
structure Env where
  path : Option (List Byte)
  exe : Option (List Byte)
  stat : Str → Bool
  cwd : Option (List Byte)

/-- zt.h 121 `ENV_SEPERATOR`. -/
def COLON : List Byte := [58, 0]
/-- "." -/
def DOT : List Byte := [46, 0]

/-- zt_progname.c 145-166: the loop over PATH; the block with the first path for which stat is 0. `offt` grows in each round, so `len + 1` rounds are enough. -/
def pathLoop (junk : Byte) (stat : Str → Bool) (path prog : List Byte) (len : Nat) : (fuel : Nat) → (offt base : Nat) → Outcome (Option (List Byte))
  | 0, _, _ => .ub
  | fuel + 1, offt, base =>
      if offt < len then do
        let sofft ← any path offt (-1) COLON
        if sofft < 0 then .ok none
        else do
          let tpath ← catv junk [⟨path, base, sofft - 1⟩, ⟨SEP, 0, -1⟩, ⟨prog, 0, -1⟩]
          let n ← strlen tpath
          if stat (tpath.take n) then .ok (some tpath) else pathLoop junk stat path prog len fuel (sofft.toNat + 1) (sofft.toNat + 1)
      else .ok none

/-- zt_progname.c 168-175: nothing found. -/
def fallback (pm : Nat) (env : Env) (st : List Byte) : Outcome (List Byte) := do
  let r ← strcmp st DOT
  if r = 0 then
    match env.cwd with
    | some c => do
        let (_, st) ← copy c 0 (-1) st pm
        pure st
    | none => .ok st
  else .ok st

/-- zt_progname.c 122-175: the program was given without a directory. -/
def search (pm : Nat) (junk : Byte) (env : Env) (st prog : List Byte) : Outcome (List Byte) :=
  match env.path with
  | none =>
      match env.exe with
      | none => .ok st
      | some e => dirname st pm e
  | some path => do
      let len ← strlen path
      let r ← pathLoop junk env.stat path prog len (len + 1) 0 0
      match r with
      | some tpath => dirname st pm tpath
      | none => fallback pm env st

/-- zt_progname.c 186-191: without a leading "./". -/
def skipDot (st : List Byte) : Outcome (List Byte) := do
  let c ← rd st 0
  if c = 46 then do
    let d ← rd st 1
    if d = 47 then ptr st 2 else .ok st
  else .ok st

/-- zt_progname.c 177-197: the program was given with a directory. -/
def located (pm : Nat) (junk : Byte) (env : Env) (st : List Byte) : Outcome (List Byte) :=
  match env.cwd with
  | none => .ok st
  | some cwd => do
      let c ← rd st 0
      if c ≠ 47 then do
        let pp ← skipDot st
        let tpath ← pathAppend junk cwd pp
        let (_, st) ← copy tpath 0 (-1) st pm
        pure st
      else .ok st

/-- zt_progname.c 121: `_progpath[0] == '\0' || strcmp(_progpath, ".") == 0` -/
def isBare (st : List Byte) : Outcome Bool := do
  let c ← rd st 0
  if c = 0 then .ok true
  else do
    let r ← strcmp st DOT
    pure (decide (r = 0))

/-- zt_progname.c 110-201 `zt_progpath`: the static buffer afterwards, which is also the result. -/
def progpath (pm : Nat) (junk : Byte) (env : Env) (st : List Byte) (prog : Option (List Byte)) : Outcome (List Byte) :=
  match prog with
  | none => .ok st
  | some m => do
      let c ← rd m 0
      if c = 0 then .ok st
      else do
        let st ← memset0 st pm
        let st ← dirname st pm m
        let b ← isBare st
        if b then search pm junk env st m else located pm junk env st

end ZT.Prog
