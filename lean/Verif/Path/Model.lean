import Verif.Cstr.Paths
import Verif.Fuel

/-!
# zt_path.c

The operating system is a parameter (`Os`): what `stat` and `mkdir` answer in a world `W`. `Path/Spec.lean` gives a file system. The log messages of a failure are left out. `pm` is PATH_MAX.
-/

namespace ZT.Path

open ZT.Cstr

abbrev Str := List Byte

/-- `errno` after a failed mkdir: EEXIST or anything else. -/
inductive Err where
  | exist
  | other
  deriving Repr, DecidableEq

/-- The system calls: whether `stat(path)` is 0, and the effect and result (`none`: 0) of `mkdir(path, mode)`. -/
structure Os (W : Type) where
  stat : W → Str → Bool
  mkdir : W → Str → W × Option Err

variable {W : Type}

/-- The string in a block; without a terminator it is read past its end. -/
def text (m : List Byte) : Outcome Str := do
  let n ← strlen m
  pure (m.take n)

/-- zt_path.c 54-62: a parent directory. `true`: go on. -/
def parent (os : Os W) (w : W) (p : Str) : W × Bool :=
  if os.stat w p then (w, true)
  else match os.mkdir w p with
    | (w, none) => (w, true)
    | (w, some _) => (w, false)

/-- zt_path.c 43-63: the parent directories. `true`: `goto AGAIN`; `false`: `return -1`. Each round advances `offt`, so `len + 1` rounds are enough. -/
def parents (os : Os W) (path : List Byte) (len : Nat) : (fuel : Nat) → W → (cpath : List Byte) → (offt : Nat) → Outcome (W × Bool)
  | 0, _, _, _ => .ub
  | fuel + 1, w, cpath, offt =>
      if len > offt then do
        let k ← find path offt (-1) SEP
        if k = -1 then .ok (w, true)
        else do
          let cpath ← memcpy cpath path (min cpath.length k.toNat)
          if k.toNat + 1 = 1 then parents os path len fuel w cpath (k.toNat + 1)
          else do
            let p ← text cpath
            match parent os w p with
            | (w, true) => parents os path len fuel w cpath (k.toNat + 1)
            | (w, false) => .ok (w, false)
      else .ok (w, true)

/-- zt_path.c 16-66 `zt_mkdir`; `create` is the flag zt_mkdir_create_parent. The world afterwards and the result. -/
def mkdir (os : Os W) (pm : Nat) (path : List Byte) (create : Bool) : (fuel : Nat) → W → Outcome (W × Int)
  | 0, _ => .ub
  | fuel + 1, w => do
      let p ← text path
      match os.mkdir w p with
      | (w, none) => .ok (w, 0)
      | (w, some .exist) => .ok (w, 0)
      | (w, some .other) =>
          if create = false then .ok (w, -1)
          else do
            let len ← strlen path
            let x ← parents os path len (len + 1) w (List.replicate (pm + 1) 0) 0
            match x with
            | (w, true) => mkdir os pm path create fuel w
            | (w, false) => .ok (w, -1)

/-- zt_path.c 71-80 `zt_path_exists` -/
def exists_ (os : Os W) (w : W) (path : List Byte) : Outcome Int := do
  let p ← text path
  pure (if os.stat w p then 0 else -1)

/-- zt_path.c 98-117: the loop of zt_find_basedir. The block returned or `NULL`. -/
def basedirLoop (os : Os W) (w : W) (pm : Nat) (trigger : List Byte) : (fuel : Nat) → (lpath : List Byte) → Outcome (Option (List Byte))
  | 0, _ => .ub
  | fuel + 1, lpath => do
      let l ← text lpath
      let t ← text trigger
      if os.stat w ((l ++ 47 :: t).take pm) then .ok (some (l ++ [47, 0]))
      else if l.length = 0 then .ok none
      else do
        let k ← rfind lpath 0 (-1) SEP
        if k = -1 then .ok none
        else do
          let lpath ← wr lpath k.toNat 0
          basedirLoop os w pm trigger fuel lpath

/-- zt_path.c 86-120 `zt_find_basedir` -/
def findBasedir (os : Os W) (w : W) (pm : Nat) (path trigger : List Byte) (fuel : Nat) : Outcome (Option (List Byte)) := do
  let len ← strlen path
  let lpath ← memcpy (List.replicate (pm + 1) 0) path (min len (pm + 1))
  basedirLoop os w pm trigger fuel lpath

end ZT.Path
