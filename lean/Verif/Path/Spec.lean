import Verif.Path.Model

/-!
# A file system for zt_path.c

Directories and files in a tree; no symbolic links. A directory is writable or not (for whatever reason: permissions, a read-only or full device). Everything can be looked up in every directory.
-/

namespace ZT.Path

inductive Kind where
  | dir (writable : Bool)
  | file
  deriving Repr, DecidableEq

/-- What there is at the end of a sequence of names from the root, and the working directory. -/
structure FS where
  kind : List Str → Option Kind
  cwd : List Str

def FS.isDir (fs : FS) (p : List Str) : Bool :=
  match fs.kind p with
  | some (.dir _) => true
  | _ => false

def FS.has (fs : FS) (p : List Str) : Bool := (fs.kind p).isSome

/-- The root is a directory, everything else lies in a directory, and the working directory is one. -/
structure FS.Ok (fs : FS) : Prop where
  root : fs.isDir [] = true
  tree : ∀ p c, fs.has (p ++ [c]) = true → fs.isDir p = true
  cwd : fs.isDir fs.cwd = true

/-- The parts of a text between its slashes. -/
def segs : Str → List Str
  | [] => [[]]
  | c :: s =>
      if c = 47 then [] :: segs s
      else match segs s with
        | w :: ws => (c :: w) :: ws
        | [] => [[c]]

/-- The components of a path. -/
def comps (path : Str) : List Str := (segs path).filter (· ≠ [])

/-- Where a path starts: at the root or in the working directory. -/
def FS.start (fs : FS) (path : Str) : List Str := if path.head? = some 47 then [] else fs.cwd

/-- "." and ".." -/
def dotted (c : Str) : Bool := c = [46] ∨ c = [46, 46]

/-- One component further. -/
def step (cur : List Str) (c : Str) : List Str := if c = [46] then cur else if c = [46, 46] then cur.dropLast else cur ++ [c]

/-- The place that components denote. -/
def place (cur : List Str) (cs : List Str) : List Str := cs.foldl step cur

/-- NAME_MAX -/
def NAME_MAX : Nat := 255

/-- Looking up components: each but the last must lead to a directory. -/
def FS.walk (fs : FS) : List Str → List Str → Option (List Str)
  | cur, [] => some cur
  | cur, c :: cs => if fs.isDir cur = true ∧ c.length ≤ NAME_MAX then fs.walk (step cur c) cs else none

/-- stat(2) succeeds -/
def FS.stat (pm : Nat) (fs : FS) (path : Str) : Bool :=
  if path = [] ∨ pm ≤ path.length then false
  else match fs.walk (fs.start path) (comps path) with
    | some p => fs.has p && (path.getLast? ≠ some 47 || fs.isDir p)
    | none => false

/-- A new directory. -/
def FS.add (fs : FS) (p : List Str) (writable : Bool) : FS := { fs with kind := fun q => if q = p then some (.dir writable) else fs.kind q }

/-- mkdir(2); `nw`: the mode lets the new directory be written to. -/
def FS.mkdir (pm : Nat) (nw : Bool) (fs : FS) (path : Str) : FS × Option Err :=
  if path = [] ∨ pm ≤ path.length then (fs, some .other)
  else match (comps path).getLast? with
    | none => (fs, some .exist)
    | some c =>
        match fs.walk (fs.start path) (comps path).dropLast with
        | none => (fs, some .other)
        | some d =>
            if fs.isDir d = false then (fs, some .other)
            else if dotted c then (fs, some .exist)
            else if c.length > NAME_MAX then (fs, some .other)
            else if fs.has (d ++ [c]) then (fs, some .exist)
            else if fs.kind d = some (.dir true) then (fs.add (d ++ [c]) nw, none)
            else (fs, some .other)

/-- The system calls on this file system. -/
def fsOs (pm : Nat) (nw : Bool) : Os FS := { stat := FS.stat pm, mkdir := FS.mkdir pm nw }

end ZT.Path
