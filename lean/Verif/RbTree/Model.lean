import Verif.Mem

/-!
# zt_tree.c: red-black trees with embedded nodes

Nodes are addresses (`Nat`); pointers are `Option Nat` with `none` = NULL. Following NULL is undefined. `head` is the user's root
variable (`zt_rbt **head`). The comparison callback is a pure function of the two node addresses (keys do not change while nodes are in
the tree). Loops carry `fuel`; running out is `ub` (the theorems show that enough fuel exists).
-/

namespace ZT.RbTree

abbrev Ptr := Option Nat

/-- zt_tree.h 39. -/
inductive Colour where
  | red
  | black
  deriving Repr, DecidableEq

/-- The root variable and the fields of all nodes; zt_tree.h 38-41. -/
structure St where
  head : Ptr
  left : Nat → Ptr
  right : Nat → Ptr
  parent : Nat → Ptr
  colour : Nat → Colour

/-- `zt_rbt_left(a) = p` etc.; zt_tree.h 52-55. -/
def St.setL (S : St) (a : Nat) (p : Ptr) : St := { S with left := fun x => if x = a then p else S.left x }
def St.setR (S : St) (a : Nat) (p : Ptr) : St := { S with right := fun x => if x = a then p else S.right x }
def St.setP (S : St) (a : Nat) (p : Ptr) : St := { S with parent := fun x => if x = a then p else S.parent x }
def St.setC (S : St) (a : Nat) (c : Colour) : St := { S with colour := fun x => if x = a then c else S.colour x }
/-- `*head = p`. -/
def St.setH (S : St) (p : Ptr) : St := { S with head := p }

/-- Dereferencing. -/
def deref : Ptr → Outcome Nat
  | some a => .ok a
  | none => .ub

/-- `if (p) zt_rbt_parent(p) = q`. -/
def setPIf (S : St) (p : Ptr) (q : Ptr) : St :=
  match p with
  | some b => S.setP b q
  | none => S

/-- `if (p) zt_rbt_colour(p) = c`. -/
def setCIf (S : St) (p : Ptr) (c : Colour) : St :=
  match p with
  | some b => S.setC b c
  | none => S

/-- The replacement of the child `elm` of `par` by `q`: zt_tree.c 64-70, 80-86, 255-263, 273-281, 300-308. -/
def relink (S : St) (par : Ptr) (elm : Nat) (q : Ptr) : St :=
  match par with
  | some p => if S.left p = some elm then S.setL p q else S.setR p q
  | none => S.setH q

/-- zt_tree.c 59-73 `zt_rbt_rotate_left(head, elm, tmp)`; also returns `tmp`. -/
def rotateLeft (S : St) (elm : Nat) : Outcome (St × Nat) := do
  let tmp ← deref (S.right elm)
  let S := S.setR elm (S.left tmp)
  let S := setPIf S (S.left tmp) (some elm)
  let S := S.setP tmp (S.parent elm)
  let S := relink S (S.parent elm) elm (some tmp)
  let S := S.setL tmp (some elm)
  let S := S.setP elm (some tmp)
  pure (S, tmp)

/-- zt_tree.c 75-89 `zt_rbt_rotate_right(head, elm, tmp)`. -/
def rotateRight (S : St) (elm : Nat) : Outcome (St × Nat) := do
  let tmp ← deref (S.left elm)
  let S := S.setL elm (S.right tmp)
  let S := setPIf S (S.right tmp) (some elm)
  let S := S.setP tmp (S.parent elm)
  let S := relink S (S.parent elm) elm (some tmp)
  let S := S.setR tmp (some elm)
  let S := S.setP elm (some tmp)
  pure (S, tmp)

/-- `tmp && zt_rbt_colour(tmp) == zt_rbt_red`. -/
def isRed (S : St) : Ptr → Bool
  | some a => S.colour a == .red
  | none => false

/-- zt_tree.c 52-57 `zt_rbt_set_blackred`. -/
def setBlackRed (S : St) (b r : Nat) : St := (S.setC b .black).setC r .red

/-- The loop of zt_tree.c 99-135. -/
def insertColourLoop : (fuel : Nat) → St → (elt : Nat) → Outcome St
  | 0, _, _ => .ub
  | fuel + 1, S, elt =>
    match S.parent elt with
    | none => .ok S
    | some parent =>
      if S.colour parent = .red then do
        let gparent ← deref (S.parent parent)
        if S.left gparent = some parent then do
          let tmp := S.right gparent
          if isRed S tmp then do
            let t ← deref tmp
            let S := S.setC t .black
            let S := setBlackRed S parent gparent
            insertColourLoop fuel S gparent
          else do
            let (S, parent, elt) ← if S.right parent = some elt then do
                let (S, _) ← rotateLeft S parent
                pure (S, elt, parent)
              else pure (S, parent, elt)
            let S := setBlackRed S parent gparent
            let (S, _) ← rotateRight S gparent
            insertColourLoop fuel S elt
        else do
          let tmp := S.left gparent
          if isRed S tmp then do
            let t ← deref tmp
            let S := S.setC t .black
            let S := setBlackRed S parent gparent
            insertColourLoop fuel S gparent
          else do
            let (S, parent, elt) ← if S.left parent = some elt then do
                let (S, _) ← rotateRight S parent
                pure (S, elt, parent)
              else pure (S, parent, elt)
            let S := setBlackRed S parent gparent
            let (S, _) ← rotateLeft S gparent
            insertColourLoop fuel S elt
      else .ok S

/-- zt_tree.c 92-137 `zt_rbt_insert_colour`. -/
def insertColour (fuel : Nat) (S : St) (elt : Nat) : Outcome St := do
  let S ← insertColourLoop fuel S elt
  let h ← deref S.head
  pure (S.setC h .black)

/-- zt_tree.c 155-181: `elm` is a left child of `par` and its sibling `tmp` is black; `k` is the next iteration of the loop. -/
def rcLeft (k : St → Ptr → Ptr → Outcome (St × Ptr)) (S : St) (par tmp : Nat) : Outcome (St × Ptr) :=
  if !isRed S (S.left tmp) && !isRed S (S.right tmp) then
    let S := S.setC tmp .red
    k S (S.parent par) (some par)
  else do
    let (S, tmp) ← if !isRed S (S.right tmp) then do
        let S := setCIf S (S.left tmp) .black
        let S := S.setC tmp .red
        let (S, _) ← rotateRight S tmp
        let tmp ← deref (S.right par)
        pure (S, tmp)
      else pure (S, tmp)
    let S := S.setC tmp (S.colour par)
    let S := S.setC par .black
    let S := setCIf S (S.right tmp) .black
    let (S, _) ← rotateLeft S par
    pure (S, S.head)

/-- zt_tree.c 191-217: the mirror image. -/
def rcRight (k : St → Ptr → Ptr → Outcome (St × Ptr)) (S : St) (par tmp : Nat) : Outcome (St × Ptr) :=
  if !isRed S (S.left tmp) && !isRed S (S.right tmp) then
    let S := S.setC tmp .red
    k S (S.parent par) (some par)
  else do
    let (S, tmp) ← if !isRed S (S.left tmp) then do
        let S := setCIf S (S.right tmp) .black
        let S := S.setC tmp .red
        let (S, _) ← rotateLeft S tmp
        let tmp ← deref (S.left par)
        pure (S, tmp)
      else pure (S, tmp)
    let S := S.setC tmp (S.colour par)
    let S := S.setC par .black
    let S := setCIf S (S.left tmp) .black
    let (S, _) ← rotateRight S par
    pure (S, S.head)

/-- The loop of zt_tree.c 144-221; returns the final `elm`. -/
def removeColourLoop : (fuel : Nat) → St → (parent elm : Ptr) → Outcome (St × Ptr)
  | 0, _, _, _ => .ub
  | fuel + 1, S, parent, elm =>
    if isRed S elm || elm == S.head then .ok (S, elm) else do
      let par ← deref parent
      if S.left par = elm then do
        let tmp ← deref (S.right par)
        if S.colour tmp = .red then do
          let S := setBlackRed S tmp par
          let (S, _) ← rotateLeft S par
          match S.right par with
          | none => .abort
          | some t => rcLeft (removeColourLoop fuel) S par t
        else rcLeft (removeColourLoop fuel) S par tmp
      else do
        let tmp ← deref (S.left par)
        if S.colour tmp = .red then do
          let S := setBlackRed S tmp par
          let (S, _) ← rotateRight S par
          match S.left par with
          | none => .abort
          | some t => rcRight (removeColourLoop fuel) S par t
        else rcRight (removeColourLoop fuel) S par tmp

/-- zt_tree.c 139-225 `zt_rbt_remove_colour`. -/
def removeColour (fuel : Nat) (S : St) (parent elm : Ptr) : Outcome St := do
  let (S, elm) ← removeColourLoop fuel S parent elm
  pure (setCIf S elm .black)

/-- The loop of zt_tree.c 245-247 and 404-406: the leftmost node below `elm`. -/
def leftmost (S : St) : (fuel : Nat) → Nat → Outcome Nat
  | 0, _ => .ub
  | fuel + 1, elm =>
    match S.left elm with
    | some l => leftmost S fuel l
    | none => .ok elm

/-- zt_tree.c 295-308 (also 249-263): splice `elm` out, `child` takes its place. -/
def splice (S : St) (elm : Nat) (child : Ptr) : St :=
  let parent := S.parent elm
  let S := setPIf S child parent
  relink S parent elm child

/-- zt_tree.c 268-287: `elm` takes the place, the colour and the neighbours of `old`. -/
def replaceNode (S : St) (old elm : Nat) : Outcome St := do
  let S := S.setL elm (S.left old)
  let S := S.setR elm (S.right old)
  let S := S.setP elm (S.parent old)
  let S := S.setC elm (S.colour old)
  let S := relink S (S.parent old) old (some elm)
  let l ← deref (S.left old)
  let S := S.setP l (some elm)
  pure (setPIf S (S.right old) (some elm))

/-- zt_tree.c 228-314 `zt_rbt_remove`; it returns its argument. -/
def remove (fuel : Nat) (S : St) (old : Nat) : Outcome St :=
  match S.left old, S.right old with
  | some _, some r => do
      let elm ← leftmost S fuel r
      let child := S.right elm
      let parent := S.parent elm
      let colour := S.colour elm
      let S := splice S elm child
      let parent := if S.parent elm = some old then some elm else parent
      let S ← replaceNode S old elm
      if colour = .black then removeColour fuel S parent child else pure S
  | l, r => do
      let child := if l = none then r else l
      let parent := S.parent old
      let colour := S.colour old
      let S := splice S old child
      if colour = .black then removeColour fuel S parent child else pure S

/-- The loop of zt_tree.c 324-335: `inl` the node equal to elm, `inr` the last node visited and the last comparison. -/
def insertSearch (cmp : Nat → Nat → Int) (S : St) (elm : Nat) : (fuel : Nat) → (tmp parent : Ptr) → (comp : Int) → Outcome (Nat ⊕ (Ptr × Int))
  | 0, _, _, _ => .ub
  | _ + 1, none, parent, comp => .ok (.inr (parent, comp))
  | fuel + 1, some t, _, _ =>
      let comp := cmp elm t
      if comp < 0 then insertSearch cmp S elm fuel (S.left t) (some t) comp
      else if comp > 0 then insertSearch cmp S elm fuel (S.right t) (some t) comp
      else .ok (.inl t)

/-- zt_tree.c 44-50 `zt_rbt_set`. -/
def setNode (S : St) (e : Nat) (p : Ptr) : St := (((S.setP e p).setR e none).setL e none).setC e .red

/-- zt_tree.c 337-345: the link to the new node. -/
def hang (S : St) (parent : Ptr) (comp : Int) (elm : Nat) : St :=
  match parent with
  | some p => if comp < 0 then S.setL p (some elm) else S.setR p (some elm)
  | none => S.setH (some elm)

/-- zt_tree.c 317-349 `zt_rbt_insert`: the equal node already present (none = NULL) and the new state. -/
def insert (cmp : Nat → Nat → Int) (fuel : Nat) (S : St) (elm : Nat) : Outcome (Ptr × St) := do
  let r ← insertSearch cmp S elm fuel S.head none 0
  match r with
  | .inl t => pure (some t, S)
  | .inr (parent, comp) => do
      let S := setNode S elm parent
      let S := hang S parent comp elm
      let S ← insertColour fuel S elm
      pure (none, S)

/-- zt_tree.c 352-370 `zt_rbt_find` from `tmp`. -/
def find (cmp : Nat → Nat → Int) (S : St) (elm : Nat) : (fuel : Nat) → (tmp : Ptr) → Outcome Ptr
  | 0, _ => .ub
  | _ + 1, none => .ok none
  | fuel + 1, some t =>
      let comp := cmp elm t
      if comp < 0 then find cmp S elm fuel (S.left t)
      else if comp > 0 then find cmp S elm fuel (S.right t)
      else .ok (some t)

/-- zt_tree.c 373-393 `zt_rbt_nfind` from `tmp` with the current `res`. -/
def nfind (cmp : Nat → Nat → Int) (S : St) (elm : Nat) : (fuel : Nat) → (tmp res : Ptr) → Outcome Ptr
  | 0, _, _ => .ub
  | _ + 1, none, res => .ok res
  | fuel + 1, some t, res =>
      let comp := cmp elm t
      if comp < 0 then nfind cmp S elm fuel (S.left t) (some t)
      else if comp > 0 then nfind cmp S elm fuel (S.right t) res
      else .ok (some t)

/-- The loop of zt_tree.c 412-415: climbs while `elm` is a right child. -/
def climb (S : St) : (fuel : Nat) → Nat → Outcome Nat
  | 0, _ => .ub
  | fuel + 1, elm =>
    match S.parent elm with
    | none => .ok elm
    | some p => if S.right p = some elm then climb S fuel p else .ok elm

/-- zt_tree.c 395-420 `zt_rbt_next`. -/
def next (fuel : Nat) (S : St) (elm : Ptr) : Outcome Ptr :=
  match elm with
  | none => .ok none
  | some e =>
    match S.right e with
    | some r => do
        let x ← leftmost S fuel r
        pure (some x)
    | none =>
      match S.parent e with
      | some p =>
        if S.left p = some e then .ok (some p)
        else do
          let x ← climb S fuel e
          pure (S.parent x)
      | none => do
          let x ← climb S fuel e
          pure (S.parent x)

/-- The loop of zt_tree.c 428-435. -/
def minmaxLoop (S : St) (val : Int) : (fuel : Nat) → (tmp parent : Ptr) → Outcome Ptr
  | 0, _, _ => .ub
  | _ + 1, none, parent => .ok parent
  | fuel + 1, some t, _ => minmaxLoop S val fuel (if val < 0 then S.left t else S.right t) (some t)

/-- zt_tree.c 422-437 `zt_rbt_minmax`. -/
def minmax (fuel : Nat) (S : St) (val : Int) : Outcome Ptr := minmaxLoop S val fuel S.head none

/-- zt_tree.h 70-73 `zt_rbt_for_each` from `x`: the nodes the body is run on, in order (the body does not change the tree). `n` bounds the
iterations. -/
def forEachLoop (fuel : Nat) (S : St) : (n : Nat) → (x : Ptr) → Outcome (List Nat)
  | 0, _ => .ub
  | _ + 1, none => .ok []
  | n + 1, some x => do
      let nx ← next fuel S (some x)
      let rest ← forEachLoop fuel S n nx
      pure (x :: rest)

/-- zt_tree.h 70-73. -/
def forEach (fuel n : Nat) (S : St) : Outcome (List Nat) := do
  let x ← minmax fuel S (-1)
  forEachLoop fuel S n x

/-- zt_tree.h 75-78 `zt_rbt_for_each_safe` whose body removes the current node from the tree; returns the nodes visited and the final state. -/
def drainLoop (fuel : Nat) : (n : Nat) → St → (x nx : Ptr) → Outcome (List Nat × St)
  | 0, _, _, _ => .ub
  | _ + 1, S, none, _ => .ok ([], S)
  | n + 1, S, some x, nx => do
      let S ← remove fuel S x
      let nn ← next fuel S nx
      let (rest, S) ← drainLoop fuel n S nx nn
      pure (x :: rest, S)

/-- zt_tree.h 75-78 with a removing body. -/
def drain (fuel n : Nat) (S : St) : Outcome (List Nat × St) := do
  let x ← minmax fuel S (-1)
  let nx ← next fuel S x
  drainLoop fuel n S x nx

/-- zt_tree.h 56 `zt_rbt_empty(e)`, as applied to the root variable. -/
def emptyMacro (S : St) : Outcome Bool := do
  let h ← deref S.head
  pure (decide (S.parent h = none))

end ZT.RbTree
