import Verif.Mem
import Verif.Fuel

/-!
# zt_ipv4_tbl.c

`uint32_t` values are natural numbers below `2 ^ 32`. Nodes are numbers; `Heap` gives their contents. The memory pools are not part of this model: an
allocation gives a fresh object; only the number of slots of a block of the pool found under the name "zt_ipv4_node_hash" matters (`slots`), because
`zt_mem_pool_get` searches all pools of the process by name (zt_mem.c 513-527). `ntohl(inet_addr(s))` is a parameter `inet` on C strings.
-/

namespace ZT.Ipv4

/-- zt_ipv4_tbl.c 7-15 `netmask_tbl`. -/
def netmaskTbl : List Nat := [
  0x00000000, 0x80000000, 0xC0000000, 0xE0000000, 0xF0000000,
  0xF8000000, 0xFC000000, 0xFE000000, 0xFF000000, 0xFF800000,
  0xFFC00000, 0xFFE00000, 0xFFF00000, 0xFFF80000, 0xFFFC0000,
  0xFFFE0000, 0xFFFF0000, 0xFFFF8000, 0xFFFFC000, 0xFFFFE000,
  0xFFFFF000, 0xFFFFF800, 0xFFFFFC00, 0xFFFFFE00, 0xFFFFFF00,
  0xFFFFFF80, 0xFFFFFFC0, 0xFFFFFFE0, 0xFFFFFFF0, 0xFFFFFFF8,
  0xFFFFFFFC, 0xFFFFFFFE, 0xFFFFFFFF]

/-- zt_ipv4_tbl.h 10-15 `struct zt_ipv4_addr`. -/
structure Addr where
  bitlen : Nat
  addr : Nat
  mask : Nat
  broadcast : Nat
  deriving Repr, DecidableEq

/-- zt_ipv4_tbl.h 17-20 `struct zt_ipv4_node`; the address record is never changed after construction, so it is kept inline. -/
structure Node where
  next : Option Nat
  addr : Addr
  deriving Repr, DecidableEq

/-- The nodes in memory. -/
abbrev Heap := Nat → Option Node

/-- Store a node. -/
def upd (h : Heap) (i : Nat) (n : Node) : Heap := fun k => if k = i then some n else h k

/-- zt_ipv4_tbl.h 22-28 `struct zt_ipv4_tbl` without the pools. -/
structure Tbl where
  tbl : List (Option (List (Option Nat)))
  inn : List Nat
  sz : Nat
  any : Option Nat
  deriving Repr, DecidableEq

/-- zt_ipv4_tbl.c 31-62 `zt_ipv4_tbl_init`: calloc'ed table. -/
def init (size : Nat) : Tbl := ⟨List.replicate 32 none, List.replicate 32 0, if size = 0 then 128 else size, none⟩

/-- zt_ipv4_tbl.c 89-93: the record built from an address and a prefix length (`int`). -/
def mkAddr (ip : Nat) (bitlen : Int) : Outcome Addr :=
  if bitlen < 0 then .ub
  else do
    let mask ← rd netmaskTbl bitlen.toNat
    let a := ip &&& mask
    pure ⟨bitlen.toNat, a, mask, a ||| (0xFFFFFFFF &&& (2 ^ 32 - 1 - mask))⟩

/-- zt_ipv4_tbl.c 121-122: a fresh node. -/
def nodeInit (h : Heap) (id : Nat) (a : Addr) : Heap := upd h id ⟨none, a⟩

/-- zt_ipv4_tbl.c 156-166: get the slots of a prefix length, allocating them when missing. `memset` clears `sz` slots of a block of `slots`. -/
def getSlots (slots : Nat) (t : Tbl) (blen : Nat) : Outcome (List (Option Nat)) := do
  let e ← rd t.tbl blen
  match e with
  | some s => pure s
  | none => if t.sz ≤ slots then pure (List.replicate t.sz none) else .ub

/-- zt_ipv4_tbl.c 189-198: search for the prefix length; the index where the loop stopped and `is_in`. The list is `in[i..31]`. -/
def inLoop (bitlen : Nat) : List Nat → Nat → Nat × Bool
  | [], i => (i, false)
  | x :: xs, i => if x = 0 then (i, false) else if x = bitlen then (i, true) else inLoop bitlen xs (i + 1)

/-- zt_ipv4_tbl.c 169-175: the new head of the bucket. -/
def link (h : Heap) (node : Nat) (nd : Node) (slot : Option Nat) : Heap :=
  match slot with
  | some s => upd h node { nd with next := some s }
  | none => h

/-- zt_ipv4_tbl.c 127-209 `zt_ipv4_tbl_add_node`. -/
def addNode (slots : Nat) (h : Heap) (t : Tbl) (node : Nat) : Outcome (Heap × Tbl) :=
  match h node with
  | none => .ub
  | some nd =>
      if nd.addr.bitlen = 0 then .ok (h, { t with any := some node })
      else do
        let blen := nd.addr.bitlen - 1
        let s ← getSlots slots t blen
        let key := nd.addr.addr &&& (t.sz - 1)
        let slot ← rd s key
        let h := link h node nd slot
        let s ← wr s key (some node)
        let tb ← wr t.tbl blen (some s)
        let r := inLoop nd.addr.bitlen t.inn 0
        if r.2 then pure (h, { t with tbl := tb })
        else do
          let inn ← wr t.inn r.1 nd.addr.bitlen
          pure (h, { t with tbl := tb, inn := inn })

/-- zt_ipv4_tbl.c 211-236 `zt_ipv4_tbl_add_frm_str` after parsing; `node` is the address of the fresh node. The result is the returned node. -/
def add (slots : Nat) (h : Heap) (t : Tbl) (node ip : Nat) (bitlen : Int) : Outcome (Heap × Tbl × Nat) :=
  match t.any with
  | some a => .ok (h, t, a)
  | none => do
      let a ← mkAddr ip bitlen
      let (h, t) ← addNode slots (nodeInit h node a) t node
      pure (h, t, node)

/-- zt_ipv4_tbl.c 238-251 `ipv4_tbl_addr_cmp`. -/
def addrCmp (hay needle : Addr) : Bool := needle.addr ≥ hay.addr && needle.broadcast ≤ hay.broadcast

/-- zt_ipv4_tbl.c 279-285: the walk along a bucket. -/
def walk (h : Heap) (needle : Addr) : Nat → Option Nat → Outcome (Option Nat)
  | 0, _ => .ub
  | _ + 1, none => .ok none
  | fuel + 1, some m =>
      match h m with
      | none => .ub
      | some nd => if addrCmp nd.addr needle then .ok (some m) else walk h needle fuel nd.next

/-- zt_ipv4_tbl.c 264-286: the loop over the prefix lengths `in[i..31]`; after `in[31]` the code reads `in[32]`, outside the array. -/
def searchLoop (h : Heap) (t : Tbl) (needle : Addr) (fuel : Nat) : List Nat → Outcome (Option Nat)
  | [] => .ub
  | b :: bs =>
      if b = 0 then .ok none
      else do
        let mask ← rd netmaskTbl b
        let key := (needle.addr &&& mask) &&& (t.sz - 1)
        let e ← rd t.tbl (b - 1)
        match e with
        | none => .ub
        | some s => do
            let head ← rd s key
            let r ← walk h needle fuel head
            match r with
            | some m => .ok (some m)
            | none => searchLoop h t needle fuel bs

/-- zt_ipv4_tbl.c 253-289 `zt_ipv4_tbl_search_node`. -/
def search (h : Heap) (t : Tbl) (needle : Addr) (fuel : Nat) : Outcome (Option Nat) :=
  match t.any with
  | some a => .ok (some a)
  | none => searchLoop h t needle fuel t.inn

/-! ## Text -/

/-- Decimal digit. -/
def isDigit (b : Byte) : Bool := 48 ≤ b.toNat && b.toNat ≤ 57

/-- Value of the leading digits. -/
def digitsVal : List Byte → Nat → Nat
  | [], acc => acc
  | b :: bs, acc => if isDigit b then digitsVal bs (acc * 10 + (b.toNat - 48)) else acc

/-- isspace. -/
def isSpace (b : Byte) : Bool := b.toNat = 32 || (9 ≤ b.toNat && b.toNat ≤ 13)

/-- The optional sign and the digits. -/
def signed : List Byte → Int
  | [] => 0
  | b :: r => if b = 45 then -(digitsVal r 0 : Int) else if b = 43 then digitsVal r 0 else digitsVal (b :: r) 0

/-- libc `atoi` as glibc computes it: `(int) strtol(s, NULL, 10)`, which clamps to the range of `long` and then keeps the low 32 bits. -/
def atoi (s : List Byte) : Int :=
  let s := s.dropWhile isSpace
  let v := signed s
  let v := if v > 2 ^ 63 - 1 then 2 ^ 63 - 1 else if v < -2 ^ 63 then -2 ^ 63 else v
  let m := v % 2 ^ 32
  if m ≥ 2 ^ 31 then m - 2 ^ 32 else m

/-- zt_ipv4_tbl.c 332-379 `zt_ipv4_str2net`; `str` is the caller's memory from the first character on. `none` is the return value -1. -/
def str2net (inet : List Byte → Nat) (str : List Byte) : Outcome (Option (Nat × Int)) := do
  let n ← strlen str
  let s := str.take n
  let r : Option (List Byte × Int) ← match s.idxOf? 47 with
    | some k =>
        if k > 15 then pure none
        else pure (some (s.take k ++ List.replicate (16 - k) 0, atoi (s.drop (k + 1))))
    | none => if 16 ≤ str.length then pure (some (str.take 16, 32)) else .ub
  match r with
  | none => .ok none
  | some (save, bitlen) => do
      let m ← strlen save
      pure (some (inet (save.take m), if bitlen > 32 then 32 else bitlen))

/-- zt_ipv4_tbl.c 65-96 `zt_ipv4_addr_frm_str`. -/
def addrFrmStr (inet : List Byte → Nat) (str : List Byte) : Outcome (Option Addr) := do
  match ← str2net inet str with
  | none => pure none
  | some (ip, bitlen) => do
      let a ← mkAddr ip bitlen
      pure (some a)

end ZT.Ipv4
