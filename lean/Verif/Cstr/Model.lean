import Verif.Mem

/-!
# zt_cstr.c: slices, searches, comparison, mapping, trimming, paths, splitting

A pointer to a string is the memory block it points to (a list of bytes that must contain a terminator; what follows the terminator is part of the block). Loads and stores outside the block are undefined
behaviour. `ssize_t` values are integers and strings are shorter than 2^63 bytes, so index arithmetic does not wrap; the one product that can (zt_cstr_dup's allocation) is computed modulo 2^64. `char` is signed
(x86-64), zt_malloc gives a block with arbitrary contents (`junk`) and aborts when there is no memory (not modelled). Pointers are not NULL, except where the code handles it (`Option`). The separator is "/"
(zt.h 118), not Windows'.
-/

namespace ZT.Cstr

/-! ## The C library on blocks -/

/-- The pointer `&s[i]`. -/
def ptr (s : List Byte) (i : Int) : Outcome (List Byte) := if 0 ≤ i ∧ i ≤ s.length then .ok (s.drop i.toNat) else .ub

/-- `s[i]` -/
def rdI (s : List Byte) (i : Int) : Outcome Byte := if 0 ≤ i then rd s i.toNat else .ub

/-- The value of a (signed) char. -/
def schar (b : Byte) : Int := Int.bmod b.toNat 256

/-- `strncmp`: at most `n` characters, compared as unsigned, up to the terminator. (Only the sign of the result is specified by C; here it is -1, 0 or 1.) -/
def strncmp : Nat → List Byte → List Byte → Outcome Int
  | 0, _, _ => .ok 0
  | n + 1, a :: as, b :: bs => if a ≠ b then .ok (if a < b then -1 else 1) else if a = 0 then .ok 0 else strncmp n as bs
  | _ + 1, _, _ => .ub

/-- `strcmp` -/
def strcmp : List Byte → List Byte → Outcome Int
  | a :: as, b :: bs => if a ≠ b then .ok (if a < b then -1 else 1) else if a = 0 then .ok 0 else strcmp as bs
  | _, _ => .ub

/-- `strchr`: offset of the first `c`; the terminator counts as a character. -/
def strchr : List Byte → Byte → Outcome (Option Nat)
  | [], _ => .ub
  | b :: bs, c => if b = c then .ok (some 0) else if b = 0 then .ok none else do
      let r ← strchr bs c
      pure (r.map (· + 1))

/-- `strrchr`: offset of the last `c`. -/
def strrchr : List Byte → Byte → Outcome (Option Nat)
  | [], _ => .ub
  | b :: bs, c => if b = 0 then .ok (if b = c then some 0 else none) else do
      let r ← strrchr bs c
      pure (match r with
        | some k => some (k + 1)
        | none => if b = c then some 0 else none)

/-- `strspn` -/
def strspn : List Byte → List Byte → Outcome Nat
  | [], _ => .ub
  | b :: bs, set => if b = 0 then .ok 0 else do
      let r ← strchr set b
      if r.isSome then do
        let n ← strspn bs set
        pure (n + 1)
      else pure 0

/-- `strcspn` -/
def strcspn : List Byte → List Byte → Outcome Nat
  | [], _ => .ub
  | b :: bs, set => if b = 0 then .ok 0 else do
      let r ← strchr set b
      if r.isSome then pure 0
      else do
        let n ← strcspn bs set
        pure (n + 1)

/-- `memset(b, 0, n)` -/
def memset0 (b : List Byte) (n : Nat) : Outcome (List Byte) := if n ≤ b.length then .ok (List.replicate n 0 ++ b.drop n) else .ub

/-- `memcpy(to, from, n)` -/
def memcpy (dst src : List Byte) (n : Nat) : Outcome (List Byte) := if n ≤ dst.length ∧ n ≤ src.length then .ok (src.take n ++ dst.drop n) else .ub

/-- The characters of the string at the beginning of a block: its bytes before the terminator (`strdup` copies these). -/
def cstr (m : List Byte) : List Byte := m.takeWhile (· ≠ 0)

/-! ## Slices -/

/-- zt_cstr.c 71-77 `BASE`. -/
def base (i : Int) (len : Nat) : Int := if i ≥ len then len - 1 else i

/-- zt_cstr.c 80-91 `IDX`. -/
def idx (i : Int) (len : Nat) : Int := if i < 0 then base (i + len) len else base i len

/-- zt_cstr.c 43-47: the smaller index first. -/
def order (i j : Int) : Int × Int := if i > j then (j, i) else (i, j)

/-- zt_cstr.c 36-53 `CONVERT`. -/
def convert (s : List Byte) (i j : Int) : Outcome (Int × Int) := do
  let len ← strlen s
  if len > 0 then
    let (i, j) := order (idx i len) (idx j len)
    if i ≥ 0 ∧ j < len then .ok (i, j) else .abort
  else .ok (0, 0)

/-- zt_cstr.c 56-67 `IDXLEN`. -/
def idxlen (i j : Int) : Outcome Nat :=
  let r := if i < j then (j - i) + 1 else (i - j) + 1
  if r > 0 then .ok r.toNat else .abort

/-- Enough rounds for a loop from `i` to `j`. -/
def rounds (i j : Int) : Nat := (j + 1 - i).toNat + 1

/-- `while (i <= j) *p++ = f(s[i++]);` with `p` an index into `new`. -/
def copyUp (s : List Byte) (f : Byte → Outcome Byte) (j : Int) : (fuel : Nat) → (i : Int) → (new : List Byte) → (p : Nat) → Outcome (List Byte × Nat)
  | 0, _, _, _ => .ub
  | fuel + 1, i, new, p =>
      if i ≤ j then do
        let c ← rdI s i
        let c ← f c
        let new ← wr new p c
        copyUp s f j fuel (i + 1) new (p + 1)
      else .ok (new, p)

/-- zt_cstr.c 97-114 `zt_cstr_sub`: the block returned. -/
def sub (junk : Byte) (s : List Byte) (i j : Int) : Outcome (List Byte) := do
  let (i, j) ← convert s i j
  let n ← idxlen i j
  let new := List.replicate (n + 1) junk
  let (new, p) ← copyUp s .ok j (rounds i j) i new 0
  wr new p 0

/-- zt_cstr.c 135-140: `while (n-- > 0) for (k = i; k <= j; k++) *p++ = s[k];` -/
def dupLoop (s : List Byte) (i j : Int) : (n : Nat) → (new : List Byte) → (p : Nat) → Outcome (List Byte × Nat)
  | 0, new, p => .ok (new, p)
  | n + 1, new, p => do
      let (new, p) ← copyUp s .ok j (rounds i j) i new p
      dupLoop s i j n new p

/-- zt_cstr.c 119-146 `zt_cstr_dup`; `size_t` arithmetic for the allocation. -/
def dup (junk : Byte) (s : Option (List Byte)) (i j n : Int) : Outcome (Option (List Byte)) :=
  if n ≥ 0 then
    match s with
    | none => .ok none
    | some s => do
        let (i, j) ← convert s i j
        let len ← idxlen i j
        let new := List.replicate ((n.toNat * len + 1) % 2 ^ 64) junk
        let (new, p) ← dupLoop s i j n.toNat new 0
        let new ← wr new p 0
        pure (some new)
  else .abort

/-- zt_cstr.c 151-171 `zt_cstr_cat`. -/
def cat (junk : Byte) (s1 : List Byte) (i1 j1 : Int) (s2 : List Byte) (i2 j2 : Int) : Outcome (List Byte) := do
  let (i1, j1) ← convert s1 i1 j1
  let (i2, j2) ← convert s2 i2 j2
  let n1 ← idxlen i1 j1
  let n2 ← idxlen i2 j2
  let new := List.replicate (n1 + n2 + 1) junk
  let (new, p) ← copyUp s1 .ok j1 (rounds i1 j1) i1 new 0
  let (new, p) ← copyUp s2 .ok j2 (rounds i2 j2) i2 new p
  wr new p 0

/-- An argument of zt_cstr_catv: a string and its slice. -/
structure Piece where
  s : List Byte
  i : Int
  j : Int
  deriving Repr, DecidableEq

/-- zt_cstr.c 188-195: the length. -/
def catvLen : List Piece → Nat → Outcome Nat
  | [], len => .ok len
  | x :: xs, len => do
      let (i, j) ← convert x.s x.i x.j
      let n ← idxlen i j
      catvLen xs (len + (n + 1))

/-- zt_cstr.c 203-213: the copy. -/
def catvCopy : List Piece → (new : List Byte) → (p : Nat) → Outcome (List Byte × Nat)
  | [], new, p => .ok (new, p)
  | x :: xs, new, p => do
      let (i, j) ← convert x.s x.i x.j
      let (new, p) ← copyUp x.s .ok j (rounds i j) i new p
      catvCopy xs new p

/-- zt_cstr.c 176-217 `zt_cstr_catv`; the argument list up to the NULL. Result: the block and the number of bytes used of it. -/
def catv (junk : Byte) (xs : List Piece) : Outcome (List Byte) := do
  let len ← catvLen xs 0
  let new := List.replicate (len + 1) junk
  let (new, p) ← catvCopy xs new 0
  wr new p 0

/-- zt_cstr.c 231-233: `while (i <= j) *p++ = s[j--];` -/
def copyDown (s : List Byte) (i : Int) : (fuel : Nat) → (j : Int) → (new : List Byte) → (p : Nat) → Outcome (List Byte × Nat)
  | 0, _, _, _ => .ub
  | fuel + 1, j, new, p =>
      if i ≤ j then do
        let c ← rdI s j
        let new ← wr new p c
        copyDown s i fuel (j - 1) new (p + 1)
      else .ok (new, p)

/-- zt_cstr.c 222-237 `zt_cstr_reverse`. -/
def reverse (junk : Byte) (s : List Byte) (i j : Int) : Outcome (List Byte) := do
  let (i, j) ← convert s i j
  let n ← idxlen i j
  let new := List.replicate (n + 1) junk
  let (new, p) ← copyDown s i (rounds i j) j new 0
  wr new p 0

/-- zt_cstr.c 246-268: the table; entries from 226 on are zero. -/
def identity : List Byte := (List.range 226).map UInt8.ofNat ++ List.replicate 30 0

/-- zt_cstr.c 270-276: entering the pairs, and the assertion that both strings end together. -/
def fillMap : List Byte → List Byte → List Byte → Outcome (List Byte)
  | f :: fs, t :: ts, map =>
      if f ≠ 0 ∧ t ≠ 0 then do
        let map ← wr map f.toNat t
        fillMap fs ts map
      else if f = 0 ∧ t = 0 then .ok map else .abort
  | _, _, _ => .ub

/-- `if (from && to)` -/
def mapTable (from_ to : Option (List Byte)) : Outcome (List Byte) :=
  match from_, to with
  | some f, some t => fillMap f t identity
  | _, _ => .ok identity

/-- zt_cstr.c 243-292 `zt_cstr_map`. -/
def map (junk : Byte) (s : Option (List Byte)) (i j : Int) (from_ to : Option (List Byte)) : Outcome (Option (List Byte)) := do
  let tbl ← mapTable from_ to
  match s with
  | none => .ok none
  | some s => do
      let (i, j) ← convert s i j
      let n ← idxlen i j
      let new := List.replicate (n + 1) junk
      let (new, p) ← copyUp s (fun c => rd tbl c.toNat) j (rounds i j) i new 0
      let new ← wr new p 0
      pure (some new)

/-- zt_cstr.c 297-308 `zt_cstr_pos`. -/
def pos (s : List Byte) (i : Int) : Outcome Nat := do
  let len ← strlen s
  let i := idx i len
  if i ≥ 0 ∧ i ≤ len then .ok i.toNat else .abort

/-- zt_cstr.c 313-317 `zt_cstr_len`. -/
def len (s : List Byte) (i j : Int) : Outcome Nat := do
  let (i, j) ← convert s i j
  idxlen i j

/-- zt_cstr.c 323-342 `zt_cstr_cmp`. -/
def cmp (s1 : List Byte) (i1 j1 : Int) (s2 : List Byte) (i2 j2 : Int) : Outcome Int := do
  let (i1, j1) ← convert s1 i1 j1
  let (i2, j2) ← convert s2 i2 j2
  let p1 ← ptr s1 i1
  let p2 ← ptr s2 i2
  if j1 - i1 < j2 - i2 then do
    let n ← idxlen i1 j1
    let cond ← strncmp n p1 p2
    pure (if cond = 0 then -1 else cond)
  else if j1 - i1 > j2 - i2 then do
    let n ← idxlen i2 j2
    let cond ← strncmp n p1 p2
    pure (if cond = 0 then 1 else cond)
  else strncmp (j1 - i1).toNat p1 p2

/-! ## Searches -/

/-- `for (; i <= j; i++) if (P(s[i])) return i;` -/
def scanUp (s : List Byte) (P : Byte → Outcome Bool) (j : Int) : (fuel : Nat) → (i : Int) → Outcome (Option Int)
  | 0, _ => .ub
  | fuel + 1, i =>
      if i ≤ j then do
        let c ← rdI s i
        let b ← P c
        if b then .ok (some i) else scanUp s P j fuel (i + 1)
      else .ok none

/-- `for (; j >= i; j--) if (P(s[j])) return j;` -/
def scanDown (s : List Byte) (P : Byte → Outcome Bool) (i : Int) : (fuel : Nat) → (j : Int) → Outcome (Option Int)
  | 0, _ => .ub
  | fuel + 1, j =>
      if j ≥ i then do
        let c ← rdI s j
        let b ← P c
        if b then .ok (some j) else scanDown s P i fuel (j - 1)
      else .ok none

/-- zt_cstr.c 347-359 `zt_cstr_chr`. -/
def chr (s : List Byte) (i j : Int) (c : Int) : Outcome Int := do
  let (i, j) ← convert s i j
  let r ← scanUp s (fun x => .ok (decide (schar x = c))) j (rounds i j) i
  pure (r.getD 0)

/-- zt_cstr.c 363-375 `zt_cstr_rchr`. -/
def rchr (s : List Byte) (i j : Int) (c : Int) : Outcome Int := do
  let (i, j) ← convert s i j
  let r ← scanDown s (fun x => .ok (decide (schar x = c))) i (rounds i j) j
  pure (r.getD 0)

/-- `strchr(set, c)` as a truth value. -/
def inSet (set : List Byte) (c : Byte) : Outcome Bool := do
  let r ← strchr set c
  pure r.isSome

/-- zt_cstr.c 381-394 `zt_cstr_upto`. -/
def upto (s : List Byte) (i j : Int) (set : List Byte) : Outcome Int := do
  let (i, j) ← convert s i j
  let r ← scanUp s (inSet set) j (rounds i j) i
  pure (r.getD (-1))

/-- zt_cstr.c 400-412 `zt_cstr_rupto`. -/
def rupto (s : List Byte) (i j : Int) (set : List Byte) : Outcome Int := do
  let (i, j) ← convert s i j
  let r ← scanDown s (inSet set) i (rounds i j) j
  pure (r.getD (-1))

/-- `s[i] != '\0' && strchr(set, s[i])` -/
def inSetNz (set : List Byte) (c : Byte) : Outcome Bool := if c ≠ 0 then inSet set c else .ok false

/-- zt_cstr.c 485-501 `zt_cstr_any`. -/
def any (s : List Byte) (i j : Int) (set : List Byte) : Outcome Int := do
  let (i, j) ← convert s i j
  if i ≥ 0 ∧ i ≤ j then do
    let r ← scanUp s (inSetNz set) j (rounds i j) i
    pure (r.getD (-1))
  else .abort

/-- zt_cstr.c 507-525 `zt_cstr_rany`; the position returned is relative to the start of the slice. -/
def rany (s : List Byte) (i j : Int) (set : List Byte) : Outcome Int := do
  let (i, j) ← convert s i j
  if i ≥ 0 ∧ i ≤ j then do
    let r ← scanDown s (inSetNz set) i (rounds i j) j
    pure (match r with | some k => k - i | none => -1)
  else .abort

/-- zt_cstr.c 438-442: `for (; i + len <= j + 1; i++) if (strncmp(&s[i], str, len) == 0) return i;` -/
def findUp (s str : List Byte) (len : Nat) (j : Int) : (fuel : Nat) → (i : Int) → Outcome Int
  | 0, _ => .ub
  | fuel + 1, i =>
      if i + len ≤ j + 1 then do
        let p ← ptr s i
        let r ← strncmp len p str
        if r = 0 then .ok i else findUp s str len j fuel (i + 1)
      else .ok (-1)

/-- zt_cstr.c 418-445 `zt_cstr_find`. -/
def find (s : List Byte) (i j : Int) (str : List Byte) : Outcome Int := do
  let (i, j) ← convert s i j
  let len ← strlen str
  if len = 0 then .ok (-1)
  else if len = 1 then do
    let c ← rd str 0
    let r ← scanUp s (fun x => .ok (x == c)) j (rounds i j) i
    match r with
    | some k => .ok k
    | none => findUp s str len j (rounds i j) (j + 1)
  else findUp s str len j (rounds i j) i

/-- zt_cstr.c 473-477: `for (offt = j - len + 1; offt >= i; offt--) ...` -/
def findDown (s str : List Byte) (len : Nat) (i : Int) : (fuel : Nat) → (offt : Int) → Outcome Int
  | 0, _ => .ub
  | fuel + 1, offt =>
      if offt ≥ i then do
        let p ← ptr s offt
        let r ← strncmp len p str
        if r = 0 then .ok offt else findDown s str len i fuel (offt - 1)
      else .ok (-1)

/-- zt_cstr.c 451-480 `zt_cstr_rfind`. After the loop for one character `j` is `i - 1`. -/
def rfind (s : List Byte) (i j : Int) (str : List Byte) : Outcome Int := do
  let (i, j) ← convert s i j
  let len ← strlen str
  if len = 0 then .ok (-1)
  else if len = 1 then do
    let c ← rd str 0
    let r ← scanDown s (fun x => .ok (x == c)) i (rounds i j) j
    match r with
    | some k => .ok k
    | none => findDown s str len i (rounds i j) (i - 1 - len + 1)
  else findDown s str len i (rounds i j) (j - len + 1)

/-! ## Trimming -/

/-- zt_cstr.c 528-540 `zt_cstr_chomp`: the block afterwards. `str[i - 1]` is outside for the empty string. -/
def chomp (str : List Byte) : Outcome (List Byte) := do
  let i ← strlen str
  let c ← rdI str ((i : Int) - 1)
  if c = 10 then wr str (i - 1) 0 else .ok str

/-- zt_cstr.c 578-583: the loop of zt_cstr_rspn; `accept` is a string. -/
def rspnLoop (s accept : List Byte) (len : Nat) : (fuel : Nat) → (i : Int) → Outcome Nat
  | 0, _ => .ub
  | fuel + 1, i =>
      if i > 0 then do
        let p ← ptr s i
        let n ← strspn p accept
        if n = 0 then .ok ((len : Int) - i - 1).toNat else rspnLoop s accept len fuel (i - 1)
      else .ok len

/-- zt_cstr.c 570-584 `zt_cstr_rspn`. -/
def rspn (s accept : List Byte) : Outcome Nat := do
  let len ← strlen s
  rspnLoop s accept len (len + 1) ((len : Int) - 1)

/-- zt_cstr.c 594-599: the loop of zt_cstr_rcspn. -/
def rcspnLoop (s reject : List Byte) (len : Nat) : (fuel : Nat) → (i : Int) → Outcome Nat
  | 0, _ => .ub
  | fuel + 1, i =>
      if i > 0 then do
        let p ← ptr s i
        let n ← strcspn p reject
        if n = 0 then .ok i.toNat else rcspnLoop s reject len fuel (i - 1)
      else .ok len

/-- zt_cstr.c 586-600 `zt_cstr_rcspn`. -/
def rcspn (s reject : List Byte) : Outcome Nat := do
  let len ← strlen s
  rcspnLoop s reject len (len + 1) ((len : Int) - 1)

/-- zt.h 105 `WHITESPACE`, and with "\n" appended. -/
def WHITESPACE : List Byte := [32, 9, 0]
def WHITESPACE_NL : List Byte := [32, 9, 10, 0]

/-- zt_cstr.c 560-565: cutting the end. -/
def cutEnd (str : List Byte) (len : Nat) (nl : Bool) : Outcome (List Byte) :=
  if len ≠ 0 then
    if nl then do
      let str ← wr str len 10
      wr str (len + 1) 0
    else wr str len 0
  else .ok str

/-- zt_cstr.c 543-568 `zt_cstr_strip`: the block afterwards. -/
def strip (str : List Byte) : Outcome (List Byte) := do
  let len ← strspn str WHITESPACE
  let n ← strlen str
  -- memmove(str, &str[len], (strlen(str) - len) + 1)
  let str := (str.drop len).take (n - len + 1) ++ str.drop (n - len + 1)
  let r ← strchr str 10
  let k ← rspn str WHITESPACE_NL
  let n ← strlen str
  cutEnd str (n - k) r.isSome

/-! ## Paths -/

/-- zt_cstr.c 885-896 `zt_cstr_copy`: the number of bytes and the destination. -/
def copy (src : List Byte) (i j : Int) (dst : List Byte) (len : Nat) : Outcome (Nat × List Byte) := do
  let (i, j) ← convert src i j
  let flen ← idxlen i j
  let min := if flen < len then flen else len
  let p ← ptr src i
  let dst ← memcpy dst p min
  pure (min, dst)

/-- zt.h 118 `PATH_SEPERATOR`. -/
def SEP : List Byte := [47, 0]

/-- zt_cstr.c 612-616: the start of the last component. -/
def baseStart (path : List Byte) : Outcome Int := do
  let start ← rfind path 0 (-1) SEP
  pure (if start ≠ -1 then start + 1 else 0)

/-- zt_cstr.c 618-625: its end. -/
def baseEnd (path : List Byte) (start : Int) (suffix : Option (List Byte)) : Outcome Int :=
  match suffix with
  | none => .ok (-1)
  | some sfx => do
      let e ← rfind path start (-1) sfx
      if e > 0 then do
        let c ← rdI path e
        pure (if c = 46 then e - 1 else e)
      else pure e

/-- zt_cstr.c 602-629 `zt_cstr_basename`: the contents of `npath`. -/
def basename (npath : List Byte) (len : Nat) (path : List Byte) (suffix : Option (List Byte)) : Outcome (List Byte) := do
  let npath ← memset0 npath len
  let start ← baseStart path
  let e ← baseEnd path start suffix
  let (_, npath) ← copy path start e npath len
  pure npath

/-- zt_cstr.c 632-658 `zt_cstr_dirname`: the contents of `npath`. -/
def dirname (npath : List Byte) (len : Nat) (path : List Byte) : Outcome (List Byte) := do
  let npath ← memset0 npath len
  let n ← strlen path
  let p ← ptr path ((n : Int) - 1)
  let r ← strcmp p SEP
  let e ← rfind path 0 (if r = 0 then -2 else -1) SEP
  let (_, npath) ← (if e = -1 then copy [46, 0] 0 (-1) npath len else copy path 0 (e - 1) npath len)
  pure npath

/-- zt_cstr.c 674-676: `for (y = len1 - 1; y > 0 && path1[y] is a separator; y--);` -/
def trimY (path1 : List Byte) : (fuel : Nat) → (y : Int) → Outcome Int
  | 0, _ => .ub
  | fuel + 1, y =>
      if y > 0 then do
        let p ← ptr path1 y
        let r ← strncmp 1 p SEP
        if r = 0 then trimY path1 fuel (y - 1) else .ok y
      else .ok y

/-- zt_cstr.c 677-679: `for (x = 0; x < len2 && path2[x] is a separator; x++);` -/
def trimX (path2 : List Byte) (len2 : Nat) : (fuel : Nat) → (x : Int) → Outcome Int
  | 0, _ => .ub
  | fuel + 1, x =>
      if x < len2 then do
        let p ← ptr path2 x
        let r ← strncmp 1 p SEP
        if r = 0 then trimX path2 len2 fuel (x + 1) else .ok x
      else .ok x

/-- zt_cstr.c 661-685 `zt_cstr_path_append`. The indices are passed as `ssize_t` where zt_cstr_catv reads `int`; for paths shorter than 2^31 the calling convention of x86-64 makes that harmless. -/
def pathAppend (junk : Byte) (path1 path2 : List Byte) : Outcome (List Byte) := do
  let len1 ← strlen path1
  let len2 ← strlen path2
  let y ← trimY path1 (len1 + 1) ((len1 : Int) - 1)
  let x ← trimX path2 len2 (len2 + 1) 0
  catv junk [⟨path1, 0, y⟩, ⟨SEP, 0, -1⟩, ⟨path2, x, -1⟩]

/-- zt_cstr.c 687-698 `zt_cstr_abspath`. -/
def abspath (path : List Byte) : Outcome Bool := do
  let r ← strncmp 1 path SEP
  if r = 0 then .ok true
  else do
    let c ← rd path 0
    if c = 46 then do
      let p ← ptr path 1
      let r ← strncmp 1 p SEP
      pure (decide (r = 0))
    else pure false

/-! ## Splitting. The zt_ptr_array of results is the list of the strings in it. -/

/-- `strtok_r` on the rest of the string: a token and what is left behind its delimiter. -/
def strtok (delim : List Byte) (rest : List Byte) : Option (List Byte × List Byte) :=
  let r := rest.dropWhile (fun c => delim.contains c)
  if r = [] then none else some (r.takeWhile (fun c => ! delim.contains c), (r.dropWhile (fun c => ! delim.contains c)).drop 1)

/-- zt_cstr.c 925-931: the loop. -/
def splitLoop (delim : List Byte) : (fuel : Nat) → List Byte → Outcome (List (List Byte))
  | 0, _ => .ub
  | fuel + 1, rest =>
      match strtok delim rest with
      | none => .ok []
      | some (t, rest) => do
          let ts ← splitLoop delim fuel rest
          pure (t :: ts)

/-- zt_cstr.c 908-936 `zt_cstr_split`. -/
def split (str delim : Option (List Byte)) : Outcome (Option (List (List Byte))) :=
  match str, delim with
  | some str, some delim => do
      let n ← strlen str
      let _ ← strlen delim
      let ts ← splitLoop (cstr delim) (n + 1) (cstr str)
      pure (some ts)
  | _, _ => .ok none

/-- Converting an int to char. -/
def toChar (c : Int) : Byte := UInt8.ofNat (c % 256).toNat

/-- zt_cstr.c 951-963: the loop; `at_` is the offset of `cut_tok` in the copy. -/
def cutLoop (m : List Byte) (delim : Byte) (keep : Nat) : (fuel : Nat) → (at_ : Nat) → Outcome (List (List Byte))
  | 0, _ => .ub
  | fuel + 1, at_ => do
      let p ← ptr m at_
      let r ← strchr p delim
      match r with
      | none => .ok []
      | some k => do
          let cut := at_ + k + 1
          let c ← rd m cut
          if c = 0 then .ok []
          else do
            let q ← ptr m ((cut : Int) - keep)
            let ts ← cutLoop m delim keep fuel cut
            pure (cstr q :: ts)

/-- zt_cstr.c 938-967 `zt_cstr_cut`. -/
def cut (str : List Byte) (delim : Int) (keep_delim : Bool) : Outcome (List (List Byte)) := do
  let n ← strlen str
  cutLoop (cstr str ++ [0]) (toChar delim) (if keep_delim then 1 else 0) (n + 2) 0

/-- zt_cstr.c 986-1001: the loop on the copy. -/
def tokLoop (delim : Byte) : (fuel : Nat) → (m : List Byte) → Outcome (List (List Byte))
  | 0, _ => .ub
  | fuel + 1, m => do
      let r ← strrchr m delim
      match r with
      | some 0 => .ok [cstr m]
      | none => .ok [cstr m]
      | some k => do
          let m' ← wr m k 0
          let ts ← tokLoop delim fuel m'
          pure (cstr m :: ts)

/-- zt_cstr.c 969-1005 `zt_cstr_tok`. -/
def tok (str : List Byte) (delim : Int) : Outcome (List (List Byte)) := do
  let n ← strlen str
  let c ← rdI str ((n : Int) - 1)
  let copy := cstr str ++ [0]
  let copy ← (if schar c = delim then wr copy (n - 1) 0 else .ok copy)
  tokLoop (toChar delim) (n + 1) copy

end ZT.Cstr
