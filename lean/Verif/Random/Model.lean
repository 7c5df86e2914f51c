import Verif.Mem

/-!
# zt_random.c

`uint32_t` is `BitVec 32`, `unsigned long` and `size_t` are 64 bits (so the products are computed in 64 bits and cut). `state->mt` is a block of 624 words. Not modelled: the log message of line 101.
-/

namespace ZT.Random

abbrev Word := BitVec 32

/-- zt_random.h 9-13 `zt_random_state`. -/
structure State where
  mt : List Word
  mti : Word
  initialized : Word
  deriving Repr, DecidableEq

/-- zt_random.c 24 -/
def INITIALIZED : Word := 0xD15EA5E#32

/-- zt_random.c 80-89, the loop; `n` bounds the number of iterations. -/
def seedLoop : Nat → Word → List Word → Outcome (List Word × Word)
  | 0, _, _ => .ub
  | n + 1, mti, mt =>
    if mti < 624#32 then do
      let p ← rd mt (mti - 1#32).toNat
      let q ← rd mt (mti - 1#32).toNat
      let v := (1812433253#64 * (p ^^^ (q >>> 30)).setWidth 64 + mti.setWidth 64).setWidth 32
      let mt ← wr mt mti.toNat v
      let w ← rd mt mti.toNat
      let mt ← wr mt mti.toNat (w &&& 0xffffffff#32)
      seedLoop n (mti + 1#32) mt
    else .ok (mt, mti)

/-- zt_random.c 73-92 `zt_random_srandom` -/
def srandom (s : State) (seed : Word) : Outcome State := do
  let mt ← wr s.mt 0 (seed &&& 0xffffffff#32)
  let r ← seedLoop 624 1#32 mt
  pure ⟨r.1, r.2, INITIALIZED⟩

/-- zt_random.c 43-56, the loop; the first argument is `k`, the result has `i`. -/
def keyLoop (seed : List Word) (len : Nat) : Nat → Nat → Nat → List Word → Outcome (Nat × List Word)
  | 0, i, _, mt => .ok (i, mt)
  | k + 1, i, j, mt => do
    let a ← rd mt i
    let p ← rd mt (i - 1)
    let q ← rd mt (i - 1)
    let sj ← rd seed j
    let v := ((a.setWidth 64 ^^^ ((p ^^^ (q >>> 30)).setWidth 64 * 1664525#64)) + sj.setWidth 64 + ((BitVec.ofNat 64 j).setWidth 32).setWidth 64).setWidth 32
    let mt ← wr mt i v
    let w ← rd mt i
    let mt ← wr mt i (w &&& 0xffffffff#32)
    let i := i + 1
    let j := j + 1
    let r ← (if i ≥ 624 then do
        let l ← rd mt (624 - 1)
        let mt ← wr mt 0 l
        pure (1, mt)
      else pure (i, mt) : Outcome (Nat × List Word))
    let j := if j ≥ len then 0 else j
    keyLoop seed len k r.1 j r.2

/-- zt_random.c 58-68, the loop; the first argument is `k`. -/
def mixLoop : Nat → Nat → List Word → Outcome (List Word)
  | 0, _, mt => .ok mt
  | k + 1, i, mt => do
    let a ← rd mt i
    let p ← rd mt (i - 1)
    let q ← rd mt (i - 1)
    let v := ((a.setWidth 64 ^^^ ((p ^^^ (q >>> 30)).setWidth 64 * 1566083941#64)) - ((BitVec.ofNat 64 i).setWidth 32).setWidth 64).setWidth 32
    let mt ← wr mt i v
    let w ← rd mt i
    let mt ← wr mt i (w &&& 0xffffffff#32)
    let i := i + 1
    let r ← (if i ≥ 624 then do
        let l ← rd mt (624 - 1)
        let mt ← wr mt 0 l
        pure (1, mt)
      else pure (i, mt) : Outcome (Nat × List Word))
    mixLoop k r.1 r.2

/-- zt_random.c 26-71 `zt_random_initstate`; `seed` is the caller's array and `len` the length passed. -/
def initstate (s : State) (seed : List Word) (len : Nat) : Outcome State := do
  let i := 1
  let j := 0
  let k := if 624 > len then 624 else len
  let s ← srandom s 19650218#32
  let r ← keyLoop seed len k i j s.mt
  let mt ← mixLoop (624 - 1) r.1 r.2
  let mt ← wr mt 0 0x80000000#32
  pure { s with mt := mt }

/-- zt_random.c 98 `mag01` -/
def mag01 : List Word := [0x0#32, 0x9908b0df#32]

/-- zt_random.c 109 (114, 118) -/
def joinBits (a b : Word) : Word := (a &&& 0x80000000#32) ||| (b &&& 0x7fffffff#32)

/-- zt_random.c 108-111; `n` iterations are left, that is `n` is 624 - 397 - kk. -/
def loop1 : Nat → Nat → List Word → Outcome (List Word)
  | 0, _, mt => .ok mt
  | n + 1, kk, mt => do
    let a ← rd mt kk
    let b ← rd mt (kk + 1)
    let y := joinBits a b
    let m ← rd mt (kk + 397)
    let g ← rd mag01 (y &&& 1#32).toNat
    let mt ← wr mt kk (m ^^^ (y >>> 1) ^^^ g)
    loop1 n (kk + 1) mt

/-- zt_random.c 113-116; `n` iterations are left, that is `n` is 623 - kk. `kk` is an `int`, and `kk + (397 - 624)` a signed sum. -/
def loop2 : Nat → Nat → List Word → Outcome (List Word)
  | 0, _, mt => .ok mt
  | n + 1, kk, mt => do
    let a ← rd mt kk
    let b ← rd mt (kk + 1)
    let y := joinBits a b
    let idx : Int := (kk : Int) + (397 - 624)
    let m ← (if idx < 0 then .ub else rd mt idx.toNat)
    let g ← rd mag01 (y &&& 1#32).toNat
    let mt ← wr mt kk (m ^^^ (y >>> 1) ^^^ g)
    loop2 n (kk + 1) mt

/-- zt_random.c 106-119 -/
def refill (mt : List Word) : Outcome (List Word) := do
  let mt ← loop1 (624 - 397) 0 mt
  let mt ← loop2 (624 - 1 - (624 - 397)) (624 - 397) mt
  let a ← rd mt (624 - 1)
  let b ← rd mt 0
  let y := joinBits a b
  let m ← rd mt (397 - 1)
  let g ← rd mag01 (y &&& 1#32).toNat
  wr mt (624 - 1) (m ^^^ (y >>> 1) ^^^ g)

/-- zt_random.c 127-130 -/
def tempering (y : Word) : Word :=
  let y := y ^^^ (y >>> 11)
  let y := y ^^^ ((y <<< 7) &&& 0x9d2c5680#32)
  let y := y ^^^ ((y <<< 15) &&& 0xefc60000#32)
  y ^^^ (y >>> 18)

/-- zt_random.c 105-132 -/
def generate (s : State) : Outcome (State × Word) := do
  let s ← (if s.mti ≥ 624#32 then do
      let mt ← refill s.mt
      pure { s with mt := mt, mti := 0#32 }
    else pure s : Outcome State)
  let y ← rd s.mt s.mti.toNat
  pure ({ s with mti := s.mti + 1#32 }, tempering y)

/-- zt_random.c 94-133 `zt_random_uint32`; `now` is what time(NULL) returns, cut to 32 bits. -/
def uint32 (now : Word) (s : State) : Outcome (State × Word) := do
  let s ← (if s.initialized ≠ INITIALIZED then srandom s now else pure s)
  generate s

/-- `n` calls of zt_random_uint32 and the values they return. The clock may show anything at each call. -/
def outputs (now : Nat → Word) : Nat → State → Outcome (State × List Word)
  | 0, s => .ok (s, [])
  | n + 1, s => do
    let r ← outputs now n s
    let q ← uint32 (now n) r.1
    pure (q.1, r.2 ++ [q.2])

end ZT.Random
