import Verif.Common
import Verif.Fuel
import Verif.EList.Model

/-!
# zt_atexit.c

The callbacks live on the static stack `cb_stack` (links: the heap of zt_list.h). A callback may itself register further callbacks. The host's `atexit` list is modelled as the C standard and POSIX
have it: `exit` calls the registered functions most recent first, a function registered while `exit` runs being called next; `atexit` does not fail (its result is ignored by the code) and
`zt_calloc` aborts rather than fail. Callbacks that call `exit`, `longjmp` or run in several threads are not modelled (the source has a FIXME on threads).
-/

namespace ZT.Atexit

open EList (Heap)

scoped notation "Addr" => Nat

/-- zt_atexit.c 25-29 `struct zt_atexit_cb` at address `addr`. -/
structure Cb where
  addr : Addr
  fn : Nat
  data : Nat
  deriving Repr, DecidableEq

/-- What the program (or a callback) does as far as it concerns exit handling: zt_atexit(fn, data), or the host's atexit with some other function. -/
inductive Act where
  | zt (fn data : Nat)
  | host (k : Nat)
  deriving Repr, DecidableEq

/-- An entry of the host's list. -/
inductive HostFn where
  | call
  | other (k : Nat)
  deriving Repr, DecidableEq

/-- What can be observed. -/
inductive Ev where
  | reg (fn data : Nat)
  | call (fn data : Nat)
  | hostReg (k : Nat)
  | hostCall (k : Nat)
  deriving Repr, DecidableEq

structure St where
  H : Heap
  head : Addr
  mem : List Cb
  host : List HostFn
  log : List Ev

/-- The world: where zt_calloc places the next block, what each callback does when called with its data, and what the other host functions do. -/
structure World where
  alloc : St → Addr
  beh : Nat → Nat → List Act
  hostBeh : Nat → List Act

/-- zt_atexit.c 31: the static stack, nothing registered. -/
def start (H : Heap) (head : Addr) : St := ⟨EList.reset H head, head, [], [], []⟩

/-- zt_atexit.c 49-65 `zt_atexit`; a null function pointer is 0. -/
def ztAtexit (W : World) (S : St) (fn data : Nat) : Outcome St :=
  if fn = 0 then .abort
  else
    let a := W.alloc S
    let S := if EList.empty S.H S.head then { S with host := .call :: S.host } else S
    .ok { S with mem := ⟨a, fn, data⟩ :: S.mem, H := EList.push S.H S.head a, log := S.log ++ [.reg fn data] }

def act (W : World) (S : St) : Act → Outcome St
  | .zt fn data => ztAtexit W S fn data
  | .host k => .ok { S with host := .other k :: S.host, log := S.log ++ [.hostReg k] }

def acts (W : World) (S : St) : List Act → Outcome St
  | [] => .ok S
  | a :: as => do
      let S ← act W S a
      acts W S as

/-- zt_free. -/
def free (S : St) (a : Addr) : St := { S with mem := S.mem.filter fun c => c.addr != a }

/-- zt_atexit.c 39-46: the body of the loop, `se` being what zt_stack_pop returned. -/
def callOne (W : World) (S : St) : Option Addr → Outcome St
  | none => .ub
  | some se =>
      match S.mem.find? fun c => c.addr == se with
      | none => .ub
      | some cb =>
          if cb.fn ≠ 0 then do
            let S ← acts W { S with log := S.log ++ [.call cb.fn cb.data] } (W.beh cb.fn cb.data)
            pure (free S se)
          else .ok S

/-- zt_atexit.c 33-47 `_atexit_call`. -/
def atexitCall (W : World) : (fuel : Nat) → St → Outcome St
  | 0, _ => .ub
  | fuel + 1, S =>
      if !EList.empty S.H S.head then do
        let S ← callOne W { S with H := (EList.pop S.H S.head).2 } (EList.pop S.H S.head).1
        atexitCall W fuel S
      else .ok S

/-- One function of the host's list. -/
def hostCall (W : World) (fuel : Nat) (S : St) : HostFn → Outcome St
  | .call => atexitCall W fuel S
  | .other k => acts W { S with log := S.log ++ [.hostCall k] } (W.hostBeh k)

/-- The host's `exit`: call the registered functions, most recent first, until none is left. -/
def exit (W : World) : (fuel : Nat) → St → Outcome St
  | 0, _ => .ub
  | fuel + 1, S =>
      match S.host with
      | [] => .ok S
      | f :: rest => do
          let S ← hostCall W fuel { S with host := rest } f
          exit W fuel S

end ZT.Atexit
