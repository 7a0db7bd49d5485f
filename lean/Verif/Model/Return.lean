import Verif.Model.FsmHw
import Verif.Model.Gather

/-!
# `return` in an algorithm

Outside of subroutines `return` is an instruction of its block (/repo/src/Algorithm.cpp: `gatherReturnFrom` 2768-2782), for which an assignment of
the index is written among the instructions of the block (`writeBlock` 8758-8766).

Simplifications: programs, graphs and emitted code are those of Model/Gather.lean and Model/Fsm.lean; the instructions that are a `return` are
given by a predicate on their numbers. Only the assignment of the index is written for a `return`, so its place among the assignments to data of
the block is of no matter; it is put after them.
-/

set_option autoImplicit false

namespace Silice

/-- Does the block hold a `return`, /repo/src/Algorithm.cpp:2778-2779. -/
def holdsReturn (isRet : Nat → Bool) (ins : List PIns) : Bool :=
  ins.any fun
    | .plain i => isRet i
    | .readback _ _ => false

/-- Emitted code with what is written for the `return` of the blocks that hold one: the index is given the termination state. Models
/repo/src/Algorithm.cpp:8758-8766. -/
def Code.withReturns {B : Type} (holds : B → Bool) : Code B → Code B
  | .skip => .skip
  | .body b => if holds b then .seq (.body b) .halt else .body b
  | .seq x y => .seq (x.withReturns holds) (y.withReturns holds)
  | .ite c x y => .ite c (x.withReturns holds) (y.withReturns holds)
  | .wend c x b => .wend c (x.withReturns holds) b
  | .case c es => .case c (entriesWith es)
  | .waitDone k n w => .waitDone k n w
  | .jump b => .jump b
  | .halt => .halt
  | .call p t r => .call p t r
  | .ret p k => .ret p k
where
  /-- the entries of a case -/
  entriesWith : List (Option Nat × Code B) → List (Option Nat × Code B)
    | [] => []
    | (v, x) :: es => (v, x.withReturns holds) :: entriesWith es

/-- The entries of the state machine with what is written for `return`. -/
def entriesWithReturns {B : Type} (holds : B → Bool) (entries : List (Entry B)) : List (Entry B) :=
  entries.map fun e => { e with code := e.code.withReturns holds }

/-- A `return` in an algorithm without state machine is an error, /repo/src/Algorithm.cpp:8761-8763. -/
def returnRefused (noFsm : Bool) (ins : List PIns) (isRet : Nat → Bool) : Bool := noFsm && holdsReturn isRet ins

end Silice
