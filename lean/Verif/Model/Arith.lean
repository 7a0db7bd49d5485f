/-
Width computations of the compiler: `clog2`, state register widths, state encodings.
-/
set_option autoImplicit false
namespace Silice

/-- Loop of `Utils::justHigherPow2`, /repo/src/Utils.cpp:203-209. Arguments are the current values of
`n`, `p2`, `isp2`; the result is the final `(p2, isp2)`. The C++ `n` is positive inside the loop, so a `Nat`
carries it (`n >> 1` is `n / 2`, `n & 1` is `n % 2`). -/
def jhpLoop (n p2 : Nat) (isp2 : Bool) : Nat × Bool :=
  if n > 0 then
    jhpLoop (n / 2) (p2 + 1) (if n > 1 ∧ n % 2 = 1 then false else isp2)
  else (p2, isp2)

/-- `Utils::justHigherPow2`, /repo/src/Utils.cpp:199-211 (exposed to Lua as `clog2`,
/repo/src/LuaPreProcessor.cpp:771-774, 801). Non-positive values never enter the loop. -/
def justHigherPow2 (n : Int) : Int :=
  let r := jhpLoop n.toNat 0 true
  if r.2 then (r.1 : Int) - 1 else r.1

/-- Loop of `Algorithm::width`, /repo/src/Algorithm.cpp:4513-4515. `1 << w` is a 32-bit signed shift: reaching
`w = 31` is outside the range of `int`, which is the distinct outcome `none`. -/
def widthLoop (val w : Nat) : Option Nat :=
  if w ≥ 31 then none
  else if val > 2 ^ w then widthLoop val (w + 1)
  else some w
termination_by 31 - w

/-- `Algorithm::width`, /repo/src/Algorithm.cpp:4508-4517. The assertion `val > 0` failing is `none`. -/
def width (val : Nat) : Option Nat :=
  if val = 0 then none
  else if val = 1 then some 1
  else widthLoop val 0

/-- What a state machine needs for its index register (`t_fsm_nfo`, /repo/src/Algorithm.h:259-278):
`maxState` is one more than the largest state index. -/
structure FsmNfo where
  maxState : Nat
  oneHot : Bool
deriving Repr, DecidableEq

/-- `Algorithm::stateWidth`, /repo/src/Algorithm.cpp:4521-4524. -/
def stateWidth (f : FsmNfo) : Option Nat := width f.maxState

/-- `Algorithm::toFSMState`, /repo/src/Algorithm.cpp:4483-4490. `1 << state` with `state ≥ 31` leaves the range
of `int`: distinct outcome `none`. -/
def toFSMState (f : FsmNfo) (state : Nat) : Option Nat :=
  if !f.oneHot then some state
  else if state ≥ 31 then none
  else some (2 ^ state)

/-- Number of bits of the root state index register, /repo/src/Algorithm.cpp:7880-7888
(`[stateWidth-1:0]` or, one-hot, `[maxState-1:0]`). -/
def rootIndexBits (f : FsmNfo) : Option Nat :=
  if !f.oneHot then stateWidth f else some f.maxState

/-- Number of bits of the caller id register, /repo/src/Algorithm.cpp:7914-7915; `nextId` is
`m_SubroutineCallerNextId` (number of call sites, ids being `0 .. nextId-1`, 6386-6395). -/
def callerIdBits (nextId : Nat) : Option Nat := width nextId

/-- Width given by `Algorithm::vioAsDefine` to an unsized positive constant,
/repo/src/Algorithm.cpp:1519-1526 (`none` when the width of the variable is used instead). -/
def defineConstWidth (i : Int) : Option Int :=
  if i ≤ 0 then none else some (1 + justHigherPow2 i)

/-- Address width of a memory, /repo/src/Algorithm.cpp:984 and 9452. -/
def memAddrWidth (tableSize : Nat) : Int := justHigherPow2 tableSize

end Silice
