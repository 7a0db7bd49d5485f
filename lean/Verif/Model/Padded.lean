import Verif.Model.Started

/-!
# The last state of a pipeline stage

Model of `padPipeline` and `findNextStates` (/repo/src/Algorithm.cpp 4235-4280, 2889-2925), which make sure that the
last state of a stage does not go back into the stage, and of the index of the stage when its last state is over
(10552-10596). Code is described as in Model/Started; here `leave` goes to a state of the stage and the end of the
code is the end of the stage.
-/

set_option autoImplicit false

namespace Silice

mutual
/-- Does `findNextStates` find a state of the same stage (/repo/src/Algorithm.cpp 2889-2925)? It does not explore
other state machines, so it ends at a nested pipeline. -/
def StCode.back : StCode → Bool
  | .fin => false
  | .leave _ => true
  | .stmt k => k.back
  | .pipe _ _ => false
  | .ite _ t e k => t.back || e.back || k.back
  | .switch _ cs k => cs.back || k.back
/-- The same for the cases of a switch. -/
def StCases.back : StCases → Bool
  | .nil => false
  | .cons _ b cs => b.back || cs.back
end

/-- The code after the conditional that ends the block of the state; `none` where the compiler has no case for it and
fails an assertion (/repo/src/Algorithm.cpp 4266-4276). Instructions before a conditional are in the same block. -/
def StCode.afterFirst : StCode → Option StCode
  | .ite _ _ _ k => some k
  | .stmt (.ite _ _ _ k) => some k
  | _ => none

/-- `padPipeline` (/repo/src/Algorithm.cpp 4235-4280), given the last state: the last state afterwards, `none` when the
assertion fails. The end of the stage is always among the exits; a loop is always found to go back (2907-2909). The
code after the loop or conditional becomes a state, which then is the last one. -/
def StState.pad : StState → Option StState
  | .code b => if b.back then b.afterFirst.map .code else some (.code b)
  | .loop _ _ after _ => some (.code after)

/-- The index of the stage in the next cycle. `go`: the state its code goes to, none at the end of the stage.
`start`: the stage before has data (or the parent is in the state of the pipeline) and this one is neither full nor
stalled. The stage is ready in its last state and when idle (/repo/src/Algorithm.cpp 7902-7906, 10552-10596), the
triggers come after the code. Numbers: 0 is idle. -/
def stageNext (last entry q : Nat) (go : Option Nat) (start : Bool) : Nat :=
  if (q = last ∨ q = 0) ∧ start = true then entry else go.getD 0

end Silice
