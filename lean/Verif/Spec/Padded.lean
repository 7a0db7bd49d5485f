import Verif.Model.Padded
import Verif.Spec.Started

/-!
# When a pipeline stage is done

A stage is done when the flow of its code comes to the end of the stage.
-/

set_option autoImplicit false

namespace Silice

/-- A cycle spent in the state ends the stage. -/
def StState.done (v : TestVals) : StState → Bool
  | .code b => (b.flow v).2
  | .loop c _ after split => if v c ≠ 0 then false else !split && (after.flow v).2

/-- Where the code of the state goes: to a state of the stage, or to its end. -/
def StState.goes (s : StState) (v : TestVals) (target : Nat) : Option Nat := if s.done v then none else some target

/-- What comes after the first conditional. -/
def StCode.tailOf : StCode → Option StCode
  | .ite _ _ _ k => some k
  | .switch _ _ k => some k
  | .stmt k => k.tailOf
  | _ => none

/-- What comes in the last state after its first conditional or loop, if the state goes back into the stage. -/
def StState.rest : StState → Option StCode
  | .code b => if b.oneCycle then none else b.tailOf
  | .loop _ _ after _ => some after

end Silice
