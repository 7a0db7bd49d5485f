import Verif.Spec.GatherTime

/-! What an always block stands for. -/

set_option autoImplicit false

namespace Silice

/-- The assignments `x := e` in order, then the block, if there is one. -/
def alwaysSource (asg : List Nat) : Option Prg → Prg
  | none => asg.foldr .instr .nil
  | some p => asg.foldr .instr (.block p .nil)

end Silice
