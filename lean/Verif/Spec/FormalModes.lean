import Verif.Model.FormalModes

set_option autoImplicit false

namespace Silice

/-- The modes to run: those requested, each once, in the order bounded model checking, induction, cover. -/
def modesToRun (requested : List String) : List String :=
  ["bmc", "tind", "cover"].filter fun m => decide (m ∈ requested)

end Silice
