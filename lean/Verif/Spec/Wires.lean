import Verif.Model.Wires

/-!
Specification for wires: reads through definitions of wires.
-/

set_option autoImplicit false

namespace Silice

/-- The definition of the wire `x` mentions `y`. -/
def Mentions (ws : List WireDef) (x y : String) : Prop := ∃ d ∈ ws, d.name = x ∧ y ∈ d.reads

/-- `y` is used by `x` through one or more definitions of wires. -/
def ReadThrough (ws : List WireDef) (x y : String) : Prop := Relation.TransGen (Mentions ws) x y

/-- Each wire is defined once. -/
def WiresUnique (ws : List WireDef) : Prop := (ws.map (·.name)).Nodup

end Silice
