import Verif.Model.Group

/-!
Groups and interfaces in the source: a unit says of each member whether it is an input, an output or an inout; binding a group connects members of the same name.
-/

set_option autoImplicit false

namespace Silice

/-- What is said of the members of a group with members `ms`. -/
def GroupSpec.tells (ms : List GroupVar) : GroupSpec → String → IoKind → Prop
  | .ios l => fun m k => ∃ io ∈ l, io.name = m ∧ io.kind = k
  | .inputs => fun m k => k = .input ∧ ∃ v ∈ ms, v.name = m
  | .outputs _ => fun m k => k = .output ∧ ∃ v ∈ ms, v.name = m

/-- What an interface says of its members. -/
def interfaceTells (ios : List GroupIo) (m : String) (k : IoKind) : Prop := ∃ io ∈ ios, io.name = m ∧ io.kind = k

/-- A member is said to be an output or inout that follows its value within the cycle, `output!`. -/
def GroupSpec.tellsComb (ms : List GroupVar) : GroupSpec → String → Prop
  | .ios l => fun m => ∃ io ∈ l, io.name = m ∧ io.kind ≠ .input ∧ io.comb = true
  | .inputs => fun _ => False
  | .outputs comb => fun m => comb = true ∧ ∃ v ∈ ms, v.name = m

/-- The name of the port of a member. -/
def memberPort (g m : String) : String := g ++ "_" ++ m

/-- Direction of the connection to a port; with `<::>` inputs receive what the variable held before the cycle. -/
def dirFor (q : Bool) : IoKind → Dir
  | .input => if q then .leftQ else .left
  | .output => .right
  | .inout => .biDir

end Silice
