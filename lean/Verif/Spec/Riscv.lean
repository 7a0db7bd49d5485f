import Verif.Model.Riscv

/-!
Specification: what software expects from the addresses it is given.
-/

set_option autoImplicit false

namespace Silice

/-- The unit was accepted. -/
def Accepted (u : RUnit) : Prop := ∃ (mem : Int) (stack : Option Int), synthRiscv mem stack u.ports = some (.ok u)

/-- The port is an output that reports accesses to the port `x`: it is named after it. -/
def Reports (ports : List RPort) (p x : RPort) : Prop :=
  p ∈ ports ∧ x ∈ ports ∧ p.kind = .output ∧ p.name = "on_" ++ x.name

/-- An output that software writes. -/
def PlainOutput (ports : List RPort) (p : RPort) : Prop :=
  p ∈ ports ∧ p.kind = .output ∧ ∀ x ∈ ports, p.name ≠ "on_" ++ x.name

def DistinctNames (ports : List RPort) : Prop := (ports.map (·.name)).Nodup

end Silice
