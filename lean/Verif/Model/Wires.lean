import Verif.Model.Access

/-!
# Wires: names bound to expressions

Models `determineAccessForWires`, /repo/src/Algorithm.cpp:5949-6003, and its place at the end of `determineAccess`
(6086-6090): what wires read is added to what the code reads.
-/

set_option autoImplicit false

namespace Silice

/-- A wire: its name and the names its expression reads. -/
structure WireDef where
  name : String
  reads : List String
deriving DecidableEq, Repr

/-- The wire used outside of the definitions of wires but not only read. -/
inductive WireErr where
  | written (x : String)
deriving DecidableEq, Repr

/-- First part, /repo/src/Algorithm.cpp:5953-5979: the wires accessed by the code, all of which must be only read. `acc` is
`v.access`, from the code and the instances. -/
def wireStart (acc : String → Acc) : List WireDef → Except WireErr (List String)
  | [] => .ok []
  | d :: ds =>
    if acc d.name = {} then wireStart acc ds
    else if acc d.name = { r := true } then (wireStart acc ds).map (d.name :: ·)
    else .error (.written d.name)

/-- What the expression of a wire reads. `none` when there is no such wire, where the code would throw (`all_wires.at`). -/
def wireReads (ws : List WireDef) (x : String) : Option (List String) :=
  (ws.find? fun d => decide (d.name = x)).map (·.reads)

/-- Second part, /repo/src/Algorithm.cpp:5980-6001: the queue. `out` is what goes in the set of names read; the access bit
`e_ReadOnly` is set on the same names by `determineAccess` of the instruction (5788-5793). The order in which the set
`in_read` is visited is unspecified in the code; here it is the order of the list, which is arbitrary. -/
def wireLoop (ws : List WireDef) : Nat → List String → List String → List String → Option (List String)
  | _, [], _, out => some out
  | 0, _ :: _, _, _ => none
  | fuel + 1, w :: q, processed, out =>
    if w ∈ processed then wireLoop ws fuel q processed out
    else
      match wireReads ws w with
      | none => none
      | some rs =>
        wireLoop ws fuel (q ++ rs.filter fun v => decide (v ∈ ws.map (·.name)) && decide (v ∉ w :: processed))
          (w :: processed) (out ++ rs)

/-- `determineAccessForWires`. The outer `none` is a loop that has not ended. -/
def wireAccess (ws : List WireDef) (acc : String → Acc) (fuel : Nat) : Option (Except WireErr (List String)) :=
  match wireStart acc ws with
  | .error e => some (.error e)
  | .ok q => (wireLoop ws fuel q [] []).map .ok

/-- The names read by wires count as read at the end of the cycle (`_global_in_read`, 5994). -/
def withWires {B : Type} (a : AccIn B) (reads : List String) : AccIn B := { a with readEnd := a.readEnd ++ reads }

end Silice
