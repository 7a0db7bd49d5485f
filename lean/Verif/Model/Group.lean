import Verif.Prelude
import Verif.Model.Names
import Verif.Model.Binding
import Verif.Model.Instantiation

/-!
# Groups and interfaces

Models how ports are made from a group or an interface (/repo/src/Algorithm.cpp:3417-3627) and how a binding of a whole group is unfolded (1037-1110). The directions of bindings are then
resolved as in Model/Binding.lean, and types as in Model/Instantiation.lean.
-/

set_option autoImplicit false

namespace Silice

/-- A member of a group, with its type. -/
structure GroupVar where
  name : String
  type : VType
deriving Repr, DecidableEq

/-- An entry of the list of ports of a group or an interface, `io` in /repo/antlr/silice.g4:232. `init`: it has an initial value. -/
structure GroupIo where
  kind : IoKind
  name : String
  comb : Bool
  init : Bool
deriving Repr, DecidableEq

/-- What is said of a group used as ports: a list, or `input` or `output` for the entire group. -/
inductive GroupSpec where
  | ios (l : List GroupIo)
  | inputs
  | outputs (comb : Bool)
deriving Repr, DecidableEq

/-- A port of a unit. -/
structure GPort where
  name : String
  kind : IoKind
  comb : Bool
  type : VType
deriving Repr, DecidableEq

/-- Reported errors. -/
inductive GErr where
  | twice
  | notInGroup
  | inputInit
deriving Repr, DecidableEq

/-- An entry is declared twice: the sets `vars`, /repo/src/Algorithm.cpp:3464-3489, 3565-3589. -/
def declaredTwice (seen : List String) : List String → Bool
  | [] => false
  | n :: ns => if n ∈ seen then true else declaredTwice (n :: seen) ns

/-- Ports from a list, /repo/src/Algorithm.cpp:3492-3523. -/
def groupList (ms : List GroupVar) (pre : String) : List GroupIo → Except GErr (List GPort)
  | [] => .ok []
  | io :: ios =>
    match ms.find? (fun m => m.name = io.name) with
    | none => .error .notInGroup
    | some m =>
      match groupList ms pre ios with
      | .error e => .error e
      | .ok ps => .ok (⟨pre ++ "_" ++ m.name, io.kind, if io.kind = .input then false else io.comb, m.type⟩ :: ps)

/-- `gatherIoGroup`, /repo/src/Algorithm.cpp:3446-3548, for a known group. The members are kept in an `unordered_map`: `order` is the order in which it gives them back, which is any.
Members are variables of the types written in the group (no `sameas`, no initial expression: 3472-3483). -/
def gatherIoGroup (ms order : List GroupVar) (pre : String) (spec : GroupSpec) : Except GErr (List GPort) :=
  if declaredTwice [] (ms.map GroupVar.name) then .error .twice
  else
    match spec with
    | .ios l => groupList ms pre l
    | .inputs => .ok (order.map fun m => ⟨pre ++ "_" ++ m.name, .input, false, m.type⟩)
    | .outputs comb => .ok (order.map fun m => ⟨pre ++ "_" ++ m.name, .output, comb, m.type⟩)

/-- `gatherIoInterface`, /repo/src/Algorithm.cpp:3552-3627, for a known interface: types are to be determined. -/
def gatherIoInterface (pre : String) (seen : List String) : List GroupIo → Except GErr (List GPort)
  | [] => .ok []
  | io :: ios =>
    if io.name ∈ seen then .error .twice
    else if io.kind = .input ∧ io.init = true then .error .inputInit
    else
      match gatherIoInterface pre (io.name :: seen) ios with
      | .error e => .error e
      | .ok ps => .ok (⟨pre ++ "_" ++ io.name, io.kind, if io.kind = .input then false else io.comb, .param⟩ :: ps)

/-- `getBindings` for `left <:> right` or `left <::> right` (`q`), where `right` is a group with these members, /repo/src/Algorithm.cpp:1064-1073. -/
def groupBindings (left right : String) (members : List String) (q : Bool) : List Binding :=
  members.map fun m => ⟨left ++ "_" ++ m, right ++ "_" ++ m, if q then .autoQ else .auto⟩

/-- The ports of a unit, by kind: `m_Inputs`, `m_Outputs`, `m_InOuts`. -/
def portsOf (l : List GPort) : Ports where
  inputs := (l.filter fun p => p.kind = .input).map GPort.name
  outputs := (l.filter fun p => p.kind = .output).map GPort.name
  inouts := (l.filter fun p => p.kind = .inout).map GPort.name
  combInfo := true
  comb := fun n => l.any fun p => p.name = n && p.comb

/-- Ports as they are seen when the unit is instantiated. -/
def GPort.vio (p : GPort) : VIO := ⟨p.name, p.type, none, 0⟩

end Silice
