import Verif.Model.WholeRun

/-!
# Ports of instances and of the algorithm itself

The signal written for each input of an instance and for each output of the algorithm. Models /repo/src/Algorithm.cpp:1559-1675
(`rewriteIdentifier` on bindings), 10028-10050, 10111-10186. Not modelled: bindings to part of a variable (C44), inouts, clocks and resets.
-/

set_option autoImplicit false

namespace Silice

/-- How an input of an instance is given: bound with `<:` or `<::`, or not bound (assigned with the dot syntax, or by a call).
/repo/src/Algorithm.cpp:6412-6421. -/
inductive InPort where
  | left (x : String)
  | leftQ (x : String)
  | dot (x : String)
deriving DecidableEq

/-- The name in the algorithm. For an input that is not bound, the variable created for it, /repo/src/Algorithm.cpp:6499-6508. -/
def InPort.name : InPort → String
  | .left x => x
  | .leftQ x => x
  | .dot x => x

/-- An instance: can it be called (`isNotCallable` negated), `<reginputs>` modifier. /repo/src/Algorithm.cpp:10166-10177. -/
structure InstMode where
  callable : Bool
  reginput : Bool

/-- Names of the algorithm: inputs, inouts, names bound to outputs of instances (`m_VIOBoundToBlueprintOutputs`, which includes the variables
created for outputs of instances, 6510-6517), tracked expressions (`m_WireAssignmentNames`). All others are outputs and variables. -/
structure PortHost where
  inputs : List String
  inouts : List String := []
  bound : List String := []
  tracked : List String := []

/-- A signal of the module: `in_x`, `inout_x`, `_t_x`, `_d_x`, `_q_x`, the wire of an output of an instance, `_w_x`. -/
inductive PSig where
  | input (x : String)
  | inout (x : String)
  | tmp (x : String)
  | d (x : String)
  | q (x : String)
  | bound (x : String)
  | tracked (x : String)
deriving DecidableEq

/-- Signal of a name in a binding, where nothing has been assigned yet (`_` has no dependencies). /repo/src/Algorithm.cpp:1588-1671.
Simplified: constants are flip-flops that nothing assigns; in the code order, inputs and inouts come first; a name bound to
an output of an instance has usage `e_Bound` (6157-6195), a tracked expression has usage `e_Wire`. -/
def bindSig (H : PortHost) (cls : String → Store) (side : Side) (x : String) : PSig :=
  if x ∈ H.inputs then .input x
  else if x ∈ H.inouts then .inout x
  else if x ∈ H.bound then .bound x
  else if x ∈ H.tracked then .tracked x
  else
    match cls x with
    | .temp => .tmp x
    | .flipflop =>
      match side with
      | .q => .q x
      | .v => .d x

/-- `<::` on a name that has no flip-flop is an error: "has no effect, use <: instead". /repo/src/Algorithm.cpp:10141-10165. -/
def refusesQ (H : PortHost) (x : String) : Bool :=
  decide (x ∈ H.bound) || decide (x ∈ H.tracked) || decide (x ∈ H.inputs) || decide (x ∈ H.inouts)

/-- Signal given to an input of an instance, if accepted. /repo/src/Algorithm.cpp:10111-10179. -/
def inputSig (H : PortHost) (cls : String → Store) (I : InstMode) : InPort → Option PSig
  | .left x => some (bindSig H cls .v x)
  | .leftQ x => if refusesQ H x then none else some (bindSig H cls .q x)
  | .dot x => if !I.callable && !I.reginput then some (bindSig H cls .v x) else some (bindSig H cls .q x)

/-- Signal of an output of the algorithm, `comb`: declared with `output!`. /repo/src/Algorithm.cpp:10028-10050. -/
def outputSig (H : PortHost) (cls : String → Store) (comb : Bool) (x : String) : PSig :=
  if x ∈ H.bound then .bound x
  else
    match cls x with
    | .temp => .tmp x
    | .flipflop => if comb then .d x else .q x

/-- Names of which the flip-flop output is used by bindings (`e_Q`): /repo/src/Algorithm.cpp:10040, 10129, 10176, 10476-10483. -/
def portsQ (H : PortHost) (ins : List (InstMode × InPort)) (outs : List String) : List String :=
  ((ins.filterMap fun p =>
    match p.2 with
    | .left _ => none
    | .leftQ x => some x
    | .dot x => if !p.1.callable && !p.1.reginput then none else some x) ++ outs).filter fun x => !refusesQ H x

/-- Names of which the value at the end of the cycle is used by bindings (`e_D`): /repo/src/Algorithm.cpp:10038, 10129, 10172, 10476-10480. -/
def portsD (H : PortHost) (ins : List (InstMode × InPort)) (comb : List String) : List String :=
  ((ins.filterMap fun p =>
    match p.2 with
    | .left x => some x
    | .leftQ _ => none
    | .dot x => if !p.1.callable && !p.1.reginput then some x else none) ++ comb).filter fun x => !refusesQ H x

/-- Value of a signal in a cycle: `ext` gives the inputs and the wires, `q` the flip-flops, `v` what the combinational part computes. -/
def PSig.val {V : Type} (ext q v : String → V) : PSig → V
  | .input x => ext x
  | .inout x => ext x
  | .tmp x => v x
  | .d x => v x
  | .q x => q x
  | .bound x => ext x
  | .tracked x => ext x

end Silice
