import Verif.Model.Deps

/-!
# Search for combinational loops through instances and tracked expressions

Models the part of `writeInstanciations` (called with the ports of each instance) that records what the outputs of
instances depend on, the checks of `updateAndCheckDependencies` on instances and on wires, and the dependencies recorded
by `writeWireAssignements`: /repo/src/Algorithm.cpp:4818-4925, 7694-7735, 10140-10165, 10250-10300.
-/

set_option autoImplicit false

namespace Silice

/-- Direction of a binding, `e_BindingDir`, /repo/src/Algorithm.h:246-253: `<:`, `<::` and `:>`, the last one with the two
flags of the output it is on: declared `output!` (`combinational`), and `output(!)` (`combinational_nocheck`). `:=>`
(inout) and automatic bindings are not represented: the latter have been replaced at this point. -/
inductive LDir where
  | left
  | leftQ
  | right (comb nocheck : Bool)
deriving DecidableEq, Repr

/-- A binding: direction, and variable of the host (`bindingRightIdentifier`). -/
structure LBind where
  host : String
  dir : LDir
deriving DecidableEq, Repr

/-- What is used of an instance: `callable` is the negation of `isNotCallable` (4693-4702), `regInput` is
`instance_reginput` (modifier `<reginputs>`). `ins` are the names `<instance>_<input>` and `outs` the names
`<instance>_<output>` with the two flags of the output, for all inputs and outputs, bound or not. -/
structure LInst where
  callable : Bool := false
  regInput : Bool := false
  binds : List LBind := []
  ins : List String := []
  outs : List (String × Bool × Bool) := []
deriving DecidableEq, Repr

/-- Tracked expression (`m_WireAssignments`): wire, variables read, and whether it is written with `<::` (or `::=`). -/
structure LWire where
  name : String
  reads : List String
  delayed : Bool := false
deriving DecidableEq, Repr

/-- A unit: inputs and inouts, instances in the order of their declaration, tracked expressions, and the code executed in a
cycle. -/
structure LUnit where
  ports : List String := []
  insts : List LInst := []
  wires : List LWire := []
  code : DStm := .skip

/-- Names of the wires. -/
def LUnit.wireNames (u : LUnit) : List String := u.wires.map (·.name)

/-- The binding is on an output that is combinational and checked. -/
def LDir.checked : LDir → Bool
  | .right comb nocheck => comb && !nocheck
  | _ => false

/-- The binding is on an output. -/
def LDir.isRight : LDir → Bool
  | .right _ _ => true
  | _ => false

/-- `unreg_input_bindings`, 10264-10283. -/
def LInst.reads (I : LInst) : List String :=
  (I.binds.filter fun b => b.dir == .left).map (·.host) ++ I.ins

/-- `unreg_output_bindings`, 10264-10290. -/
def LInst.writes (I : LInst) : List String :=
  (I.binds.filter fun b => b.dir.checked).map (·.host) ++ (I.outs.filter fun o => o.2.1 && !o.2.2).map (·.1)

/-- The name is `<instance>_<output>` for an output that is combinational and checked, 4847-4850. -/
def combOut (Is : List LInst) (x : String) : Bool := Is.any fun I => I.outs.any fun o => o.1 == x && (o.2.1 && !o.2.2)

/-- The variable is bound to an output that is combinational and checked, 4865-4872: the first binding found with this
variable is considered in each instance. The test on `m_VIOBoundToBlueprintOutputs` is left out: a variable that fails it
has no binding on an output. -/
def boundComb (Is : List LInst) (x : String) : Bool :=
  Is.any fun I => match I.binds.find? fun b => b.host == x with
    | some b => b.dir.checked
    | none => false

/-- Checks on the written variable `w` that follow the one on the `d` side, 4842-4902: a loop through an output of an
instance if the variable depends on itself, and a loop through a wire. The last check (4903-4924) is left out: it never
reports anything, as it applies to wires that are not wires. -/
def Deps.loops (Is : List LInst) (wires : List String) (D : Deps) (w : String) : Bool :=
  ((D.on w w).here &&
    D.names.any fun y => y != w && (D.on w y).here &&
      ((combOut Is y && decide (y ∈ D.keys) && (D.on y w).here) || boundComb Is y)) ||
  D.names.any fun y => (D.on w y).here && decide (y ∈ D.keys) && decide (y ∈ wires) && (D.on y w).here

/-- `updateAndCheckDependencies` with its checks on instances and wires, 4776-4930. The code makes all checks for one
variable, then for the next: here the check on the `d` side comes first for all variables. -/
def Deps.instrL (fuel : Nat) (Is : List LInst) (wires : List String) (D : Deps) (reads writes : List String) :
    Option (Except String Deps) :=
  match Deps.instr fuel D reads writes with
  | none => none
  | some (.error w) => some (.error w)
  | some (.ok D') =>
    match writes.find? fun w => D'.loops Is wires w with
    | some w => some (.error w)
    | none => some (.ok D')

/-- Dependencies due to instances, 10250-10300, with the check that follows each of them. `Is`: all instances. -/
def instDeps (fuel : Nat) (Is : List LInst) (wires : List String) : Deps → List LInst → Option (Except String Deps)
  | D, [] => some (.ok D)
  | D, I :: rest =>
    if I.callable || I.regInput then instDeps fuel Is wires D rest
    else match Deps.instrL fuel Is wires D I.reads I.writes with
      | none => none
      | some (.error w) => some (.error w)
      | some (.ok D') =>
        match D'.keys.find? fun k => (D'.on k k).here with
        | some k => some (.error k)
        | none => instDeps fuel Is wires D' rest

/-- Dependencies due to tracked expressions, 7694-7735: with `<::`, they are checked then dropped. Expressions that are not
used are skipped by the code; `u.wires` has the others. -/
def wireDeps (fuel : Nat) (Is : List LInst) (wires : List String) : Deps → List LWire → Option (Except String Deps)
  | D, [] => some (.ok D)
  | D, w :: rest =>
    match Deps.instrL fuel Is wires D w.reads [w.name] with
    | none => none
    | some (.error x) => some (.error x)
    | some (.ok D') => wireDeps fuel Is wires (if w.delayed then D else D') rest

mutual
/-- Code of a cycle: `Deps.stm` with the checks on instances and wires. -/
def Deps.stmL (fuel : Nat) (Is : List LInst) (wires : List String) (D : Deps) : DStm → Option (Except String Deps)
  | .skip => some (.ok D)
  | .stop => some (.ok D)
  | .ins reads writes => Deps.instrL fuel Is wires D reads writes
  | .seq a b =>
    match Deps.stmL fuel Is wires D a with
    | none => none
    | some (.error w) => some (.error w)
    | some (.ok D') => Deps.stmL fuel Is wires D' b
  | .branch bs => Deps.brsL fuel Is wires D D bs

/-- Branches: `Deps.brs` with the checks. -/
def Deps.brsL (fuel : Nat) (Is : List LInst) (wires : List String) (D acc : Deps) : DBrs → Option (Except String Deps)
  | .one s =>
    match Deps.stmL fuel Is wires D s with
    | none => none
    | some (.error w) => some (.error w)
    | some (.ok D') => some (.ok (Deps.merge D' acc))
  | .cons s bs =>
    match Deps.stmL fuel Is wires D s with
    | none => none
    | some (.error w) => some (.error w)
    | some (.ok D') => Deps.brsL fuel Is wires D (Deps.merge D' acc) bs
end

/-- Error on `<::`, 10140-10165: the variable has no value of its own from the previous cycle. -/
def LUnit.badDelayed (u : LUnit) : Option String :=
  ((u.insts.flatMap (·.binds)).find? fun b => b.dir == .leftQ &&
    ((u.insts.any fun I => I.binds.any fun b' => b'.dir.isRight && b'.host == b.host) ||
      (u.insts.any fun I => I.outs.any fun o => o.1 == b.host) ||
      decide (b.host ∈ u.wireNames) || decide (b.host ∈ u.ports))).map (·.host)

/-- The checks made when a unit is written: instances, then tracked expressions, then the code. -/
def LUnit.check (fuel : Nat) (u : LUnit) : Option (Except String Deps) :=
  match u.badDelayed with
  | some x => some (.error x)
  | none =>
    match instDeps fuel u.insts u.wireNames Deps.empty u.insts with
    | none => none
    | some (.error x) => some (.error x)
    | some (.ok D) =>
      match wireDeps fuel u.insts u.wireNames D u.wires with
      | none => none
      | some (.error x) => some (.error x)
      | some (.ok D') => Deps.stmL fuel u.insts u.wireNames D' u.code

end Silice
