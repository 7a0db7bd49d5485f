import Verif.Model.SigNames

/-!
Conditions on the names in a unit: those that the compiler checks or that follow from the grammar, and those that are left to the user.
-/

set_option autoImplicit false

namespace Silice

/-- Names that generated signals start with. -/
def signalHeads : List String := ["w", "t", "c", "d", "q", "ready"]

/-- Names generated inside a unit: what follows `_d_` or `_t_` in signals of state machines. -/
def fsmHeads : List String := ["_idx_", "_full_", "_stall_", "_1stdisable_"]

/-- What the compiler checks or the grammar gives: ports, variables, instances, memories, state machines and subroutines have different names,
which start with a letter. -/
structure SigUnit.Checked (u : SigUnit) : Prop where
  inputs : (u.inputs.map Prod.fst).Nodup
  outputs : u.outputs.Nodup
  inouts : (u.inouts.map SigInout.name).Nodup
  ports : ∀ v ∈ u.inputs, ∀ w ∈ u.inouts, v.1 ≠ w.name
  letter : ∀ v ∈ u.inputs.map Prod.fst ++ u.inouts.map SigInout.name ++ u.insts.map SigInst.name ++ u.callingSubs, ∀ r, v ≠ "_" ++ r
  temps : u.temps.Nodup
  consts : u.consts.Nodup
  wires : u.wires.Nodup
  inoutWires : u.inoutWires.Nodup
  flipflops : u.flipflops.Nodup
  between : ∀ w ∈ u.wires, w ∉ u.inoutWires
  insts : (u.insts.map SigInst.name).Nodup
  instOutputs : (u.insts.flatMap fun i => i.outputs.map fun o => i.name ++ "_" ++ o).Nodup
  mems : u.mems.Nodup
  memOuts : u.memOuts.Nodup
  fsms : (u.rootFsm.toList ++ u.stageFsms).Nodup
  subs : u.callingSubs.Nodup

/-- What no check ensures. -/
structure SigUnit.Avoids (u : SigUnit) : Prop where
  /-- No input is named `run`, no output `done` or `clock`. -/
  run : "run" ∉ u.inputs.map Prod.fst
  done : "done" ∉ u.outputs
  clock : "clock" ∉ u.outputs
  /-- In the top unit no input or inout is named `in_run`. -/
  inRun : "in_run" ∉ u.inputs.map Prod.fst ++ u.inouts.map SigInout.name
  /-- No register is named `caller`, or a subroutine followed by `_caller`. -/
  caller : "caller" ∉ u.flipflops
  subCaller : ∀ s ∈ u.callingSubs, s ++ "_caller" ∉ u.flipflops
  /-- Variables are not named as the signals of state machines. -/
  fsm : ∀ h ∈ fsmHeads, ∀ r, h ++ r ∉ u.flipflops ∧ h ++ r ∉ u.temps
  /-- Instances do not have the name of a port, nor that of a kind of signal, alone or followed by an underscore. -/
  instPort : ∀ i ∈ u.insts, i.name ≠ "reset" ∧ i.name ≠ "clock" ∧ ∀ p ∈ ["in_", "out_", "inout_"], ∀ r, i.name ≠ p ++ r
  instSignal : ∀ i ∈ u.insts, ∀ p ∈ signalHeads, i.name ≠ p ∧ ∀ r, i.name ≠ p ++ "_" ++ r
  /-- Wires from instances are different from other wires. -/
  instDone : ∀ i ∈ u.insts, ∀ j ∈ u.insts, ∀ o ∈ j.outputs, i.name ++ "_done" ≠ j.name ++ "_" ++ o
  instMem : ∀ i ∈ u.insts, ∀ v ∈ u.memOuts, i.name ++ "_done" ≠ "mem_" ++ v ∧ ∀ o ∈ i.outputs, i.name ++ "_" ++ o ≠ "mem_" ++ v
  wire : ∀ w ∈ u.wires ++ u.inoutWires.flatMap (fun n => [n, n ++ "_oe", n ++ "_i", n ++ "_o"]),
    (∀ v ∈ u.memOuts, w ≠ "mem_" ++ v) ∧ ∀ i ∈ u.insts, w ≠ i.name ++ "_done" ∧ ∀ o ∈ i.outputs, w ≠ i.name ++ "_" ++ o
  split : ∀ n ∈ u.inoutWires, n ++ "_oe" ∉ u.wires ∧ n ++ "_i" ∉ u.wires ∧ n ++ "_o" ∉ u.wires

end Silice
