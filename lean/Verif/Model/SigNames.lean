import Verif.Prelude

/-!
# Identifiers declared in a generated module

Ports, wires, registers and instances of the module written for a unit. Models /repo/src/Algorithm.cpp:4390-4413, 7752-7934, 9868-10030, 10085-10115,
10318. Widths, initial values and everything that is not a declaration are left out.
-/

set_option autoImplicit false

namespace Silice

/-- An instance in a unit: its name, the outputs of its unit, whether it has a state machine and whether it can be called. -/
structure SigInst where
  name : String
  outputs : List String
  fsm : Bool
  callable : Bool

/-- A pin of type inout. -/
structure SigInout where
  name : String
  used : Bool

/-- What is known of a unit when its module is written. Variables and outputs are listed by what they became (`usage`):
temporaries, constants, wires and flip-flops; `inoutWires` are the variables bound to inouts. -/
structure SigUnit where
  inputs : List (String × Bool)
  outputs : List String
  inouts : List SigInout
  temps : List String
  consts : List String
  wires : List String
  inoutWires : List String
  flipflops : List String
  insts : List SigInst
  mems : List String
  memOuts : List String
  rootFsm : Option String
  autorun : Bool
  stageFsms : List String
  calls : Bool
  callingSubs : List String
  callable : Bool
  topmost : Bool
  reset : Bool
  split : Bool

/-- Suffixes of an inout: three wires if inouts are split. /repo/src/Algorithm.cpp:7824-7838, 9892-9901. -/
def inoutNames (split : Bool) (n : String) : List String := if split then [n ++ "_oe", n ++ "_i", n ++ "_o"] else [n]

/-- Ports, /repo/src/Algorithm.cpp:9886-9914; they are declared once more with their direction in 9915-9943, which Verilog allows. -/
def SigUnit.ports (u : SigUnit) : List String :=
  u.inputs.map (fun v => "in_" ++ v.1) ++ u.outputs.map ("out_" ++ ·) ++ u.inouts.flatMap (fun v => inoutNames u.split ("inout_" ++ v.name)) ++
  (if u.callable || u.topmost then ["in_run"] else []) ++ (if u.rootFsm.isSome || u.topmost then ["out_done"] else []) ++
  (if u.reset || u.topmost then ["reset"] else []) ++ ["out_clock", "clock"]

/-- After `__unused_`: wires that avoid warnings. /repo/src/Algorithm.cpp:9946-9964, 9990. -/
def SigUnit.unused (u : SigUnit) : List String :=
  (if u.topmost && !u.callable then ["in_run"] else []) ++ (u.inputs.filter (fun v => !v.2)).map Prod.fst ++
  (if u.split then (u.inouts.filter (fun v => !v.used)).map SigInout.name else []) ++ u.insts.map (fun i => "_" ++ i.name)

/-- After `_w_`: outputs of instances, their done signals (which are written after the outputs of each instance), outputs of memories, wires.
/repo/src/Algorithm.cpp:9979-10012, 7817-7842. -/
def SigUnit.wired (u : SigUnit) : List String :=
  u.insts.flatMap (fun i => i.outputs.map (fun o => i.name ++ "_" ++ o)) ++ (u.insts.filter (·.fsm)).map (fun i => i.name ++ "_done") ++
  u.memOuts.map ("mem_" ++ ·) ++ u.wires ++ u.inoutWires.flatMap (inoutNames u.split)

/-- After `_t_`: temporaries, and signals of pipeline stages with a state machine. /repo/src/Algorithm.cpp:7790-7813, 7909-7910. -/
def SigUnit.temporary (u : SigUnit) : List String :=
  u.temps ++ u.stageFsms.map ("_stall_" ++ ·) ++ u.stageFsms.map ("_1stdisable_" ++ ·)

/-- After `_d_` and after `_q_`: flip-flops, indices of state machines, callers. /repo/src/Algorithm.cpp:7847-7922. -/
def SigUnit.registers (u : SigUnit) : List String :=
  u.flipflops ++ u.rootFsm.toList.map ("_idx_" ++ ·) ++ u.stageFsms.map ("_idx_" ++ ·) ++ u.stageFsms.map ("_full_" ++ ·) ++
  (if u.calls then "caller" :: u.callingSubs.map (· ++ "_caller") else [])

/-- Other registers and wires. /repo/src/Algorithm.cpp:7882-7886, 7898, 7925-7933. -/
def SigUnit.others (u : SigUnit) : List String :=
  (if u.rootFsm.isSome && u.autorun then ["_autorun"] else []) ++ u.stageFsms.map ("_ready_" ++ ·) ++
  (u.insts.filter (·.callable)).map (fun i => "_" ++ i.name ++ "_run")

/-- Names of instances. /repo/src/Algorithm.cpp:10114, 10318. -/
def SigUnit.instances (u : SigUnit) : List String := u.insts.map SigInst.name ++ u.mems.map ("__mem__" ++ ·)

/-- All identifiers declared in the module. -/
def SigUnit.declared (u : SigUnit) : List String :=
  u.ports ++ u.unused.map ("__unused_" ++ ·) ++ u.wired.map ("_w_" ++ ·) ++ u.temporary.map ("_t_" ++ ·) ++ u.consts.map ("_c_" ++ ·) ++
  u.registers.map ("_d_" ++ ·) ++ u.registers.map ("_q_" ++ ·) ++ u.others ++ u.instances

end Silice
