import Verif.Model.BitBinding

/-!
Clocks and resets: which names the modifiers designate, which modules have a reset port, what is written for the
clock and the reset of registers, memories and instances, and what these texts carry in the hierarchy of modules.
A value is the value of one bit at one instant; `none` is a place where nothing arrives (a name that is not declared
in the module, or a text that is not a name).
-/

set_option autoImplicit false

namespace Silice

/-- Modifiers (/repo/antlr/silice.g4 185-197): `@x`, `!x`, and all others. -/
inductive ClkMod where
  | clock (x : String)
  | reset (x : String)
  | other
deriving DecidableEq, Repr

/-- The loop on modifiers for the clock, of a unit (/repo/src/SiliceCompiler.cpp 243-249) or of an instance
(/repo/src/Algorithm.cpp 1340-1345). -/
def clockMod (dflt : String) : List ClkMod → String
  | [] => dflt
  | .clock x :: ms => clockMod x ms
  | _ :: ms => clockMod dflt ms

/-- The same for the reset (/repo/src/SiliceCompiler.cpp 250-252, /repo/src/Algorithm.cpp 1346-1347). -/
def resetMod (dflt : String) : List ClkMod → String
  | [] => dflt
  | .reset x :: ms => resetMod x ms
  | _ :: ms => resetMod dflt ms

/-- A variable or output with usage `e_FlipFlop` (/repo/src/Algorithm.cpp 8021-8029). -/
structure ClkReg where
  name : String
  noInit : Bool
  atStartup : Bool
deriving DecidableEq, Repr

/-- A memory (/repo/src/Algorithm.cpp 10310-10335): `dual` for the two kinds with two clocks, and the clocks given as
modifiers. -/
structure ClkMem where
  name : String
  dual : Bool
  clocks : List String
deriving DecidableEq, Repr

/-- A unit apart from its instances. `fsm`: `!hasNoFSM()`. `checks`: there is a stability check, whose text reads the
reset (/repo/src/Algorithm.cpp 8090-8133). `vios`: declared names with their widths. `outs`: bindings of outputs of
instances to variables, in the order they are visited (/repo/src/Algorithm.cpp 6233-6317). -/
structure ClkHead where
  mods : List ClkMod
  fsm : Bool
  regs : List ClkReg
  mems : List ClkMem
  checks : Bool
  vios : List (String × Nat)
  outs : List (String × OutBind)

mutual
/-- A unit with its instances. -/
inductive ClkUnit where
  | mk (head : ClkHead) (insts : ClkInsts)
/-- What is instantiated: a unit, a Verilog module, a RISC-V processor. -/
inductive ClkWhat where
  | unit (u : ClkUnit)
  | verilog
  | riscv
/-- The instances of a unit: name, modifiers, inputs of one bit bound to an identifier. -/
inductive ClkInsts where
  | nil
  | cons (name : String) (mods : List ClkMod) (what : ClkWhat) (binds : List (String × String)) (rest : ClkInsts)
end

/-- One instance. -/
structure ClkInst where
  name : String
  mods : List ClkMod
  what : ClkWhat
  binds : List (String × String)

def ClkUnit.head : ClkUnit → ClkHead
  | .mk h _ => h

def ClkUnit.insts : ClkUnit → ClkInsts
  | .mk _ is => is

/-- `m_InstancedBlueprintsInDeclOrder`. -/
def ClkInsts.toList : ClkInsts → List ClkInst
  | .nil => []
  | .cons n m w b rest => ⟨n, m, w, b⟩ :: rest.toList

mutual
/-- `requiresReset`, /repo/src/Algorithm.cpp 4663-4690. -/
def ClkUnit.requiresReset : ClkUnit → Bool
  | .mk h is => h.fsm || h.regs.any (fun r => !r.noInit) || is.requiresReset
/-- `requiresReset` of what is instantiated: /repo/src/Algorithm.h 1295, /repo/src/Module.h 193,
/repo/src/RISCVSynthesizer.h 120. -/
def ClkWhat.requiresReset : ClkWhat → Bool
  | .unit u => u.requiresReset
  | .verilog => false
  | .riscv => true
/-- The last loop of `requiresReset`, /repo/src/Algorithm.cpp 4683-4687. -/
def ClkInsts.requiresReset : ClkInsts → Bool
  | .nil => false
  | .cons _ _ w _ rest => w.requiresReset || rest.requiresReset
end

/-- `requiresClock`, /repo/src/Algorithm.h 1297, /repo/src/Module.h 195, /repo/src/RISCVSynthesizer.h 122. -/
def ClkWhat.requiresClock : ClkWhat → Bool
  | .unit _ => true
  | .verilog => false
  | .riscv => true

/-- `m_Clock`. -/
def ClkHead.clock (h : ClkHead) : String := clockMod "clock" h.mods

/-- `m_Reset`. -/
def ClkHead.reset (h : ClkHead) : String := resetMod "reset" h.mods

/-- Entry of a variable in `m_VIOBoundToBlueprintOutputs`; the outer `none` is the error on a variable bound twice. -/
def ClkHead.entry (h : ClkHead) (x : String) : Option (Option (List Char)) :=
  recordBinds none ((h.outs.filter (fun o => o.1 == x)).map (·.2))

/-- What is written where a clock or a reset is expected: the names `clock` and `reset` as they are, what a bound
variable is rewritten to, or the identifier standing for another variable of the unit (which one is the matter of the
models `Scope` and `Select`). -/
inductive ClkNet where
  | port (x : String)
  | bound (r : Rewritten)
  | vio (x : String)
deriving DecidableEq, Repr

/-- `rewriteIdentifier`, /repo/src/Algorithm.cpp 1570-1635, for the identifiers of clocks and resets. `none`: error. -/
def ClkHead.rewrite (h : ClkHead) (x : String) : Option ClkNet :=
  if x = "reset" ∨ x = "clock" then some (.port x)
  else match h.entry x with
    | none => none
    | some none => if x = h.reset ∨ x = h.clock then none
      else if (h.vios.lookup x).isSome then some (.vio x) else none
    | some (some w) => match h.vios.lookup x with
      | none => none
      | some n => (rewriteBinding w n).map .bound

/-- The signal used by `writeFlipFlopUpdates` for the clock, with `dflt` = "clock", or for the reset, with `dflt` =
"reset" (/repo/src/Algorithm.cpp 7996-8019): the entry of the variable is written as it is. -/
def ClkHead.own (h : ClkHead) (dflt x : String) : Option ClkNet :=
  if x = dflt then some (.port dflt)
  else match h.entry x with
    | some (some w) => some (.bound (.verbatim w))
    | _ => none

/-- The parts of the module of a unit that concern clocks and resets. -/
structure ClkText where
  resetPort : Bool
  outClock : ClkNet
  regs : List (String × ClkNet × Option ClkNet)
  fsm : Option (ClkNet × ClkNet)
  checks : Option ClkNet
  mems : List (String × List ClkNet)
deriving DecidableEq, Repr

/-- Clocks of one memory, /repo/src/Algorithm.cpp 10314-10331. -/
def ClkHead.memClocks (h : ClkHead) (m : ClkMem) : Option (List ClkNet) :=
  match m.clocks with
  | [] => if m.dual then do
      let a ← h.rewrite h.clock
      let b ← h.rewrite h.clock
      return [a, b]
    else do
      let a ← h.rewrite h.clock
      return [a]
  | [x, y] => if m.dual then do
      let a ← h.rewrite x
      let b ← h.rewrite y
      return [a, b]
    else none
  | _ => none

/-- All memories. -/
def ClkHead.allMems (h : ClkHead) : List ClkMem → Option (List (String × List ClkNet))
  | [] => some []
  | m :: ms => do
    let c ← h.memClocks m
    let cs ← h.allMems ms
    return (m.name, c) :: cs

/-- Header of the module (/repo/src/Algorithm.cpp 9911-9915, 9942-9946), `out_clock` (9968-9973), registers of
variables (`writeVarFlipFlopUpdate`, 7938-7950), of the state machine (8030-8046), checks, memories. For a variable
only the use of the reset is kept: the `in_run` part is in the model `Regs`, and initial values are taken to be there. -/
def ClkUnit.text (top : Bool) (u : ClkUnit) : Option ClkText := do
  let oc ← u.head.rewrite u.head.clock
  let c ← u.head.own "clock" u.head.clock
  let r ← u.head.own "reset" u.head.reset
  let ms ← u.head.allMems u.head.mems
  return {
    resetPort := u.requiresReset || top
    outClock := oc
    regs := u.head.regs.map (fun v => (v.name, c, if v.atStartup || v.noInit then none else some r))
    fsm := if u.head.fsm then some (c, r) else none
    checks := if u.head.checks then some r else none
    mems := ms }

/-- What is written for one instance. -/
structure ClkConn where
  clock : Option ClkNet
  reset : Option ClkNet
  binds : List (String × ClkNet)
deriving DecidableEq, Repr

/-- Bound inputs, /repo/src/Algorithm.cpp 10117-10132. -/
def ClkHead.inputs (h : ClkHead) : List (String × String) → Option (List (String × ClkNet))
  | [] => some []
  | b :: bs => do
    let n ← h.rewrite b.2
    let ns ← h.inputs bs
    return (b.1, n) :: ns

/-- `optional f`: the text is only written when `c`. -/
def writeIf (c : Bool) (f : Option ClkNet) : Option (Option ClkNet) :=
  if c then f.map some else some none

/-- Connections of one instance, /repo/src/Algorithm.cpp 10117-10132, 10233-10245. -/
def ClkHead.connect (h : ClkHead) (i : ClkInst) : Option ClkConn := do
  let bs ← h.inputs i.binds
  let r ← writeIf i.what.requiresReset (h.rewrite (resetMod h.reset i.mods))
  let c ← writeIf i.what.requiresClock (h.rewrite (clockMod h.clock i.mods))
  return { clock := c, reset := r, binds := bs }

/-! What the texts carry. -/

/-- The values of everything else, for each unit of the hierarchy: outputs of instances (wire, bit), and variables.
A unit is given by the names of the instances that lead to it. -/
structure ClkWorld where
  wire : List String → List Char → Nat → Bool
  var : List String → String → Bool

/-- Values at the ports `clock` and `reset` of a module; `none`: nothing is connected. -/
structure ClkPorts where
  clock : Option Bool
  reset : Option Bool
deriving DecidableEq, Repr

/-- Names of the wires of the outputs of instances. -/
def OutBind.wireName : OutBind → List Char
  | .part b => b.wire
  | .whole w => w

/-- The value a text carries in a module with these ports, the name `reset` being declared only with a reset port. A
concatenation is cut to its lowest bit, as is a name. -/
def ClkHead.netValue (h : ClkHead) (resetPort : Bool) (p : ClkPorts) (wire : List Char → Nat → Bool)
    (var : String → Bool) : ClkNet → Option Bool
  | .port x => if x = "clock" then p.clock else if x = "reset" ∧ resetPort then p.reset else none
  | .bound (.verbatim t) => if t ∈ h.outs.map (·.2.wireName) then some (wire t 0) else none
  | .bound (.concat l) => match l.getLast? with
    | none => none
    | some .zero => some false
    | some (.wire n b) => some (wire n b)
  | .vio x => some (var x)

/-- The module of the unit reached by a path of instances, with the values at its ports. -/
def hwPorts (w : ClkWorld) : Bool → List String → ClkUnit → ClkPorts → List String → Option (ClkUnit × ClkPorts)
  | _, _, u, p, [] => some (u, p)
  | top, pre, u, p, i :: path => do
    let inst ← u.insts.toList.find? (fun j => j.name == i)
    let c ← u.head.connect inst
    let val := u.head.netValue (u.requiresReset || top) p (w.wire pre) (w.var pre)
    match inst.what with
    | .unit v => hwPorts w false (pre ++ [i]) v ⟨c.clock.bind val, c.reset.bind val⟩ path
    | _ => none

/-- What an instance gets: clock, reset, bound inputs. -/
structure ClkInstView where
  name : String
  clock : Option (Option Bool)
  reset : Option (Option Bool)
  binds : List (String × Option Bool)
deriving DecidableEq, Repr

/-- All that uses a clock or a reset in a module. For a register or a state machine: clock and reset. -/
structure ClkView where
  outClock : Option Bool
  regs : List (String × (Option Bool × Option (Option Bool)))
  fsm : Option (Option Bool × Option Bool)
  checks : Option (Option Bool)
  mems : List (String × List (Option Bool))
  insts : List ClkInstView
deriving DecidableEq, Repr

/-- Connections of all instances. -/
def ClkHead.allInsts (h : ClkHead) (val : ClkNet → Option Bool) : List ClkInst →
    Option (List ClkInstView)
  | [] => some []
  | i :: is => do
    let c ← h.connect i
    let cs ← h.allInsts val is
    return ⟨i.name, c.clock.map val, c.reset.map val, c.binds.map (fun b => (b.1, val b.2))⟩ :: cs

/-- What the generated hardware has in the unit reached by a path. `none`: there is no such unit, or an error. -/
def hwView (w : ClkWorld) (top : ClkUnit) (p : ClkPorts) (path : List String) : Option ClkView := do
  let (u, q) ← hwPorts w true [] top p path
  let t ← u.text path.isEmpty
  let val := u.head.netValue t.resetPort q (w.wire path) (w.var path)
  let is ← u.head.allInsts val u.insts.toList
  return {
    outClock := val t.outClock
    regs := t.regs.map (fun r => (r.1, val r.2.1, r.2.2.map val))
    fsm := t.fsm.map (fun f => (val f.1, val f.2))
    checks := t.checks.map val
    mems := t.mems.map (fun m => (m.1, m.2.map val))
    insts := is }

end Silice
