import Verif.Model.PipeRun

/-!
Registers of a module: what each flip-flop takes at a clock edge (reset, run input, initial values), the index of
the main state machine, the autorun flag, and the `done` output.
-/

set_option autoImplicit false

namespace Silice
variable {V E : Type}

/-- How an algorithm is used (/repo/src/Algorithm.cpp 4612-4629 and 4693-4702): `autorun` is set by the user,
`noFsm` says that the main part has no state beyond an empty first one. -/
structure AlgKind where
  autorun : Bool
  noFsm : Bool

/-- `isNotCallable` (/repo/src/Algorithm.cpp 4693-4702). -/
def AlgKind.notCallable (a : AlgKind) : Bool := if a.autorun then true else if a.noFsm then true else false

/-- What the update of a flip-flop variable uses of its declaration (`t_var_nfo`): flags `init_at_startup` and
`do_not_initialize`, table size (0 for a plain variable) and initial values. For a plain variable `varInitValue`
gives the first one, or nothing. -/
structure FFVar (V : Type) where
  atStartup : Bool
  noInit : Bool
  size : Nat
  init : List V

/-- The condition written in front of the initial value: the reset signal, possibly or-ed with the negated run
input. -/
inductive InitCond where
  | reset
  | resetOrNotRun
deriving DecidableEq, Repr

/-- Value of the condition in a cycle. -/
def InitCond.holds : InitCond → (rst run : Bool) → Bool
  | .reset, rst, _ => rst
  | .resetOrNotRun, rst, run => rst || !run

/-- Choice of the condition (/repo/src/Algorithm.cpp 7938-7949). The name of the reset signal is never empty. -/
def initCond (a : AlgKind) (v : FFVar V) : Option InitCond :=
  if v.atStartup || v.noInit then none
  else if !a.notCallable then some .resetOrNotRun
  else some .reset

/-- `writeVarFlipFlopUpdate` (/repo/src/Algorithm.cpp 7970-7988): what the register takes. `d` is the value
computed in the cycle (which one it is inside a pipeline is `pipeStep`). A plain variable has one entry. For a
table the code indexes the list of initial values up to the size without a check: outside of it, undefined
(`none`). -/
def ffUpdate (a : AlgKind) (v : FFVar V) (rst run : Bool) (d : List V) : Option (List V) :=
  match initCond a v with
  | none => some d
  | some c =>
    if v.size = 0 then
      match v.init with
      | [] => some d
      | x :: _ => some (if c.holds rst run then [x] else d)
    else if v.init.length < v.size then none
    else some (if c.holds rst run then v.init.take v.size else d)

/-- Inputs of one clock cycle: reset, run, and everything else the combinational part sees. -/
structure CoreIn (E : Type) where
  rst : Bool
  run : Bool
  ext : E

/-- Registers of the module outside of pipelines. Index 0 stands for the termination state. -/
structure Core (V : Type) where
  idx : Nat
  autorun : Bool
  vars : List (List V)

/-- A module: how it is used, entry state, flip-flop variables, and what its combinational part computes (next
index and next value of each variable, from the registers and the inputs). The combinational part is modelled by
`Fsm`, `FsmHw` and `Usage`; here it is any function. -/
structure Mod (V E : Type) where
  kind : AlgKind
  entry : Nat
  decls : List (FFVar V)
  comb : E → Core V → Nat × List (List V)

/-- `fsmNextState` (/repo/src/Algorithm.cpp 4417-4427). -/
def nextIdx (a : AlgKind) (entry : Nat) (autorun run : Bool) (d : Nat) : Nat :=
  if a.autorun then (if !autorun then entry else d) else (if !run then entry else d)

/-- The registers one after the other. -/
def ffUpdates (a : AlgKind) (rst run : Bool) : List (FFVar V) → List (List V) → Option (List (List V))
  | [], _ => some []
  | _ :: _, [] => none
  | v :: vs, d :: ds => do
    let q ← ffUpdate a v rst run d
    let qs ← ffUpdates a rst run vs ds
    return q :: qs

/-- One clock edge (/repo/src/Algorithm.cpp 8020-8046) for a module that has a main state machine: variables and
outputs, then index (`reset ? termination : next`), then autorun (`reset ? 0 : 1`). Caller registers are plain
and belong to `FsmHw`. -/
def coreStep (m : Mod V E) (i : CoreIn E) (q : Core V) : Option (Core V) := do
  let d := m.comb i.ext q
  let vars ← ffUpdates m.kind i.rst i.run m.decls d.2
  return { idx := if i.rst then 0 else nextIdx m.kind m.entry q.autorun i.run d.1
           autorun := if m.kind.autorun then !i.rst else q.autorun
           vars := vars }

/-- A history of cycles. -/
def coreRun (m : Mod V E) : List (CoreIn E) → Core V → Option (Core V)
  | [], q => some q
  | i :: is, q => do
    let q' ← coreStep m i q
    coreRun m is q'

/-- Clock edge of the stages' index and full registers in a module that has a main state machine
(/repo/src/Algorithm.cpp 8056-8070): reset empties the stages, the copies of carried variables have no initial
value (`do_not_initialize`, 2716). -/
def pipeEdge (p : Pipe) (i : PipeIn V) (rst : Bool) (q : PipeSt V) : PipeSt V :=
  let d := pipeStep p i q
  if rst then { idx := fun _ => 0, full := fun _ => false, reg := d.reg } else d

/-- State after `t` cycles of an arbitrary history of resets, from an arbitrary power-up state. -/
def pipeHist (p : Pipe) (inp : Nat → PipeIn V) (rst : Nat → Bool) (q0 : PipeSt V) : Nat → PipeSt V
  | 0 => q0
  | t + 1 => pipeEdge p (inp t) (rst t) (pipeHist p inp rst q0 t)

/-- Terms of the `done` output for one pipeline, first `k` stages (/repo/src/Algorithm.cpp 10067-10076). -/
def donePipe (p : Pipe) (q : PipeSt V) : Nat → Bool
  | 0 => true
  | k + 1 => donePipe p q k && decide (q.idx k = 0) && (if k + 1 < p.n then !q.full k else true)

/-- `done` output (/repo/src/Algorithm.cpp 10051-10077) of a module that has a main state machine: index on
termination, autorun flag if used, and the terms of each stage of each pipeline. Stages without state machine
(pipelines of always blocks) give no term and are not in `pipes`. -/
def doneOut (a : AlgKind) (q : Core V) (pipes : List (Pipe × PipeSt V)) : Bool :=
  decide (q.idx = 0) && (if a.autorun then q.autorun else true) &&
    pipes.all (fun x => donePipe x.1 x.2 x.1.n)

/-- The caller of an instance (/repo/src/Algorithm.cpp 2823-2850 and 9094-9112): it is in its waiting state, has
gone on to the next state, or is elsewhere. -/
inductive CallerAt where
  | calling
  | waiting
  | next
deriving DecidableEq, Repr

/-- One cycle of a caller doing `call; join`: the call pulls run low in the cycle it is in the calling state and
goes to the waiting state (7165, 2833), which is left when done is read as 1 (9103-9113). Run is high otherwise
(8229). -/
def callerStep (done : Bool) : CallerAt → CallerAt
  | .calling => .waiting
  | .waiting => if done then .next else .waiting
  | .next => .next

/-- Run input driven by the caller. -/
def callerRun : CallerAt → Bool
  | .calling => false
  | _ => true

/-- Caller and callee together, after `t` cycles without reset. The callee has no pipeline. `ext` are the other
inputs of the callee. -/
def callRun (m : Mod V E) (ext : Nat → E) (q0 : Core V) : Nat → Option (CallerAt × Core V)
  | 0 => some (.calling, q0)
  | t + 1 => do
    let (c, q) ← callRun m ext q0 t
    let q' ← coreStep m ⟨false, callerRun c, ext t⟩ q
    return (callerStep (doneOut m.kind q []) c, q')

end Silice
