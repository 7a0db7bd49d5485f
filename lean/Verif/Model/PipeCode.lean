import Verif.Model.Usage
import Verif.Model.PipeOrder

/-!
# Pipelines without state machines, from the code of their stages

Models what is written for a pipeline of an `always` block: `translateVIOName` and `tricklingVIOName`
(/repo/src/Algorithm.cpp:1394-1426, 2447-2457), the end of `gatherPipeline` (2674-2717), `writeStatelessPipeline`
(9272-9395) and the update of the copies (7938-7972). The checks and the order of the stages are those of
Model/PipeOrder, the code of a stage is written as in Model/Usage. Not modelled: pipelines nested in a stage, pipelines
inside a conditional, stages with a state machine (Model/PipeRun).
-/

set_option autoImplicit false

namespace Silice

mutual
/-- Names read by some code, in instructions and tests. -/
def Stm.rdNames {V L : Type} : Stm V L → List String
  | .skip => []
  | .ins i => i.reads
  | .exit _ => []
  | .seq a b => a.rdNames ++ b.rdNames
  | .branch rs _ bs _ _ => rs ++ bs.rdNames

/-- Of all branches. -/
def Brs.rdNames {V L : Type} : Brs V L → List String
  | .one s => s.rdNames
  | .cons s bs => s.rdNames ++ bs.rdNames
end

mutual
/-- Names assigned by some code, as a whole or in part. -/
def Stm.wrNames {V L : Type} : Stm V L → List String
  | .skip => []
  | .ins i => i.writes ++ i.parts ++ i.fields
  | .exit _ => []
  | .seq a b => a.wrNames ++ b.wrNames
  | .branch _ _ bs _ _ => bs.wrNames

/-- Of all branches. -/
def Brs.wrNames {V L : Type} : Brs V L → List String
  | .one s => s.wrNames
  | .cons s bs => s.wrNames ++ bs.wrNames
end

/-- A stage: its code, and the names assigned with `^=`, `v=`, `vv=` and `=` (`determinePipelineSpecificAssignments`,
/repo/src/Algorithm.cpp:5728-5766). The operator changes nothing in the assignment that is written (7533-7607). -/
structure PStage (V : Type) where
  code : Stm V
  back : List String := []
  fwd : List String := []
  after : List String := []
  plain : List String := []

/-- A pipeline: its stages and the outputs of the unit, that are kept apart from variables in all that concerns
pipelines (`m_VarNames` and `m_OutputNames`). -/
structure PipeCode (V : Type) where
  n : Nat
  stage : Nat → PStage V
  outs : List String := []

/-- Variables among names. -/
def varsOf (outs l : List String) : List String := l.filter fun x => decide (x ∉ outs)

/-- Accesses of a stage, /repo/src/Algorithm.cpp:2586-2643. -/
def PStage.io {V : Type} (outs : List String) (s : PStage V) : StageIO where
  read := varsOf outs s.code.rdNames
  written := varsOf outs s.code.wrNames
  outputs := s.code.wrNames.filter fun x => decide (x ∈ outs)
  backward := varsOf outs s.back
  forward := varsOf outs s.fwd
  after := varsOf outs s.after
  plain := varsOf outs s.plain

/-- Accesses of all stages. -/
def PipeCode.ios {V : Type} (p : PipeCode V) : List StageIO := (List.range p.n).map fun s => (p.stage s).io p.outs

/-- What the ordering looks at, 2634-2637 and 9203-9224. -/
def PipeCode.accs {V : Type} (p : PipeCode V) : List StageAcc := p.ios.map fun s => ⟨s.read, s.backward, s.forward⟩

/-- Where a value is held: a variable, or its copy for a stage (`tricklingVIOName`, 2447-2457). The names of copies are
taken to differ from those of variables. -/
inductive PCell where
  | var (x : String)
  | copy (s : Nat) (x : String)
deriving DecidableEq, Repr

/-- What a name stands for in a stage, `translateVIOName`, 1394-1426: the copy in all stages after the first that writes a
carried variable. `tr`: range of each carried variable. -/
def pipeLoc (tr : String → Option (Nat × Nat)) (s : Nat) (x : String) : PCell :=
  match tr x with
  | some (a, _) => if a < s then .copy s x else .var x
  | none => .var x

/-- Names that have dependencies when a stage is written, 9293-9294, 9310-9327, 9344-9353: those from before the pipeline
(`K0`), and those of the stages written already (`E`) that were assigned with `^=`, or with `v=` by an earlier stage. A
copy has none. -/
def PipeCode.keysAt {V : Type} (p : PipeCode V) (tr : String → Option (Nat × Nat)) (K0 : Keys) (E : List Nat) (s : Nat) : Keys := fun x =>
  match pipeLoc tr s x with
  | .copy _ _ => false
  | .var x => K0 x || E.any (fun e => decide (x ∈ ((p.stage e).io p.outs).backward)) ||
      E.any (fun e => decide (x ∈ ((p.stage e).io p.outs).forward) && !decide (s < e))

/-- Flip-flop outputs and current values, seen from a stage. -/
def pipeView {V : Type} (tr : String → Option (Nat × Nat)) (s : Nat) (q v : PCell → V) : HSt V :=
  ⟨fun x => q (pipeLoc tr s x), fun x => v (pipeLoc tr s x), none, []⟩

/-- Current values after the code of a stage. -/
def pipeBack {V : Type} (tr : String → Option (Nat × Nat)) (s : Nat) (v : PCell → V) (m : String → V) : PCell → V
  | .var x => if pipeLoc tr s x = .var x then m x else v (.var x)
  | .copy s' x => if pipeLoc tr s x = .copy s' x then m x else v (.copy s' x)

/-- Variables captured after the stage that first writes them, 9356-9380. -/
def pipeCapture {V : Type} (tr : String → Option (Nat × Nat)) (s : Nat) (v : PCell → V) : PCell → V
  | .var x => v (.var x)
  | .copy s' x => if s' = s ∧ (tr x).map Prod.fst = some s then v (.var x) else v (.copy s' x)

/-- One stage as written, 9308-9384: current values afterwards, and what was done. -/
def PipeCode.runStage {V : Type} (p : PipeCode V) (tr : String → Option (Nat × Nat)) (cls : PCell → Store) (K0 : Keys) (E : List Nat)
    (q v : PCell → V) (s : Nat) : (PCell → V) × List (Ev V) :=
  let h := ((p.stage s).code.emit (fun x => cls (pipeLoc tr s x)) (p.keysAt tr K0 E s)).run (pipeView tr s q v)
  (pipeCapture tr s (pipeBack tr s v h.v), h.evs)

/-- The stages in the order in which they are written, 9308-9386. `E`: stages written before. -/
def PipeCode.runStages {V : Type} (p : PipeCode V) (tr : String → Option (Nat × Nat)) (cls : PCell → Store) (K0 : Keys) (q : PCell → V) :
    List Nat → List Nat → (PCell → V) → (Nat → List (Ev V)) → (PCell → V) × (Nat → List (Ev V))
  | _, [], v, evs => (v, evs)
  | E, s :: rest, v, evs =>
    let r := p.runStage tr cls K0 E q v s
    p.runStages tr cls K0 q (E ++ [s]) rest r.1 fun k => if k = s then r.2 else evs k

/-- What happens around the pipeline in a cycle: outputs of the flip-flops of variables, values assigned when the pipeline is
reached, and what temporary copies hold at the start. -/
structure PipeCyc (V : Type) where
  held : String → V
  before : String → V
  junk : PCell → V

/-- Flip-flop outputs; `r`: those of the copies. -/
def PipeCyc.q {V : Type} (c : PipeCyc V) (r : Nat → String → V) : PCell → V
  | .var x => c.held x
  | .copy s x => r s x

/-- Current values when the pipeline is reached: a copy starts from its flip-flop (8143-8152), if it has one. -/
def PipeCyc.v {V : Type} (c : PipeCyc V) (cls : PCell → Store) (r : Nat → String → V) : PCell → V
  | .var x => c.before x
  | .copy s x =>
    match cls (.copy s x) with
    | .temp => c.junk (.copy s x)
    | .flipflop => r s x

/-- The pipeline in a cycle: current values afterwards, and what each stage did. -/
def PipeCode.cycle {V : Type} (p : PipeCode V) (tr : String → Option (Nat × Nat)) (cls : PCell → Store) (K0 : Keys) (order : List Nat)
    (c : PipeCyc V) (r : Nat → String → V) : (PCell → V) × (Nat → List (Ev V)) :=
  p.runStages tr cls K0 (c.q r) [] order (c.v cls r) fun _ => []

/-- Flip-flops of the copies after the clock edge, 7950-7968: the value of the previous copy (`vio_prev_name`, 2697-2711), its
own for the first. Copies exist from the first stage that writes to the last one that reads. -/
def pipeShift {V : Type} (tr : String → Option (Nat × Nat)) (v : PCell → V) (r : Nat → String → V) : Nat → String → V := fun s x =>
  match tr x with
  | some (a, b) => if a < s ∧ s ≤ b then v (.copy (s - 1) x) else if s = a then v (.copy s x) else r s x
  | none => r s x

/-- Flip-flops of the copies after `t` cycles. -/
def PipeCode.regs {V : Type} (p : PipeCode V) (tr : String → Option (Nat × Nat)) (cls : PCell → Store) (K0 : Keys) (order : List Nat)
    (inp : Nat → PipeCyc V) (r0 : Nat → String → V) : Nat → Nat → String → V
  | 0 => r0
  | t + 1 => pipeShift tr (p.cycle tr cls K0 order (inp t) (p.regs tr cls K0 order inp r0 t)).1 (p.regs tr cls K0 order inp r0 t)

/-- Outcome of cycle `t`. -/
def PipeCode.at {V : Type} (p : PipeCode V) (tr : String → Option (Nat × Nat)) (cls : PCell → Store) (K0 : Keys) (order : List Nat)
    (inp : Nat → PipeCyc V) (r0 : Nat → String → V) (t : Nat) : (PCell → V) × (Nat → List (Ev V)) :=
  p.cycle tr cls K0 order (inp t) (p.regs tr cls K0 order inp r0 t)

end Silice
