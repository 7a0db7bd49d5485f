import Verif.Prelude

/-!
# Pipelines: stage ordering, checks on writes, trickling variables

Models `orderPipelineStages` (/repo/src/Algorithm.cpp 9203-9268) and the part of `gatherPipeline` that
checks and records the accesses of the stages (/repo/src/Algorithm.cpp 2585-2717).
-/

set_option autoImplicit false

namespace Silice

/-- What the ordering looks at in one stage: the variables read and the ones written with `^=` (backward) and
`v=` (forward). Models `t_pipeline_stage_nfo::read/written_backward/written_forward`
(/repo/src/Algorithm.h 369-378). Sets are lists. -/
structure StageAcc where
  read : List String
  back : List String
  fwd : List String
deriving Repr, DecidableEq

/-- Does one of the variables `ws` appear in the read set? (`read.count(w)`, Algorithm.cpp 9211 and 9219) -/
def readsAny (s : StageAcc) (ws : List String) : Bool := ws.any fun w => decide (w ∈ s.read)

/-- Must stage `s` come before stage `o`? The two inner loops of Algorithm.cpp 9207-9224: `o` ranges over the
stages below `s` for the backward writes of `s`, and over the stages above `s` for its forward writes. -/
def mustPrecede (stages : List StageAcc) (s o : Nat) : Bool :=
  match stages[s]?, stages[o]? with
  | some ss, some so =>
      (decide (o < s) && readsAny so ss.back) || (decide (s < o) && readsAny so ss.fwd)
  | _, _ => false

/-- `cstrs[o]`: the stages that have to come before `o` (Algorithm.cpp 9206-9224). Duplicates, which the code
keeps, do not matter. -/
def cstrsOf (stages : List StageAcc) (o : Nat) : List Nat :=
  (List.range stages.length).filter fun s => mustPrecede stages s o

/-- No constraint of `s` is still waiting (the `free` flag, Algorithm.cpp 9246-9252). -/
def isFree (stages : List StageAcc) (waiting : List Nat) (s : Nat) : Bool :=
  (cstrsOf stages s).all fun c => decide (c ∉ waiting)

/-- The selection loop of Algorithm.cpp 9236-9266. `waiting` is the sorted set `not_selected`; the first free
stage is taken. `fuel` counts the iterations of the `while`, each of which removes one stage. Returns `none`
when no free stage is found (`return false`). The code stores the stages themselves, the model their index. -/
def orderLoop (stages : List StageAcc) : Nat → List Nat → Option (List Nat)
  | _, [] => some []
  | 0, _ :: _ => none
  | fuel + 1, w :: ws =>
      match (w :: ws).find? (isFree stages (w :: ws)) with
      | none => none
      | some s => (orderLoop stages fuel ((w :: ws).erase s)).map (s :: ·)

/-- `orderPipelineStages` (Algorithm.cpp 9203-9268). -/
def orderPipelineStages (stages : List StageAcc) : Option (List Nat) :=
  orderLoop stages stages.length (List.range stages.length)

/-! ## Checks on the writes -/

/-- Accesses of one stage as collected by `gatherPipeline`: variables read, variables written or declared
(whatever the operator), outputs written, and the variables appearing on the left of `^=`, `v=`, `vv=` and of a
plain assignment (Algorithm.cpp 2590-2630). How these sets are collected from the parse tree is not modelled. -/
structure StageIO where
  read : List String
  written : List String
  outputs : List String
  backward : List String
  forward : List String
  after : List String
  plain : List String
deriving Repr, DecidableEq

/-- Record kept by the pipeline while stages are examined (`t_pipeline_nfo`, /repo/src/Algorithm.h 357-366):
`written_special`, `written_outputs`, `read_at`, `written_at`. The last two are lists of (name, stage) in the
order in which the code pushes them. -/
structure PipeNfo where
  special : List String
  outputs : List String
  readAt : List (String × Nat)
  writtenAt : List (String × Nat)
deriving Repr, DecidableEq

/-- The errors reported at Algorithm.cpp 2601, 2612, 2649, 2655 and 2659. -/
inductive PipeErr where
  | writtenAfterSpecial (v : String)
  | outputTwice (v : String)
  | specialTwice (v : String)
  | bothOperators (v : String)
  | alreadyTrickling (v : String)
deriving Repr, DecidableEq

/-- `ex_written`, the union of the specially assigned variables (Algorithm.cpp 2641-2643). -/
def StageIO.special (s : StageIO) : List String := s.backward ++ s.forward ++ s.after

/-- One stage of the loop at Algorithm.cpp 2586-2673. The code iterates over unordered sets, so which error is
reported first is not determined there; the model fixes one order. In the code `written_special` is extended
while iterating over the set `ex_written`, whose elements are distinct, so the test only ever sees the names
recorded by earlier stages; the same holds for `written_outputs`. -/
def checkStage (nfo : PipeNfo) (id : Nat) (s : StageIO) : Except PipeErr PipeNfo :=
  match s.written.find? (fun w => decide (w ∈ nfo.special)) with
  | some w => .error (.writtenAfterSpecial w)
  | none =>
  match s.outputs.find? (fun w => decide (w ∈ nfo.outputs)) with
  | some w => .error (.outputTwice w)
  | none =>
  match s.special.find? (fun w => decide (w ∈ nfo.special)) with
  | some w => .error (.specialTwice w)
  | none =>
  match s.special.find? (fun w => decide (w ∈ s.plain)) with
  | some w => .error (.bothOperators w)
  | none =>
  match s.special.find? (fun w => decide (w ∈ nfo.writtenAt.map Prod.fst)) with
  | some w => .error (.alreadyTrickling w)
  | none => .ok
      { special := nfo.special ++ s.special
        outputs := nfo.outputs ++ s.outputs
        readAt := nfo.readAt ++ s.read.map fun r => (r, id)
        writtenAt := nfo.writtenAt ++
          (s.written.filter fun w => decide (w ∉ s.special)).map fun w => (w, id) }

/-- The loop over all stages, in stage order (Algorithm.cpp 2586-2673). -/
def checkStages (nfo : PipeNfo) : Nat → List StageIO → Except PipeErr PipeNfo
  | _, [] => .ok nfo
  | id, s :: ss =>
      match checkStage nfo id s with
      | .error e => .error e
      | .ok nfo' => checkStages nfo' (id + 1) ss

/-- A new pipeline starts with nothing recorded (Algorithm.cpp 2577). -/
def PipeNfo.empty : PipeNfo := ⟨[], [], [], []⟩

/-- The checks of a whole pipeline. -/
def checkPipeline (ss : List StageIO) : Except PipeErr PipeNfo := checkStages .empty 0 ss

/-- Stages recorded for a name in `read_at` / `written_at`. -/
def stagesAt (l : List (String × Nat)) (v : String) : List Nat :=
  (l.filter fun e => decide (e.1 = v)).map Prod.snd

/-- The trickling range of a variable, `none` if it does not trickle: `written_at.front()` and `read_at.back()`,
kept when the former is less than the latter (Algorithm.cpp 2676-2706; with no reads `maxr` is the smallest
`int` and the test fails). -/
def trickleRange (nfo : PipeNfo) (v : String) : Option (Nat × Nat) :=
  match (stagesAt nfo.writtenAt v).head?, (stagesAt nfo.readAt v).getLast? with
  | some minw, some maxr => if minw < maxr then some (minw, maxr) else none
  | _, _ => none

end Silice
