import Verif.Prelude

/-!
# Which pipelines start in a cycle

Model of how the compiler keeps the pipelines of the branches that are not taken from starting:
`findAllStartingPipelines`, `disableStartingPipelines`, and the parts of `writeStatelessBlockGraph` that call
them or that write the flag of a pipeline (/repo/src/Algorithm.cpp 8446-8470, 8775-8786, 8790-9198).

The pipelines are those of an algorithm. Each has a flag `_t_…_1stdisable`, cleared at the start of every cycle
(8215-8222). The first state of its first stage does nothing when the flag is set (8813-8818).
-/

set_option autoImplicit false

namespace Silice

/- The code of one state, from its first block to the next states, as gathered from the source
(/repo/src/Algorithm.cpp 1934-1947 `gatherBlock`, 2568-2730 `gatherPipeline`, 3097-3190 `gatherIfElse`,
`gatherIfThen`, `gatherSwitchCase`). The blocks of the compiler form a graph. Here the graph is given by the
structure it was made from: the last argument of each constructor is what follows.
Simplified: tests are numbers, whose values in the cycle are given; the instructions of a block are not
described. -/
mutual
/-- Code of a state. -/
inductive StCode where
  /-- The end of a branch: what follows is the `after` block of the conditional. -/
  | fin
  /-- The next block is a state: `++:`, a loop, `goto`, `break`, the end of a loop body. `back` tells that the code
  from there comes to the end of the branch, in a later cycle, as it does after `++:`. -/
  | leave (back : Bool)
  /-- A block with instructions. -/
  | stmt (k : StCode)
  /-- A pipeline `{ … -> … }` (`end_action_pipeline_next`). -/
  | pipe (p : Nat) (k : StCode)
  /-- `if (c) t else e`, followed by the `after` block. -/
  | ite (c : Nat) (t e k : StCode)
  /-- `switch (s) { … }`, followed by the `after` block. -/
  | switch (s : Nat) (cs : StCases) (k : StCode)
/-- Cases of a switch: `none` is `default`. -/
inductive StCases where
  | nil
  | cons (v : Option Nat) (b : StCode) (rest : StCases)
end

mutual
/-- Pipelines that occur in the code. -/
def StCode.pipes : StCode → List Nat
  | .fin => []
  | .leave _ => []
  | .stmt k => k.pipes
  | .pipe p k => p :: k.pipes
  | .ite _ t e k => t.pipes ++ (e.pipes ++ k.pipes)
  | .switch _ cs k => cs.pipes ++ k.pipes
/-- Pipelines that occur in the cases. -/
def StCases.pipes : StCases → List Nat
  | .nil => []
  | .cons _ b r => b.pipes ++ r.pipes
end

mutual
/-- `findAllStartingPipelines` (/repo/src/Algorithm.cpp 8446-8470): explores the blocks of the same state machine
up to the states. The block after a pipeline is only reached through the stages, which belong to other state
machines, so the exploration ends at a pipeline. It goes past the end of a branch: `r` is what it finds
there. -/
def StCode.starting (r : List Nat) : StCode → List Nat
  | .fin => r
  | .leave _ => []
  | .stmt k => k.starting r
  | .pipe p _ => [p]
  | .ite _ t e k => t.starting (k.starting r) ++ (e.starting (k.starting r) ++ k.starting r)
  | .switch _ cs k => cs.starting (k.starting r) ++ k.starting r
/-- The same for the cases of a switch. -/
def StCases.starting (r : List Nat) : StCases → List Nat
  | .nil => []
  | .cons _ b cs => b.starting r ++ cs.starting r
end

/-- Does the end of the code get a parent state (`parent_state_id != -1`, /repo/src/Algorithm.cpp 4283-4340
`renumberStates`)? The `after` block is among the children of a conditional (/repo/src/Algorithm.h 448, 462). -/
def StCode.ends : StCode → Bool
  | .fin => true
  | .leave back => back
  | .stmt k => k.ends
  | .pipe _ k => k.ends
  | .ite _ _ _ k => k.ends
  | .switch _ _ k => k.ends

/-- The `after` block is a state (`after->is_state`): what follows is left to another cycle. -/
def StCode.isState : StCode → Bool
  | .leave _ => true
  | _ => false

/-- Values in the cycle of the tests. -/
abbrev TestVals := Nat → Nat

/-- The flags of the pipelines. -/
abbrev PipeFlags := Nat → Bool

/-- `disableStartingPipelines` (/repo/src/Algorithm.cpp 8775-8786): `_t_…_1stdisable = 1;` for each pipeline
found. -/
def disablePipes (ps : List Nat) (f : PipeFlags) : PipeFlags := fun q => if q ∈ ps then true else f q

/-- `_t_…_1stdisable = 0;` (/repo/src/Algorithm.cpp 9146). -/
def enablePipe (p : Nat) (f : PipeFlags) : PipeFlags := fun q => if q = p then false else f q

mutual
/-- `writeStatelessBlockGraph` (/repo/src/Algorithm.cpp 8790-9198): what the text written for the code does to
the flags. `rec` is `stop_at != nullptr`, `r` the pipelines found past the end of the code.
A conditional: 8850-8918, with the `after` block written in one of the branches when only that branch reaches it
(8866-8876, 8884-8895), or after the conditional. A switch: 8919-9000. A pipeline: 9140-9160, where the flag is
cleared only in a recursive call.
Simplified: the text is given by its effect on the flags; all other effects are left out. -/
def StCode.write (rec : Bool) (r : List Nat) : StCode → TestVals → PipeFlags → PipeFlags
  | .fin, _, f => f
  | .leave _, _, f => f
  | .stmt k, v, f => k.write rec r v f
  | .pipe p k, v, f => k.write rec r v (if rec then enablePipe p f else f)
  | .ite c t e k, v, f =>
    let r' := k.starting r
    let intoIf := !e.ends && t.ends && !k.isState
    let intoElse := !t.ends && e.ends && !k.isState
    let f1 :=
      if v c ≠ 0 then
        let g := disablePipes (e.starting r') (t.write true r' v f)
        if intoIf then k.write rec r v g else g
      else
        let g := disablePipes (t.starting r') (e.write true r' v f)
        if intoElse then k.write rec r v g else g
    if intoIf || intoElse then f1 else k.write rec r v f1
  | .switch s cs k, v, f =>
    let r' := k.starting r
    let g := disablePipes (cs.starting r' ++ r') f
    k.write rec r v (if cs.has (v s) then cs.writeAt (v s) r' v g else cs.writeDefault r' v g)
/-- Is there a case with this value? -/
def StCases.has (n : Nat) : StCases → Bool
  | .nil => false
  | .cons x _ cs => decide (x = some n) || cs.has n
/-- The text of the first case with the given value (Verilog `case`). -/
def StCases.writeAt (n : Nat) (r : List Nat) : StCases → TestVals → PipeFlags → PipeFlags
  | .nil, _, f => f
  | .cons x b cs, v, f => if x = some n then b.write true r v f else cs.writeAt n r v f
/-- The text of the `default` case, if there is one. -/
def StCases.writeDefault (r : List Nat) : StCases → TestVals → PipeFlags → PipeFlags
  | .nil, _, f => f
  | .cons x b cs, v, f => if x = none then b.write true r v f else cs.writeDefault r v f
end

/-- A state: straight code, or the header of a loop (`gatherWhile`, /repo/src/Algorithm.cpp 2029-2057). The header
is a state, the end of the loop body goes back to it. `split` tells that `after` is a state, which it is as soon
as the body contains a `break` (2011), or when the loop ends a pipeline stage (`padPipeline`, 4235-4280). -/
inductive StState where
  | code (b : StCode)
  | loop (c : Nat) (body after : StCode) (split : Bool)

/-- The flags at the end of a cycle spent in the state, from the flags cleared at the start of the cycle
(/repo/src/Algorithm.cpp 8221). Loops: 9000-9024. -/
def StState.flags : StState → TestVals → PipeFlags
  | .code b, v => b.write false [] v (fun _ => false)
  | .loop c body after split, v =>
    if v c ≠ 0 then disablePipes (after.starting []) (body.write true [] v (fun _ => false))
    else if split then fun _ => false
    else disablePipes (body.starting []) (after.write false [] v (fun _ => false))

mutual
/-- `isStateLessGraph` (/repo/src/Algorithm.cpp 2854-2885): also ends at a pipeline, since the blocks of the stages
belong to other state machines. -/
def StCode.stateless : StCode → Bool
  | .fin => true
  | .leave _ => false
  | .stmt k => k.stateless
  | .pipe _ _ => true
  | .ite _ t e k => t.stateless && e.stateless && k.stateless
  | .switch _ cs k => cs.stateless && k.stateless
/-- The same for all the cases. -/
def StCases.stateless : StCases → Bool
  | .nil => true
  | .cons _ b cs => b.stateless && cs.stateless
end

mutual
/-- Where the compiler makes the `after` block a state: `preventIfElseCodeDup` (/repo/src/Algorithm.cpp 4182-4222),
`gatherSwitchCase` (3184-3189). Code gathered from a source satisfies this. -/
def StCode.built : StCode → Bool
  | .fin => true
  | .leave _ => true
  | .stmt k => k.built
  | .pipe _ k => k.built
  | .ite _ t e k => t.built && e.built && k.built &&
      (k.isState || ((!t.ends || t.stateless) && (!e.ends || e.stateless) && (t.ends || e.ends)))
  | .switch _ cs k => cs.built && k.built && (k.isState || cs.stateless)
/-- The same for all the cases. -/
def StCases.built : StCases → Bool
  | .nil => true
  | .cons _ b cs => b.built && cs.built
end

mutual
/-- `emptyUntilNextStates` (/repo/src/Algorithm.cpp 8420-8441): no instruction in the blocks up to the next states;
`r` tells whether this holds past the end of the code. -/
def StCode.empty (r : Bool) : StCode → Bool
  | .fin => r
  | .leave _ => true
  | .stmt _ => false
  | .pipe _ _ => true
  | .ite _ t e k => t.empty (k.empty r) && e.empty (k.empty r) && k.empty r
  | .switch _ cs k => cs.empty (k.empty r) && k.empty r
/-- The same for all the cases. -/
def StCases.empty (r : Bool) : StCases → Bool
  | .nil => true
  | .cons _ b cs => b.empty r && cs.empty r
end

mutual
/-- The check made after each pipeline of an algorithm, "a pipeline has to be followed by a new cycle"
(/repo/src/Algorithm.cpp 9157-9161). -/
def StCode.accepted (r : Bool) : StCode → Bool
  | .fin => true
  | .leave _ => true
  | .stmt k => k.accepted r
  | .pipe _ k => k.empty r && k.accepted r
  | .ite _ t e k => t.accepted (k.empty r) && e.accepted (k.empty r) && k.accepted r
  | .switch _ cs k => cs.accepted (k.empty r) && k.accepted r
/-- The same for all the cases. -/
def StCases.accepted (r : Bool) : StCases → Bool
  | .nil => true
  | .cons _ b cs => b.accepted r && cs.accepted r
end

/-- A state of a source that compiles, as far as its pipelines are concerned. The code after a loop is part of the
state unless it is a state of its own. -/
def StState.compiles : StState → Bool
  | .code b => b.built && b.accepted true
  | .loop _ body after split => body.built && body.accepted true && (split || (after.built && after.accepted true))

end Silice
