import Verif.Prelude

/-!
Model of the construction of state machines: block graph, `fastForward`, `renumberStates`,
`isStateLessGraph`, `preventIfElseCodeDup`, `writeStatelessBlockGraph` and `writeCombinationalStates`.

Simplifications, throughout this file:
* instructions of a block are abstract (a block stands for its own instruction list);
* `end_action_pipeline_next` is absent (pipelines have their own model);
* `int` ids are `Nat`, and the value `-1` is `none`;
* C++ pointers to blocks are elements of an arbitrary type `B` with decidable equality.
-/

set_option autoImplicit false

namespace Silice

/-- End actions of a block.
Models /repo/src/Algorithm.h:411-530. Conditions, selectors and instances are named by numbers.
A case value of `none` is the `default` entry. -/
inductive Act (B : Type) where
  /-- no end action -/
  | stop
  /-- end_action_goto_next -/
  | goto (next : B)
  /-- end_action_if_else -/
  | ifElse (test : Nat) (ifNext : B) (ifStateless : Bool) (ifTrail : B)
      (elseNext : B) (elseStateless : Bool) (elseTrail : B) (after : B)
  /-- end_action_switch_case -/
  | switch (test : Nat) (cases : List (Option Nat × B)) (after : B)
  /-- end_action_while -/
  | loop (test : Nat) (iteration after : B)
  /-- end_action_wait -/
  | wait (inst : Nat) (waiting next : B)
  /-- end_action_return_from (subroutine) -/
  | ret (sub : Nat)
  /-- end_action_goto_and_return_to -/
  | call (goTo returnTo : B)

/-- A combinational block.
Models /repo/src/Algorithm.h:552-577 (is_state, no_skip, context.fsm, context.subroutine, end_action);
`empty` is the answer of blockIsEmpty (/repo/src/Algorithm.cpp:4529-4568). -/
structure CBlock (B : Type) where
  isState : Bool := false
  noSkip : Bool := false
  empty : Bool := false
  fsm : Nat := 0
  sub : Option Nat := none
  act : Act B := .stop

/-- The block graph of an algorithm with the entry (`firstBlock`) and `lastBlock` of the state machine
being generated, and the return states recorded for each subroutine
(m_SubroutinesCallerReturnStates, /repo/src/Algorithm.h:526-529). -/
structure Cfg (B : Type) where
  blk : B → CBlock B
  first : B
  last : B
  returns : Nat → List (Nat × B)

variable {B : Type}

/-- `getChildren`. Models /repo/src/Algorithm.h:411-521 and 631. -/
def Cfg.children (g : Cfg B) (b : B) : List B :=
  match (g.blk b).act with
  | .stop => []
  | .goto n => [n]
  | .ifElse _ i _ _ e _ _ a => [i, e, a]
  | .switch _ cs a => cs.map (·.2) ++ [a]
  | .loop _ i a => [i, a]
  | .wait _ w n => [w, n]
  | .ret s => (g.returns s).map (·.2)
  | .call t _ => [t]

/-- The loop of `fastForward`, `fuel` bounding the number of iterations (`none`: not finished).
Models /repo/src/Algorithm.cpp:4580-4605. -/
def ffLoop (g : Cfg B) (fsm : Nat) : Nat → B → B → Option B
  | 0, _, _ => none
  | fuel + 1, lastState, current =>
    if (g.blk current).empty = false then some lastState
    else match (g.blk current).act with
      | .goto n =>
        if (g.blk n).fsm ≠ fsm then some lastState
        else if (g.blk n).noSkip then some lastState
        else ffLoop g fsm fuel (if (g.blk n).isState then n else lastState) n
      | _ => some lastState

/-- `fastForward`. Models /repo/src/Algorithm.cpp:4572-4608. -/
def fastForward (g : Cfg B) (fuel : Nat) (b : B) : Option B :=
  if (g.blk b).noSkip then some b else ffLoop g (g.blk b).fsm fuel b b

/-- State numbers (`state_id`, `parent_state_id`); `none` is -1. /repo/src/Algorithm.h:565-566. -/
structure Num (B : Type) where
  sid : B → Option Nat
  pid : B → Option Nat

/-- The variables of `renumberStates`: ids written so far, `fsm->maxState`, `visited`, and the queue
of records (block, parent state id). -/
structure RenSt (B : Type) where
  num : Num B
  maxState : Nat
  visited : List B
  queue : List (B × Option Nat)

/-- Pointwise update. -/
def upd {A V : Type} [DecidableEq A] (f : A → V) (a : A) (v : V) : A → V :=
  fun x => if x = a then v else f x

section
variable [DecidableEq B]

/-- The start of `renumberStates`: clean slate, first block queued and visited.
Models /repo/src/Algorithm.cpp:4292-4306. -/
def renInit (g : Cfg B) : RenSt B :=
  { num := ⟨fun _ => none, fun _ => none⟩, maxState := 1, visited := [g.first],
    queue := [(g.first, none)] }

/-- The children loop. `ff` is what `fastForward` returns.
Models /repo/src/Algorithm.cpp:4320-4340. -/
def renChildren (g : Cfg B) (fsm : Nat) (ff : B → B) (parent : Option Nat) :
    List B → RenSt B → RenSt B
  | [], st => st
  | c :: cs, st =>
    let c' := if (g.blk c).isState then ff c else c
    if c' ∈ st.visited then renChildren g fsm ff parent cs st
    else
      renChildren g fsm ff parent cs
        { st with
          num := { st.num with
            pid := if (g.blk c').fsm = fsm then upd st.num.pid c' parent else st.num.pid }
          queue := st.queue ++ [(c', parent)]
          visited := c' :: st.visited }

/-- One iteration of the main loop. Models /repo/src/Algorithm.cpp:4307-4341. -/
def renStep (g : Cfg B) (fsm : Nat) (ff : B → B) (st : RenSt B) : RenSt B :=
  match st.queue with
  | [] => st
  | (b, p) :: q =>
    if (g.blk b).isState ∧ (g.blk b).fsm = fsm then
      renChildren g fsm ff (some st.maxState) (g.children b)
        { st with
          num := ⟨upd st.num.sid b (some st.maxState), upd st.num.pid b (some st.maxState)⟩
          maxState := st.maxState + 1
          queue := q }
    else
      renChildren g fsm ff p (g.children b) { st with queue := q }

/-- `renumberStates`, with `fuel` iterations of the main loop; `none` when the queue is not yet empty.
Models /repo/src/Algorithm.cpp:4284-4345. -/
def renLoop (g : Cfg B) (fsm : Nat) (ff : B → B) : Nat → RenSt B → Option (RenSt B)
  | 0, st => if st.queue = [] then some st else none
  | fuel + 1, st => if st.queue = [] then some st else renLoop g fsm ff fuel (renStep g fsm ff st)

/-- `renumberStates`. Models /repo/src/Algorithm.cpp:4284-4345. -/
def renumber (g : Cfg B) (fsm : Nat) (ff : B → B) (fuel : Nat) : Option (RenSt B) :=
  renLoop g fsm ff fuel (renInit g)

/-- The new value of `after->is_state` for one if/else block in `preventIfElseCodeDup`.
Models /repo/src/Algorithm.cpp:4206-4216. -/
def promoteAfter (num : Num B) (ifStateless : Bool) (ifTrail : B) (elseStateless : Bool)
    (elseTrail : B) : Bool :=
  let ifDead := (num.pid ifTrail).isNone
  let elseDead := (num.pid elseTrail).isNone
  (!ifDead && !ifStateless) || (!elseDead && !elseStateless) || (ifDead && elseDead)

/-- `preventIfElseCodeDup`: each block that is the `after` of a reachable if/else block, and is not yet
a state, becomes one when `promoteAfter` says so. `blocks` is `m_Blocks`.
Models /repo/src/Algorithm.cpp:4182-4222. -/
def preventDup (g : Cfg B) (fsm : Nat) (num : Num B) (blocks : List B) : Cfg B :=
  let promoted (a : B) : Bool := blocks.any fun b =>
    decide ((g.blk b).fsm = fsm)
    && !(((g.blk b).isState && (num.sid b).isNone) || (num.pid b).isNone)
    && match (g.blk b).act with
       | .ifElse _ _ isl it _ esl et a' => decide (a' = a) && promoteAfter num isl it esl et
       | _ => false
  { g with blk := fun a => { g.blk a with isState := (g.blk a).isState || promoted a } }

/-- Emitted code of a state. `body b` is the code of the instructions of block `b`; `jump b` is
`D_idx = fastForwardToFSMState(b)` together with `pushState(b)`; `waitDone k n w` jumps to `n` when instance `k` is done and to `w`
otherwise; `halt` is `D_idx = termination`;
`call b` and `ret s` are the register assignments of a subroutine call and return; `wend c x b` is the `if` of a
`while` followed by state `b` (the same text as `ite c x (jump b)`, but usages are combined in another way).
Models the text written by /repo/src/Algorithm.cpp:8788-9199. -/
inductive Code (B : Type) where
  | skip
  | body (b : B)
  | seq (x y : Code B)
  | ite (test : Nat) (x y : Code B)
  | wend (test : Nat) (x : Code B) (b : B)
  | case (test : Nat) (entries : List (Option Nat × Code B))
  | waitDone (inst : Nat) (next waiting : B)
  | jump (b : B)
  | halt
  | call (site goTo returnTo : B)
  | ret (site : B) (sub : Nat)

/-- `writeStatelessBlockGraph` from the point where the loop is at block `cur`. `stop` is `stop_at`
(`none` for nullptr). `num` gives the parent ids of the trails. Fuel bounds the recursion.
`emitCont` is the end of the loop body (is the next block a state, is it `stop_at`), and `emitEnter` the
start of a recursive call.
Models /repo/src/Algorithm.cpp:8788-9199 without the pipeline cases. -/
def emitFrom (g : Cfg B) (num : Num B) : Nat → Option B → B → Option (Code B)
  | 0, _, _ => none
  | fuel + 1, stop, cur =>
    -- "check whether next is a state", "reached stop?" (9180-9194)
    let cont (n : B) : Option (Code B) :=
      if (g.blk n).isState then some (.jump n)
      else if stop = some n then some .skip
      else emitFrom g num fuel stop n
    -- recursive call with stop_at non null (8801-8811)
    let enter (st n : B) : Option (Code B) :=
      if (g.blk n).isState then some (.jump n) else emitFrom g num fuel (some st) n
    match (g.blk cur).act with
    | .stop => some (.seq (.body cur) .halt)
    | .goto n => (cont n).map (Code.seq (.body cur))
    | .ifElse c i _ it e _ et a =>
      (enter a i).bind fun ci =>
      (enter a e).bind fun ce =>
      let ifReach := (num.pid it).isSome
      let elseReach := (num.pid et).isSome
      if (g.blk a).isState then some (.seq (.body cur) (.ite c ci ce))
      else if ifReach && !elseReach then
        (emitFrom g num fuel stop a).map fun ca => .seq (.body cur) (.ite c (.seq ci ca) ce)
      else if elseReach && !ifReach then
        (emitFrom g num fuel stop a).map fun ca => .seq (.body cur) (.ite c ci (.seq ce ca))
      else (cont a).map fun ca => .seq (.seq (.body cur) (.ite c ci ce)) ca
    | .switch c cs a =>
      (cs.mapM fun p => (enter a p.2).map fun x => (p.1, x)).bind fun es =>
      if (g.blk a).isState then some (.seq (.body cur) (.case c es))
      else (cont a).map fun ca => .seq (.seq (.body cur) (.case c es)) ca
    | .loop c i a =>
      (enter a i).bind fun ci =>
      if (g.blk a).isState then some (.seq (.body cur) (.wend c ci a))
      else (emitFrom g num fuel stop a).map fun ca => .seq (.body cur) (.ite c ci ca)
    | .wait k w n => some (.seq (.body cur) (.waitDone k n w))
    | .ret s => some (.seq (.body cur) (.ret cur s))
    | .call t r => some (.seq (.body cur) (.call cur t r))

end

/-! ### Meaning of emitted code -/

/-- Outcome of one cycle: the control assignment that is in force at its end. -/
inductive Out (B : Type) where
  | jump (b : B)
  | halt
  | call (site goTo returnTo : B)
  | ret (site : B) (sub : Nat)

/-- Meaning of what is left abstract: the effect of the instructions of a block, of the tests, and of
the case labels (`label t v s`: does label `v` of switch `t` match). -/
structure Sem (B σ : Type) where
  exec : B → σ → σ
  test : Nat → σ → Bool
  label : Nat → Nat → σ → Bool
  done : Nat → σ → Bool

/-- Does a label that is not `default` match. -/
def labelMatches (m : Nat → Bool) : Option Nat → Bool
  | some v => m v
  | none => false

/-- First entry of a Verilog case statement whose label matches, otherwise the default entry. -/
def pickCase {A : Type} (m : Nat → Bool) (es : List (Option Nat × A)) : Option A :=
  match es.find? (fun e => labelMatches m e.1) with
  | some e => some e.2
  | none => (es.find? (fun e => e.1.isNone)).map (·.2)

/-- State threaded through emitted code: blocks executed so far (in order), the data, and the last
control assignment (`none`: the index keeps its value). -/
structure CSt (B σ : Type) where
  trace : List B
  data : σ
  ctl : Option (Out B)

/-- Blocking-assignment semantics of emitted code: later assignments of the index override earlier ones. -/
def Code.run {σ : Type} (S : Sem B σ) : Code B → CSt B σ → CSt B σ
  | .skip, s => s
  | .body b, s => { s with trace := s.trace ++ [b], data := S.exec b s.data }
  | .seq x y, s => y.run S (x.run S s)
  | .ite c x y, s => if S.test c s.data then x.run S s else y.run S s
  | .wend c x b, s => if S.test c s.data then x.run S s else { s with ctl := some (.jump b) }
  | .case c es, s =>
    match pickCase (fun v => S.label c v s.data) (runEntries es) with
    | some f => f s
    | none => s
  | .waitDone k n w, s => { s with ctl := some (.jump (if S.done k s.data then n else w)) }
  | .jump b, s => { s with ctl := some (.jump b) }
  | .halt, s => { s with ctl := some .halt }
  | .call p t r, s => { s with ctl := some (.call p t r) }
  | .ret p k, s => { s with ctl := some (.ret p k) }
where
  /-- the entries of a case, each with its meaning -/
  runEntries : List (Option Nat × Code B) → List (Option Nat × (CSt B σ → CSt B σ))
    | [] => []
    | (v, x) :: es => (v, x.run S) :: runEntries es

/-- Blocks for which `pushState` is called while emitting the code. -/
def Code.pushes : Code B → List B
  | .skip | .body _ | .halt | .ret _ _ => []
  | .seq x y | .ite _ x y => x.pushes ++ y.pushes
  | .waitDone _ n w => [n, w]
  | .wend _ x b => x.pushes ++ [b]
  | .case _ es => pushesEntries es
  | .jump b => [b]
  | .call _ t r => [t, r]
where
  /-- of the entries of a case -/
  pushesEntries : List (Option Nat × Code B) → List B
    | [] => []
    | (_, x) :: es => x.pushes ++ pushesEntries es

/-! ### Emission of the states -/

section
variable [DecidableEq B]

/-- The index assigned for a jump to `b` (binary encoding, root state machine). `none` stands for -1, the
id of a block without one. Models fastForwardToFSMState, /repo/src/Algorithm.cpp:4494-4504. -/
def stateIndex (g : Cfg B) (num : Num B) (ff : B → B) (b : B) : Option Nat :=
  if (g.blk (ff b)).empty = true ∧ ff b = g.last then some 0 else num.sid (ff b)

/-- Ways in which the emission of states stops early: a failed assertion `b->state_id > -1`, or the
model's fuel. -/
inductive EmitErr (B : Type) where
  | noStateId (b : B)
  | fuel

/-- One `case` entry: the index, the block it was written for, its code. -/
structure Entry (B : Type) where
  index : Nat
  block : B
  code : Code B

/-- `writeCombinationalStates`: worklist of state blocks, `entries` being what was written so far
(their blocks are the set `produced`). `efuel` is the fuel of each call to `emitFrom`.
Models /repo/src/Algorithm.cpp:8324-8396 and pushState 8304-8310. -/
def statesLoop (g : Cfg B) (num : Num B) (ff : B → B) (efuel : Nat) :
    Nat → List B → List (Entry B) → Except (EmitErr B) (List (Entry B))
  | _, [], entries => .ok entries
  | 0, _ :: _, _ => .error .fuel
  | fuel + 1, b :: q, entries =>
    match num.sid b with
    | none => .error (.noStateId b)
    | some k =>
      if b ∈ entries.map (·.block) then statesLoop g num ff efuel fuel q entries
      else match emitFrom g num efuel none b with
        | none => .error .fuel
        | some code =>
          statesLoop g num ff efuel fuel
            (q ++ (code.pushes.filter fun x => (g.blk x).isState).map ff)
            (entries ++ [⟨k, b, code⟩])

/-- `writeCombinationalStates`. -/
def emitStates (g : Cfg B) (num : Num B) (ff : B → B) (efuel fuel : Nat) :
    Except (EmitErr B) (List (Entry B)) :=
  statesLoop g num ff efuel fuel [g.first] []

end

end Silice
