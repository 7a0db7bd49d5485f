import Verif.Model.FsmHw

/-!
# From statements to the block graph

Models how the statements of an algorithm are gathered into combinational blocks (/repo/src/Algorithm.cpp: `addBlock` 375-415, `gatherBlock`
1934-1947, `splitOrContinueBlock` 1951-1981, `gatherBreakLoop` 2004-2025, `gatherWhile` 2029-2057, `gatherSubroutine` 2270-2432, `gatherReturnFrom`
2768-2782, `gatherSyncExec` 2786-2819, `gatherJoinExec` 2823-2850, `isStateLessGraph` 2854-2885, `gatherIfElse` 3097-3126, `gatherIfThen` 3130-3153,
`gatherSwitchCase` 3157-3191, `gather` 3875-4131, `gatherBody` 6474-6495) and how the states are made from the graph (`generateStates` 4349-4360).

Simplifications: units (`unit` with an `algorithm` block), a single state machine (no pipelines), no labels and jumps (`goto`), no `return` in
the algorithm itself (only in subroutines), no forward declarations of subroutines; instructions, conditions and case values are numbers;
declarations are left out; code spliced by circuitries and repeat blocks is given as the statements it stands for.
-/

set_option autoImplicit false

namespace Silice

/-- A sequence of statements: each constructor is a statement followed by the rest of the sequence.
/repo/antlr/silice.g4:371-391, 441-460. -/
inductive Prg where
  /-- end of the sequence -/
  | nil
  /-- an instruction that stays in the current block (assignment, display, start of an instance, ...) -/
  | instr (i : Nat) (k : Prg)
  /-- `++:` -/
  | step (k : Prg)
  /-- `{ b }` -/
  | block (b k : Prg)
  /-- `if (c) { t }` -/
  | ifThen (c : Nat) (t k : Prg)
  /-- `if (c) { t } else { e }` -/
  | ifElse (c : Nat) (t e k : Prg)
  /-- `while (c) { b }` -/
  | loop (c : Nat) (b k : Prg)
  /-- `break;` -/
  | brk (k : Prg)
  /-- `switch (c) { case v: { b } ... default: { b } }`, `none` being the default -/
  | switch (c : Nat) (cs : List (Option Nat × Prg)) (k : Prg)
  /-- call of subroutine `s`: `give` writes its inputs, `take` reads its outputs (`outs`: it has some) -/
  | call (s give take : Nat) (outs : Bool) (k : Prg)
  /-- `(...) <- inst;`: waits for an instance, then `take` reads its outputs (`outs`: it has some) -/
  | join (inst take : Nat) (outs : Bool) (k : Prg)
  /-- `return;` -/
  | ret (k : Prg)

/-- Instructions held by a block; `readback` is the read of the outputs of a subroutine or instance. -/
inductive PIns where
  | plain (i : Nat)
  | readback (i : Nat) (outs : Bool)
deriving DecidableEq, Repr

/-- `blockIsEmpty`, /repo/src/Algorithm.cpp:4529-4568: no instruction, or the read of no output. Initialisations of declared variables and the
assignments of expressions caught for later checks are not represented. -/
def insEmpty : List PIns → Bool
  | [] => true
  | [.readback _ outs] => !outs
  | _ => false

/-- A block under construction (`t_combinational_block`, /repo/src/Algorithm.h:552-577). -/
structure PBlk where
  isState : Bool := false
  noSkip : Bool := false
  sub : Option Nat := none
  ins : List PIns := []
  act : Act Nat := .stop

/-- `m_Blocks` (ids 0 to `next - 1`) and the entry blocks of `m_Subroutines`, in the order of their declaration. -/
structure PSt where
  blk : Nat → PBlk := fun _ => {}
  next : Nat := 0
  tops : List Nat := []

namespace PSt

/-- `addBlock`, /repo/src/Algorithm.cpp:375-415: the new block has id `next` and the subroutine of its parent. -/
def add (st : PSt) (parent : Nat) : PSt :=
  { st with blk := upd st.blk st.next { sub := (st.blk parent).sub }, next := st.next + 1 }

/-- Sets the end action of a block, /repo/src/Algorithm.h:579-629. -/
def setAct (st : PSt) (b : Nat) (a : Act Nat) : PSt := { st with blk := upd st.blk b { st.blk b with act := a } }

/-- `is_state = true`. -/
def setState (st : PSt) (b : Nat) : PSt := { st with blk := upd st.blk b { st.blk b with isState := true } }

/-- `no_skip = true`. -/
def setNoSkip (st : PSt) (b : Nat) : PSt := { st with blk := upd st.blk b { st.blk b with noSkip := true } }

/-- `instructions.push_back`. -/
def push (st : PSt) (b : Nat) (i : PIns) : PSt := { st with blk := upd st.blk b { st.blk b with ins := (st.blk b).ins ++ [i] } }

/-- `getChildren` while gathering: no return state is known yet. /repo/src/Algorithm.h:411-521. -/
def children (st : PSt) (b : Nat) : List Nat :=
  match (st.blk b).act with
  | .stop => []
  | .goto n => [n]
  | .ifElse _ i _ _ e _ _ a => [i, e, a]
  | .switch _ cs a => cs.map (·.2) ++ [a]
  | .loop _ i a => [i, a]
  | .wait _ w n => [w, n]
  | .ret _ => []
  | .call t _ => [t]

/-- Does the block end with a call. -/
def isCall (st : PSt) (b : Nat) : Bool :=
  match (st.blk b).act with
  | .call _ _ => true
  | _ => false

/-- No state and no call within `d` steps. -/
def noState (st : PSt) : Nat → Nat → Bool
  | 0, _ => true
  | d + 1, b => !(st.blk b).isState && !st.isCall b && (st.children b).all (noState st d)

/-- `isStateLessGraph`, /repo/src/Algorithm.cpp:2854-2885. The exploration with a queue is replaced by what it finds out: whether a state or a
call can be reached. There are `next` blocks, so this takes less than `next` steps. -/
def isStateless (st : PSt) (head : Nat) : Bool := st.noState st.next head

end PSt

/-- `gatherBlock`, /repo/src/Algorithm.cpp:1934-1947, `inner` being what gathers the statements of the block. -/
def bracket (inner : Nat → PSt → Option (Nat × PSt)) (c : Nat) (st : PSt) : Option (Nat × PSt) :=
  (inner st.next ((st.add c).setAct c (.goto st.next))).map fun r =>
    (r.2.next, (r.2.add c).setAct r.1 (.goto r.2.next))

mutual

/-- `gather`, /repo/src/Algorithm.cpp:3875-4131, on a sequence of statements. `bt` is the block to go to on `break`, `c` the current block. Gives
the new current block. `none`: an error is reported (`break` outside of a loop, unknown subroutine) or a statement is not modelled
(`return` outside of a subroutine). -/
def build : Prg → Option Nat → Nat → PSt → Option (Nat × PSt)
  | .nil, _, c, st => some (c, st)
  | .instr i k, bt, c, st => build k bt c (st.push c (.plain i))
  -- splitOrContinueBlock, 1951-1981
  | .step k, bt, c, st =>
    let n := st.next
    build k bt n ((((st.add c).setState n).setNoSkip n).setAct c (.goto n))
  | .block b k, bt, c, st => (bracket (build b bt) c st).bind fun r => build k bt r.1 r.2
  -- gatherIfThen, 3130-3153
  | .ifThen q t k, bt, c, st =>
    let i := st.next
    let e := st.next + 1
    (bracket (build t bt) i ((st.add c).add c)).bind fun r =>
    let a := r.2.next
    let st := ((r.2.add c).setAct r.1 (.goto a)).setAct e (.goto a)
    build k bt a (st.setAct c (.ifElse q i (st.isStateless i) r.1 e true e a))
  -- gatherIfElse, 3097-3126
  | .ifElse q t f k, bt, c, st =>
    let i := st.next
    let e := st.next + 1
    (bracket (build t bt) i ((st.add c).add c)).bind fun r =>
    (bracket (build f bt) e r.2).bind fun r' =>
    let a := r'.2.next
    let st := ((r'.2.add c).setAct r.1 (.goto a)).setAct r'.1 (.goto a)
    build k bt a (st.setAct c (.ifElse q i (st.isStateless i) r.1 e (st.isStateless e) r'.1 a))
  -- gatherWhile, 2029-2057
  | .loop q b k, bt, c, st =>
    let h := st.next
    let i := st.next + 1
    let a := st.next + 2
    (bracket (build b (some a)) i ((((st.add c).setAct c (.goto h)).add c).add c)).bind fun r =>
    build k bt a (((r.2.setAct r.1 (.goto h)).setAct h (.loop q i a)).setState h)
  -- gatherBreakLoop, 2004-2025
  | .brk k, bt, c, st =>
    match bt with
    | none => none
    | some b =>
      let st := (st.setAct c (.goto b)).setState b
      build k bt st.next (st.add c)
  -- gatherSwitchCase, 3157-3191
  | .switch q cs k, bt, c, st =>
    let a := st.next
    (buildCases cs bt c a (st.add c)).bind fun r =>
    let st := r.2.setAct c (.switch q r.1 a)
    build k bt a (if r.1.all (fun p => st.isStateless p.2) then st else st.setState a)
  -- gatherSyncExec, 2786-2819 (case of a subroutine), 2845-2848
  | .call s give take outs k, bt, c, st =>
    (st.tops[s]?).bind fun t =>
    let r := st.next
    let st := (((st.push c (.plain give)).add c).setState r).setAct c (.call t r)
    build k bt r (st.push r (.readback take outs))
  -- gatherJoinExec, 2823-2850 (case of an instance)
  | .join inst take outs k, bt, c, st =>
    let w := st.next
    let n := st.next + 1
    let st := ((((st.add c).setState w).setAct c (.goto w)).add c).setState n
    build k bt n ((st.setAct w (.wait inst w n)).push n (.readback take outs))
  -- gatherReturnFrom, 2768-2782
  | .ret k, bt, c, st =>
    match (st.blk c).sub with
    | none => none
    | some s =>
      let n := st.next
      build k bt n (((st.setAct c (.ret s)).add c).setState c)

/-- The cases of a switch, /repo/src/Algorithm.cpp:3163-3172; gives the blocks of the cases. -/
def buildCases : List (Option Nat × Prg) → Option Nat → Nat → Nat → PSt → Option (List (Option Nat × Nat) × PSt)
  | [], _, _, _, st => some ([], st)
  | (v, p) :: cs, bt, c, a, st =>
    let b := st.next
    (bracket (build p bt) b (st.add c)).bind fun r =>
    (buildCases cs bt c a (r.2.setAct r.1 (.goto a))).map fun r' => ((v, b) :: r'.1, r'.2)

end

/-- `gatherSubroutine`, /repo/src/Algorithm.cpp:2270-2432, for each subroutine; `c` is the current block. -/
def buildSubs (c : Nat) : List Prg → PSt → Option PSt
  | [], st => some st
  | p :: ps, st =>
    let s := st.tops.length
    let t := st.next
    let st := st.add c
    let st := { st with blk := upd st.blk t { st.blk t with sub := some s } }
    (build p none t st).bind fun r =>
    let st := (r.2.setAct r.1 (.ret s)).setState t
    buildSubs c ps { st with tops := st.tops ++ [t] }

/-- A unit: subroutines declared outside of it, subroutines declared at the start of its algorithm block, and the algorithm. A
subroutine is named by its position in `globals ++ locals`. -/
structure AlgUnit where
  globals : List Prg
  locals : List Prg
  main : Prg

/-- `gatherBody`, /repo/src/Algorithm.cpp:6474-6495 and `gather` on the algorithm block, 4030-4048. Gives `lastBlock` too, which is the last
block added. -/
def buildUnit (u : AlgUnit) : Option (Nat × PSt) :=
  let st : PSt := (({} : PSt).add 0).setState 0
  (buildSubs 0 u.globals st).bind fun st =>
  let n := st.next
  (buildSubs n u.locals ((st.add 0).setAct 0 (.goto n))).bind fun st =>
  (build u.main none n st).map fun r =>
    (r.2.next, (r.2.add 0).setAct r.1 (.goto r.2.next))

/-- Renaming of blocks. -/
def Act.map {A B : Type} (f : A → B) : Act A → Act B
  | .stop => .stop
  | .goto n => .goto (f n)
  | .ifElse t i x it e y et a => .ifElse t (f i) x (f it) (f e) y (f et) (f a)
  | .switch t cs a => .switch t (cs.map fun p => (p.1, f p.2)) (f a)
  | .loop t i a => .loop t (f i) (f a)
  | .wait k w n => .wait k (f w) (f n)
  | .ret s => .ret s
  | .call t r => .call (f t) (f r)

/-- The block graph, on which states are numbered and code is emitted. All blocks belong to the one state machine. The return states are
those of `analyzeSubroutineCalls`, /repo/src/Algorithm.cpp:6384-6410. -/
def PSt.cfg (st : PSt) (last : Nat) : Cfg (Fin (last + 1)) :=
  let f : Nat → Fin (last + 1) := Fin.ofNat (last + 1)
  let g : Cfg (Fin (last + 1)) :=
    { blk := fun b =>
        let p := st.blk b
        { isState := p.isState, noSkip := p.noSkip, empty := insEmpty p.ins, fsm := 0, sub := p.sub, act := p.act.map f }
      first := f 0
      last := f last
      returns := fun _ => [] }
  { g with returns := returnStates g (callIdsFrom g 0 (List.finRange (last + 1))) }

/-- `generateStates`, /repo/src/Algorithm.cpp:4349-4360, on the root state machine: states are numbered, blocks that follow a conditional may
become states, and then states are numbered again. `ff g` is what `fastForward` gives on `g`; gives the graph and the numbers. -/
def generateStates {B : Type} [DecidableEq B] (g : Cfg B) (fsm : Nat) (ff : Cfg B → B → B) (fuel : Nat) (blocks : List B) :
    Option (Cfg B × RenSt B) :=
  (renumber g fsm (ff g) fuel).bind fun st =>
  let g' := preventDup g fsm st.num blocks
  if blocks.any (fun b => (g'.blk b).isState != (g.blk b).isState) then
    (renumber g' fsm (ff g') fuel).map fun st' => (g', st')
  else some (g', st)

end Silice
