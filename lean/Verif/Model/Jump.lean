import Verif.Model.Gather

/-!
# Labels and jumps

Models how labels and `goto` are gathered (/repo/src/Algorithm.cpp: `addBlock` 375-415, `gatherBlock` 1934-1947, `splitOrContinueBlock` 1951-1981,
`gatherBreakLoop` 2004-2025, `gatherWhile` 2029-2057, `gatherJump` 2744-2764, `isStateLessGraph` 2854-2885, `gatherIfElse` 3097-3126, `gatherIfThen`
3130-3153, `resolveForwardJumpRefs` 4135-4178, `gatherBody` 6474-6495), for an algorithm made of instructions, steps, conditionals, loops, labels and
jumps.

Simplifications: no subroutines, switches, joins and pipelines (one state machine; the labels of subroutines are in the same table); instructions and conditions are numbers;
declarations are left out. The names the compiler gives to blocks (starting with `__`) are not in the table: no label can be spelled like them.
-/

set_option autoImplicit false

namespace Silice

/-- A sequence of statements: each constructor is a statement followed by the rest of the sequence.
/repo/antlr/silice.g4:371-391, 441-460. -/
inductive JPrg where
  /-- end of the sequence -/
  | nil
  /-- an instruction that stays in the current block -/
  | instr (i : Nat) (k : JPrg)
  /-- `++:` -/
  | step (k : JPrg)
  /-- `l:` -/
  | label (l : String) (k : JPrg)
  /-- `goto l;` -/
  | jump (l : String) (k : JPrg)
  /-- `{ b }` -/
  | block (b k : JPrg)
  /-- `if (c) { t }` -/
  | ifThen (c : Nat) (t k : JPrg)
  /-- `if (c) { t } else { e }` -/
  | ifElse (c : Nat) (t e k : JPrg)
  /-- `while (c) { b }` -/
  | loop (c : Nat) (b k : JPrg)
  /-- `break;` -/
  | brk (k : JPrg)
deriving DecidableEq

/-- End action of a block while gathering: `fwd l` is `next(nullptr)` with the block recorded in `jumpForwardRefs[l]`.
/repo/src/Algorithm.h:411-530, /repo/src/Algorithm.cpp:2748-2754. -/
inductive JAct where
  | act (a : Act Nat)
  | fwd (l : String)

/-- A block under construction, /repo/src/Algorithm.h:552-577; `name` is the label of a block that has one (`block_name`). -/
structure JBlk where
  name : Option String := none
  isState : Bool := false
  noSkip : Bool := false
  ins : List Nat := []
  act : JAct := .act .stop

/-- `m_Blocks` (ids 0 to `next - 1`) and the user labels of `state2Block`. -/
structure JSt where
  blk : Nat → JBlk := fun _ => {}
  next : Nat := 0
  labels : List (String × Nat) := []

/-- Errors: "state name '%s' already defined" (/repo/src/Algorithm.cpp:410), "cannot find state '%s'" (4148), "cannot break outside of a loop"
(2008). -/
inductive JErr where
  | again (l : String)
  | unknown (l : String)
  | breakOutside
deriving DecidableEq

namespace JSt

/-- `addBlock`, /repo/src/Algorithm.cpp:375-415, with a name made by the compiler. -/
def add (st : JSt) : JSt := { st with blk := upd st.blk st.next {}, next := st.next + 1 }

/-- `addBlock`, /repo/src/Algorithm.cpp:375-415, with the name of a label. -/
def addLabel (st : JSt) (l : String) : Except JErr JSt :=
  if (st.labels.lookup l).isSome then .error (.again l)
  else .ok { blk := upd st.blk st.next { name := some l }, next := st.next + 1, labels := st.labels ++ [(l, st.next)] }

/-- Sets the end action of a block, /repo/src/Algorithm.h:579-629. -/
def setAct (st : JSt) (b : Nat) (a : JAct) : JSt := { st with blk := upd st.blk b { st.blk b with act := a } }

/-- `is_state = true`. -/
def setState (st : JSt) (b : Nat) : JSt := { st with blk := upd st.blk b { st.blk b with isState := true } }

/-- `no_skip = true`. -/
def setNoSkip (st : JSt) (b : Nat) : JSt := { st with blk := upd st.blk b { st.blk b with noSkip := true } }

/-- `instructions.push_back`. -/
def push (st : JSt) (b i : Nat) : JSt := { st with blk := upd st.blk b { st.blk b with ins := (st.blk b).ins ++ [i] } }

/-- `getChildren` (/repo/src/Algorithm.h:411-521); `none` is a null pointer among the children. -/
def children (st : JSt) (b : Nat) : Option (List Nat) :=
  match (st.blk b).act with
  | .fwd _ => none
  | .act (.goto n) => some [n]
  | .act (.ifElse _ i _ _ e _ _ a) => some [i, e, a]
  | .act (.loop _ i a) => some [i, a]
  | .act _ => some []

/-- No state and no jump forward within `d` steps. -/
def noState (st : JSt) : Nat → Nat → Bool
  | 0, _ => true
  | d + 1, b =>
    !(st.blk b).isState &&
      match st.children b with
      | none => false
      | some cs => cs.all (noState st d)

/-- `isStateLessGraph`, /repo/src/Algorithm.cpp:2854-2885. The exploration with a queue is replaced by what it finds out. There are `next` blocks,
so this takes less than `next` steps. -/
def isStateless (st : JSt) (head : Nat) : Bool := st.noState st.next head

end JSt

/-- `gatherBlock`, /repo/src/Algorithm.cpp:1934-1947, `inner` being what gathers the statements of the block. -/
def jBracket (inner : Nat → JSt → Except JErr (Nat × JSt)) (c : Nat) (st : JSt) : Except JErr (Nat × JSt) :=
  match inner st.next (st.add.setAct c (.act (.goto st.next))) with
  | .error e => .error e
  | .ok r => .ok (r.2.next, r.2.add.setAct r.1 (.act (.goto r.2.next)))

/-- `gather`, /repo/src/Algorithm.cpp:3875-4131, on a sequence of statements. `bt` is the block to go to on `break`, `c` the current block. Gives
the new current block. -/
def jBuild : JPrg → Option Nat → Nat → JSt → Except JErr (Nat × JSt)
  | .nil, _, c, st => .ok (c, st)
  | .instr i k, bt, c, st => jBuild k bt c (st.push c i)
  -- splitOrContinueBlock, 1951-1981
  | .step k, bt, c, st =>
    let n := st.next
    jBuild k bt n (((st.add.setState n).setNoSkip n).setAct c (.act (.goto n)))
  | .label l k, bt, c, st =>
    match st.addLabel l with
    | .error e => .error e
    | .ok st' => jBuild k bt st.next (st'.setAct c (.act (.goto st.next)))
  -- gatherJump, 2744-2764
  | .jump l k, bt, c, st =>
    let st' :=
      match st.labels.lookup l with
      | none => st.setAct c (.fwd l)
      | some n => (st.setAct c (.act (.goto n))).setState n
    jBuild k bt st'.next st'.add
  | .block b k, bt, c, st =>
    match jBracket (jBuild b bt) c st with
    | .error e => .error e
    | .ok r => jBuild k bt r.1 r.2
  -- gatherIfThen, 3130-3153
  | .ifThen q t k, bt, c, st =>
    let i := st.next
    let e := st.next + 1
    match jBracket (jBuild t bt) i st.add.add with
    | .error x => .error x
    | .ok r =>
      let a := r.2.next
      let st := (r.2.add.setAct r.1 (.act (.goto a))).setAct e (.act (.goto a))
      jBuild k bt a (st.setAct c (.act (.ifElse q i (st.isStateless i) r.1 e true e a)))
  -- gatherIfElse, 3097-3126
  | .ifElse q t f k, bt, c, st =>
    let i := st.next
    let e := st.next + 1
    match jBracket (jBuild t bt) i st.add.add with
    | .error x => .error x
    | .ok r =>
    match jBracket (jBuild f bt) e r.2 with
    | .error x => .error x
    | .ok r' =>
      let a := r'.2.next
      let st := (r'.2.add.setAct r.1 (.act (.goto a))).setAct r'.1 (.act (.goto a))
      jBuild k bt a (st.setAct c (.act (.ifElse q i (st.isStateless i) r.1 e (st.isStateless e) r'.1 a)))
  -- gatherWhile, 2029-2057
  | .loop q b k, bt, c, st =>
    let h := st.next
    let i := st.next + 1
    let a := st.next + 2
    match jBracket (jBuild b (some a)) i ((st.add.setAct c (.act (.goto h))).add.add) with
    | .error x => .error x
    | .ok r => jBuild k bt a (((r.2.setAct r.1 (.act (.goto h))).setAct h (.act (.loop q i a))).setState h)
  -- gatherBreakLoop, 2004-2025
  | .brk k, bt, c, st =>
    match bt with
    | none => .error .breakOutside
    | some b =>
      let st := (st.setAct c (.act (.goto b))).setState b
      jBuild k bt st.next st.add

/-- The block an end action that is complete, or a jump forward, stands for. Models /repo/src/Algorithm.cpp:4158-4160. -/
def jResolveAct (labels : List (String × Nat)) : JAct → Option (Act Nat)
  | .act a => some a
  | .fwd l => (labels.lookup l).map Act.goto

/-- Labels of the jumps forward from the blocks `bs`. -/
def jFwds (blk : Nat → JBlk) (bs : List Nat) : List String :=
  bs.filterMap fun b =>
    match (blk b).act with
    | .fwd l => some l
    | .act _ => none

/-- A block once jumps are resolved: blocks jumped to are states. `fl` are the labels of the jumps forward. Models
/repo/src/Algorithm.cpp:4157-4166. -/
def jResolveBlk (labels : List (String × Nat)) (fl : List String) (n : Nat) (b : JBlk) : JBlk :=
  { b with
    isState := b.isState || fl.any (fun l => labels.lookup l == some n)
    act := match jResolveAct labels b.act with
      | some a => .act a
      | none => b.act }

/-- `resolveForwardJumpRefs`, /repo/src/Algorithm.cpp:4135-4178; the error names a label that does not exist (the C++ code goes through the labels
in alphabetical order, the model in the order of the jumps). -/
def jResolve (st : JSt) : Except JErr JSt :=
  let fl := jFwds st.blk (List.range st.next)
  match fl.find? (fun l => (st.labels.lookup l).isNone) with
  | some l => .error (.unknown l)
  | none => .ok { st with blk := fun n => jResolveBlk st.labels fl n (st.blk n) }

/-- `gatherBody`, /repo/src/Algorithm.cpp:6474-6495, and `gather` on the algorithm block, 4030-4048. Gives `lastBlock` too, which is the last block
added. -/
def jGather (p : JPrg) : Except JErr (Nat × JSt) :=
  let st : JSt := ({} : JSt).add.setState 0
  let n := st.next
  match jBuild p none n (st.add.setAct 0 (.act (.goto n))) with
  | .error e => .error e
  | .ok r =>
    match jResolve (r.2.add.setAct r.1 (.act (.goto r.2.next))) with
    | .error e => .error e
    | .ok st => .ok (r.2.next, st)

/-- The block graph, on which states are generated (`generateStates`) and code is emitted. -/
def JSt.cfg (st : JSt) (last : Nat) : Cfg (Fin (last + 1)) :=
  let f : Nat → Fin (last + 1) := Fin.ofNat (last + 1)
  { blk := fun b =>
      let p := st.blk b
      { isState := p.isState, noSkip := p.noSkip, empty := p.ins.isEmpty, fsm := 0, sub := none
        act := match p.act with
          | .act a => a.map f
          | .fwd _ => .stop }
    first := f 0
    last := f last
    returns := fun _ => [] }

end Silice
