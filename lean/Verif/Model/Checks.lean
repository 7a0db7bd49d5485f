import Verif.Prelude
import Verif.Model.Arith
import Verif.Model.Regs

/-!
Formal checks: `#wasin`, `#assertstable`, `#assumestable`, `#stableinput`, `#assert`, `#assume`, `#restrict`, `#cover`,
and the assumptions written in every module for formal verification.

The checks on states and on stability are recorded while the source is gathered and written among the updates of the
registers, under the condition that the machine is in the state where they were met. Not modelled: checks within
subroutines and pipelines, and how the text of a checked expression is produced (C55, C53).
-/

set_option autoImplicit false

namespace Silice

/-- A check on the past or on stability: `#wasin(target, n)` (`n` is 1 when absent, /repo/src/Algorithm.cpp 2143-2147),
`#assumestable(e)` and `#assertstable(e)`. -/
inductive ChkKind (X : Type) where
  | past (target : String) (n : Nat)
  | stable (isAssumption : Bool) (e : X)
deriving DecidableEq, Repr

/-- What is met while the body of the algorithm is gathered (/repo/src/Algorithm.cpp 3930-4133), in order: an instruction put
in the current block; the start of a new block, which ends the current one and is a state (`inside = none`) or not (then
`inside` is the number of the state block it is executed with), with the label of a named state; a check, which is no
instruction (4116-4118). Block 0 is the one the algorithm starts with, the others are numbered in order. -/
inductive ChkEv (X : Type) where
  | instr
  | block (inside : Option Nat) (label : Option String)
  | check (c : ChkKind X)
deriving DecidableEq, Repr

/-- An entry of `m_PastChecks` or `m_StableChecks` (/repo/src/Algorithm.h 645-662): the check and `current_state`, `none`
for the null pointer. -/
structure ChkRec (X : Type) where
  kind : ChkKind X
  block : Option Nat
deriving DecidableEq, Repr

/-- State of the gathering: whether the first block has instructions, whether it has an end action, for each block whether
it is a state, labels (`state2Block`), checks recorded. -/
structure ChkGather (X : Type) where
  frontInstr : Bool
  frontEnd : Bool
  states : List Bool
  labels : List (String × Nat)
  recs : List (ChkRec X)
deriving DecidableEq, Repr

section
variable {X V E : Type}

/-- Number of the current block. -/
def ChkGather.cur (g : ChkGather X) : Nat := g.states.length - 1

/-- `hasNoFSM` (/repo/src/Algorithm.cpp 4612-4629) for numbers `sid` of the blocks, `none` standing for -1. -/
def ChkGather.noFsm (g : ChkGather X) (sid : Nat → Option Nat) : Bool :=
  if g.frontInstr then false
  else if g.frontEnd then false
  else (List.range g.states.length).all (fun b => match sid b with
    | none => true
    | some k => !decide (k > 1))

/-- One step of `gather`. The checks are `gatherPastCheck` and `gatherStableCheck` (/repo/src/Algorithm.cpp 2141-2170); no
block has a number at this point. -/
def ChkGather.step (g : ChkGather X) : ChkEv X → ChkGather X
  | .instr => if g.cur = 0 then { g with frontInstr := true } else g
  | .block inside label =>
    { g with frontEnd := if g.cur = 0 then true else g.frontEnd
             states := g.states ++ [inside.isNone]
             labels := g.labels ++ (match label with
               | none => []
               | some l => [(l, g.states.length)]) }
  | .check c => { g with recs := g.recs ++ [⟨c, if g.noFsm (fun _ => none) then none else some g.cur⟩] }

/-- Gathering of a unit (/repo/src/Algorithm.cpp 3958-4008): the checks of the always blocks come first, when the first block
of the algorithm is still empty. -/
def chkGather (always : List (ChkKind X)) (evs : List (ChkEv X)) : ChkGather X :=
  evs.foldl ChkGather.step
    ⟨false, false, [true], [], always.map (fun c => ⟨c, if ChkGather.noFsm (X := X) ⟨false, false, [true], [], []⟩ (fun _ => none) then none else some 0⟩)⟩

/-- The text of a check. `inState` is the number the index is compared with, `none` for the text `0`; `withRun` tells that
`in_run` is part of the condition. -/
inductive ChkText (X : Type) where
  | past (inState : Option Int) (withRun : Bool) (n : Nat) (target : Int)
  | stable (isAssumption : Bool) (inState : Option Int) (withRun : Bool) (e : X)
deriving DecidableEq, Repr

/-- `std::to_string(b->state_id)`: -1 for a block without number. -/
def chkStateId (sid : Nat → Option Nat) (b : Nat) : Int := match sid b with
  | none => -1
  | some k => k

/-- Text of a check on the past (/repo/src/Algorithm.cpp 8081-8099); `none` when an error is reported. -/
def pastText (g : ChkGather X) (sid : Nat → Option Nat) (withRun : Bool) (target : String) (n : Nat)
    (cur : Option Nat) : Option (ChkText X) :=
  match g.labels.lookup target with
  | none => none
  | some b => match g.states[b]? with
    | some true => some (.past (cur.map (chkStateId sid)) withRun n (chkStateId sid b))
    | _ => none

/-- Text of a check on stability (/repo/src/Algorithm.cpp 8103-8124). -/
def stableText (sid : Nat → Option Nat) (withRun : Bool) (isAssumption : Bool) (e : X) (cur : Option Nat) : ChkText X :=
  .stable isAssumption (cur.map (chkStateId sid)) withRun e

/-- The checks on the past in the order of the source. -/
def pastTexts (g : ChkGather X) (sid : Nat → Option Nat) (withRun : Bool) : List (ChkRec X) → Option (List (ChkText X))
  | [] => some []
  | ⟨.past target n, cur⟩ :: r => do
    let x ← pastText g sid withRun target n cur
    let xs ← pastTexts g sid withRun r
    return x :: xs
  | ⟨.stable _ _, _⟩ :: r => pastTexts g sid withRun r

/-- The checks on stability in the order of the source. -/
def stableTexts (sid : Nat → Option Nat) (withRun : Bool) : List (ChkRec X) → List (ChkText X)
  | [] => []
  | ⟨.stable a e, cur⟩ :: r => stableText sid withRun a e cur :: stableTexts sid withRun r
  | ⟨.past _ _, _⟩ :: r => stableTexts sid withRun r

/-- The checks written by `writeFlipFlopUpdates` (/repo/src/Algorithm.cpp 8079-8124): those on the past, when there is a state
machine, then those on stability; `in_run` is used when the algorithm is callable (4693-4702). -/
def chkTexts (autorun : Bool) (g : ChkGather X) (sid : Nat → Option Nat) : Option (List (ChkText X)) := do
  let kind : AlgKind := ⟨autorun, g.noFsm sid⟩
  let past ← if !g.noFsm sid then pastTexts g sid (!kind.notCallable) g.recs else some []
  return past ++ stableTexts sid (!kind.notCallable) g.recs

/-- Waveforms of a module: reset, `in_run`, index register and the values of the expressions, cycle by cycle; `early` is what
`$past` gives before the start. Cycle 0 is the one where `$initstate` holds. -/
structure ChkWave (X V : Type) where
  rst : Nat → Bool
  run : Nat → Bool
  idx : Nat → Nat
  val : X → Nat → V
  early : Nat → Nat → Nat

/-- Value of a decimal literal compared with an unsigned register of at most 32 bits: -1 becomes 2^32 - 1. -/
def chkLit (i : Int) : Nat := (i % 2 ^ 32).toNat

/-- `$past(index, n)` at cycle `t`. -/
def ChkWave.pastIdx (w : ChkWave X V) (n t : Nat) : Nat := if n ≤ t then w.idx (t - n) else w.early n t

/-- The condition `(inState && !reset && in_run && !$initstate)`. -/
def ChkWave.cond (w : ChkWave X V) (inState : Option Int) (withRun : Bool) (t : Nat) : Prop :=
  (match inState with
    | none => False
    | some i => w.idx t = chkLit i) ∧ w.rst t = false ∧ (withRun = true → w.run t = true) ∧ t ≠ 0

/-- What the text states at a cycle: `!cond || $past(index, n) == target`, `!cond || $stable(e)`. -/
def ChkText.holdsAt (w : ChkWave X V) (t : Nat) : ChkText X → Prop
  | .past s r n target => ¬ w.cond s r t ∨ w.pastIdx n t = chkLit target
  | .stable _ s r e => ¬ w.cond s r t ∨ w.val e t = w.val e (t - 1)

end

/-! `#stableinput` -/

/-- Operand of `#stableinput`: an identifier or a member of a group. -/
inductive ChkSel where
  | one (x : String)
  | member (g m : String)
deriving DecidableEq, Repr

/-- Inputs and inouts of a unit (members of groups appear as `group_member`), and groups with their members. -/
structure ChkIos where
  inputs : List String
  inouts : List String
  groups : List (String × List String)
deriving DecidableEq, Repr

/-- `gatherStableinputCheck` (/repo/src/Algorithm.cpp 2174-2208): the name recorded, `none` when an error is reported. -/
def stableInput (p : ChkIos) : ChkSel → Option String
  | .one x => if !(p.inputs.contains x) && !(p.inouts.contains x) then none else some x
  | .member g m => match p.groups.lookup g with
    | none => none
    | some ms => if !(ms.contains m) then none
      else if !(p.inputs.contains (g ++ "_" ++ m)) && !(p.inouts.contains (g ++ "_" ++ m)) then none else some g

/-- The name read by the text of the check (/repo/src/Algorithm.cpp 8134), `in_` followed by the name recorded. -/
def stableInputText (x : String) : String := "in_" ++ x

/-- The ports of the module (/repo/src/Algorithm.cpp 9880-9940). An inout is a port `inout_x` (or three, with suffixes). -/
def ChkIos.ports (p : ChkIos) : List String := p.inputs.map ("in_" ++ ·) ++ p.inouts.map ("inout_" ++ ·)

/-- What `assume(!(!reset && in_run && !$initstate) || $stable(in_x))` (/repo/src/Algorithm.cpp 8126-8135) states at a cycle;
`none` when `in_x` is not declared. -/
def stableInputAt {V : Type} (p : ChkIos) (port : String → Nat → V) (withRun : Bool) (rst run : Nat → Bool) (x : String)
    (t : Nat) : Option Prop :=
  if stableInputText x ∈ p.ports then
    some (¬ (rst t = false ∧ (withRun = true → run t = true) ∧ t ≠ 0) ∨
      port (stableInputText x) t = port (stableInputText x) (t - 1))
  else none

/-! Immediate checks -/

/-- `#assert`, `#assume`, `#restrict`, `#cover`. -/
inductive ImmKind where
  | asrt
  | asum
  | restrict
  | cover
deriving DecidableEq, Repr

/-- `writeAssert`, `writeAssume`, `writeRestrict`, `writeCover` (/repo/src/Algorithm.cpp 7612-7690): the name of the reset in the
condition (`m_Reset` as in the modifiers of the unit), none for a cover. -/
def immGuard (k : ImmKind) (mReset : String) : Option String := match k with
  | .asrt => some mReset
  | .asum => some mReset
  | .restrict => some mReset
  | .cover => none

/-- The condition of an immediate check at a cycle where it is executed: `($initstate || reset) || (e)`, or `e`; `none` when the
name of the reset is not declared: the only one is `reset`, when the module has that port. -/
def immAt (k : ImmKind) (mReset : String) (resetPort : Bool) (rst : Nat → Bool) (e : Nat → Bool) (t : Nat) : Option Bool :=
  match immGuard k mReset with
  | none => some (e t)
  | some r => if r = "reset" ∧ resetPort = true then some ((decide (t = 0) || rst t) || e t) else none

/-! Assumptions of the module -/

section
variable {V E : Type}

/-- The assumptions written for formal verification at cycle `t` (/repo/src/Algorithm.cpp 10486-10502): reset in the first
cycle; then, with a state machine, `in_run || out_done` for a callable algorithm and `out_done` otherwise. -/
def chkAssumed (a : AlgKind) (i : CoreIn E) (done : Bool) (t : Nat) : Bool :=
  (if t = 0 then i.rst else true) &&
  (if !a.noFsm then (if !a.notCallable then decide (t = 0) || (i.run || done) else decide (t = 0) || done) else true)

/-- The histories formal verification looks at: the assumptions hold in every cycle. No pipelines (their terms can only make
`done` false, C35). -/
def chkAdmitted (m : Mod V E) : Nat → List (CoreIn E) → Core V → Bool
  | _, [], _ => true
  | t, i :: is, q => chkAssumed m.kind i (doneOut m.kind q []) t &&
    match coreStep m i q with
    | none => false
    | some q' => chkAdmitted m (t + 1) is q'

end

end Silice
