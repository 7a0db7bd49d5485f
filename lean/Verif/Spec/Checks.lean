import Verif.Model.Checks

/-! Specification of formal checks. -/

set_option autoImplicit false

namespace Silice
variable {X V E : Type}

/-- A check in the source: where it stands (`place`: the state, none in an always block), the block it is in, and whether an
instruction or a state comes before it in the algorithm. -/
structure SrcChk (X : Type) where
  kind : ChkKind X
  place : Option Nat
  block : Nat
  started : Bool

/-- The checks of the rest of an algorithm; `n` is the current block and `inside` the current state. -/
def srcChecksFrom (started : Bool) (n inside : Nat) : List (ChkEv X) → List (SrcChk X)
  | [] => []
  | .instr :: r => srcChecksFrom true n inside r
  | .block none _ :: r => srcChecksFrom true (n + 1) (n + 1) r
  | .block (some p) _ :: r => srcChecksFrom true (n + 1) p r
  | .check c :: r => ⟨c, some inside, n, started⟩ :: srcChecksFrom started n inside r

/-- The checks of a unit: those of its always blocks, then those of its algorithm. -/
def srcChecks (always : List (ChkKind X)) (evs : List (ChkEv X)) : List (SrcChk X) :=
  always.map (fun c => ⟨c, none, 0, false⟩) ++ srcChecksFrom false 0 0 evs

/-- The blocks of the algorithm after the first. -/
def blocksOf (evs : List (ChkEv X)) : List (Option Nat × Option String) := evs.filterMap (fun ev => match ev with
  | .block i l => some (i, l)
  | _ => none)

/-- The state named `l` is block `b`. -/
def Labelled (evs : List (ChkEv X)) (l : String) (b : Nat) : Prop :=
  ∃ b', b = b' + 1 ∧ (blocksOf evs)[b']? = some (none, some l)

/-- Block `b` is a state. -/
def StateBlock (evs : List (ChkEv X)) (b : Nat) : Prop :=
  b = 0 ∨ ∃ b' l, b = b' + 1 ∧ (blocksOf evs)[b']? = some (none, l)

/-- `st` tells the state the machine is in at each cycle, given its index register: states have the numbers `sid`, encoded
as the machine does. -/
def InStates (f : FsmNfo) (sid : Nat → Option Nat) (idx : Nat → Nat) (st : Nat → Option Nat) : Prop :=
  ∀ t b, st t = some b ↔ ∃ k, sid b = some k ∧ toFSMState f k = some (idx t)

/-- What a check states: in every cycle but the first, outside of reset and of the cycles in which the algorithm is
called, when the machine is in the state where the check stands (always, if in an always block), the expression has
the value it had in the cycle before; the machine was, `n` cycles before, in the state named. -/
def SrcChk.Holds (evs : List (ChkEv X)) (callable : Bool) (w : ChkWave X V) (st : Nat → Option Nat) (c : SrcChk X) : Prop :=
  ∀ t, 1 ≤ t → w.rst t = false → (callable = true → w.run t = true) → (∀ b, c.place = some b → st t = some b) →
    match c.kind with
    | .stable _ e => w.val e t = w.val e (t - 1)
    | .past l n => n ≤ t ∧ ∃ b, Labelled evs l b ∧ st (t - n) = some b

/-- The check stands directly in a state (not in a conditional or a loop) that is part of the machine, and it is not what the
algorithm starts with. -/
def SrcChk.Direct (sid : Nat → Option Nat) (c : SrcChk X) : Prop :=
  c.started = true ∧ c.place = some c.block ∧ (sid c.block).isSome

/-- The text is of the kind of the check: same claim (assertion or assumption), same expression, same delay. -/
def ChkText.Of : ChkText X → ChkKind X → Prop
  | .past _ _ n _, .past _ n' => n = n'
  | .stable a _ _ e, .stable a' e' => a = a' ∧ e = e'
  | _, _ => False

/-- The checks on the past come first. -/
def srcOrder (l : List (SrcChk X)) : List (SrcChk X) :=
  l.filter (fun c => match c.kind with | .past _ _ => true | .stable _ _ => false) ++
  l.filter (fun c => match c.kind with | .past _ _ => false | .stable _ _ => true)

/-- Numbers are of type int and belong to states only. -/
def Numbers (evs : List (ChkEv X)) (sid : Nat → Option Nat) : Prop :=
  ∀ b k, sid b = some k → k < 2 ^ 31 ∧ StateBlock evs b

/-- The algorithm is not empty. -/
def HasBody (evs : List (ChkEv X)) : Prop := ∃ ev ∈ evs, ∀ c, ev ≠ .check c

/-- Names of states are distinct. -/
def LabelsDistinct (evs : List (ChkEv X)) : Prop := ∀ l b b', Labelled evs l b → Labelled evs l b' → b = b'

/-- The port designated by the operand of `#stableinput`. -/
def ChkSel.name : ChkSel → String
  | .one x => x
  | .member g m => g ++ "_" ++ m

/-- The input is stable in every cycle but the first, outside of reset and of the calls. -/
def InputStable (port : String → Nat → V) (withRun : Bool) (rst run : Nat → Bool) (x : String) : Prop :=
  ∀ t, 1 ≤ t → rst t = false → (withRun = true → run t = true) → port ("in_" ++ x) t = port ("in_" ++ x) (t - 1)

end Silice
