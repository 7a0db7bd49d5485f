import Verif.Model.Deps
import Verif.Model.Arith

/-!
# Variables replaced by the expression assigned to them

Models `updateUsageStableInCycle` (/repo/src/Algorithm.cpp:4934-4960) on a straight sequence of assignments, the choice made
after the first pass (9586-9640) and the code written in the second pass (`writeAssignement` 7534-7610, `vioAsDefine`
1509-1535): an inlined variable becomes a text macro that is expanded, and hence evaluated, where the variable is read.
-/

set_option autoImplicit false

namespace Silice

/-- `target = fn(reads)`. -/
structure Asg (V : Type) where
  target : String
  reads : List String
  fn : List V → V

/-- `stable_in_cycle`: unknown, or known with a value. -/
abbrev Stable := String → Option Bool

/-- First part of `updateUsageStableInCycle`, 4937-4946: the written variable is known as stable when first written and
unknown, and not stable when written again. -/
def stableMark (before : List String) (w : String) (st : Stable) : Stable :=
  if w ∈ before then Function.update st w (some false)
  else if st w = none then Function.update st w (some true)
  else st

/-- `updateUsageStableInCycle` for one written variable, 4934-4960: those that depend on the current value of `w` are no
longer stable. `before` are the variables written before, `D` the dependencies after the instruction. -/
def stableUpd (before : List String) (D : Deps) (w : String) (st : Stable) : Stable := fun o =>
  if o ∈ D.keys ∧ (D.on o w).here = true ∧ (stableMark before w st o).isSome = true ∧ (D.on o w).q = false then some false
  else stableMark before w st o

section
variable {V : Type}

/-- First pass on a sequence of assignments: dependencies and stability, or an error. -/
def stableRun (fuel : Nat) : Deps → Stable → List (Asg V) → Option (Except String Stable)
  | _, st, [] => some (.ok st)
  | D, st, i :: is =>
    match Deps.instr fuel D i.reads [i.target] with
    | none => none
    | some (.error w) => some (.error w)
    | some (.ok D') => stableRun fuel D' (stableUpd D.keys D' i.target st) is

/-- Circuit during the cycle: current values, and the macros defined so far as functions of the current values. -/
structure InlSt (V : Type) where
  v : String → V
  defs : String → Option ((String → V) → V)

/-- Value of a name written in an expression: a macro is expanded; otherwise the current value if the variable has been
written before in the cycle, else the register (`rewriteIdentifier`, /repo/src/Algorithm.cpp:1559-1675). `none`: macro not
defined. -/
def inlRead (q : String → V) (inl : String → Bool) (keys : List String)
    (defs : String → Option ((String → V) → V)) (r : String) : Option ((String → V) → V) :=
  if inl r then defs r
  else if r ∈ keys then some fun v => v r
  else some fun _ => q r

/-- One assignment in the second pass. Returns the values of the names read, evaluated where they are read, and the new
state. -/
def inlStep (q : String → V) (inl : String → Bool) (keys : List String) (s : InlSt V) (i : Asg V) :
    Option (List V × InlSt V) :=
  match i.reads.mapM (inlRead q inl keys s.defs) with
  | none => none
  | some fs =>
    if inl i.target then
      some (fs.map fun f => f s.v, { s with defs := Function.update s.defs i.target (some fun v => i.fn (fs.map fun f => f v)) })
    else
      some (fs.map fun f => f s.v, { s with v := Function.update s.v i.target (i.fn (fs.map fun f => f s.v)) })

/-- A sequence; the written variables are those with an entry in the dependencies. -/
def inlRun (q : String → V) (inl : String → Bool) : List String → InlSt V → List (Asg V) → Option (List (List V) × InlSt V)
  | _, s, [] => some ([], s)
  | keys, s, i :: is =>
    match inlStep q inl keys s i with
    | none => none
    | some (vals, s') => (inlRun q inl (keys ++ [i.target]) s' is).map fun r => (vals :: r.1, r.2)

end

/-- `vioAsDefine` for a positive literal without size, /repo/src/Algorithm.cpp:1515-1528: value of the emitted constant, of
width `1 + justHigherPow2 i`. The width of the variable is not used. -/
def defineLiteral (i : Nat) : Nat := i % 2 ^ (1 + justHigherPow2 i).toNat

end Silice
