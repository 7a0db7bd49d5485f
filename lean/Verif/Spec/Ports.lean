import Verif.Model.Ports
import Verif.Spec.WholeRun

/-!
What the documentation says about ports (learn-silice/AlgoInOuts.md): changes are seen in the same cycle (`<:`, `output!`, dot syntax) or in the next
one (`<::`, `output`, `<reginputs>`, instances that can be called).
-/

set_option autoImplicit false

namespace Silice

/-- When a change is seen. -/
inductive Seen where
  | now
  | next
deriving DecidableEq

/-- Cycles of delay. -/
def Seen.delay : Seen → Nat
  | .now => 0
  | .next => 1

/-- Inputs of instances, as documented. -/
def InPort.seen (I : InstMode) : InPort → Seen
  | .left _ => .now
  | .leftQ _ => .next
  | .dot _ => if I.callable = true ∨ I.reginput = true then .next else .now

/-- Outputs, as documented. -/
def outSeen (comb : Bool) : Seen := if comb then .now else .next

/-- Values of a unit over time: `start t` and `fin t` are its variables and outputs at the start and at the end of cycle `t`, as its source says;
`ext t` what comes from outside in cycle `t` (inputs, outputs of its instances, tracked expressions). -/
structure Story (V : Type) where
  ext : Nat → String → V
  start : Nat → String → V
  fin : Nat → String → V

/-- Value given to the other side in cycle `t`: names from outside have one value per cycle. -/
def Story.gives {V : Type} (S : Story V) (H : PortHost) (s : Seen) (t : Nat) (x : String) : V :=
  if x ∈ H.inputs ∨ x ∈ H.inouts ∨ x ∈ H.bound ∨ x ∈ H.tracked then S.ext t x
  else
    match s with
    | .now => S.fin t x
    | .next => S.start t x

/-- The hardware of a unit carries its story from cycle `T` on: flip-flops, and the values of the cycle for names that others read at its end. This
is what C53 shows for each algorithm. -/
structure Carries {V : Type} (S : Story V) (cls : String → Store) (bindQ bindD : List String) (q v : Nat → String → V) (T : Nat) : Prop where
  ff : ∀ t, T ≤ t → ∀ x, cls x = .flipflop → q t x = S.start t x ∧ v t x = S.fin t x
  atEnd : ∀ t, T ≤ t → ∀ x ∈ bindD, v t x = S.fin t x
  kept : ∀ x ∈ bindQ, cls x = .flipflop

/-- Where a name from outside comes from: from the outside of the design (or anything else), from the unit that instantiates this one, or from an
output of one of its instances. -/
inductive Link (I : Type) where
  | outside
  | host (j : I) (m : InstMode) (p : InPort)
  | inst (j : I) (comb : Bool) (o : String)

end Silice
