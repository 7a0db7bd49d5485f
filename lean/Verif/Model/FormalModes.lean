import Verif.Prelude

/-!
# Modes of formal verification

Models the gathering of the modes in `gatherUnitBody`, /repo/src/SiliceCompiler.cpp:269-290, and their ordering in
`Algorithm::init`, /repo/src/Algorithm.cpp:6450-6460. The list obtained is the one written in the report (9566-9570).
-/

set_option autoImplicit false

namespace Silice

/-- Modes given by the modifiers of a unit, in order. `none`: an unknown mode stops the compilation. Without any mode,
`bmc`. -/
def gatherModes (mods : List (List String)) : Option (List String) :=
  if mods.flatten.all (fun m => m == "bmc" || m == "tind" || m == "cover") then
    some (if mods.flatten.isEmpty then ["bmc"] else mods.flatten)
  else none

/-- Without the elements equal to the one before. -/
def dropRepeats : List String → List String
  | [] => []
  | [a] => [a]
  | a :: b :: l => if a = b then dropRepeats (b :: l) else a :: dropRepeats (b :: l)

/-- What `std::unique` may leave in the vector, whose size does not change as the result of the call is not used
(/repo/src/Algorithm.cpp:6452): the elements kept, followed by as many elements as were skipped, with unspecified
values. -/
def UniqueLeaves (l l' : List String) : Prop :=
  ∃ tail, l' = dropRepeats l ++ tail ∧ l'.length = l.length

/-- The comparison given to `std::sort`, /repo/src/Algorithm.cpp:6456-6460. -/
def modeLess (a b : String) : Bool := a == "bmc" || (a == "tind" && b == "cover")

/-- What `std::sort` requires: on the elements, the comparison is a strict weak order. Elements are compared at different
positions only; the standard would also reject any list with a `bmc`, as `bmc` is less than itself. -/
def SortDefined (l : List String) : Prop :=
  (∀ (i j : Nat) (a b : String), i ≠ j → l[i]? = some a → l[j]? = some b → ¬ (modeLess a b ∧ modeLess b a)) ∧
  (∀ a ∈ l, ∀ b ∈ l, ∀ c ∈ l, a ≠ b → b ≠ c → a ≠ c → modeLess a b → modeLess b c → modeLess a c) ∧
  (∀ a ∈ l, ∀ b ∈ l, ∀ c ∈ l, a ≠ b → b ≠ c → a ≠ c → modeLess a b = false → modeLess b a = false →
    modeLess b c = false → modeLess c b = false → modeLess a c = false ∧ modeLess c a = false)

/-- What `std::sort` ensures: the same elements, none less than an earlier one. -/
def SortLeaves (l l' : List String) : Prop := l'.Perm l ∧ l'.Pairwise fun a b => modeLess b a = false

/-- Possible outcomes of `init` for the list of modes; `none` is undefined behaviour. -/
inductive ModesOutcome (l : List String) : Option (List String) → Prop where
  | sorted {m r : List String} : UniqueLeaves l m → SortDefined m → SortLeaves m r → ModesOutcome l (some r)
  | undef {m : List String} : UniqueLeaves l m → ¬ SortDefined m → ModesOutcome l none

end Silice
