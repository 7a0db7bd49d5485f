import Verif.Model.Inline

/-!
# Source meaning of a sequence of assignments
-/

set_option autoImplicit false

namespace Silice

section
variable {V : Type}

/-- Values read by each assignment, and the final values: each assignment takes effect at once. -/
def srcRun : (String → V) → List (Asg V) → List (List V) × (String → V)
  | s, [] => ([], s)
  | s, i :: is =>
    let r := srcRun (Function.update s i.target (i.fn (i.reads.map s))) is
    (i.reads.map s :: r.1, r.2)

/-- A variable read before it gets a value in the cycle is assigned at most once. -/
def ReadFirstOnce (is : List (Asg V)) : Prop :=
  ∀ done i rest x, is = done ++ i :: rest → x ∈ i.reads → x ∉ done.map Asg.target → (is.map Asg.target).count x ≤ 1

/-- Variables of the set are assigned before they are read. -/
def AssignedFirst (inl : String → Bool) (is : List (Asg V)) : Prop :=
  ∀ done i rest x, is = done ++ i :: rest → x ∈ i.reads → inl x = true → x ∈ done.map Asg.target

end

end Silice
