import Verif.Model.PipeOrder

/-!
Specification of the ordering and of the write rules of pipelines, in terms of the stages only.
-/

set_option autoImplicit false

namespace Silice

/-- Stage `s` gives stage `o` a value combinationally: `o` reads a variable that `s` writes backward (`^=`,
`o` is an earlier stage) or forward (`v=`, `o` is a later stage). -/
def Feeds (stages : List StageAcc) (s o : Nat) : Prop :=
  ∃ ss so w, stages[s]? = some ss ∧ stages[o]? = some so ∧ w ∈ so.read ∧
    ((o < s ∧ w ∈ ss.back) ∨ (s < o ∧ w ∈ ss.fwd))

/-- A variable is assigned with one of the pipeline operators `^=`, `v=`, `vv=` in the stage. -/
def StageIO.Special (s : StageIO) (v : String) : Prop := v ∈ s.backward ∨ v ∈ s.forward ∨ v ∈ s.after

end Silice
