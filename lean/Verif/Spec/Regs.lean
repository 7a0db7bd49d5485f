import Verif.Model.Regs
import Verif.Spec.PipeRun

/-!
Specification for resets, starts and `done`.
-/

set_option autoImplicit false

namespace Silice
variable {V E : Type}

/-- The variable is given its initial value by reset: it is initialised, and not at power-up only. -/
def FFVar.ResetTime (v : FFVar V) : Prop := v.atStartup = false ∧ v.noInit = false

/-- Initial content of a variable: one value for a plain variable, one per entry for a table. -/
def FFVar.initial (v : FFVar V) : List V := if v.size = 0 then v.init.take 1 else v.init.take v.size

/-- There is an initial value for the variable, one for each entry of a table. -/
def FFVar.Initialised (v : FFVar V) : Prop := (v.size = 0 → v.init ≠ []) ∧ v.size ≤ v.init.length

/-- The algorithm starts only when called. -/
def AlgKind.Callable (a : AlgKind) : Prop := a.autorun = false ∧ a.noFsm = false

/-- What the registers must hold after a cycle in which they are initialised (`init`) or not. -/
def Loaded (init : Prop) (vs : List (FFVar V)) (ds qs : List (List V)) : Prop :=
  qs.length = vs.length ∧ ∀ (k : Nat) (v : FFVar V), vs[k]? = some v →
    (v.ResetTime ∧ init → qs[k]? = some v.initial) ∧ (¬ (v.ResetTime ∧ init) → qs[k]? = ds[k]?)

/-- A module whose combinational part gives a value to each variable, whose initialised variables have values, and
whose state machine stays terminated once it is. -/
structure Mod.Ok (m : Mod V E) : Prop where
  fsm : m.kind.noFsm = false
  entry : m.entry ≠ 0
  vals : ∀ v ∈ m.decls, v.ResetTime → v.Initialised
  len : ∀ e q, (m.comb e q).2.length = m.decls.length
  stays : ∀ e q, q.idx = 0 → (m.comb e q).1 = 0

/-- The callee working on its own from registers `q`: repeated application of its combinational part. -/
def Mod.alone (m : Mod V E) (ext : Nat → E) (q : Core V) : Nat → Core V
  | 0 => q
  | t + 1 =>
    let c := m.alone ext q t
    ⟨(m.comb (ext t) c).1, c.autorun, (m.comb (ext t) c).2⟩

end Silice
