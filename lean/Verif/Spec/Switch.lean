import Verif.Model.Switch

/-!
Switches in the source: the expression is compared with the values of the cases, as numbers.
-/

set_option autoImplicit false

namespace Silice

/-- The number a case stands for. -/
def CaseVal.int : CaseVal → Int
  | .plain neg n => if neg then -(n : Int) else n
  | .sized neg _ n => if neg then -(n : Int) else n
  | .field ms => (caseConcat ms : Nat)

/-- A variable: its type and what it holds. -/
structure SwVar where
  width : Nat
  isSigned : Bool
  bits : Nat
deriving Repr, DecidableEq

/-- Contents fit the width. -/
def SwVar.WF (x : SwVar) : Prop := 0 < x.width ∧ x.bits < 2 ^ x.width

/-- The number the variable holds. -/
def SwVar.int (x : SwVar) : Int := if x.isSigned = true ∧ 2 ^ (x.width - 1) ≤ x.bits then (x.bits : Int) - 2 ^ x.width else x.bits

/-- The variable as an expression. -/
def SwVar.expr (x : SwVar) : CaseExpr := ⟨x.width, x.isSigned, fun W sgn => extendTo x.width (x.isSigned && sgn) x.bits W⟩

/-- The block that is run: that of the first case for which `is` holds, otherwise the default, otherwise none. -/
def Chosen {β : Type} (is : CaseVal → Prop) (cases : List (Option CaseVal × β)) (out : Option β) : Prop :=
  (∃ pre v b post, cases = pre ++ (some v, b) :: post ∧ is v ∧ (∀ v' b', (some v', b') ∈ pre → ¬ is v') ∧ out = some b) ∨
  ((∀ v b, (some v, b) ∈ cases → ¬ is v) ∧ ((∃ b, (none, b) ∈ cases ∧ out = some b) ∨ ((∀ b, (none, b) ∉ cases) ∧ out = none)))

/-- Values of cases that fit in what they are written as, and are not negative. -/
def CaseVal.Fits : CaseVal → Prop
  | .plain neg n => neg = false ∧ n < 2 ^ 32
  | .sized neg w n => neg = false ∧ n < 2 ^ w
  | .field _ => True

/-- Numbers without size that fit 32 bits. -/
def CaseVal.Plain : CaseVal → Prop
  | .plain _ n => n < 2 ^ 31
  | _ => False

/-- Numbers of the cases. -/
def caseInts {β : Type} (cases : List (Option CaseVal × β)) : List Int := cases.filterMap fun c => c.1.map CaseVal.int

end Silice
