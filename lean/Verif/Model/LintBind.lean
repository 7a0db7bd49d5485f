import Verif.Model.LintCode
import Verif.Model.Binding

/-!
# What the linter reports on bindings

Model of `lintBinding` (/repo/src/ExpressionLinter.cpp 215-260), applied to each binding of each instance
(/repo/src/Algorithm.cpp 170-182).
-/

set_option autoImplicit false

namespace Silice

/-- What a port is bound to: an access (bits, member, table entry), with its type; a name, with its width when that
is a number; `clock` or `reset`. -/
inductive BindRight where
  | access (t : PType)
  | name (width : Option Int)
  | clockOrReset

/-- Warnings on a binding: the width cannot be checked; widths differ; signedness differs. -/
inductive BindWarn where
  | cannotCheck
  | width
  | sign
deriving DecidableEq

/-- The width compared, `rw` (/repo/src/ExpressionLinter.cpp 232-250): -1 for clock and reset. -/
def BindRight.rw : BindRight → Option Int
  | .access t => some t.width
  | .name w => w
  | .clockOrReset => some (-1)

/-- The type compared, `rtype` (224, 237): only set for accesses, otherwise `Parameterized`. -/
def BindRight.rtype : BindRight → Option BT
  | .access t => t.bt
  | _ => none

/-- `lintBinding` (/repo/src/ExpressionLinter.cpp 215-260). `lw` is the width of the port, none when it does not
resolve to a number; `lt` its type. -/
def lintBind (lt : Option BT) (lw : Option Int) (r : BindRight) : List BindWarn :=
  match lw, r.rw with
  | some a, some b =>
    (if b ≠ a then [.width] else []) ++ (if lt ≠ r.rtype ∧ r.rtype ≠ none ∧ lt ≠ none then [.sign] else [])
  | _, _ => [.cannotCheck]

/-- What a binding to a name is compared with (/repo/src/ExpressionLinter.cpp 240-249). -/
def bindRightOf (widthOf : String → Option Int) (b : Binding) : BindRight :=
  if b.right = ALG_CLOCK ∨ b.right = ALG_RESET then .clockOrReset else .name (widthOf b.right)

/-- All warnings on the bindings of an instance, each with its port (/repo/src/Algorithm.cpp 117-182). Simplified: all
are bound to names. `ptype`, `pwidth`: types and widths of the ports; `widthOf`: widths of the names of the host. -/
def lintBinds (ptype : String → Option BT) (pwidth widthOf : String → Option Int) (bs : List Binding) : List (String × BindWarn) :=
  bs.flatMap fun b => (lintBind (ptype b.left) (pwidth b.left) (bindRightOf widthOf b)).map fun w => (b.left, w)

end Silice
