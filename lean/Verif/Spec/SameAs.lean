import Verif.Model.SameAs

/-!
Specification of `sameas`: following declarations until one with a type of its own.
-/

set_option autoImplicit false

namespace Silice

/-- `x` is declared `sameas` the (final) name `y`. -/
def TypeEnv.RefersTo (e : TypeEnv) (x y : String) : Prop := ∃ k, (x, k, some y) ∈ e.decls

/-- `r` is where the chain from `x` ends. -/
inductive TypeEnv.ChainEnd (e : TypeEnv) : String → String → Prop where
  | here {x : String} : (∀ y, ¬ e.RefersTo x y) → TypeEnv.ChainEnd e x x
  | step {x y r : String} : e.RefersTo x y → TypeEnv.ChainEnd e y r → TypeEnv.ChainEnd e x r

/-- Each name is declared once. -/
def TypeEnv.Unique (e : TypeEnv) : Prop := (e.decls.map (·.1)).Nodup

/-- No inout has its type given by `sameas`. -/
def TypeEnv.PlainInouts (e : TypeEnv) : Prop := ∀ x y, (x, DeclKind.inout, some y) ∉ e.decls

/-- The rules of the block do not capture any declared name: none of them is the source name of a variable of an
enclosing block. -/
def NoCapture (tr : String → String) (e : TypeEnv) : Prop :=
  ∀ x, (x ∈ e.decls.map (·.1) ∨ ∃ y, e.RefersTo y x) → tr x = x

/-- No name leads back to itself. -/
def TypeEnv.Acyclic (e : TypeEnv) : Prop := ∀ x, ¬ Relation.TransGen e.RefersTo x x

/-- In a history of declarations, no block renames (to something else) a name that is the final name of some
declaration. -/
def NoShadow (ds : List TDecl) : Prop :=
  ∀ d ∈ ds, ∀ r ∈ d.rules, r.1 ≠ r.2 → r.1 ∉ ds.map (·.name)

/-- In the source, `x` is declared `sameas` a name that means `y` in the block of the declaration. -/
def SrcRef (ds : List TDecl) (x y : String) : Prop :=
  ∃ d ∈ ds, d.name = x ∧ ∃ base, d.type = .sameas base ∧ blockRewrite d.rules base = y

/-- In the source, following `sameas` from `x` leads to `r`, which has a type of its own. -/
inductive SrcEnd (ds : List TDecl) : String → String → Prop where
  | here {x : String} : (∃ d ∈ ds, d.name = x ∧ d.type = .direct) → SrcEnd ds x x
  | step {x y r : String} : SrcRef ds x y → SrcEnd ds y r → SrcEnd ds x r

end Silice
