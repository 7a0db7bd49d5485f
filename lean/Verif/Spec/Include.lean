import Verif.Model.Include
/-! Specification for C15 and C16: textual expansion of includes, with the origin of each line end. -/
set_option autoImplicit false
namespace Silice

/-- Text with origins: a line end knows its file and line. -/
inductive ATok where
  | text (w : String)
  | eol (file : String) (line : Nat)
deriving Repr, DecidableEq

def ATok.erase : ATok → Tok
  | .text w => .text w
  | .eol _ _ => .eol

def ATok.origin : ATok → Option (String × Nat)
  | .text _ => none
  | .eol f l => some (f, l)

/-- `Expands fs f l P c o P' n`: the rest `c` of file `f`, from line `l` on, expands to the text `o`. There is no notion of
already included file here: a cycle simply has no (finite) expansion. `P`, `P'` are the search paths before and after,
the directory of each file being added when it is entered; `n` counts the includes. -/
inductive Expands (fs : FileSys) : String → Nat → List String → List SrcItem → List ATok → List String → Nat → Prop where
  | nil {f l P} : Expands fs f l P [] [] P 0
  | text {f l P w is o P' n} : Expands fs f l P is o P' n → Expands fs f l P (.text w :: is) (.text w :: o) P' n
  | eol {f l P is o P' n} : Expands fs f (l + 1) P is o P' n → Expands fs f l P (.eol :: is) (.eol f l :: o) P' n
  | inc {f l P name is g c o P1 n o' P2 n'} : resolveInc fs P (fs.pathOf f) name = g → fs.content g = some c →
      Expands fs g 0 (P ++ [fs.pathOf g]) c o P1 n → Expands fs f l P1 is o' P2 n' →
      Expands fs f l P (.inc name :: is) (o ++ o') P2 (n + n' + 1)

/-- From the rest `is` of file `f` the processing enters file `X` with search paths `Q`. -/
inductive Reach (fs : FileSys) : String → List String → List SrcItem → String → List String → Prop where
  | text {f P w is X Q} : Reach fs f P is X Q → Reach fs f P (.text w :: is) X Q
  | eol {f P is X Q} : Reach fs f P is X Q → Reach fs f P (.eol :: is) X Q
  | here {f P n is g} : resolveInc fs P (fs.pathOf f) n = g → (fs.content g).isSome →
      Reach fs f P (.inc n :: is) g (P ++ [fs.pathOf g])
  | into {f P n is g c X Q} : resolveInc fs P (fs.pathOf f) n = g → fs.content g = some c →
      Reach fs g (P ++ [fs.pathOf g]) c X Q → Reach fs f P (.inc n :: is) X Q
  | skip {f P n is g c o P1 k X Q} : resolveInc fs P (fs.pathOf f) n = g → fs.content g = some c →
      Expands fs g 0 (P ++ [fs.pathOf g]) c o P1 k → Reach fs f P1 is X Q → Reach fs f P (.inc n :: is) X Q


end Silice
