import Verif.Model.Import
import Verif.Spec.Number
import Mathlib.Data.List.Forall2

/-!
What imported modules and declarations at the top mean.
-/

set_option autoImplicit false

namespace Silice

/-- Bits of a Verilog port: one without range, else the positions between its two bounds, in either order. -/
def VBits (r : Option (List Char × List Char)) (n : Nat) : Prop :=
  match r with
  | none => n = 1
  | some (f, s) => ∃ a b, digitsValue 10 f = some a ∧ digitsValue 10 s = some b ∧ n = max a b - min a b + 1

/-- The range is written downwards, `[7:0]`, with bounds that are not huge. -/
def VDown (r : Option (List Char × List Char)) : Prop :=
  match r with
  | none => True
  | some (f, s) => ∃ a b, digitsValue 10 f = some a ∧ digitsValue 10 s = some b ∧ b ≤ a ∧ a < 2147483647

/-- The ports of a module in a direction. -/
def VMod.ports (m : VMod) : VDir → List VPort
  | .inp => m.ins
  | .outp => m.outs
  | .io => m.ios

/-- The ports written in a direction. -/
def VModSrc.along (h : VModSrc) (d : VDir) : List VPortSrc := h.ports.filter fun p => p.dir = d

/-- The value given last to a parameter. -/
def LastGiven (given : List (String × String)) (x v : String) : Prop :=
  ∃ pre post, given = pre ++ (x, v) :: post ∧ ∀ g ∈ post, g.1 ≠ x

/-- The kinds of declarations at the top other than units and modules. -/
inductive TopKind where
  | sub
  | circuit
  | group
  | intf
  | bitfield
deriving DecidableEq, Repr

section
variable {P : Type}

/-- What was gathered of a kind. -/
def TopSt.table (s : TopSt P) : TopKind → List (String × P)
  | .sub => s.subs
  | .circuit => s.circuits
  | .group => s.groups
  | .intf => s.intfs
  | .bitfield => s.bitfields

/-- The name and content of a declaration of a kind. -/
def TopDecl.entry (d : TopDecl P) (k : TopKind) : Option (String × P) :=
  match k, d with
  | .sub, .sub n p => some (n, p)
  | .circuit, .circuit n p => some (n, p)
  | .group, .group n p => some (n, p)
  | .intf, .intf n p => some (n, p)
  | .bitfield, .bitfield n p => some (n, p)
  | _, _ => none

/-- The declarations of a kind, in order. -/
def topDeclared (ds : List (TopDecl P)) (k : TopKind) : List (String × P) := ds.filterMap (·.entry k)

/-- The unit, processor or module of a declaration, with the name it is known by. -/
def TopDecl.bp (fs : TopFiles) (d : TopDecl P) : Option (String × TopBp P) :=
  match d with
  | .unit n p => some (n, .unit p)
  | .riscv n p => some (n, .riscv p)
  | .importv f => ((fs.header (topFind fs f)).bind (vGather (topFind fs f))).map fun m => (m.name, .vmod m)
  | _ => none

/-- Units, processors and modules, in order. -/
def topBps (fs : TopFiles) (ds : List (TopDecl P)) : List (String × TopBp P) := ds.filterMap (·.bp fs)

/-- The file of a declaration `append`. -/
def TopDecl.appended (fs : TopFiles) (d : TopDecl P) : Option String :=
  match d with
  | .appendv f => some (topFind fs f)
  | _ => none

/-- What should be written for a unit, processor or module. -/
def TopBp.out : TopBp P → TopOut P
  | .unit p => .unit p
  | .riscv p => .riscv p
  | .vmod m => .file m.file

/-- The files are there, hold headers, and no unit has the name of an imported file. -/
def FilesFine (fs : TopFiles) (ds : List (TopDecl P)) : Prop :=
  ∀ d ∈ ds, (∀ f, d = .importv f → fs.there (topFind fs f) = true ∧ (∃ m, (fs.header (topFind fs f)).bind (vGather (topFind fs f)) = some m) ∧
      topFind fs f ∉ (topBps fs ds).map (·.1)) ∧
    ∀ f, d = .appendv f → fs.there (topFind fs f) = true

end

/-- Where a file is looked for: as given, then by its last part in the search paths, then as given in the search paths. -/
def topPlaces (fs : TopFiles) (f : String) : List String :=
  f :: (fs.paths.map fun p => p ++ "/" ++ fs.base f) ++ fs.paths.map fun p => p ++ "/" ++ f

end Silice
