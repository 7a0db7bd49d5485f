import Verif.Prelude

/-!
# Types given by `sameas`

Models `findSameAs`, `findSameAsRoot`, `translateVIOName` (block rules only) and the part of `gatherTypeNfo` that
handles `sameas`, /repo/src/Algorithm.cpp:1180-1261 and 1394-1426.
-/

set_option autoImplicit false

namespace Silice

/-- Kind of a declared name. -/
inductive DeclKind where
  | var
  | input
  | output
  | inout
deriving DecidableEq, Repr

/-- Declared names, most recent first: final name, kind, and what its type refers to (`type_nfo.same_as`, empty when
the type is given directly). `groups` are the names in `m_VIOGroups`. -/
structure TypeEnv where
  decls : List (String × DeclKind × Option String)
  groups : List String

/-- `findSameAs` in the table of names of one kind, /repo/src/Algorithm.cpp:1180-1191. -/
def findSameAs (e : TypeEnv) (k : DeclKind) (x : String) : Option String :=
  match e.decls.find? (fun d => decide (d.1 = x ∧ d.2.1 = k)) with
  | some d => d.2.2
  | none => none

/-- `findSameAsRoot`, /repo/src/Algorithm.cpp:1195-1221. `tr` is `translateVIOName` in the block where the question is
asked, applied at each turn. In the last case (an inout declared `sameas`) the code leaves the name as it is and goes
round again. `none`: still in the loop after that many turns. -/
def sameAsRoot (tr : String → String) (e : TypeEnv) : Nat → String → Option String
  | 0, _ => none
  | fuel + 1, x =>
    match findSameAs e .var (tr x) with
    | some b => sameAsRoot tr e fuel b
    | none =>
      match findSameAs e .input (tr x) with
      | some b => sameAsRoot tr e fuel b
      | none =>
        match findSameAs e .output (tr x) with
        | some b => sameAsRoot tr e fuel b
        | none =>
          match findSameAs e .inout (tr x) with
          | some _ => sameAsRoot tr e fuel (tr x)
          | none => some (tr x)

/-- Block rules of `translateVIOName`, /repo/src/Algorithm.cpp:1406-1412: names declared in the enclosing blocks. The
rules of subroutines and pipeline stages are not represented. -/
def blockRewrite (rules : List (String × String)) (x : String) : String :=
  match rules.find? (fun r => decide (r.1 = x)) with
  | some r => r.2
  | none => x

/-- The type written in a declaration. -/
inductive TypeRef where
  | direct
  | sameas (base : String)
deriving DecidableEq, Repr

/-- A declaration: name and rules of its block, kind, type. The final name is the one given by the rules after adding the
new one (`addVar`, /repo/src/Algorithm.cpp:551-583); here it is a field. -/
structure TDecl where
  name : String
  kind : DeclKind
  type : TypeRef
  rules : List (String × String)

/-- Outcomes of a declaration. -/
inductive SameErr where
  | unknown (x : String)
  | redeclared (x : String)
  | loops
deriving DecidableEq, Repr

/-- One declaration, `gatherTypeNfo` /repo/src/Algorithm.cpp:1225-1261 followed by the insertion in the tables. A base
that is a group makes the new name a group of the same members; the members themselves (672-704) are not represented.
An inout is in the table of groups (3681). -/
def declareType (fuel : Nat) (e : TypeEnv) (d : TDecl) : Except SameErr TypeEnv :=
  if d.name ∈ e.decls.map (·.1) then .error (.redeclared d.name)
  else
    let groups := if d.kind = .inout then d.name :: e.groups else e.groups
    match d.type with
    | .direct => .ok ⟨(d.name, d.kind, none) :: e.decls, groups⟩
    | .sameas base =>
      if blockRewrite d.rules base ∈ e.groups then .ok ⟨e.decls, d.name :: e.groups⟩
      else if blockRewrite d.rules base ∉ e.decls.map (·.1) then .error (.unknown base)
      else
        match sameAsRoot (blockRewrite d.rules) e fuel (blockRewrite d.rules base) with
        | none => .error .loops
        | some r => .ok ⟨(d.name, d.kind, some r) :: e.decls, groups⟩

/-- A history of declarations. -/
def declareTypes (fuel : Nat) : TypeEnv → List TDecl → Except SameErr TypeEnv
  | e, [] => .ok e
  | e, d :: ds =>
    match declareType fuel e d with
    | .error x => .error x
    | .ok e' => declareTypes fuel e' ds

end Silice
