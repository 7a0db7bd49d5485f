import Verif.Model.Instantiation
import Verif.Model.Import

/-!
# Types, ranges and `widthof`

Models /repo/src/TypesAndConsts.cpp:37-48, /repo/src/Blueprint.cpp:107-142, /repo/src/Algorithm.cpp:1679-1687, 1732-1737, 1902-1917, 7739-7742,
/repo/src/LuaPreProcessor.cpp:195-213, 366-383. Contexts of instances are those of Model/Instantiation.

Simplification: positions in the source and the texts of errors are left out (`none` is an error).
-/

set_option autoImplicit false

namespace Silice

/-- `std::regex_search` of letters followed by digits: the first place where they are found. /repo/src/TypesAndConsts.cpp:39-42. -/
def typeSearch : List Char → Option (List Char × List Char)
  | [] => none
  | c :: cs =>
    let letters := (c :: cs).takeWhile Char.isAlpha
    let digits := ((c :: cs).dropWhile Char.isAlpha).takeWhile Char.isDigit
    if letters.isEmpty || digits.isEmpty then typeSearch cs else some (letters, digits)

/-- `splitType`, /repo/src/TypesAndConsts.cpp:37-48: is it signed, and its width. `none` is a failed assertion, or a number that is not an `int`
(`atoi` is then undefined). -/
def splitType (t : List Char) : Option (Bool × Int) :=
  match typeSearch t with
  | none => none
  | some (b, ds) =>
    if b = "int".toList then (vAtoi ds).map fun w => (true, w)
    else if b = "uint".toList then (vAtoi ds).map fun w => (false, w)
    else none

/-- `t_type_nfo` with the initial value, `sameas` aside. -/
inductive TNfo where
  | fixed (signed : Bool) (width : Int) (init : String)
  | param
deriving DecidableEq

/-- `t_var_nfo`. -/
structure TVar where
  name : String
  type : TNfo
  sameAs : Option String := none
deriving DecidableEq

/-- `typeString`, /repo/src/Blueprint.cpp:107-113. -/
def signText (s : Bool) : String := if s then "signed" else ""

/-- The variable with the texts written for it (Model/Instantiation). -/
def TVar.toVIO (v : TVar) : VIO where
  name := v.name
  sameAs := v.sameAs
  type := match v.type with
    | .param => .param
    | .fixed s w i => .fixed (toString w) i (signText s)

/-- `varBitRange`, /repo/src/Blueprint.cpp:117-142. -/
def varBitRange (vars : List TVar) (autos : Autos) (v : TVar) : Option String :=
  match v.type with
  | .fixed _ w _ => some ("[" ++ toString (w - 1) ++ ":0]")
  | .param =>
    match vars.find? (fun b => b.name = v.sameAs.getD v.name) with
    | none => none
    | some b =>
      match b.type with
      | .fixed _ w _ => some ("[" ++ toString (w - 1) ++ ":0]")
      | .param =>
        match autos (upper b.name, .width) with
        | none => none
        | some s => some ("[" ++ s ++ "-1" ++ ":0]")

/-- `writeVerilogDeclaration`, /repo/src/Algorithm.cpp:7739-7742: type and range, what comes before and after left out. -/
def verilogType (vars : List TVar) (autos : Autos) (v : TVar) : Option String :=
  match varField (vars.map TVar.toVIO) autos v.toVIO .signed with
  | none => none
  | some s => (varBitRange vars autos v).map fun r => s ++ " " ++ r

/-- `resolveWidthOf`, /repo/src/Algorithm.cpp:1679-1687. -/
def resolveWidthOf (vars : List TVar) (autos : Autos) (x : String) : Option String :=
  match vars.find? (fun b => b.name = x) with
  | none => none
  | some v => varField (vars.map TVar.toVIO) autos v.toVIO .width

/-- `widthof(x)` in an expression; `tr` is the translation of names in the block. /repo/src/Algorithm.cpp:1732-1737. -/
def widthOfExpr (vars : List TVar) (autos : Autos) (tr : String → String) (x : String) : Option String :=
  (resolveWidthOf vars autos (tr x)).map fun w => "(" ++ w ++ ")"

/-- `widthof(x)` as a constant: initial values, widths of part selects. The name is not translated, the context is empty.
/repo/src/Algorithm.cpp:1909-1911. -/
def widthOfConst (vars : List TVar) (x : String) : Option String := resolveWidthOf vars (fun _ => none) x

/-- `widthof` in the preprocessor, /repo/src/LuaPreProcessor.cpp:195-213. `atoi` reads the digits at the start. -/
def luaWidthOf (autos : Autos) (x : String) : Option Int :=
  match autos (upper x, .width) with
  | none => none
  | some s => vAtoi (s.toList.takeWhile Char.isDigit)

/-- `signed` in the preprocessor, /repo/src/LuaPreProcessor.cpp:366-383. -/
def luaSigned (autos : Autos) (x : String) : Option Bool :=
  match autos (upper x, .signed) with
  | none => none
  | some s => some (s == "signed")

end Silice
