/-
Instantiation contexts: /repo/src/Blueprint.cpp:117-238 and /repo/src/Algorithm.cpp:9723-9829.
-/
set_option autoImplicit false
namespace Silice

/-- The three suffixes `_WIDTH`, `_INIT`, `_SIGNED`. -/
inductive PField where
  | width | init | signed
deriving Repr, DecidableEq

/-- `std::transform(..., toupper)`, e.g. /repo/src/Blueprint.cpp:128-129. -/
def upper (s : String) : String := String.ofList (s.toList.map Char.toUpper)

/-- `t_instantiation_context::autos`; the key is the upper-cased name and the suffix. -/
abbrev Autos := String × PField → Option String

def Autos.set (a : Autos) (k : String × PField) (v : String) : Autos := fun k' => if k' = k then some v else a k'

/-- The part of `t_var_nfo` used here. `fixed` gives the texts of width, initial value and sign; `param` is
`base_type == Parameterized`. -/
inductive VType where
  | fixed (width init signed : String)
  | param
deriving Repr, DecidableEq

structure VIO where
  name : String
  type : VType
  sameAs : Option String := none
  tableSize : Nat := 0
deriving Repr, DecidableEq

/-- `getVIODefinition`: first definition of that name. -/
def findVIO (vios : List VIO) (name : String) : Option VIO := vios.find? (fun v => v.name = name)

def VType.field : VType → PField → Option String
  | .fixed w _ _, .width => some w
  | .fixed _ i _, .init => some i
  | .fixed _ _ s, .signed => some s
  | .param, _ => none

/-- `varBitWidth`, `varInitValue`, `varType` with `typeString`, /repo/src/Blueprint.cpp:146-238. `none` is an error.
When the width of a parameterised variable is unknown the code returns the key itself (line 160-161). -/
def varField (vios : List VIO) (autos : Autos) (v : VIO) (f : PField) : Option String :=
  match v.type with
  | .fixed _ _ _ => v.type.field f
  | .param =>
    match findVIO vios (v.sameAs.getD v.name) with
    | none => none
    | some base =>
      match base.type with
      | .fixed _ _ _ => base.type.field f
      | .param =>
        match autos (upper base.name, f) with
        | some s => some s
        | none => if f = .width then some (upper base.name ++ "_WIDTH") else none

/-- `addToInstantiationContext`, /repo/src/Algorithm.cpp:9738-9748, with the context both read and written (the callers
pass `_local_ictx` twice). -/
def addToCtx (vios : List VIO) (var : String) (bnfo : VIO) (l : Autos) : Option Autos :=
  match varField vios l bnfo .width with
  | none => none
  | some w =>
    let l1 := l.set (upper var, .width) w
    match varField vios l1 bnfo .init with
    | none => none
    | some i =>
      let l2 := l1.set (upper var, .init) i
      match varField vios l2 bnfo .signed with
      | none => none
      | some s => some (l2.set (upper var, .signed) s)

/-- `varIsInInstantiationContext`, /repo/src/Algorithm.cpp:9723-9734. -/
def inCtx (var : String) (a : Autos) : Bool :=
  (a (upper var, .width)).isSome && (a (upper var, .init)).isSome && (a (upper var, .signed)).isSome

/-- The instance: written specialisations, bindings (left, right identifier), and the ports of the unit. `ports` lists
inputs, outputs and inouts; the parameterised ones are those of type `param` (`m_Parameterized`,
/repo/src/Algorithm.cpp:3598-3678). -/
structure Instance where
  specs : Autos
  bindings : List (String × String)
  ports : List VIO

/-- Loop over parameterised ports, /repo/src/Algorithm.cpp:9774-9806. -/
def paramLoop (host : List VIO) (inst : Instance) : List VIO → Autos → Option Autos
  | [], l => some l
  | v :: vs, l =>
    if inCtx v.name inst.specs then paramLoop host inst vs l
    else if v.sameAs.isSome then paramLoop host inst vs l
    else
      match inst.bindings.find? (fun b => b.1 = v.name) with
      | none => none      -- "not bound nor specialized"
      | some b =>
        match findVIO host b.2 with
        | none => paramLoop host inst vs l
        | some bnfo =>
          if bnfo.tableSize ≠ 0 then paramLoop host inst vs l
          else
            match addToCtx host v.name bnfo l with
            | none => none
            | some l' => paramLoop host inst vs l'

/-- Loops over ports of fixed type, /repo/src/Algorithm.cpp:9808-9825. -/
def fixedLoop (ports : List VIO) : List VIO → Autos → Option Autos
  | [], l => some l
  | v :: vs, l =>
    if v.type ≠ .param ∨ v.sameAs.isSome then
      match addToCtx ports v.name v l with
      | none => none
      | some l' => fixedLoop ports vs l'
    else fixedLoop ports vs l

/-- `makeBlueprintInstantiationContext`, /repo/src/Algorithm.cpp:9762-9829, for an algorithm whose ports are known.
`params` and the instance name are not modelled. -/
def makeCtx (host : List VIO) (inst : Instance) (ictx : Autos) : Option Autos :=
  let l0 : Autos := fun k => match inst.specs k with | some s => some s | none => ictx k
  match paramLoop host inst (inst.ports.filter (fun v => v.type = .param)) l0 with
  | none => none
  | some l1 => fixedLoop inst.ports inst.ports l1

end Silice
