import Verif.Prelude

/-!
Verilog modules that are imported, and the declarations at the top of a source file.

`/repo/src/Module.h` (ports and parameters of an imported module), `SiliceCompiler::gatherBody`, `findFile`, `writeBody`
(/repo/src/SiliceCompiler.cpp 58-80, 84-215, 703-729) and the parameters of an instance (/repo/src/Algorithm.cpp 1363-1374, 10095-10113).

The headers of modules are taken as parsed (/repo/antlr/vmodule.g4). Undefined behaviour is `none`.
-/

set_option autoImplicit false

namespace Silice

/-! ### Headers of modules -/

/-- Direction of a port. -/
inductive VDir where
  | inp
  | outp
  | io
deriving DecidableEq, Repr

/-- A port as written (`input`, `output`, `inout` of vmodule.g4): its range `[first:second]` if any, as digits. -/
structure VPortSrc where
  dir : VDir
  range : Option (List Char × List Char)
  name : String
deriving DecidableEq, Repr

/-- A port of a `Module`: name and width (`type_nfo.width`, an `int`). -/
structure VPort where
  name : String
  width : Int
deriving DecidableEq, Repr

/-- A header as written. A declaration of a parameter may be empty (`paramDecl : … | ;`). -/
structure VModSrc where
  name : String
  params : List (Option (String × String))
  ports : List VPortSrc
deriving DecidableEq, Repr

/-- `Module` (/repo/src/Module.h 50-73). The maps from names to indices are lists of pairs. -/
structure VMod where
  file : String
  name : String
  params : List (String × String)
  ins : List VPort
  outs : List VPort
  ios : List VPort
  inIdx : List (String × Nat)
  outIdx : List (String × Nat)
  ioIdx : List (String × Nat)
deriving DecidableEq, Repr

/-- Largest `int`. -/
def vIntMax : Nat := 2147483647

/-- `atoi` on digits; undefined if the number is not an `int`. -/
def vAtoi (ds : List Char) : Option Int :=
  let n := ds.foldl (fun n c => 10 * n + (c.toNat - '0'.toNat)) 0
  if n ≤ vIntMax then some (n : Int) else none

/-- The width given to a port (/repo/src/Module.h 97-103, and the same at 111-117, 125-131). Overflow is undefined. -/
def vWidth : Option (List Char × List Char) → Option Int
  | none => some 1
  | some (f, s) => do
    let f ← vAtoi f
    let s ← vAtoi s
    if f - s + 1 ≤ (vIntMax : Int) then some (f - s + 1) else none

/-- `insert` in an `unordered_map`: an existing key keeps its value. -/
def vInsert {A : Type} (m : List (String × A)) (k : String) (v : A) : List (String × A) :=
  if (m.lookup k).isSome then m else m ++ [(k, v)]

/-- One turn of the loop over ports (/repo/src/Module.h 89-138). -/
def vAddPort (m : VMod) (p : VPortSrc) : Option VMod := do
  let w ← vWidth p.range
  match p.dir with
  | .inp => return { m with ins := m.ins ++ [⟨p.name, w⟩], inIdx := vInsert m.inIdx p.name m.ins.length }
  | .outp => return { m with outs := m.outs ++ [⟨p.name, w⟩], outIdx := vInsert m.outIdx p.name m.outs.length }
  | .io => return { m with ios := m.ios ++ [⟨p.name, w⟩], ioIdx := vInsert m.ioIdx p.name m.ios.length }

/-- The loop over parameters (/repo/src/Module.h 80-87); an empty declaration has no name, and a null pointer is followed. -/
def vParams : List (Option (String × String)) → Option (List (String × String))
  | [] => some []
  | none :: _ => none
  | some p :: ps => (vParams ps).map (p :: ·)

/-- `Module::gather` (/repo/src/Module.h 76-139). -/
def vGather (file : String) (h : VModSrc) : Option VMod := do
  let ps ← vParams h.params
  h.ports.foldlM vAddPort { file, name := h.name, params := ps, ins := [], outs := [], ios := [], inIdx := [], outIdx := [], ioIdx := [] }

/-- A port found by its name (`m_Inputs.at(m_InputNames.at(name))` and the like). -/
def VMod.port (m : VMod) (d : VDir) (x : String) : Option VPort :=
  match d with
  | .inp => (m.inIdx.lookup x).bind (m.ins[·]?)
  | .outp => (m.outIdx.lookup x).bind (m.outs[·]?)
  | .io => (m.ioIdx.lookup x).bind (m.ios[·]?)

/-! ### Parameters of an instance -/

/-- `params[p] = v` for each parameter given, in order (/repo/src/Algorithm.cpp 1363-1374); the result as a function. -/
def vGiven (given : List (String × String)) : String → Option String :=
  given.foldl (fun m g => fun x => if x = g.1 then some g.2 else m x) (fun _ => none)

/-- The parameters written for an instance of a module (/repo/src/Algorithm.cpp 10097-10112), as pairs of name and value. -/
def vInstParams (m : VMod) (given : List (String × String)) : List (String × String) :=
  m.params.map fun prm =>
    match vGiven given prm.1 with
    | some v => (prm.1, v)
    | none => (prm.1, prm.2)

/-! ### Declarations at the top -/

/-- A declaration at the top (`topList`, /repo/antlr/silice.g4 513-517). `P` stands for what is declared. -/
inductive TopDecl (P : Type) where
  | unit (name : String) (p : P)
  | riscv (name : String) (p : P)
  | importv (file : String)
  | appendv (file : String)
  | sub (name : String) (p : P)
  | circuit (name : String) (p : P)
  | group (name : String) (p : P)
  | intf (name : String) (p : P)
  | bitfield (name : String) (p : P)

/-- A blueprint (`m_Blueprints`). -/
inductive TopBp (P : Type) where
  | unit (p : P)
  | riscv (p : P)
  | vmod (m : VMod)

/-- What was gathered (/repo/src/SiliceCompiler.h 60-75). -/
structure TopSt (P : Type) where
  subs : List (String × P)
  circuits : List (String × P)
  groups : List (String × P)
  intfs : List (String × P)
  bitfields : List (String × P)
  bps : List (String × TopBp P)
  bpOrder : List String
  appends : List String

/-- The files: which exist, which header they hold, the search paths and `extractFileName`. -/
structure TopFiles where
  there : String → Bool
  header : String → Option VModSrc
  paths : List String
  base : String → String

/-- Why gathering stops. -/
inductive TopStop where
  | same (name : String)
  | missing (file : String)
  | undefined
deriving DecidableEq, Repr

/-- `findFile` (/repo/src/SiliceCompiler.cpp 58-80). -/
def topFind (fs : TopFiles) (f : String) : String :=
  if fs.there f then f
  else match fs.paths.find? (fun p => fs.there (p ++ "/" ++ fs.base f)) with
    | some p => p ++ "/" ++ fs.base f
    | none => match fs.paths.find? (fun p => fs.there (p ++ "/" ++ f)) with
      | some p => p ++ "/" ++ f
      | none => f

section
variable {P : Type}

/-- A table that refuses a name it has. -/
def topNew (m : List (String × P)) (n : String) (p : P) : Except TopStop (List (String × P)) :=
  if (m.lookup n).isSome then .error (.same n) else .ok (m ++ [(n, p)])

/-- One declaration (`gatherBody`, /repo/src/SiliceCompiler.cpp 84-215). Quotes around file names are removed. That the content of a file is a
header is taken for granted (`undefined` otherwise). -/
def topDeclStep (fs : TopFiles) (s : TopSt P) : TopDecl P → Except TopStop (TopSt P)
  | .unit n p => .ok { s with bps := vInsert s.bps n (.unit p), bpOrder := s.bpOrder ++ [n] }
  | .riscv n p => .ok { s with bps := vInsert s.bps n (.riscv p), bpOrder := s.bpOrder ++ [n] }
  | .importv f =>
    if !fs.there (topFind fs f) then .error (.missing (topFind fs f))
    else match (fs.header (topFind fs f)).bind (vGather (topFind fs f)) with
      | none => .error .undefined
      | some m =>
        if (s.bps.lookup (topFind fs f)).isSome then .error (.same (topFind fs f))
        else .ok { s with bps := vInsert s.bps m.name (.vmod m), bpOrder := s.bpOrder ++ [m.name] }
  | .appendv f =>
    if !fs.there (topFind fs f) then .error (.missing (topFind fs f))
    else .ok { s with appends := s.appends ++ [topFind fs f] }
  | .sub n p => (topNew s.subs n p).map fun x => { s with subs := x }
  | .circuit n p => (topNew s.circuits n p).map fun x => { s with circuits := x }
  | .group n p => (topNew s.groups n p).map fun x => { s with groups := x }
  | .intf n p => (topNew s.intfs n p).map fun x => { s with intfs := x }
  | .bitfield n p => (topNew s.bitfields n p).map fun x => { s with bitfields := x }

/-- Nothing gathered yet. -/
def topInit : TopSt P := ⟨[], [], [], [], [], [], [], []⟩

/-- All declarations. -/
def topGather (fs : TopFiles) (ds : List (TopDecl P)) : Except TopStop (TopSt P) := ds.foldlM (topDeclStep fs) topInit

/-- A piece of the output. -/
inductive TopOut (P : Type) where
  | file (f : String)
  | riscv (p : P)
  | unit (p : P)
deriving DecidableEq, Repr

/-- What is written for a name (/repo/src/SiliceCompiler.cpp 709-728); `none`: `at` fails. -/
def topPiece (s : TopSt P) (n : String) : Option (TopOut P) :=
  match s.bps.lookup n with
  | none => none
  | some (.vmod m) => some (TopOut.file m.file)
  | some (.riscv p) => some (TopOut.riscv p)
  | some (.unit p) => some (TopOut.unit p)

/-- What is written after the framework (`writeBody`, /repo/src/SiliceCompiler.cpp 703-729). -/
def topWrite (s : TopSt P) : Option (List (TopOut P)) := do
  let bs ← s.bpOrder.mapM (topPiece s)
  return s.appends.map .file ++ bs

end

end Silice
