import Verif.Prelude

/-!
# Names of the generated Verilog modules

A design is the tree of its instances: the name of the unit, its memories, its instances. Every instance of a unit and every memory becomes a module.
Models /repo/src/Algorithm.cpp:9427-9430, 9502-9524, 9828, 9833-9851, 9871-9884, 10085-10093, Algorithm.h:1307 and
/repo/src/SiliceCompiler.cpp:84-215, 690-720. Verilog modules and RISC-V processors used as instances are written once with their own name
(`ImportSt`); units that the pre-processor writes as text (`isStaticBlueprint`) are not part of the tree.
-/

set_option autoImplicit false

namespace Silice

mutual
/-- A unit with its memories and instances. -/
inductive UNode where
  | mk (unit : String) (mems : List String) (insts : UNodes)

/-- Instances: names and units. -/
inductive UNodes where
  | nil
  | cons (inst : String) (node : UNode) (rest : UNodes)
end

def UNode.unit : UNode → String
  | .mk u _ _ => u

def UNode.mems : UNode → List String
  | .mk _ m _ => m

def UNode.insts : UNode → UNodes
  | .mk _ _ i => i

/-- Instances as a list. -/
def UNodes.list : UNodes → List (String × UNode)
  | .nil => []
  | .cons i n r => (i, n) :: r.list

/-- `memoryModuleName`, /repo/src/Algorithm.cpp:9427-9430. -/
def memModule (unit path mem : String) : String := "M_" ++ unit ++ "_" ++ path ++ "_mem_" ++ mem

/-- Name of the module of an instance, /repo/src/Algorithm.cpp:9883; where it is instantiated: 10089 with `moduleName`, Algorithm.h:1307. -/
def unitModule (unit path : String) : String := "M_" ++ unit ++ "_" ++ path

mutual
/-- Modules written for a unit instantiated at `path` (`instance_name` of the context): its memories, itself, its instances.
/repo/src/Algorithm.cpp:9833-9851, 9871-9884. -/
def UNode.modules (path : String) : UNode → List String
  | .mk u mems insts => mems.map (memModule u path) ++ [unitModule u path] ++ insts.modules path

/-- Of all instances in a unit; `instance_name` is that of the parent, an underscore and the name of the instance.
/repo/src/Algorithm.cpp:9828. -/
def UNodes.modules (path : String) : UNodes → List String
  | .nil => []
  | .cons i n rest => n.modules (path ++ "_" ++ i) ++ rest.modules path
end

/-- Modules of a whole design. The context of the top unit has an empty instance name, and the name of its module in `top_name`.
/repo/src/Algorithm.cpp:9828, 9873, 9881, /repo/src/SiliceCompiler.cpp:894. -/
def UNode.topModules : UNode → List String
  | .mk u mems insts => mems.map (memModule u "") ++ ["M_" ++ u] ++ insts.modules ("M_" ++ u)

mutual
/-- Names of modules instantiated in a unit and below: its memories, then its instances. /repo/src/Algorithm.cpp:10318, 10085-10093. -/
def UNode.uses (ctx top : String) : UNode → List String
  | .mk u mems insts => mems.map (memModule u ctx) ++ insts.uses ctx top

/-- `moduleName`, Algorithm.h:1307, is given the name of the unit and `instance_name` (`top_name` if it is empty) followed by the name of the
instance. -/
def UNodes.uses (ctx top : String) : UNodes → List String
  | .nil => []
  | .cons i n rest =>
    let path := (if ctx = "" then top else ctx) ++ "_" ++ i
    ("M_" ++ n.unit ++ (if path = "" then "" else "_" ++ path)) :: n.uses path top ++ rest.uses ctx top
end

/-- Verilog modules imported so far: keys of `m_Blueprints`, and `m_BlueprintsInDeclOrder`. -/
structure ImportSt where
  known : List String
  order : List String
  deriving DecidableEq

/-- One `import('file')`, where the file contains module `name`. The check is on the name of the file, not on that of the module.
/repo/src/SiliceCompiler.cpp:161-176. -/
def importModule (st : ImportSt) (file name : String) : Option ImportSt :=
  if file ∈ st.known then none
  else some ⟨if name ∈ st.known then st.known else name :: st.known, st.order ++ [name]⟩

/-- All imports of a design. -/
def importAll : ImportSt → List (String × String) → Option ImportSt
  | st, [] => some st
  | st, (f, n) :: rest => (importModule st f n).bind fun st => importAll st rest

/-- Verilog modules written, one after the other in the order of declarations. /repo/src/SiliceCompiler.cpp:697-703. -/
def ImportSt.written (st : ImportSt) : List String := st.order

end Silice
