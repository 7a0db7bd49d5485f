/-
Bindings of instances: directions, auto-bind, checks (/repo/src/Algorithm.cpp:113-332).
-/
set_option autoImplicit false
namespace Silice

/-- `e_BindingDir`, /repo/src/Algorithm.h:114. -/
inductive Dir where
  | left | leftQ | right | biDir | auto | autoQ
deriving Repr, DecidableEq

/-- `t_binding_nfo`, with the right-hand side given by its identifier (`bindingRightIdentifier`,
/repo/src/Algorithm.cpp:5297-5315). Simplification: inouts are not split (`g_SplitInouts` false). -/
structure Binding where
  left : String
  right : String
  dir : Dir
deriving Repr, DecidableEq

/-- The ports of an instanced blueprint. `comb` tells which outputs are combinational, `combInfo` is
`hasOutputCombinationalInfo`. -/
structure Ports where
  inputs : List String
  outputs : List String
  inouts : List String
  combInfo : Bool
  comb : String → Bool

/-- The instantiating algorithm: names of its inputs, outputs, inouts and variables, its clock and reset. -/
structure Host where
  inputs : List String
  outputs : List String
  inouts : List String
  vars : List String
  clock : String
  reset : String
  comb : String → Bool

def ALG_CLOCK : String := "clock"
def ALG_RESET : String := "reset"

/-- Body of the loop of `resolveInstancedBlueprintBindingDirections`, /repo/src/Algorithm.cpp:306-329. -/
def resolveStep (p : Ports) (cleaned : List Binding) (b : Binding) : List Binding :=
  if b.dir = .auto ∨ b.dir = .autoQ then
    if b.left ∈ p.inputs then cleaned ++ [{ b with dir := if b.dir = .auto then .left else .leftQ }]
    else if b.left ∈ p.outputs then cleaned ++ [{ b with dir := .right }]
    else if b.left ∈ p.inouts then cleaned ++ [{ b with dir := .biDir }]
    else cleaned
  else cleaned ++ [b]

/-- `Algorithm::resolveInstancedBlueprintBindingDirections`, /repo/src/Algorithm.cpp:303-332. -/
def resolveDirections (p : Ports) (bs : List Binding) : List Binding := bs.foldl (resolveStep p) []

/-- Loop over a list of ports of `autobindInstancedBlueprint`, e.g. /repo/src/Algorithm.cpp:206-229: `first` is the set
of host names looked up first, then the host variables. -/
def autobindLoop (defined : List String) (first vars : List String) (dir : Dir) : List String → List Binding → List Binding
  | [], acc => acc
  | io :: ios, acc =>
    if io ∉ defined then
      if io ∈ first then autobindLoop defined first vars dir ios (acc ++ [⟨io, io, dir⟩])
      else if io ∈ vars then autobindLoop defined first vars dir ios (acc ++ [⟨io, io, dir⟩])
      else autobindLoop defined first vars dir ios acc
    else autobindLoop defined first vars dir ios acc

/-- Loop over clock and reset, /repo/src/Algorithm.cpp:230-246. -/
def autobindInternals (defined : List String) (inputs : List String) : List String → List Binding → List Binding
  | [], acc => acc
  | io :: ios, acc =>
    if io ∉ defined ∧ io ∈ inputs then autobindInternals defined inputs ios (acc ++ [⟨io, io, .left⟩])
    else autobindInternals defined inputs ios acc

/-- `Algorithm::autobindInstancedBlueprint`, /repo/src/Algorithm.cpp:198-299. -/
def autobind (h : Host) (p : Ports) (bs : List Binding) : List Binding :=
  let defined := bs.map Binding.left
  let b1 := autobindLoop defined h.inputs h.vars .left p.inputs bs
  let b2 := autobindInternals defined p.inputs [ALG_CLOCK, ALG_RESET] b1
  let b3 := autobindLoop defined h.outputs h.vars .right p.outputs b2
  autobindLoop defined h.inouts h.vars .biDir p.inouts b3

/-- Bindings of an instance after `instantiateBlueprint`, /repo/src/Algorithm.cpp:1291-1296. -/
def instanceBindings (h : Host) (p : Ports) (wantAutobind : Bool) (bs : List Binding) : List Binding :=
  let r := resolveDirections p bs
  if wantAutobind then autobind h p r else r

inductive BindErr where
  | notAPort | notInput | notOutput | notInout | unknownRight | combMismatch | bothWays
deriving Repr, DecidableEq

/-- Checks made on one binding, /repo/src/Algorithm.cpp:118-169, in order. -/
def checkBinding (h : Host) (p : Ports) (b : Binding) : Option BindErr :=
  if b.left ∉ p.inputs ∧ b.left ∉ p.outputs ∧ b.left ∉ p.inouts then some .notAPort
  else if (b.dir = .left ∨ b.dir = .leftQ) ∧ b.left ∉ p.inputs then some .notInput
  else if b.dir = .right ∧ b.left ∉ p.outputs then some .notOutput
  else if b.dir = .biDir ∧ b.left ∉ p.inouts then some .notInout
  else if b.right ∉ h.inputs ∧ b.right ∉ h.outputs ∧ b.right ∉ h.inouts ∧ b.right ∉ h.vars ∧ b.right ≠ h.clock ∧
      b.right ≠ ALG_CLOCK ∧ b.right ≠ h.reset ∧ b.right ≠ ALG_RESET then some .unknownRight
  else if p.combInfo = true ∧ b.left ∈ p.outputs ∧ b.right ∈ h.outputs ∧ h.comb b.right ≠ p.comb b.left then
    some .combMismatch
  else none

/-- The set `inbound` filled by the first loop, /repo/src/Algorithm.cpp:153-156. -/
def inboundSet (bs : List Binding) : List String :=
  (bs.filter (fun b => b.dir = .left || b.dir = .leftQ)).map Binding.right

/-- `Algorithm::checkBlueprintsBindings` for one instance, /repo/src/Algorithm.cpp:113-194. The linter's
warnings (171-181) are in Model/LintBind. -/
def checkBindings (h : Host) (p : Ports) (bs : List Binding) : Option BindErr :=
  match bs.findSome? (checkBinding h p) with
  | some e => some e
  | none =>
    if bs.any (fun b => b.dir = .right && (inboundSet bs).contains b.right && !h.inouts.contains b.right) then some .bothWays
    else none

end Silice
