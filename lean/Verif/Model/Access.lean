import Verif.Prelude

/-!
# Accesses to variables and the first choice of storage

Models `determineAccess` (of an instruction, of the blocks below a head, of a whole algorithm),
`updateAccessFromBinding` and `determineUsage` in /repo/src/Algorithm.cpp:5769-5945, 6007-6200.
Not modelled: wires (their reads are added to `readEnd`, see `Verif.Model.Wires`), groups, outputs.
-/

set_option autoImplicit false

namespace Silice

/-- A block: names read and names written by each of its instructions, the test at its end included
(`getAllBlockInstructions`, /repo/src/Algorithm.cpp:5812-5824), and the blocks it may continue with (`getChildren`,
/repo/src/Algorithm.h:411-530; for a conditional these include the block after it). -/
structure ABlock (B : Type) where
  instrs : List (List String × List String)
  isState : Bool
  children : List B

/-- Names written by a block. -/
def ABlock.writes {B : Type} (b : ABlock B) : List String := b.instrs.flatMap (·.2)

/-- `determineAccess` over the instructions of a block: names read that have not been written before, in the order
of the instructions. /repo/src/Algorithm.cpp:5769-5808. Reads of an instruction come before its writes. -/
def insReads : List String → List (List String × List String) → List String
  | _, [] => []
  | w, i :: is => i.1.filter (fun x => decide (x ∉ w)) ++ insReads (w ++ i.2) is

/-- Left side of an assignment, `access` in /repo/antlr/silice.g4:337-341: a variable, an entry of a table, a part select, a
member of a bit field, and their combinations. The lists have the names read by the index of the entry (`t`) and by the
start of the part select (`p`). -/
inductive Lhs where
  | whole (x : String)
  | table (x : String) (t : List String)
  | part (x : String) (p : List String)
  | field (x : String)
  | tablePart (x : String) (t p : List String)
  | tableField (x : String) (t : List String)
  | fieldPart (x : String) (p : List String)
  | tableFieldPart (x : String) (t p : List String)
deriving DecidableEq, Repr

/-- `determineVIOAccess` on an assignment, /repo/src/Algorithm.cpp:5441-5470: names read, names written. Only the outermost
selection is looked into: the index of an entry inside a part select or a bit field is not. -/
def asgAccess : Lhs → List String → List String × List String
  | .whole x, rhs => (rhs, [x])
  | .table x t, rhs => (rhs ++ t, [x])
  | .part x p, rhs => (rhs ++ p, [x])
  | .field x, rhs => (rhs, [x])
  | .tablePart x _ p, rhs => (rhs ++ p, [x])
  | .tableField x _, rhs => (rhs, [x])
  | .fieldPart x p, rhs => (rhs ++ p, [x])
  | .tableFieldPart x _ p, rhs => (rhs ++ p, [x])

section
variable {B : Type} [DecidableEq B]

/-- The queue of `determineAccess(head)`, /repo/src/Algorithm.cpp:5884-5911: blocks with the names written before.
Returns the blocks whose instructions are examined, in order, each with the names written before. -/
def accLoop (g : B → ABlock B) : Nat → List (B × List String) → List B → List (B × List String) → Option (List (B × List String))
  | _, [], _, log => some log
  | 0, _ :: _, _, _ => none
  | fuel + 1, (b, w) :: q, visited, log =>
    let visited := b :: visited
    if (g b).isState then accLoop g fuel q visited log
    else
      let w' := w ++ (g b).writes
      let next := (g b).children.filter fun c => decide (c ∉ visited)
      accLoop g fuel (q ++ next.map fun c => (c, w')) visited (log ++ [(b, w)])

/-- `determineAccess(head)`, /repo/src/Algorithm.cpp:5863-5912. The head is examined whether a state or not. -/
def accHead (g : B → ABlock B) (fuel : Nat) (head : B) : Option (List (B × List String)) :=
  accLoop g fuel ((g head).children.map fun c => (c, (g head).writes)) [] [(head, [])]

/-- Names read from before, for all blocks examined (`in_vars_read`). -/
def inVarsRead (g : B → ABlock B) (log : List (B × List String)) : List String :=
  log.flatMap fun p => insReads p.2 (g p.1).instrs

end

/-- `e_Access` as bits, /repo/src/Blueprint.h:49-57. -/
structure Acc where
  r : Bool := false
  w : Bool := false
  boundOut : Bool := false
  boundInOut : Bool := false
  internalFF : Bool := false
deriving DecidableEq, Repr

/-- Storage decided by `determineUsage`, /repo/src/Blueprint.h:36-46. -/
inductive VClass where
  | const
  | temporary
  | flipflop
  | bound
  | notUsed
deriving DecidableEq, Repr

/-- What the decision depends on: the graph, the heads that are examined (states reached, always blocks), names read
by instances, memories, clocks, resets and wires after the cycle, names trickling in pipelines, names bound to outputs
and to inouts of instances, internal flip-flops, tables. -/
structure AccIn (B : Type) where
  g : B → ABlock B
  heads : List B
  readEnd : List String
  trickle : List String
  boundOut : List String
  boundInOut : List String
  internalFF : List String
  tables : List String

/-- Outcomes that stop the compilation: a name bound to an output and also assigned (5934-5936), or a combination of
accesses that is not expected (6192). -/
inductive AccErr where
  | boundAndWritten (x : String)
  | pattern (x : String)
deriving DecidableEq, Repr

section
variable {B : Type} [DecidableEq B]

/-- All blocks examined, `determineAccess` of the algorithm, 6013-6021. -/
def accAll (a : AccIn B) (fuel : Nat) : Option (List (B × List String)) :=
  (a.heads.mapM (accHead a.g fuel)).map List.flatten

/-- Access bits of a name, 5788-5807, 5917-5945, 6022-6085. -/
def accBits (a : AccIn B) (log : List (B × List String)) (x : String) : Acc :=
  { r := (log.any fun p => (a.g p.1).instrs.any fun i => decide (x ∈ i.1)) || decide (x ∈ a.readEnd) || decide (x ∈ a.trickle)
    w := log.any fun p => decide (x ∈ (a.g p.1).writes)
    boundOut := decide (x ∈ a.boundOut)
    boundInOut := decide (x ∈ a.boundInOut)
    internalFF := decide (x ∈ a.internalFF) }

/-- `global_in_read`, 6104-6118. -/
def globalInRead (a : AccIn B) (log : List (B × List String)) : List String :=
  inVarsRead a.g log ++ a.readEnd

/-- `determineUsage` for one variable, 6157-6193, after the check on bound names. -/
def classify (x : String) (c : Acc) (table inRead : Bool) : Except AccErr VClass :=
  if c.boundOut && c.w then .error (.boundAndWritten x)
  else if c = { r := true } then .ok .const
  else if c = { w := true } then .ok (if table then .flipflop else .temporary)
  else if c = { boundOut := true, r := true } ∨ c = { boundOut := true, r := true, internalFF := true } then .ok .bound
  else if c = { boundOut := true } ∨ c = { boundOut := true, internalFF := true } then .ok .bound
  else if c.internalFF then .ok .flipflop
  else if c = { r := true, w := true } then
    .ok (if !table && !inRead then .temporary else .flipflop)
  else if c = {} then .ok .notUsed
  else if c = { boundInOut := true } then .ok .bound
  else .error (.pattern x)

/-- The class of a variable. -/
def usageOf (a : AccIn B) (log : List (B × List String)) (x : String) : Except AccErr VClass :=
  classify x (accBits a log x) (decide (x ∈ a.tables)) (decide (x ∈ globalInRead a log))

end

end Silice
