import Verif.Model.Access

/-!
# Paths through the blocks of a cycle
-/

set_option autoImplicit false

namespace Silice

section
variable {B : Type}

/-- `Walk g head l c`: control may go from `head` through the blocks `l` (the head first) to `c` within a cycle; it
stops when it enters a state. -/
inductive Walk (g : B → ABlock B) (head : B) : List B → B → Prop where
  | start : Walk g head [] head
  | step {l : List B} {b c : B} (h : Walk g head l b) (hb : l = [] ∨ (g b).isState = false)
      (hc : c ∈ (g b).children) : Walk g head (l ++ [b]) c

/-- On the path through `l` to `c`, some instruction of `c` reads `x` and nothing before it writes `x`. -/
def ReadsFirst (g : B → ABlock B) (l : List B) (c : B) (x : String) : Prop :=
  ∃ before i after, (g c).instrs = before ++ i :: after ∧ x ∈ i.1 ∧
    (∀ b ∈ l, x ∉ (g b).writes) ∧ ∀ j ∈ before, x ∉ j.2

/-- Control enters the block: it is the head, or not a state. -/
def Enters (g : B → ABlock B) (l : List B) (c : B) : Prop := l = [] ∨ (g c).isState = false

/-- Shape of the graphs the compiler builds: each block that is not a state has a block `p` it directly follows and
that every path to it goes through (the block before it, or the one that ends with the conditional it belongs to). -/
def Dominated (g : B → ABlock B) (head : B) : Prop :=
  ∀ l c, Walk g head l c → l ≠ [] → (g c).isState = false →
    ∃ p, c ∈ (g p).children ∧ ∀ l', Walk g head l' c → l' ≠ [] ∧ p ∈ l'

/-- Some block that control can enter reads `x`. -/
def AccIn.ReadSome (a : AccIn B) (x : String) : Prop :=
  ∃ head ∈ a.heads, ∃ l c, Walk a.g head l c ∧ Enters a.g l c ∧ ∃ i ∈ (a.g c).instrs, x ∈ i.1

/-- Some block that control can enter writes `x`. -/
def AccIn.WriteSome (a : AccIn B) (x : String) : Prop :=
  ∃ head ∈ a.heads, ∃ l c, Walk a.g head l c ∧ Enters a.g l c ∧ ∃ i ∈ (a.g c).instrs, x ∈ i.2

/-- The value of `x` from before is needed: a path reads it before writing it, or something outside of the code does. -/
def AccIn.NeedsOld (a : AccIn B) (x : String) : Prop :=
  x ∈ a.readEnd ∨ ∃ head ∈ a.heads, ∃ l c, Walk a.g head l c ∧ Enters a.g l c ∧ ReadsFirst a.g l c x

/-- `x` has nothing to do with ports of instances or of memories, and is not a register by construction. -/
def AccIn.Plain (a : AccIn B) (x : String) : Prop :=
  x ∉ a.boundOut ∧ x ∉ a.boundInOut ∧ x ∉ a.internalFF

end

/-! ### What an assignment does -/

/-- The variable on the left side. -/
def Lhs.var : Lhs → String
  | .whole x | .table x _ | .part x _ | .field x | .tablePart x _ _ | .tableField x _ | .fieldPart x _
  | .tableFieldPart x _ _ => x

/-- Names in the index of a table entry. -/
def Lhs.entryNames : Lhs → List String
  | .table _ t | .tablePart _ t _ | .tableField _ t | .tableFieldPart _ t _ => t
  | _ => []

/-- Names in the start of a part select. -/
def Lhs.partNames : Lhs → List String
  | .part _ p | .tablePart _ _ p | .fieldPart _ p | .tableFieldPart _ _ p => p
  | _ => []

/-- Effect of an assignment: variable, entry, first bit, value; `entry`, `first` and `value` are the expressions, functions of
the values of the names they mention. -/
def Lhs.effect {V : Type} (l : Lhs) (rhs : List String) (entry first value : List V → Nat) (m : String → V) :
    String × Nat × Nat × Nat :=
  (l.var, entry (l.entryNames.map m), first (l.partNames.map m), value (rhs.map m))

/-- No table entry under another selection. -/
def Lhs.Simple : Lhs → Prop
  | .tablePart .. | .tableField .. | .tableFieldPart .. => False
  | _ => True

end Silice
