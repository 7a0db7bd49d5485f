import Verif.Model.Memory
/-
What a user knows about memories: the ports a kind of memory has, what the write enable asks for, and the word an entry
holds after a history of writes. Nothing here mentions the Verilog blocks.
-/
set_option autoImplicit false
namespace Silice

/-- The kind of memory a template implements. -/
def MemTemplate.kind : MemTemplate → MemKind
  | .bramGeneric _ => .bram
  | .bramWmaskByte => .bram
  | .bromGeneric => .brom
  | .dualGeneric => .dual
  | .dualAltera => .dual
  | .dualWmaskByte => .dual
  | .simpleGeneric => .simpleDual
  | .simpleGenericRw => .simpleDual
  | .simpleWmaskByte => .simpleDual
  | .simpleWmaskHalf => .simpleDual

/-- The file of a template. -/
def MemTemplate.file : MemTemplate → String
  | .bramGeneric _ => "bram_generic.v.in"
  | .bramWmaskByte => "bram_wmask_byte.v.in"
  | .bromGeneric => "brom_generic.v.in"
  | .dualGeneric => "dualport_bram_generic.v.in"
  | .dualAltera => "dualport_bram_altera.v.in"
  | .dualWmaskByte => "dualport_bram_wmask_byte.v.in"
  | .simpleGeneric => "simple_dualport_bram_generic.v.in"
  | .simpleGenericRw => "simple_dualport_bram_generic_rw.v.in"
  | .simpleWmaskByte => "simple_dualport_bram_wmask_byte.v.in"
  | .simpleWmaskHalf => "simple_dualport_bram_wmask_half_bytes.v.in"

/-- Ports with an `rdata` member: port 0 (`false`) of all memories, port 1 of dual port ones. -/
def MemKind.reads : MemKind → Bool → Prop
  | .dual, _ => True
  | _, p => p = false

/-- Ports with a `wenable` member. -/
def MemKind.writes : MemKind → Bool → Prop
  | .bram, p => p = false
  | .brom, _ => False
  | .dual, _ => True
  | .simpleDual, p => p = true

/-- Bits written under one bit of the write enable: 8 or 4 for the templates with a mask, all of them otherwise. -/
def MemTemplate.grain : MemTemplate → Option Nat
  | .bramWmaskByte => some 8
  | .dualWmaskByte => some 8
  | .simpleWmaskByte => some 8
  | .simpleWmaskHalf => some 4
  | _ => none

/-- A write enable with value `wen` on `w` bits asks to write bit `b`. -/
def MemTemplate.Asks (T : MemTemplate) (w wen b : Nat) : Prop :=
  match T.grain with
  | none => ∃ i, i < w ∧ wen.testBit i = true
  | some g => wen.testBit (b / g) = true

/-- The write enables are declared so that all bits can be written: those of the templates with a mask as wide as the
data, itself a whole number of grains. -/
def MemTemplate.Wired (T : MemTemplate) (par : MemPar) : Prop :=
  ∀ g, T.grain = some g → g ∣ par.width ∧ ∀ p, T.kind.writes p → par.wenW p = par.width

/-- The inputs `x` of port `p` ask to store `v` in bit `b` of entry `a`. -/
def MemTemplate.Stores (T : MemTemplate) (par : MemPar) (p : Bool) (x : MPortIn) (a b : Nat) (v : Option Bool) : Prop :=
  T.kind.writes p ∧ x.addr = a ∧ T.Asks (par.wenW p) x.wen b ∧ x.wdata b = v

/-- A bit holds `v` after the times `0 ... n-1`: it was stored by the last of these times that stores it (any of them
if two ports do), or it never was stored and `v` is its first value. `stores k p v`: port `p` stores `v` at time `k`. -/
def LastStored (stores : Nat → Bool → Option Bool → Prop) (n : Nat) (init v : Option Bool) : Prop :=
  (∃ k, k < n ∧ (∃ p, stores k p v) ∧ ∀ j, k < j → j < n → ∀ q v', ¬ stores j q v') ∨
  ((∀ k, k < n → ∀ q v', ¬ stores k q v') ∧ v = init)

/-- What the instants of a list store in bit `b` of entry `a`. -/
def storesAt (T : MemTemplate) (par : MemPar) (ts : List MTick) (a b : Nat) (k : Nat) (p : Bool) (v : Option Bool) :
    Prop :=
  ∃ t, ts[k]? = some t ∧ t.rises p = true ∧ T.Stores par p (t.x p) a b v

/-- What the read register of a port receives when the port writes. -/
inductive OnWrite where
  | old | written | kept
deriving Repr, DecidableEq

def MemTemplate.onWrite : MemTemplate → OnWrite
  | .bramGeneric true => .written
  | .bramGeneric false => .old
  | .bramWmaskByte => .old
  | .bromGeneric => .old
  | .dualGeneric => .kept
  | .dualAltera => .written
  | .dualWmaskByte => .old
  | _ => .old

end Silice
