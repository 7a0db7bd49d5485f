import Verif.Model.Image

/-!
Specification: fields of a packed number.
-/

set_option autoImplicit false

namespace Silice

/-- Bits `k * depth` to `k * depth + depth - 1`. -/
def bitsAt (depth k v : Nat) : Nat := v / 2 ^ (k * depth) % 2 ^ depth

/-- The `depth` top bits of a byte. -/
def topBits (depth byte : Nat) : Nat := byte / 2 ^ (8 - depth)

/-- `v` is the packing of the bytes: each has its top bits in a field of its own, the first in the highest field, and nothing
else is set. -/
def Packs (depth : Nat) (bytes : List Nat) (v : Nat) : Prop :=
  v < 2 ^ (bytes.length * depth) ∧
  ∀ (c b : Nat), bytes[c]? = some b → bitsAt depth (bytes.length - 1 - c) v = topBits depth b

end Silice
