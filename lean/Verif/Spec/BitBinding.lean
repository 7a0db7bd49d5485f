import Verif.Model.BitBinding
/-! Specification notions for bindings of instance outputs. -/
set_option autoImplicit false
namespace Silice

/-- `b` covers bit `i` of the variable. -/
def PartBinding.Covers (b : PartBinding) (i : Nat) : Prop := b.first ≤ i ∧ i < b.first + b.num

/-- Names of wires produced by the compiler: not empty, without the separators of the encoding (they are made of
identifiers). -/
def PartBinding.NameOk (b : PartBinding) : Prop := b.wire ≠ [] ∧ ';' ∉ b.wire ∧ ',' ∉ b.wire

/-- Value of bit `i` of the Verilog concatenation `{s_{n-1},...,s_0}` given the wire values. -/
def concatBit (env : List Char → Nat → Bool) (msbFirst : List BitSrc) (i : Nat) : Option Bool :=
  (msbFirst.reverse[i]?).map (fun s => match s with
    | .zero => false
    | .wire n b => env n b)

/-- Two ranges share a bit. -/
def InoutBind.Overlaps (a b : InoutBind) : Prop := ∃ i : Int, a.first ≤ i ∧ i < a.first + a.num ∧
  b.first ≤ i ∧ i < b.first + b.num

end Silice
