import Verif.Model.Text
/-! What a sized literal means, written without the parser. -/
set_option autoImplicit false
namespace Silice

/-- `s` is written as a sized literal with sign `neg`, width `w`, base letter `b`, digits `v` and separator `sep`
between width and base: no separator in Silice source, a quote in Verilog. -/
def IsLiteral (sep : List Char) (s : List Char) (neg : Bool) (w : Nat) (b : Char) (v : List Char) : Prop :=
  ∃ wd : List Char, wd ≠ [] ∧ (∀ c ∈ wd, ∃ d, d < 10 ∧ c = digitChar d) ∧ decAcc 0 wd = w ∧
    (b = 'b' ∨ b = 'd' ∨ b = 'h') ∧ v ≠ [] ∧ (∀ c ∈ v, c ∈ "0123456789abcdefABCDEFxz".toList) ∧
    s = (if neg then ['-'] else []) ++ wd ++ sep ++ [b] ++ v

/-- Value of a digit in base 2, 10 or 16 (`x`, `z` and letters out of the base have none). -/
def digitIn (base : Nat) (c : Char) : Option Nat :=
  ("0123456789abcdef".toList.findIdx? (· = c.toLower)).bind (fun d => if d < base then some d else none)

/-- The number written by a list of digits, `none` if some character is not a digit of the base. -/
def digitsValue (base : Nat) (v : List Char) : Option Nat :=
  v.foldl (fun acc c => acc.bind fun a => (digitIn base c).map fun d => a * base + d) (some 0)

def baseOf : Char → Nat
  | 'b' => 2
  | 'd' => 10
  | _ => 16

/-- The bit pattern a literal stands for: its value, negated if signed, modulo `2^w`. -/
def literalBits (neg : Bool) (w : Nat) (b : Char) (v : List Char) : Option Nat :=
  (digitsValue (baseOf b) v).map fun (n : Nat) => if neg then ((-(n : Int)) % (2 ^ w : Int)).toNat else n % (2 ^ w : Nat)

end Silice
