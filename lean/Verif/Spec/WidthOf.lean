import Verif.Model.WidthOf

/-! What Verilog texts denote: numbers, ranges. -/

set_option autoImplicit false

namespace Silice

/-- A number in digits, and what follows. -/
def readNat (cs : List Char) : Option (Nat × List Char) :=
  if (cs.takeWhile Char.isDigit).isEmpty then none else some (Nat.ofDigitChars 10 (cs.takeWhile Char.isDigit) 0, cs.dropWhile Char.isDigit)

/-- A number, a number with a minus sign, or a difference of numbers. -/
def constVal : List Char → Option Int
  | '-' :: cs =>
    match readNat cs with
    | some (n, []) => some (-n)
    | _ => none
  | cs =>
    match readNat cs with
    | some (n, []) => some n
    | some (n, '-' :: cs') =>
      match readNat cs' with
      | some (m, []) => some (n - m)
      | _ => none
    | _ => none

/-- Number of bits of a Verilog range `[hi:0]`: the positions between 0 and `hi`, both included, in either direction. -/
def rangeBits (t : String) : Option Nat :=
  match t.toList with
  | '[' :: cs =>
    if cs.dropWhile (· ≠ ':') = ":0]".toList then (constVal (cs.takeWhile (· ≠ ':'))).map fun hi => hi.natAbs + 1 else none
  | _ => none

/-- A number in parentheses. -/
def parenVal (t : String) : Option Int :=
  match t.toList with
  | '(' :: cs => if cs.dropWhile (· ≠ ')') = [')'] then constVal (cs.takeWhile (· ≠ ')')) else none
  | _ => none

/-- A declaration `signed [7:0]` or ` [7:0]`: is it signed, and how many bits. -/
def declared (t : String) : Option (Bool × Nat) :=
  match t.toList with
  | ' ' :: cs => (rangeBits (String.ofList cs)).map fun n => (false, n)
  | cs => if cs.take 7 = "signed ".toList then (rangeBits (String.ofList (cs.drop 7))).map fun n => (true, n) else none

end Silice
