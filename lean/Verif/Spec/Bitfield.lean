import Verif.Model.Bitfield
/-! Independent specification of bitfields. -/
set_option autoImplicit false
namespace Silice

/-- Sum of the widths of the members following `m`: where a member that comes first in a most-significant-first
layout must start. -/
def specOffset (m : String) : Bitfield → Option Nat
  | [] => none
  | (n, _) :: rest => if n = m then some ((rest.map Prod.snd).sum) else specOffset m rest

/-- Declared width of a member (first declaration of that name). -/
def specWidth (m : String) (f : Bitfield) : Option Nat := f.lookup m

/-- Value of a number literal of `w` bits. -/
def litValue (w : Nat) (neg : Bool) (mag : Nat) : Nat :=
  if neg then (2 ^ w - mag % 2 ^ w) % 2 ^ w else mag % 2 ^ w

/-- Verilog value of a concatenation `{p1,p2,...}` (first part most significant); `none` if a part is not a
number. -/
def concatValue : List Piece → Option (Nat × Nat)
  | [] => some (0, 0)
  | .bad :: _ => none
  | .lit w neg mag :: rest =>
    match concatValue rest with
    | none => none
    | some (tw, v) => some (w + tw, litValue w neg mag * 2 ^ tw + v)

/-- Verilog part select `x[off +: w]`. -/
def partSelect (x off w : Nat) : Nat := x / 2 ^ off % 2 ^ w

/-- The value an initialiser gives to a member: the last one named. -/
def lastInit (m : String) (inits : List (String × Const)) : Option Const :=
  (inits.reverse.find? (fun e => e.1 = m)).map Prod.snd

/-- A constant represents `v` on `w` bits exactly: its own width (when it has one) is the width of the member,
and its value is representable. -/
def Const.Fits (w : Nat) (v : Nat) : Const → Prop
  | .sized lw neg mag => lw = w ∧ v = litValue w neg mag
  | .unsized neg mag => neg = false ∧ v = mag ∧ mag < 2 ^ w

end Silice
