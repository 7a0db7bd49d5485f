import Verif.Prelude

/-!
# Switches

Models how a `switch` and a `onehot` switch are read (/repo/src/Algorithm.cpp:3156-3191, values of cases 513-521, 1902-1917, 469-509) and written as Verilog (8917-8992), and what the
Verilog selects (IEEE 1364-2005, 9.5 and 5.5.2). Simplification: digits `x` and `z` in values are left out. What the compiler does with the blocks of the cases is the subject of other
properties; here they are only told apart.
-/

set_option autoImplicit false

namespace Silice

/-- Value of a case in the source, `value` in /repo/antlr/silice.g4:181-183: a number, a number with a size, a bit field with the widths and values of its members. -/
inductive CaseVal where
  | plain (neg : Bool) (n : Nat)
  | sized (neg : Bool) (w n : Nat)
  | field (ms : List (Nat × Nat))
deriving Repr, DecidableEq

/-- Label of a case in the Verilog. -/
inductive CaseLit where
  | num (n : Nat)
  | sized (w n : Nat)
  | neg (l : CaseLit)
  | concat (ms : List (Nat × Nat))
deriving Repr, DecidableEq

/-- `gatherValue`, /repo/src/Algorithm.cpp:513-521 (and `gatherConstValue`, 1902-1917; `rewriteNumber`, 419-427; `gatherBitfieldValue`, 469-509, for members without a sign). -/
def gatherCase : CaseVal → CaseLit
  | .plain false n => .num n
  | .plain true n => .neg (.num n)
  | .sized false w n => .sized w n
  | .sized true w n => .neg (.sized w n)
  | .field ms => .concat ms

/-- The cases of a `switch` as written, /repo/src/Algorithm.cpp:8944-8957; no value stands for `default`. -/
def writeSwitch {β : Type} (cases : List (Option CaseVal × β)) : List (Option CaseLit × β) := cases.map fun c => (c.1.map gatherCase, c.2)

/-! ### Verilog -/

/-- Width of a concatenation. -/
def concatWidth (ms : List (Nat × Nat)) : Nat := (ms.map Prod.fst).sum

/-- Value of a concatenation, first member in the high bits. -/
def caseConcat (ms : List (Nat × Nat)) : Nat := ms.foldl (fun acc m => acc * 2 ^ m.1 + m.2 % 2 ^ m.1) 0

/-- Width of a label by itself. Numbers without size have 32 bits. -/
def CaseLit.width : CaseLit → Nat
  | .num _ => 32
  | .sized w _ => w
  | .neg l => l.width
  | .concat ms => concatWidth ms

/-- Numbers without size are signed. -/
def CaseLit.isSigned : CaseLit → Bool
  | .num _ => true
  | .sized _ _ => false
  | .neg l => l.isSigned
  | .concat _ => false

/-- Extension of a value of `w` bits to `W` bits. -/
def extendTo (w : Nat) (sgn : Bool) (bits W : Nat) : Nat := if sgn = true ∧ 2 ^ (w - 1) ≤ bits then bits + (2 ^ W - 2 ^ w) else bits

/-- Value of a label in an expression of `W` bits, signed or not. -/
def CaseLit.eval (W : Nat) (sgn : Bool) : CaseLit → Nat
  | .num n => extendTo 32 sgn (n % 2 ^ 32) W
  | .sized w n => n % 2 ^ w
  | .neg l => (2 ^ W - l.eval W sgn % 2 ^ W) % 2 ^ W
  | .concat ms => caseConcat ms

/-- An expression that is compared: its width, its sign, its value within an expression of `W` bits. -/
structure CaseExpr where
  width : Nat
  isSigned : Bool
  eval : Nat → Bool → Nat

/-- The labels. -/
def labelsOf {β : Type} (items : List (Option CaseLit × β)) : List CaseLit := items.filterMap Prod.fst

/-- `case (e) ... endcase`: the expression and all labels are extended to the longest of them, and are compared as signed if all are signed. The first label that is equal is taken,
otherwise `default`. -/
def vcase {β : Type} (e : CaseExpr) (items : List (Option CaseLit × β)) : Option β :=
  let W := (labelsOf items).foldl (fun m l => max m l.width) e.width
  let S := e.isSigned && (labelsOf items).all CaseLit.isSigned
  match items.find? (fun it => match it.1 with | some l => e.eval W S == l.eval W S | none => false) with
  | some it => some it.2
  | none => (items.find? (fun it => it.1.isNone)).map Prod.snd

/-- A case statement has an entry, and at most one `default`. -/
def vcaseLegal {β : Type} (items : List (Option CaseLit × β)) : Prop := items ≠ [] ∧ (items.filter fun it => it.1.isNone).length ≤ 1

/-- `e == l` by itself. -/
def vEquals (e : CaseExpr) (l : CaseLit) : Prop :=
  e.eval (max e.width l.width) (e.isSigned && l.isSigned) = l.eval (max e.width l.width) (e.isSigned && l.isSigned)

/-! ### One-hot switches -/

/-- Index denoted by a label in `x[l]`: a number by itself. -/
def CaseLit.index : CaseLit → Int
  | .num n => n
  | .neg (.num n) => -(n : Int)
  | l => (l.eval l.width false : Nat)

/-- `x[l]` for a variable of `w` bits; outside of the variable the bit is unknown, and is not equal to one. -/
def bitSet (w x : Nat) (l : CaseLit) : Bool := decide (0 ≤ l.index) && decide (l.index < w) && x.testBit l.index.toNat

/-- Check of a one-hot switch on a variable of `w` bits, /repo/src/Algorithm.cpp:8967-8981. -/
def oneHotAccepted {β : Type} (w : Nat) (cases : List (Option CaseVal × β)) : Bool := cases.any (fun c => c.1.isNone) || cases.length == w

/-- Entries whose bit is set. -/
def oneHotSet {β : Type} (w x : Nat) (items : List (Option CaseLit × β)) : List (Option CaseLit × β) :=
  items.filter fun it => match it.1 with | some l => bitSet w x l | none => false

/-- What a simulator selects in `case (1'b1) x[l]: ...`, /repo/src/Algorithm.cpp:8921-8957. -/
def oneHotSim {β : Type} (w x : Nat) (items : List (Option CaseLit × β)) : Option β :=
  match oneHotSet w x items with
  | it :: _ => some it.2
  | [] => (items.find? (fun it => it.1.isNone)).map Prod.snd

/-- What hardware may do, given the attributes `parallel_case` and `full_case` (8921): when several bits of cases are set, or none and there is no default, anything. -/
def oneHotMay {β : Type} (w x : Nat) (items : List (Option CaseLit × β)) (out : Option β) : Prop :=
  match oneHotSet w x items with
  | [it] => out = some it.2
  | _ :: _ :: _ => True
  | [] => ∀ b, (items.find? (fun it => it.1.isNone)).map Prod.snd = some b → out = some b

end Silice
