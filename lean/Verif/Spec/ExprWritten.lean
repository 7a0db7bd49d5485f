import Verif.Model.ExprText
import Verif.Spec.ExprText

/-!
What an expression of Silice is in Verilog: the same operators, applied to the same operands.
-/

set_option autoImplicit false

namespace Silice

/-- A member of a bit field that is signed is read as a signed number. -/
def wrapSigned (signed : Bool) (e : VExpr) : VExpr := if signed then .cast true e else e

/-- The same expression in Verilog. -/
def PExpr.verilog (nm : String → Ref) : PExpr → VExpr
  | .name x => match nm x with
    | .plain w => .name w
    | .cst sg w => .cast sg (.name ('`' :: w))
  | .num ds => .num ds
  | .sized neg w b v => if neg then .un "-" (.num (natToDec w ++ '\'' :: b :: v)) else .num (natToDec w ++ '\'' :: b :: v)
  | .idx a i => .idx (a.verilog nm) (i.verilog nm)
  | .sel a i n => .sel (a.verilog nm) (i.verilog nm) (.num n)
  | .field sg a off w => wrapSigned sg (.sel (a.verilog nm) (.num (natToDec off)) (.num (natToDec w)))
  | .fieldSel sg a i off n =>
    wrapSigned sg (.sel (a.verilog nm) (.paren (.bin "+" (.paren (i.verilog nm)) (.paren (.num (natToDec off))))) (.num n))
  | .comb a => a.verilog nm
  | .paren e => .paren (e.verilog nm)
  | .cast sg e => .cast sg (e.verilog nm)
  | .widthof w => .paren (.num (natToDec w))
  | .isdone w => .paren (.name w)
  | .cat l => .cat (l.verilog nm)
  | .rep n c => .rep n (c.verilog nm)
  | .one e => .one (e.verilog nm)
  | .more e l => .more (e.verilog nm) (l.verilog nm)
  | .un o a => .un o (a.verilog nm)
  | .bin o l r => .bin o (l.verilog nm) (r.verilog nm)
  | .tern c a b => .tern (c.verilog nm) (a.verilog nm) (b.verilog nm)

/-- The operator an expression starts with. -/
def PExpr.lead : PExpr → Option String
  | .un o _ => some o
  | .sized true _ _ _ => some "-"
  | .bin _ l _ => l.lead
  | .tern c _ _ => c.lead
  | .one e => e.lead
  | .more e _ => e.lead
  | _ => none

/-- Operators that, written one after the other, are another operator. -/
def merging : List (String × String) :=
  [("&", "&"), ("|", "|"), ("&&", "&"), ("^", "~"), ("^", "~&"), ("^", "~|"), ("^", "~^"), ("-", "-")]

/-- A `? :` without parentheses. -/
def PExpr.isTern : PExpr → Bool
  | .tern _ _ _ => true
  | _ => false

/-- A replication. -/
def PExpr.isRep : PExpr → Bool
  | .rep _ _ => true
  | _ => false

/-- No operator is directly followed by one it merges with, the condition of a `? :` is not itself a `? :` without parentheses, and
replications are not directly nested. -/
def PExpr.Clear : PExpr → Prop
  | .idx a i => a.Clear ∧ i.Clear
  | .sel a i _ => a.Clear ∧ i.Clear
  | .field _ a _ _ => a.Clear
  | .fieldSel _ a i _ _ => a.Clear ∧ i.Clear
  | .comb a => a.Clear
  | .paren e => e.Clear
  | .cast _ e => e.Clear
  | .cat l => l.Clear
  | .rep _ c => c.isRep = false ∧ c.Clear
  | .one e => e.Clear
  | .more e l => e.Clear ∧ l.Clear
  | .un o a => a.Clear ∧ ∀ u, a.lead = some u → (o, u) ∉ merging
  | .bin o l r => l.Clear ∧ r.Clear ∧ ∀ u, r.lead = some u → (o, u) ∉ merging
  | .tern c a b => c.isTern = false ∧ c.Clear ∧ a.Clear ∧ b.Clear
  | _ => True

end Silice
