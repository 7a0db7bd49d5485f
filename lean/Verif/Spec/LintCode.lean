import Verif.Model.LintCode
import Verif.Spec.Linter
import Verif.Spec.Permission

/-! Mistakes in expressions, what Verilog makes of comparisons and assignments, what instructions assign. -/

set_option autoImplicit false

namespace Silice

/-- `s` is `e` or an expression in it. -/
inductive SubOf (s : Expr) : Expr → Prop where
  | refl : SubOf s s
  | toUnsigned {e : Expr} : SubOf s e → SubOf s (.toUnsigned e)
  | toSigned {e : Expr} : SubOf s e → SubOf s (.toSigned e)
  | un {op : UnOp} {e : Expr} : SubOf s e → SubOf s (.un op e)
  | left {op : BinOp} {a b : Expr} : SubOf s a → SubOf s (.bin op a b)
  | right {op : BinOp} {a b : Expr} : SubOf s b → SubOf s (.bin op a b)
  | cond {c a b : Expr} : SubOf s c → SubOf s (.tern c a b)
  | then_ {c a b : Expr} : SubOf s a → SubOf s (.tern c a b)
  | else_ {c a b : Expr} : SubOf s b → SubOf s (.tern c a b)
  | part {es : List Expr} {e : Expr} : e ∈ es → SubOf s e → SubOf s (.concat es)
  | repl {n : Nat} {c : Expr} : SubOf s c → SubOf s (.repl n c)

/-- Comparisons. -/
def BinOp.Compares (op : BinOp) : Prop := op = .eq ∨ op = .eq3 ∨ op = .ne ∨ op = .ne3 ∨ op = .lt ∨ op = .gt ∨ op = .le ∨ op = .ge

/-- What is to be reported for an expression, not counting those in it. -/
inductive Fault : LintWarn → Expr → Prop where
  | shift {op : BinOp} {a b : Expr} {t : TypeNfo} : op = .shr ∨ op = .shl → typeNfo a = some t → t.bt = .int → Fault .shiftSigned (.bin op a b)
  | compare {op : BinOp} {a b : Expr} {t u : TypeNfo} :
      op.Compares → typeNfo a = some t → typeNfo b = some u → t.bt ≠ u.bt → Fault .cmpSigns (.bin op a b)
  | ternWidths {c a b : Expr} {t u : TypeNfo} : typeNfo a = some t → typeNfo b = some u → t.width ≠ u.width → Fault .ternWidths (.tern c a b)
  | ternSigns {c a b : Expr} {t u : TypeNfo} : typeNfo a = some t → typeNfo b = some u → t.bt ≠ u.bt → Fault .ternSigns (.tern c a b)
  | concat {es : List Expr} {a b : Expr} {t u : TypeNfo} : es.head? = some a → b ∈ es → typeNfo a = some t → typeNfo b = some u → u.bt ≠ t.bt →
      Fault .concatSigns (.concat es)

/-- The bits that hold `x` in a variable of `w` bits. -/
def bitsOf (w : Int) (x : Int) : Int := x % 2 ^ w.toNat

/-- The integer that `w` bits stand for, read as unsigned or as signed. -/
def readBits (signed : Bool) (w : Int) (n : Int) : Int := if signed ∧ 2 ^ (w.toNat - 1) ≤ n then n - 2 ^ w.toNat else n

/-- Comparison in Verilog (IEEE 1364-2005, 4.5 and 5.5): operands are read as signed if both are signed, otherwise both are read as unsigned. -/
def verilogCmp (op : BinOp) (t u : TypeNfo) (m n : Int) : Int :=
  let s := decide (t.bt = .int ∧ u.bt = .int)
  opValue op (readBits s t.width m) (readBits s u.width n)

/-- What a variable of type `l` holds once assigned a value `x`: the low bits, read as its type says. -/
def storedAs (l : TypeNfo) (x : Int) : Int := readBits (decide (l.bt = .int)) l.width (bitsOf l.width x)

/-- The expression is in the instruction. -/
inductive ExprOf (e : Expr) : LintIns → Prop where
  | expr : ExprOf e (.expr e)
  | assign {x : String} {lv : Option TypeNfo} : ExprOf e (.assign x lv e)
  | call {ins : List (PType × Expr)} {t : PType} : (t, e) ∈ ins → ExprOf e (.call ins)
  | other {es : List Expr} : e ∈ es → ExprOf e (.other es)

/-- The instruction assigns the variable. -/
inductive Assigns (x : String) : LintIns → Prop where
  | assign {lv : Option TypeNfo} {e : Expr} : Assigns x (.assign x lv e)
  | join {outs : List (String × PType × PType)} {l o : PType} : (x, l, o) ∈ outs → Assigns x (.join outs)

end Silice
