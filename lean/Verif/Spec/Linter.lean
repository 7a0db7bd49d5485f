import Verif.Model.Linter
/-! Mathematical meaning of expressions and of types. -/
set_option autoImplicit false
namespace Silice

/-- The integers a type can hold. -/
def TypeNfo.Holds (t : TypeNfo) (v : Int) : Prop :=
  match t.bt with
  | .uint => 0 ≤ t.width ∧ 0 ≤ v ∧ v < 2 ^ t.width.toNat
  | .int => 1 ≤ t.width ∧ -(2 ^ (t.width.toNat - 1)) ≤ v ∧ v < 2 ^ (t.width.toNat - 1)

def b2i (b : Bool) : Int := if b then 1 else 0

/-- Exact (unbounded) value of a binary operation. Bitwise operations and shifts are given on non-negative values
(that is how they are used below). -/
def opValue : BinOp → Int → Int → Int
  | .add, a, b => a + b
  | .sub, a, b => a - b
  | .mul, a, b => a * b
  | .shr, a, b => a / 2 ^ b.toNat
  | .sshr, a, b => a / 2 ^ b.toNat
  | .shl, a, b => a * 2 ^ b.toNat
  | .sshl, a, b => a * 2 ^ b.toNat
  | .eq, a, b => b2i (a = b)
  | .eq3, a, b => b2i (a = b)
  | .ne, a, b => b2i (a ≠ b)
  | .ne3, a, b => b2i (a ≠ b)
  | .lt, a, b => b2i (a < b)
  | .gt, a, b => b2i (a > b)
  | .le, a, b => b2i (a ≤ b)
  | .ge, a, b => b2i (a ≥ b)
  | .band, a, b => ((a.toNat &&& b.toNat : Nat) : Int)
  | .bor, a, b => ((a.toNat ||| b.toNat : Nat) : Int)
  | .bxor, a, b => ((a.toNat ^^^ b.toNat : Nat) : Int)
  | .bxnor, a, b => ((a.toNat ^^^ b.toNat : Nat) : Int)
  | .land, a, b => b2i (a ≠ 0 ∧ b ≠ 0)
  | .lor, a, b => b2i (a ≠ 0 ∨ b ≠ 0)

/-- Operations claimed exact by C06: additions and products of operands of equal signedness, differences of signed
operands, all comparisons, logical operations, unsigned bitwise operations and unsigned right shifts. -/
def exactOp : BinOp → BT → BT → Bool
  | .add, ta, tb => ta = tb
  | .mul, ta, tb => ta = tb
  | .sub, ta, tb => ta = .int && tb = .int
  | .eq, _, _ | .eq3, _, _ | .ne, _, _ | .ne3, _, _ | .lt, _, _ | .gt, _, _ | .le, _, _ | .ge, _, _ => true
  | .land, ta, tb | .lor, ta, tb => ta = .uint && tb = .uint
  | .band, ta, tb | .bor, ta, tb | .bxor, ta, tb => ta = .uint && tb = .uint
  | .shr, ta, tb => ta = .uint && tb = .uint
  | _, _, _ => false

/-- Arithmetic expressions over variables and sized constants built only from exact operations and from choices
between values of the same signedness; the second component is the signedness. -/
inductive Exact : Expr → BT → Prop where
  | sized (w v : Nat) : 0 < w → v < 2 ^ w → Exact (.sized w v) .uint
  | var (t : TypeNfo) (n : String) : 0 < t.width → Exact (.var t n) t.bt
  | bin (op : BinOp) (a b : Expr) (ta tb : BT) : Exact a ta → Exact b tb → exactOp op ta tb = true →
      Exact (.bin op a b) (match op with | .add | .mul | .sub => ta | _ => .uint)
  | lnot (e : Expr) (t : BT) : Exact e t → Exact (.un .lnot e) .uint
  | tern (c a b : Expr) (tc t : BT) : Exact c tc → Exact a t → Exact b t → Exact (.tern c a b) t

/-- Exact value of such an expression (other expressions are given the value 0, they are not `Exact`). -/
def evalExact (env : String → Int) : Expr → Int
  | .sized _ v => v
  | .var _ n => env n
  | .un .lnot e => b2i (evalExact env e = 0)
  | .bin op a b => opValue op (evalExact env a) (evalExact env b)
  | .tern c a b => if evalExact env c ≠ 0 then evalExact env a else evalExact env b
  | _ => 0

/-- Every variable of the expression holds a value of its type. -/
inductive EnvOk (env : String → Int) : Expr → Prop where
  | sized (w v : Nat) : EnvOk env (.sized w v)
  | var (t : TypeNfo) (n : String) : t.Holds (env n) → EnvOk env (.var t n)
  | bin (op : BinOp) (a b : Expr) : EnvOk env a → EnvOk env b → EnvOk env (.bin op a b)
  | un (op : UnOp) (e : Expr) : EnvOk env e → EnvOk env (.un op e)
  | tern (c a b : Expr) : EnvOk env c → EnvOk env a → EnvOk env b → EnvOk env (.tern c a b)

end Silice
