import Verif.Prelude

/-!
Expression trackers: `uint8 t <: e;` and `uint8 t <:: e;`.

A tracker becomes a wire that is assigned its expression outside of the code of the cycle (/repo/src/Algorithm.cpp
`gatherDeclarationWire` 586-609, `writeWireAssignements` 7694-7735). The code is a Verilog block that is evaluated again until
nothing changes, so that the wire carries the expression on what the code ends with, and the code reads the wire.

Expressions are trees of operators of two operands on values of any type; `cut` is the conversion to the declared type. Not
modelled: accesses to parts and tables (C63), wires of inouts, and which reads of the code use the value at the start of the
cycle (both give the current value, C49).
-/

set_option autoImplicit false

namespace Silice

/-- An expression. `colon` marks an operand written `:x`. -/
inductive TExp (V : Type) where
  | lit (v : V)
  | ref (colon : Bool) (x : String)
  | app (f : V → V → V) (a b : TExp V)

/-- What a name is (`isInput`, and `e_VarUsage` of variables and outputs, /repo/src/Blueprint.h 60-69). -/
inductive TrkKind where
  | input
  | bound
  | temp
  | cst
  | ff
  | wire
deriving DecidableEq, Repr

/-- A name of the Verilog text. -/
inductive TTok where
  | inp (x : String)
  | bnd (x : String)
  | tmp (x : String)
  | cst (x : String)
  | d (x : String)
  | q (x : String)
  | w (x : String)
deriving DecidableEq, Repr

/-- An expression of the Verilog text. -/
inductive TTxt (V : Type) where
  | lit (v : V)
  | tok (n : TTok)
  | app (f : V → V → V) (a b : TTxt V)

/-- A tracker: its name, `dbl` for `<::` (and the older `::=`), expression, conversion to its type. -/
structure Trk (V : Type) where
  name : String
  dbl : Bool
  e : TExp V
  cut : V → V

section
variable {V : Type}

/-- `rewriteIdentifier` in an expression that is read (/repo/src/Algorithm.cpp 1559-1675), after the translation of names; `ffD` tells
whether flip-flops are to be read as `_d_` and `deps` is the domain of the dependencies. `none`: never declared. -/
def trkName (kind : String → Option TrkKind) (ffD : Bool) (deps : List String) (x : String) : Option TTok :=
  match kind x with
  | none => none
  | some .input => some (.inp x)
  | some .bound => some (.bnd x)
  | some .temp => some (.tmp x)
  | some .cst => some (.cst x)
  | some .wire => some (.w x)
  | some .ff => if !ffD then (if deps.contains x then some (.d x) else some (.q x)) else some (.d x)

/-- `rewriteExpression` (/repo/src/Algorithm.cpp 1691-1770); `:x` is written as `x` (1754-1759). -/
def trkText (kind : String → Option TrkKind) (ffD : Bool) (deps : List String) : TExp V → Option (TTxt V)
  | .lit v => some (.lit v)
  | .ref _ x => (trkName kind ffD deps x).map .tok
  | .app f a b => do
    let a' ← trkText kind ffD deps a
    let b' ← trkText kind ffD deps b
    return .app f a' b'

/-- `writeWireAssignements` (/repo/src/Algorithm.cpp 7694-7735): the assignments written, with the conversions of their targets. `accessed`
is `access != e_NotAccessed`. The dependencies of a `<::` tracker are dropped again (7728-7730). `none`: an error is reported. -/
def writeTrks (kind : String → Option TrkKind) (accessed : String → Bool) : List String → List (Trk V) → Option (List (String × (V → V) × TTxt V))
  | _, [] => some []
  | deps, t :: ts =>
    if !accessed t.name then writeTrks kind accessed deps ts
    else do
      let dElseQ := !t.dbl
      let x ← trkText kind dElseQ deps t.e
      let xs ← writeTrks kind accessed (if dElseQ then deps ++ [t.name] else deps) ts
      return (t.name, t.cut, x) :: xs

/-- The signals of a module in a cycle. -/
structure TEnv (V : Type) where
  inp : String → V
  bnd : String → V
  cst : String → V
  tmp : String → V
  d : String → V
  q : String → V
  w : String → V

/-- Value of a name. -/
def TEnv.val (s : TEnv V) : TTok → V
  | .inp x => s.inp x
  | .bnd x => s.bnd x
  | .tmp x => s.tmp x
  | .cst x => s.cst x
  | .d x => s.d x
  | .q x => s.q x
  | .w x => s.w x

/-- Value of an expression of the text. -/
def TTxt.eval (s : TEnv V) : TTxt V → V
  | .lit v => v
  | .tok n => s.val n
  | .app f a b => f (a.eval s) (b.eval s)

/-- The code of a cycle: assignments and conditionals, each followed by the rest. -/
inductive TCode (V : Type) where
  | nil
  | asg (x : String) (e : TExp V) (k : TCode V)
  | ite (c : TExp V) (t e k : TCode V)

/-- What stays the same in a cycle: inputs, outputs of instances, constants. -/
structure TFix (V : Type) where
  inp : String → V
  bnd : String → V
  cst : String → V

/-- A name read by the code, `cur` being the current values of what is assigned (`writeBlock`, /repo/src/Algorithm.cpp 8474-8600;
which of `_d_`, `_q_`, `_t_` is read is C49) and `w` the wires. -/
def codeVal (kind : String → Option TrkKind) (fx : TFix V) (w cur : String → V) (x : String) : V :=
  match kind x with
  | some .input => fx.inp x
  | some .bound => fx.bnd x
  | some .cst => fx.cst x
  | some .wire => w x
  | _ => cur x

/-- Value of an expression given the values of names. -/
def TExp.eval (val : String → V) : TExp V → V
  | .lit v => v
  | .ref _ x => val x
  | .app f a b => f (a.eval val) (b.eval val)

/-- One evaluation of the code, with given values of the wires. `tr` tells which values count as true. -/
def TCode.run (kind : String → Option TrkKind) (fx : TFix V) (tr : V → Bool) (w : String → V) :
    TCode V → (String → V) → (String → V)
  | .nil, cur => cur
  | .asg x e k, cur => k.run kind fx tr w (Function.update cur x (e.eval (codeVal kind fx w cur)))
  | .ite c t e k, cur =>
    k.run kind fx tr w (if tr (c.eval (codeVal kind fx w cur)) then t.run kind fx tr w cur else e.run kind fx tr w cur)

/-- The module has settled: each wire carries its expression, on what the code ends with when it reads these wires. `q` is the
content of the flip-flops, and what the code starts with. -/
def TrkSettled (kind : String → Option TrkKind) (fx : TFix V) (tr : V → Bool) (code : TCode V) (xs : List (String × (V → V) × TTxt V))
    (q w : String → V) : Prop :=
  let fin := code.run kind fx tr w q
  ∀ x ∈ xs, w x.1 = x.2.1 (x.2.2.eval ⟨fx.inp, fx.bnd, fx.cst, fin, fin, q, w⟩)

/-- Operands of an expression, with their marks (`allVars`, /repo/src/ExpressionLinter.cpp 525-556). -/
def TExp.refs : TExp V → List (Bool × String)
  | .lit _ => []
  | .ref c x => [(c, x)]
  | .app _ a b => a.refs ++ b.refs

/-- The check made after an assignment to `w` (`updateAndCheckDependencies`, /repo/src/Algorithm.cpp 4898-4928): is the error "changes the
value of a <: tracked expression that was assigned before" reported? `wires` are the trackers of the unit, `isWire` tells
which variables have usage `e_Wire`, `deps` are the dependencies. The inner test is made on the tracker, as in the code (4914-4917). -/
def lateReported (isWire : String → Bool) (wires : List String) (deps : List (String × List String)) (w : String) : Bool :=
  wires.any fun wire =>
    match deps.find? (fun d => d.1 == wire) with
    | none => false
    | some dw => dw.2.contains w && deps.any fun d => d.2.contains wire && !isWire wire

/-- The three warnings of `lintWireAssignment` (/repo/src/ExpressionLinter.cpp 99-160). -/
inductive TWarn where
  | tracker (x : String)
  | bound (x : String)
  | input (x : String)
deriving DecidableEq, Repr

/-- `lintWireAssignment` (/repo/src/ExpressionLinter.cpp 111-158) for a tracker among trackers `ts`. -/
def trkWarnings (kind : String → Option TrkKind) (ts : List (Trk V)) (t : Trk V) : List TWarn :=
  if !t.dbl then []
  else t.e.refs.flatMap fun r =>
    if r.1 then []
    else (match ts.find? (fun s => s.name == r.2) with
        | some s => if !s.dbl then [TWarn.tracker r.2] else []
        | none => []) ++
      (if kind r.2 = some .bound then [TWarn.bound r.2] else []) ++
      (if kind r.2 = some .input then [TWarn.input r.2] else [])

end

end Silice
