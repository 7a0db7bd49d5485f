import Verif.Model.Linter
import Verif.Model.Permission

/-!
# What the linter reports

Models the reports of the linter (/repo/src/ExpressionLinter.cpp 39-95, 99-104, 164-211, 273-377) and what it is applied to
(`checkExpressions`, /repo/src/Algorithm.cpp 6620-6778).

Simplifications: types of variables are given (C06, C37, C77 for how they are determined); positions of reports are left out; the warnings about
older syntax and about trackers reading trackers are in Model/Tracker (C72).
-/

set_option autoImplicit false

namespace Silice

/-- Warnings. -/
inductive LintWarn where
  | concatSigns
  | ternWidths
  | ternSigns
  | shiftSigned
  | cmpSigns
  | assignSigned
  | assignWidth
  | paramSigned
  | paramWidth
  | outSigned
  | outWidth
deriving DecidableEq, Repr

/-- Errors. -/
inductive LintErr where
  | unknownWidth
  | tracker (x : String)
deriving DecidableEq, Repr

/-- Warnings of `checkAndApplyOperator`, /repo/src/ExpressionLinter.cpp:332-350. -/
def opWarns (op : BinOp) (a b : TypeNfo) : List LintWarn :=
  match op with
  | .shr | .shl => if a.bt = .int then [.shiftSigned] else []
  | .eq | .eq3 | .ne | .ne3 | .lt | .gt | .le | .ge => if a.bt ≠ b.bt then [.cmpSigns] else []
  | _ => []

/-- Warnings of `checkTernary`, /repo/src/ExpressionLinter.cpp:290-301. -/
def ternWarns (a b : TypeNfo) : List LintWarn :=
  (if a.width ≠ b.width then [.ternWidths] else []) ++ (if a.bt ≠ b.bt then [.ternSigns] else [])

/-- Warnings of `checkConcatenation`, /repo/src/ExpressionLinter.cpp:273-286. -/
def concatWarns : List TypeNfo → List LintWarn
  | [] => []
  | t0 :: ts => (t0 :: ts).flatMap fun t => if t.bt ≠ t0.bt then [.concatSigns] else []

mutual

/-- `lint` and `typeNfo`, /repo/src/ExpressionLinter.cpp:39-45 and 381-521, with the warnings given on the way; `none`: the error "concatenation
contains expression of unkown bit-width". -/
def lintExpr : Expr → Option (TypeNfo × List LintWarn)
  | .sized w _ => some (⟨.uint, w⟩, [])
  | .number _ => some (⟨.uint, -1⟩, [])
  | .var t _ => some (t, [])
  | .done => some (⟨.uint, 1⟩, [])
  | .toUnsigned e => (lintExpr e).map fun r => ({ r.1 with bt := .uint }, r.2)
  | .toSigned e => (lintExpr e).map fun r => ({ r.1 with bt := .int }, r.2)
  | .un op e => (lintExpr e).map fun r => (applyUnaryOperator op r.1, r.2)
  | .bin op a b =>
    match lintExpr a, lintExpr b with
    | some ra, some rb => some (applyOperator op ra.1 rb.1, ra.2 ++ (rb.2 ++ opWarns op ra.1 rb.1))
    | _, _ => none
  | .tern c a b =>
    match lintExpr c, lintExpr a, lintExpr b with
    | some rc, some ra, some rb =>
      some (⟨baseTypeOf ra.1 rb.1, max ra.1.width rb.1.width⟩, rc.2 ++ (ra.2 ++ (rb.2 ++ ternWarns ra.1 rb.1)))
    | _, _, _ => none
  | .concat es =>
    match lintExprs es with
    | some r => (concatTypes r.1).map fun t => (t, r.2 ++ concatWarns r.1)
    | none => none
  | .repl _ c =>
    match lintExpr c with
    | some r => (concatTypes [r.1]).map fun t => (t, r.2 ++ concatWarns [r.1])
    | none => none

/-- The parts of a concatenation, /repo/src/ExpressionLinter.cpp:470-475. -/
def lintExprs : List Expr → Option (List TypeNfo × List LintWarn)
  | [] => some ([], [])
  | e :: es =>
    match lintExpr e, lintExprs es with
    | some r, some rs => some (r.1 :: rs.1, r.2 ++ rs.2)
    | _, _ => none

end

/-- `m_WarnAssignWidth`, /repo/src/ExpressionLinter.h:54; nothing changes it. -/
def warnAssignWidth : Bool := false

/-- `lintAssignment`, /repo/src/ExpressionLinter.cpp:49-95. `x` is the variable assigned, `lv` the type of what is assigned: `none` when it is given by
another variable or by what is bound (`Parameterized`) and the whole variable is assigned, `lvalue_nfo` is not resolved then (line 60).
`wireDef`: this is the definition of a tracker. -/
def lintAssign (trackers : List String) (x : String) (lv : Option TypeNfo) (wireDef : Bool) (e : Expr) : Except LintErr (List LintWarn) :=
  match lintExpr e with
  | none => .error .unknownWidth
  | some (rv, ws) =>
    match lv with
    | none => .ok ws
    | some l =>
      if !wireDef && decide (x ∈ trackers) then .error (.tracker x)
      else .ok (ws ++ ((if l.bt ≠ rv.bt ∧ rv.bt = .int then [.assignSigned] else []) ++
        (if l.width < rv.width ∧ warnAssignWidth then [.assignWidth] else [])))

/-- A type that may not be resolved: `bt` is `none` for `Parameterized`. -/
structure PType where
  bt : Option BT
  width : Int

/-- `lintInputParameter`, /repo/src/ExpressionLinter.cpp:164-186. -/
def lintInput (p : PType) (e : Expr) : Except LintErr (List LintWarn) :=
  match lintExpr e with
  | none => .error .unknownWidth
  | some (rv, ws) =>
    .ok (ws ++ ((if p.bt ≠ some rv.bt ∧ rv.bt = .int then [.paramSigned] else []) ++ (if p.width < rv.width then [.paramWidth] else [])))

/-- `lintReadback`, /repo/src/ExpressionLinter.cpp:190-211: `l` receives an output of type `o`. -/
def lintReadback (l o : PType) : List LintWarn :=
  (if l.bt ≠ o.bt ∧ o.bt = some .int then [.outSigned] else []) ++ (if l.width < o.width then [.outWidth] else [])

/-- Instructions, as `checkExpressions` tells them apart (/repo/src/Algorithm.cpp:6622-6627): an expression; assignments and assignments `:=`; calls,
with the type of each input and what it is given; joins, with the variable that receives each output, its type, and the type of the output; any
other, with the expressions in it. -/
inductive LintIns where
  | expr (e : Expr)
  | assign (x : String) (lv : Option TypeNfo) (e : Expr)
  | call (ins : List (PType × Expr))
  | join (outs : List (String × PType × PType))
  | other (es : List Expr)

/-- Goes through what is linted, stopping at the first error. -/
def lintAll {α : Type} (f : α → Except LintErr (List LintWarn)) : List α → Except LintErr (List LintWarn)
  | [] => .ok []
  | a :: as =>
    match f a with
    | .error e => .error e
    | .ok ws =>
      match lintAll f as with
      | .error e => .error e
      | .ok ws' => .ok (ws ++ ws')

/-- `lint`, /repo/src/ExpressionLinter.cpp:39-45, on an expression of the program. -/
def lintOne (e : Expr) : Except LintErr (List LintWarn) :=
  match lintExpr e with
  | none => .error .unknownWidth
  | some r => .ok r.2

/-- `checkExpressions` on an instruction, /repo/src/Algorithm.cpp:6620-6741. -/
def lintNode (trackers : List String) : LintIns → Except LintErr (List LintWarn)
  | .expr e => lintOne e
  | .assign x lv e => lintAssign trackers x lv false e
  | .call ins => lintAll (fun p => lintInput p.1 p.2) ins
  | .join outs => .ok (outs.flatMap fun o => lintReadback o.2.1 o.2.2)
  | .other es => lintAll lintOne es

/-- What is around the blocks: the instructions of `m_AlwaysPre` and `m_AlwaysPost`, that is the `x := e` of the unit (4119; the text of `always` blocks
is gathered in nested blocks, 4066 with 1934-1947), and trackers, with their types and expressions (`m_WireAssignments`). -/
structure LintHost where
  always : List LintIns
  wires : List (String × Option TypeNfo × Expr)

/-- `m_WireAssignmentNames`. -/
def LintHost.trackers (h : LintHost) : List String := h.wires.map (·.1)

/-- The text of instructions and conditions. -/
structure LintText where
  ins : PIns → LintIns
  test : Nat → Expr

/-- `checkExpressions` on a block, /repo/src/Algorithm.cpp:6761-6777: blocks without state number are passed over. -/
def lintBlock {B : Type} (trackers : List String) (num : Num B) (blk : B → PBlk) (L : LintText) (b : B) : Except LintErr (List LintWarn) :=
  if (num.sid b).isNone then .ok []
  else
    lintAll (lintNode trackers) ((blk b).ins.map L.ins ++
      match (blk b).act.cond with
      | none => []
      | some c => [.expr (L.test c)])

/-- `checkExpressions`, /repo/src/Algorithm.cpp:6745-6778. -/
def lintUnit {B : Type} (h : LintHost) (num : Num B) (blk : B → PBlk) (L : LintText) (blocks : List B) : Except LintErr (List LintWarn) :=
  match lintAll (lintNode h.trackers) h.always with
  | .error e => .error e
  | .ok w1 =>
    match lintAll (fun w => lintAssign h.trackers w.1 w.2.1 true w.2.2) h.wires with
    | .error e => .error e
    | .ok w2 =>
      match lintAll (lintBlock h.trackers num blk L) blocks with
      | .error e => .error e
      | .ok w3 => .ok (w1 ++ (w2 ++ w3))

/-- Blocks whose instructions are written as part of the code, whatever the conditions. -/
def Code.bodies {B : Type} : Code B → List B
  | .body b => [b]
  | .seq x y | .ite _ x y => x.bodies ++ y.bodies
  | .wend _ x _ => x.bodies
  | .case _ es => bodiesEntries es
  | .skip | .waitDone _ _ _ | .jump _ | .halt | .call _ _ _ | .ret _ _ => []
where
  /-- of the entries of a case -/
  bodiesEntries : List (Option Nat × Code B) → List B
    | [] => []
    | (_, x) :: es => x.bodies ++ bodiesEntries es

/-- The check made when an instruction of a block is written, /repo/src/Algorithm.cpp:8506-8521 (trackers are the variables with usage `e_Wire`, 596). There is
none for the results of joins, 7171-7245 and 7281-7330. The `x := e` of the unit are another case: on trackers they are not written, 8538-8541. -/
def writeNode (trackers : List String) : LintIns → Except LintErr (List LintWarn)
  | .assign x _ _ => if x ∈ trackers then .error (.tracker x) else .ok []
  | _ => .ok []

/-- The checks made while states are written (the text of always blocks, written alike, is left out). -/
def writeUnit {B : Type} (trackers : List String) (blk : B → PBlk) (L : LintText) (entries : List (Entry B)) : Except LintErr (List LintWarn) :=
  lintAll (fun e => lintAll (fun b => lintAll (writeNode trackers) ((blk b).ins.map L.ins)) e.code.bodies) entries

/-- Linting, /repo/src/Algorithm.cpp:6785-6791, then writing. -/
def acceptUnit {B : Type} (h : LintHost) (num : Num B) (blk : B → PBlk) (L : LintText) (blocks : List B) (entries : List (Entry B)) :
    Except LintErr (List LintWarn) :=
  match lintUnit h num blk L blocks with
  | .error e => .error e
  | .ok ws =>
    match writeUnit h.trackers blk L entries with
    | .error e => .error e
    | .ok ws' => .ok (ws ++ ws')

end Silice
