/-
Expression typing of the linter (widths and signedness), /repo/src/ExpressionLinter.cpp.
-/
set_option autoImplicit false
namespace Silice

/-- `e_Type`, /repo/src/TypesAndConsts.h. Simplification: `Parameterized` is not represented, the linter resolves
it before use (`resolveParameterized`, /repo/src/ExpressionLinter.cpp:559-576). -/
inductive BT where
  | int | uint
deriving Repr, DecidableEq

/-- `t_type_nfo`: width −1 is "undetermined". -/
structure TypeNfo where
  bt : BT
  width : Int
deriving Repr, DecidableEq

/-- Binary operators of the grammar, /repo/antlr/silice.g4 expression_0 to expression_10. -/
inductive BinOp where
  | add | sub | mul | shr | shl | sshr | sshl
  | eq | eq3 | ne | ne3 | lt | gt | le | ge
  | band | bor | bxor | bxnor | land | lor
deriving Repr, DecidableEq

/-- Unary operators of the grammar. -/
inductive UnOp where
  | neg | lnot | bnot | rnand | rnor | rand | ror | rxor | rxnor
deriving Repr, DecidableEq

/-- `base_type_of`, /repo/src/ExpressionLinter.cpp:305-312. -/
def baseTypeOf (a b : TypeNfo) : BT := if a.bt = .uint ∨ b.bt = .uint then .uint else .int

/-- `checkAndApplyOperator`, /repo/src/ExpressionLinter.cpp:316-356 (warnings not represented). -/
def applyOperator (op : BinOp) (a b : TypeNfo) : TypeNfo :=
  match op with
  | .add => ⟨baseTypeOf a b, max a.width b.width + 1⟩
  | .sub => ⟨baseTypeOf a b, max a.width b.width + 1⟩
  | .mul => ⟨baseTypeOf a b, a.width + b.width⟩
  | .shr => ⟨.uint, a.width⟩
  | .shl => ⟨.uint, a.width⟩
  | .eq | .eq3 | .ne | .ne3 | .lt | .gt | .le | .ge => ⟨.uint, 1⟩
  | _ => ⟨baseTypeOf a b, max a.width b.width⟩

/-- `checkAndApplyUnaryOperator`, /repo/src/ExpressionLinter.cpp:360-377. -/
def applyUnaryOperator (op : UnOp) (u : TypeNfo) : TypeNfo :=
  match op with
  | .neg => u
  | .bnot => u
  | _ => ⟨.uint, 1⟩

/-- Expressions, /repo/antlr/silice.g4:262-333. `var` stands for identifiers, accesses and `:` casts, whose type is
given by the host (`determineIdentifierTypeAndWidth`, `determineAccessTypeAndWidth`); `number` for unsized
numbers, `__id` and `widthof`. -/
inductive Expr where
  | sized (width : Nat) (value : Nat)
  | number (value : Nat)
  | var (t : TypeNfo) (name : String)
  | done
  | toUnsigned (e : Expr)
  | toSigned (e : Expr)
  | un (op : UnOp) (e : Expr)
  | bin (op : BinOp) (a b : Expr)
  | tern (c a b : Expr)
  | concat (es : List Expr)
  | repl (n : Nat) (c : Expr)

/-- Second part of the concatenation case, /repo/src/ExpressionLinter.cpp:486-491 with
`checkConcatenation` 273-286: `none` is the error "unknown bit-width" (and the assertion on an empty list). -/
def concatTypes (tns : List TypeNfo) : Option TypeNfo :=
  match tns with
  | [] => none
  | t0 :: _ =>
    if tns.any (fun t => t.width = -1) then none
    else some ⟨t0.bt, tns.foldl (fun acc t => acc + t.width) 0⟩

mutual
/-- `ExpressionLinter::typeNfo`, /repo/src/ExpressionLinter.cpp:381-521. The `repl` case follows the code: the
width multiplied by the count (line 482) is overwritten by the sum over `tns` (488-491). -/
def typeNfo : Expr → Option TypeNfo
  | .sized w _ => some ⟨.uint, w⟩
  | .number _ => some ⟨.uint, -1⟩
  | .var t _ => some t
  | .done => some ⟨.uint, 1⟩
  | .toUnsigned e => (typeNfo e).map (fun t => { t with bt := .uint })
  | .toSigned e => (typeNfo e).map (fun t => { t with bt := .int })
  | .un op e => (typeNfo e).map (applyUnaryOperator op)
  | .bin op a b =>
    match typeNfo a, typeNfo b with
    | some ta, some tb => some (applyOperator op ta tb)
    | _, _ => none
  | .tern c a b =>
    match typeNfo c, typeNfo a, typeNfo b with
    | some _, some ta, some tb => some ⟨baseTypeOf ta tb, max ta.width tb.width⟩
    | _, _, _ => none
  | .concat es =>
    match typeNfos es with
    | some tns => concatTypes tns
    | none => none
  | .repl _ c =>
    match typeNfo c with
    | some nfo => concatTypes [nfo]
    | none => none
/-- Types of the parts of a concatenation, in order. -/
def typeNfos : List Expr → Option (List TypeNfo)
  | [] => some []
  | e :: es =>
    match typeNfo e, typeNfos es with
    | some t, some ts => some (t :: ts)
    | _, _ => none
end

end Silice
