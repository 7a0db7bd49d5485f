import Verif.Model.Number

/-!
# The text of expressions

Models `Algorithm::rewriteExpression` and the functions writing accesses (/repo/src/Algorithm.cpp:1559-1770, 7344-7530) on the trees of the
grammar (/repo/antlr/silice.g4:261-333).
-/

set_option autoImplicit false

namespace Silice

/-- Levels of binary operators in the grammar: the number of the rule `expression_k` they belong to. /repo/antlr/silice.g4:264-315. -/
def gramLevels : List (String × Nat) :=
  [("||", 1), ("&&", 2), ("|", 3), ("^", 4), ("^~", 4), ("~^", 4), ("&", 5), ("===", 6), ("==", 6), ("!==", 6), ("!=", 6),
   ("<", 7), (">", 7), ("<=", 7), (">=", 7), ("<<", 8), ("<<<", 8), (">>", 8), (">>>", 8), ("+", 9), ("-", 9), ("*", 10)]

/-- Level of a binary operator. -/
def gramLevel (o : String) : Option Nat := gramLevels.lookup o

/-- Unary operators, /repo/antlr/silice.g4:313-315 (`unaryExpression`). -/
def gramUnary : List String := ["-", "!", "~&", "~|", "&", "|", "^", "^~", "~^", "~"]

/-- What `rewriteIdentifier` returns for a name, /repo/src/Algorithm.cpp:1559-1675: a prefixed name, or for a constant that is a macro its use
within `$signed( )` or `$unsigned( )` (1629-1644). -/
inductive Ref where
  | plain (w : List Char)
  | cst (signed : Bool) (w : List Char)
deriving Repr, DecidableEq

/-- Text of a reference. /repo/src/Algorithm.cpp:1629-1644. -/
def Ref.text : Ref → List Char
  | .plain w => w
  | .cst sg w => (if sg then "$signed(" else "$unsigned(").toList ++ '`' :: w ++ [')']

/-- Expressions as the grammar builds them, /repo/antlr/silice.g4:261-345. `name` is an identifier or a member `a.b` (a single name of
`rewriteIdentifier`), `num` a NUMBER or the number that replaces `__id`, `sized` a SIZED_NUMBER, `comb` the cast `:x`, `widthof` and `isdone` their
results, `idx` a table access, `sel` a part select, `field` and `fieldSel` the access to a member of a bit field and to a part of it (with the offset
and the width of the member). `one` and `more` are the expressions inside a concatenation. -/
inductive PExpr where
  | name (x : String)
  | num (ds : List Char)
  | sized (neg : Bool) (w : Nat) (b : Char) (v : List Char)
  | idx (a i : PExpr)
  | sel (a i : PExpr) (n : List Char)
  | field (signed : Bool) (a : PExpr) (off w : Nat)
  | fieldSel (signed : Bool) (a i : PExpr) (off : Nat) (n : List Char)
  | comb (a : PExpr)
  | paren (e : PExpr)
  | cast (signed : Bool) (e : PExpr)
  | widthof (w : Nat)
  | isdone (w : List Char)
  | cat (l : PExpr)
  | rep (n : List Char) (c : PExpr)
  | one (e : PExpr)
  | more (e l : PExpr)
  | un (o : String) (a : PExpr)
  | bin (o : String) (l r : PExpr)
  | tern (c a b : PExpr)
deriving Repr, DecidableEq

/-- `$signed(` .. `)` around members of bit fields that are signed. /repo/src/Algorithm.cpp:7448-7450, 7472-7474. -/
def wrapText (signed : Bool) (cs : List Char) : List Char := if signed then "$signed(".toList ++ cs ++ [')'] else cs

/-- `Algorithm::rewriteExpression`, /repo/src/Algorithm.cpp:1691-1770: the texts of all tokens one after the other, without separation except around
`?`. Accesses are those of `writeTableAccess`, `writeBitfieldAccess`, `writePartSelect` (7407-7509), numbers those of `rewriteNumber` (419-427).
Simplification: the width of a part select is a plain number (`gatherConstValue` may also give a sized number). -/
def PExpr.text (nm : String → Ref) : PExpr → List Char
  | .name x => (nm x).text
  | .num ds => ds
  | .sized neg w b v => (if neg then ['-'] else []) ++ natToDec w ++ ['\''] ++ [b] ++ v
  | .idx a i => a.text nm ++ '[' :: i.text nm ++ [']']
  | .sel a i n => a.text nm ++ '[' :: i.text nm ++ ['+', ':'] ++ n ++ [']']
  | .field sg a off w => wrapText sg (a.text nm ++ '[' :: natToDec off ++ ['+', ':'] ++ natToDec w ++ [']'])
  | .fieldSel sg a i off n =>
    wrapText sg (a.text nm ++ ['[', '(', '('] ++ i.text nm ++ [')', '+', '('] ++ natToDec off ++ [')', ')', '+', ':'] ++ n ++ [']'])
  | .comb a => a.text nm
  | .paren e => '(' :: e.text nm ++ [')']
  | .cast sg e => (if sg then "$signed" else "$unsigned").toList ++ '(' :: e.text nm ++ [')']
  | .widthof w => '(' :: natToDec w ++ [')']
  | .isdone w => '(' :: w ++ [')']
  | .cat l => '{' :: l.text nm ++ ['}']
  | .rep n c => '{' :: n ++ c.text nm ++ ['}']
  | .one e => e.text nm
  | .more e l => e.text nm ++ ',' :: l.text nm
  | .un o a => o.toList ++ a.text nm
  | .bin o l r => l.text nm ++ o.toList ++ r.text nm
  | .tern c a b => c.text nm ++ [' ', '?', ' '] ++ a.text nm ++ ':' :: b.text nm

/-- Positions in the grammar: `expression_k` (11 is `unaryExpression`), `atom`, what a selection applies to, the inside of a concatenation. -/
inductive Slot where
  | e (k : Nat)
  | atom
  | base
  | list

/-- LETTER, /repo/antlr/silice.g4:29. -/
def isAlphaC (c : Char) : Bool := (97 ≤ c.toNat && c.toNat ≤ 122) || (65 ≤ c.toNat && c.toNat ≤ 90)

/-- A text made of digits. -/
def Digits (ds : List Char) : Prop := ds ≠ [] ∧ ∀ c ∈ ds, isDigitC c = true

/-- A text made as names are: IDENTIFIER and the prefixes of `rewriteIdentifier`, /repo/antlr/silice.g4:153, /repo/src/Algorithm.h. -/
def NameText (w : List Char) : Prop :=
  ∃ c w', w = c :: w' ∧ (isAlphaC c || c == '_') = true ∧ ∀ d ∈ w', (isAlphaC d || isDigitC d || d == '_') = true

/-- References are names. -/
def Ref.Ok : Ref → Prop
  | .plain w => NameText w
  | .cst _ w => NameText w

/-- The grammar of expressions, /repo/antlr/silice.g4:261-345. `? :` is left-recursive there: the condition may be a `? :`, the alternative on
the right may not (ANTLR groups to the left by default). -/
inductive Gram (nm : String → Ref) : Slot → PExpr → Prop where
  | tern {c a b : PExpr} : Gram nm (.e 0) c → Gram nm (.e 0) a → Gram nm (.e 1) b → Gram nm (.e 0) (.tern c a b)
  | bin {o : String} {k : Nat} {l r : PExpr} :
      gramLevel o = some k → Gram nm (.e k) l → Gram nm (.e (k + 1)) r → Gram nm (.e k) (.bin o l r)
  | pass {k : Nat} {p : PExpr} : k ≤ 10 → Gram nm (.e (k + 1)) p → Gram nm (.e k) p
  | un {o : String} {a : PExpr} : o ∈ gramUnary → Gram nm .atom a → Gram nm (.e 11) (.un o a)
  | atom {a : PExpr} : Gram nm .atom a → Gram nm (.e 11) a
  | name {x : String} : (nm x).Ok → Gram nm .atom (.name x)
  | num {ds : List Char} : Digits ds → Gram nm .atom (.num ds)
  | sized {neg : Bool} {w : Nat} {b : Char} {v : List Char} :
      isBaseC b = true → v ≠ [] → (∀ c ∈ v, isValueC c = true) → Gram nm .atom (.sized neg w b v)
  | base {x : String} {w : List Char} : nm x = .plain w → NameText w → Gram nm .base (.name x)
  | idx {a i : PExpr} : Gram nm .base a → Gram nm (.e 0) i → Gram nm .base (.idx a i)
  | access {a : PExpr} : Gram nm .base a → Gram nm .atom a
  | sel {a i : PExpr} {n : List Char} : Gram nm .base a → Gram nm (.e 0) i → Digits n → Gram nm .atom (.sel a i n)
  | field {sg : Bool} {a : PExpr} {off w : Nat} : Gram nm .base a → Gram nm .atom (.field sg a off w)
  | fieldSel {sg : Bool} {a i : PExpr} {off : Nat} {n : List Char} :
      Gram nm .base a → Gram nm (.e 0) i → Digits n → Gram nm .atom (.fieldSel sg a i off n)
  | comb {a : PExpr} : Gram nm .base a → Gram nm .atom (.comb a)
  | paren {e : PExpr} : Gram nm (.e 0) e → Gram nm .atom (.paren e)
  | cast {sg : Bool} {e : PExpr} : Gram nm (.e 0) e → Gram nm .atom (.cast sg e)
  | widthof {w : Nat} : Gram nm .atom (.widthof w)
  | isdone {w : List Char} : NameText w → Gram nm .atom (.isdone w)
  | cat {l : PExpr} : Gram nm .list l → Gram nm .atom (.cat l)
  | rep {n : List Char} {l : PExpr} : Digits n → Gram nm .list l → Gram nm .atom (.rep n (.cat l))
  | rep' {n m : List Char} {c : PExpr} : Digits n → Gram nm .atom (.rep m c) → Gram nm .atom (.rep n (.rep m c))
  | one {e : PExpr} : Gram nm (.e 0) e → Gram nm .list (.one e)
  | more {e l : PExpr} : Gram nm (.e 0) e → Gram nm .list l → Gram nm .list (.more e l)

end Silice
