import Verif.Model.Number

/-!
How Verilog reads the text of an expression (IEEE 1364-2005 and 1800-2017): characters are first grouped into tokens, always taking
the longest operator possible, then the tokens are grouped by the precedence of operators. All binary operators group to the left, `? :`
groups to the right.

Only what occurs in expressions is described: names, `$signed`, `$unsigned`, numbers, operators, selections, concatenations, replications.
-/

set_option autoImplicit false

namespace Silice

/-- Operators and punctuation of (System)Verilog that can appear within expressions. -/
def vSymbols : List String :=
  ["+", "-", "*", "/", "%", "**", "!", "~", "&", "|", "^", "~&", "~|", "~^", "^~", "&&", "||", "&&&", "==", "!=", "===", "!==", "==?", "!=?",
   "<", "<=", ">", ">=", "<<", ">>", "<<<", ">>>", "?", ":", "->", "->>", "<->", "++", "--", "+=", "-=", "*=", "/=", "%=", "&=", "|=", "^=", "<<=",
   ">>=", "<<<=", ">>>=", "+:", "-:", "(", ")", "(*", "*)", "[", "]", "{", "}", ",", ";", "::", ":=", ":/", "=", "=>", "*>", "|->", "|=>", "//", "/*"]

/-- Precedence of binary operators, from the weakest (1) to the strongest (11). IEEE 1364-2005 table 5-4. -/
def vLevels : List (String × Nat) :=
  [("||", 1), ("&&", 2), ("|", 3), ("^", 4), ("^~", 4), ("~^", 4), ("&", 5), ("==", 6), ("!=", 6), ("===", 6), ("!==", 6),
   ("<", 7), ("<=", 7), (">", 7), (">=", 7), ("<<", 8), (">>", 8), ("<<<", 8), (">>>", 8), ("+", 9), ("-", 9), ("*", 10), ("/", 10), ("%", 10), ("**", 11)]

/-- Level of a binary operator. -/
def vLevel (o : String) : Option Nat := vLevels.lookup o

/-- Unary operators. -/
def vUnary : List String := ["+", "-", "!", "~", "&", "~&", "|", "~|", "^", "~^", "^~"]

/-- Tokens: a name (or `$signed`, or a macro), a number, a symbol. -/
inductive VTok where
  | word (w : List Char)
  | num (n : List Char)
  | sym (s : String)
deriving Repr, DecidableEq

/-- Letters. -/
def isLetterC (c : Char) : Bool := (97 ≤ c.toNat && c.toNat ≤ 122) || (65 ≤ c.toNat && c.toNat ≤ 90)

/-- First character of a name, of a system function, of the use of a macro. -/
def wordStart (c : Char) : Bool := isLetterC c || c = '_' || c = '`' || c = '$'

/-- Other characters of a name. -/
def wordC (c : Char) : Bool := isLetterC c || isDigitC c || c = '_' || c = '$'

/-- Digits of based numbers. -/
def basedC (c : Char) : Bool := isValueC c || c = 'X' || c = 'Z' || c = '?' || c = '_'

/-- The longest symbol at the start of a text. -/
def longest (cs : List Char) : String :=
  vSymbols.foldl (fun best s => if s.toList.isPrefixOf cs && best.toList.length < s.toList.length then s else best) ""

/-- The first token of a text, and what follows it. -/
def nextTok (cs : List Char) : Option (VTok × List Char) :=
  match cs with
  | [] => none
  | c :: cs' =>
    if wordStart c then some (.word (c :: cs'.takeWhile wordC), cs'.dropWhile wordC)
    else if isDigitC c then
      let ds := (c :: cs').takeWhile isDigitC
      match (c :: cs').dropWhile isDigitC with
      | [] => some (.num ds, [])
      | d :: r =>
        if d = '\'' then
          match r with
          | [] => none
          | b :: r' =>
            if isBaseC b && r'.takeWhile basedC ≠ [] then
              some (.num (ds ++ '\'' :: b :: r'.takeWhile basedC), r'.dropWhile basedC)
            else none
        else if wordC d || d = '.' then none
        else some (.num ds, d :: r)
    else
      if longest (c :: cs') = "" then none else some (.sym (longest (c :: cs')), (c :: cs').drop (longest (c :: cs')).toList.length)

/-- A text is cut into tokens. -/
inductive Lexes : List Char → List VTok → Prop where
  | done : Lexes [] []
  | space {cs : List Char} {ts : List VTok} : Lexes cs ts → Lexes (' ' :: cs) ts
  | tok {cs rest : List Char} {t : VTok} {ts : List VTok} : nextTok cs = some (t, rest) → Lexes rest ts → Lexes cs (t :: ts)

/-- Expressions of Verilog. Parentheses are kept. `one` and `more` are the lists inside concatenations. -/
inductive VExpr where
  | name (w : List Char)
  | num (n : List Char)
  | un (o : String) (a : VExpr)
  | bin (o : String) (l r : VExpr)
  | tern (c a b : VExpr)
  | cast (signed : Bool) (e : VExpr)
  | paren (e : VExpr)
  | idx (a i : VExpr)
  | sel (a i n : VExpr)
  | cat (l : VExpr)
  | rep (n : List Char) (l : VExpr)
  | one (e : VExpr)
  | more (e l : VExpr)
deriving Repr, DecidableEq

/-- What is being read: an expression whose operators have at least a level (0 is `? :`, 12 is the operand of binary operators), the rest of a
sequence of operators of a level, the selections after an operand, a list of expressions. -/
inductive VMode where
  | e (k : Nat)
  | ops (k : Nat) (a : VExpr)
  | post (a : VExpr)
  | list

/-- `$signed` or `$unsigned`. -/
def castWord (signed : Bool) : List Char := if signed then "$signed".toList else "$unsigned".toList

/-- The next token is a binary operator of level `k`. -/
def opAt (k : Nat) (ts : List VTok) : Prop := ∃ o ts', ts = .sym o :: ts' ∧ vLevel o = some k

/-- The next token is this symbol. -/
def symAt (s : String) (ts : List VTok) : Prop := ∃ ts', ts = .sym s :: ts'

/-- Reading: `VRead m ts t rest` reads `t` from the tokens `ts` and leaves `rest`. -/
inductive VRead : VMode → List VTok → VExpr → List VTok → Prop where
  | tern {ts ts1 ts2 r : List VTok} {c a b : VExpr} :
      VRead (.e 1) ts c (.sym "?" :: ts1) → VRead (.e 0) ts1 a (.sym ":" :: ts2) → VRead (.e 0) ts2 b r → VRead (.e 0) ts (.tern c a b) r
  | plain {ts r : List VTok} {c : VExpr} : VRead (.e 1) ts c r → ¬ symAt "?" r → VRead (.e 0) ts c r
  | level {k : Nat} {ts r1 r : List VTok} {a t : VExpr} :
      1 ≤ k → k ≤ 11 → VRead (.e (k + 1)) ts a r1 → VRead (.ops k a) r1 t r → VRead (.e k) ts t r
  | op {k : Nat} {o : String} {ts r1 r : List VTok} {a b t : VExpr} :
      vLevel o = some k → VRead (.e (k + 1)) ts b r1 → VRead (.ops k (.bin o a b)) r1 t r → VRead (.ops k a) (.sym o :: ts) t r
  | stop {k : Nat} {ts : List VTok} {a : VExpr} : ¬ opAt k ts → VRead (.ops k a) ts a ts
  | un {o : String} {ts r : List VTok} {a : VExpr} : o ∈ vUnary → VRead (.e 12) ts a r → VRead (.e 12) (.sym o :: ts) (.un o a) r
  | paren {ts r : List VTok} {a : VExpr} : VRead (.e 0) ts a (.sym ")" :: r) → VRead (.e 12) (.sym "(" :: ts) (.paren a) r
  | cast {sg : Bool} {ts r : List VTok} {a : VExpr} :
      VRead (.e 0) ts a (.sym ")" :: r) → VRead (.e 12) (.word (castWord sg) :: .sym "(" :: ts) (.cast sg a) r
  | num {n : List Char} {ts : List VTok} : VRead (.e 12) (.num n :: ts) (.num n) ts
  | name {w : List Char} {ts r : List VTok} {t : VExpr} :
      w ≠ castWord true → w ≠ castWord false → VRead (.post (.name w)) ts t r → VRead (.e 12) (.word w :: ts) t r
  | idx {a i t : VExpr} {ts r1 r : List VTok} :
      VRead (.e 0) ts i (.sym "]" :: r1) → VRead (.post (.idx a i)) r1 t r → VRead (.post a) (.sym "[" :: ts) t r
  | sel {a i n t : VExpr} {ts r1 r2 r : List VTok} :
      VRead (.e 0) ts i (.sym "+:" :: r1) → VRead (.e 0) r1 n (.sym "]" :: r2) → VRead (.post (.sel a i n)) r2 t r →
      VRead (.post a) (.sym "[" :: ts) t r
  | pdone {a : VExpr} {ts : List VTok} : ¬ symAt "[" ts → VRead (.post a) ts a ts
  | cat {l : VExpr} {ts r : List VTok} :
      (∀ n ts', ts ≠ .num n :: .sym "{" :: ts') → VRead .list ts l (.sym "}" :: r) → VRead (.e 12) (.sym "{" :: ts) (.cat l) r
  | rep {n : List Char} {l : VExpr} {ts r : List VTok} :
      VRead .list ts l (.sym "}" :: .sym "}" :: r) → VRead (.e 12) (.sym "{" :: .num n :: .sym "{" :: ts) (.rep n (.cat l)) r
  | one {e : VExpr} {ts r : List VTok} : VRead (.e 0) ts e r → ¬ symAt "," r → VRead .list ts (.one e) r
  | more {e l : VExpr} {ts r1 r : List VTok} : VRead (.e 0) ts e (.sym "," :: r1) → VRead .list r1 l r → VRead .list ts (.more e l) r

/-- Verilog reads the whole text as the expression `t`. -/
def ReadAs (cs : List Char) (t : VExpr) : Prop := ∃ ts, Lexes cs ts ∧ VRead (.e 0) ts t []

end Silice
