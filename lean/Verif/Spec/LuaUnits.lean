import Verif.Model.LuaUnits
import Verif.Spec.LuaText

/-!
Sources made of units and text between them, and the Lua program expected for them.
-/

set_option autoImplicit false

namespace Silice

/-- Parts of a Lua line: words, blanks, strings. -/
inductive LuaWord where
  | word (w : List Char)
  | blanks (b : List Char)
  | quoted (q : Char) (t : List Char)

def LuaWord.src : LuaWord → List Char
  | .word w => w
  | .blanks b => b
  | .quoted q t => q :: t ++ [q]

/-- What ends a word of Lua. -/
def luaSeps : List Char := [' ', '\t', '\r', '\n', '\'', '"']

def LuaWord.Fine : LuaWord → Prop
  | .word w => w ≠ [] ∧ (∀ c ∈ w, c ∉ luaSeps) ∧ w ≠ ['-', '-']
  | .blanks b => ∀ c ∈ b, isBlank c = true
  | .quoted q t => (q = '"' ∨ q = '\'') ∧ q ∉ t

/-- No word right after a word. -/
def FineLua : List LuaWord → Prop
  | [] => True
  | i :: l => i.Fine ∧ FineLua l ∧ ((∃ w, i = .word w) → (∀ j l', l = j :: l' → j.src ≠ [] ∧ ¬ ∃ w, j = .word w))

def LuaWord.kws : LuaWord → List Kw
  | .word w => [kwOf (String.ofList w)]
  | _ => []

/-- Parts of a unit, seen with respect to one sort of brackets: characters without meaning here, escaped characters, comments, strings, insertions, a slash, Lua lines, Lua
lines up to a comment (the comment is what follows), brackets. -/
inductive UItem where
  | ch (c : Char)
  | esc (c : Char)
  | lineC (c : List Char)
  | blockC (c : List Char)
  | str (l : List StrItem)
  | ins (e : List Char)
  | slash
  | lua (l : List LuaWord)
  | luaC (l : List LuaWord)
  | opn
  | cls

def UItem.src (cin cout : Char) : UItem → List Char
  | .ch c => [c]
  | .esc c => ['\\', c]
  | .lineC c => '/' :: '/' :: c
  | .blockC c => '/' :: '*' :: c ++ ['*', '/']
  | .str l => '"' :: l.flatMap StrItem.src ++ ['"']
  | .ins e => '$' :: e ++ ['$']
  | .slash => ['/']
  | .lua l => '$' :: '$' :: l.flatMap LuaWord.src ++ ['\n']
  | .luaC l => '$' :: '$' :: l.flatMap LuaWord.src ++ ['-', '-']
  | .opn => [cin]
  | .cls => [cout]

def itemsSrc (cin cout : Char) (l : List UItem) : List Char := l.flatMap (UItem.src cin cout)

/-- An insertion: something else than blanks, without a dollar. -/
def FineIns (e : List Char) : Prop := '$' ∉ e ∧ ∃ c ∈ e, isBlank c = false

/-- A Lua line with a comment: the mark `--` stands apart. -/
def FineLuaC (l : List LuaWord) : Prop := FineLua l ∧ (l = [] ∨ ∃ l' b, l = l' ++ [.blanks b] ∧ b ≠ [])

def UItem.Fine (cin cout : Char) : UItem → Prop
  | .ch c => c ∉ ['\\', '$', '/', '"', cin, cout]
  | .esc c => isBlank c = false
  | .lineC c => '\n' ∉ c
  | .blockC c => StarsApart c
  | .str l => ∀ i ∈ l, (∀ c, i = .raw c → c ≠ '"' ∧ c ≠ '\\') ∧ (∀ c, i = .esc c → isBlank c = false)
  | .ins e => FineIns e
  | .lua l => FineLua l
  | .luaC l => FineLuaC l
  | _ => True

/-- Parts that stay apart. -/
def FineItems (cin cout : Char) : List UItem → Prop
  | [] => True
  | i :: l => i.Fine cin cout ∧ FineItems cin cout l ∧
    (∀ c, i = .lineC c → ∃ l', l = .ch '\n' :: l') ∧
    (∀ w, i = .luaC w → ∃ c l', l = .ch c :: l' ∧ c ∈ luaSeps) ∧
    (i = .slash → ∀ c s, skipB (itemsSrc cin cout l) = c :: s → c ≠ '/' ∧ c ≠ '*')

/-- Enclosing Lua blocks, innermost first, each given by the number of the branch we are in. -/
def branchStep : List Nat → Kw → Option (List Nat)
  | π, .other => some π
  | π, .opn => some (0 :: π)
  | i :: π, .els => some ((i + 1) :: π)
  | _ :: π, .fin => some π
  | [], _ => none

def branchRun : List Nat → List Kw → Option (List Nat)
  | π, [] => some π
  | π, k :: l => (branchStep π k).bind (branchRun · l)

/-- The brackets (`true`: opening) that are in first branches of all enclosing Lua blocks, and the enclosing blocks at the end. -/
def pathBrackets : List Nat → List UItem → Option (List Bool × List Nat)
  | π, [] => some ([], π)
  | π, .opn :: l => (pathBrackets π l).map fun r => (if π.all (· == 0) then true :: r.1 else r.1, r.2)
  | π, .cls :: l => (pathBrackets π l).map fun r => (if π.all (· == 0) then false :: r.1 else r.1, r.2)
  | π, .lua w :: l => (branchRun π (w.flatMap LuaWord.kws)).bind (pathBrackets · l)
  | π, .luaC w :: l => (branchRun π (w.flatMap LuaWord.kws)).bind (pathBrackets · l)
  | π, _ :: l => pathBrackets π l

/-- Well nested brackets. -/
inductive Nested : List Bool → Prop where
  | nil : Nested []
  | block {a b : List Bool} : Nested a → Nested b → Nested (true :: a ++ false :: b)

/-- A unit: `unit name ( … ) … { … }`. -/
structure SrcUnit where
  kw : List Char
  b1 : List Char
  name : List Char
  b2 : List Char
  io : List UItem
  pre : List UItem
  body : List UItem

def SrcUnit.ioSrc (u : SrcUnit) : List Char := itemsSrc '(' ')' u.io

def SrcUnit.src (u : SrcUnit) : List Char :=
  u.kw ++ u.b1 ++ u.name ++ u.b2 ++ '(' :: u.ioSrc ++ ')' :: itemsSrc '{' '}' u.pre ++ '{' :: itemsSrc '{' '}' u.body ++ ['}']

structure SrcUnit.Fine (u : SrcUnit) : Prop where
  kw : u.kw ∈ unitWords
  b1 : u.b1 ≠ [] ∧ ∀ c ∈ u.b1, isBlank c = true
  name : u.name ≠ [] ∧ ∀ c ∈ u.name, c ∉ ['(', ' ', '\t', '\r']
  b2 : ∀ c ∈ u.b2, isBlank c = true
  io : FineItems '(' ')' u.io
  ioNested : ∃ brs, pathBrackets [] u.io = some (brs, []) ∧ Nested brs
  pre : FineItems '{' '}' u.pre
  preNone : pathBrackets [] u.pre = some ([], []) ∧ UItem.opn ∉ u.pre ∧ UItem.cls ∉ u.pre
  body : FineItems '{' '}' u.body
  bodyNested : ∃ brs, pathBrackets [] u.body = some (brs, []) ∧ Nested brs

/-- Parts of the text between units. -/
inductive TopItem where
  | nl
  | blanks (b : List Char)
  | word (w : List Char)
  | lineC (c : List Char)
  | blockC (c : List Char)
  | ins (e : List Char)
  | slash
  | star
  | lua (l : List LuaWord)
  | luaC (l : List LuaWord)

def TopItem.src : TopItem → List Char
  | .nl => ['\n']
  | .blanks b => b
  | .word w => w
  | .lineC c => '/' :: '/' :: c
  | .blockC c => '/' :: '*' :: c ++ ['*', '/']
  | .ins e => '$' :: e ++ ['$']
  | .slash => ['/']
  | .star => ['*']
  | .lua l => '$' :: '$' :: l.flatMap LuaWord.src ++ ['\n']
  | .luaC l => '$' :: '$' :: l.flatMap LuaWord.src ++ ['-', '-']

def topSrc (l : List TopItem) : List Char := l.flatMap TopItem.src

/-- Words are not words that start a unit. -/
def TopItem.Fine : TopItem → Prop
  | .blanks b => ∀ c ∈ b, isBlank c = true
  | .word w => (∀ c ∈ w, c ∉ [' ', '\t', '\r', '/', '*']) ∧ w ∉ unitWords ∧ ∃ c s, w = c :: s ∧ c ≠ '\n' ∧ c ≠ '$'
  | .lineC c => '\n' ∉ c
  | .blockC c => StarsApart c
  | .ins e => FineIns e
  | .lua l => FineLua l
  | .luaC l => FineLuaC l
  | _ => True

/-- What may follow: text between units ends (`last`: of the source) or goes on. -/
def FineTop (last : Bool) : List TopItem → Prop
  | [] => True
  | i :: l => i.Fine ∧ FineTop last l ∧
    ((∃ w, i = .word w) → StopsHere last [' ', '\t', '\r', '/', '*'] (topSrc l)) ∧
    ((∃ c, i = .lineC c) → StopsHere last ['\n'] (topSrc l)) ∧
    ((∃ w, i = .luaC w) → StopsHere last luaSeps (topSrc l)) ∧
    (i = .slash → ∀ c s, skipB (topSrc l) = c :: s → c ≠ '/' ∧ c ≠ '*')
where
  /-- Text that starts with one of some characters, or is the end of the source. -/
  StopsHere (last : Bool) (seps s : List Char) : Prop := (s = [] ∧ last = true) ∨ ∃ c t, s = c :: t ∧ c ∈ seps

/-- Enclosing Lua blocks after some text. -/
def topBranches : List Nat → List TopItem → Option (List Nat)
  | π, [] => some π
  | π, .lua w :: l => (branchRun π (w.flatMap LuaWord.kws)).bind (topBranches · l)
  | π, .luaC w :: l => (branchRun π (w.flatMap LuaWord.kws)).bind (topBranches · l)
  | π, _ :: l => topBranches π l

/-- … and after the text in front of units (units have branches of their own). -/
def sourceBranches (last : List TopItem) : List Nat → List (List TopItem × SrcUnit) → Option (List Nat)
  | π, [] => topBranches π last
  | π, (t, _) :: ps => (topBranches π t).bind (sourceBranches last · ps)

/-- A source: units, each with the text in front of it, and the text at the end. -/
def wholeSource (ps : List (List TopItem × SrcUnit)) (last : List TopItem) : List Char :=
  ps.flatMap (fun p => topSrc p.1 ++ p.2.src) ++ topSrc last

/-- The program expected from line `n` on: the text in front of a unit is printed by the body of the program, then there is a function that prints what is between the
parentheses of the unit and a function that prints the unit. -/
def programOf (last : List TopItem) : List (List TopItem × SrcUnit) → Nat → Option (List LPart)
  | [], n => (luaCodeSplit true (topSrc last) n).map fun r => [.body r.1]
  | (t, u) :: ps, n =>
    (luaCodeSplit true (topSrc t) n).bind fun l => (nameToLua u.name).bind fun name =>
      (luaCodeSplit true u.ioSrc l.2).bind fun io => (luaCodeSplit true u.src l.2).bind fun b =>
        (programOf last ps b.2).map fun r => .body l.1 :: .io name io.1 :: .unit name b.1 :: r

/-- The source cut at the units. -/
def pieces (s : List Char) : List UnitLoc → Nat → List (List Char)
  | [], prev => [s.drop prev]
  | u :: us, prev => cut s prev u.start :: cut s u.start u.fin :: pieces s us u.fin

/-- Units one after the other, each with its inputs and outputs in it. -/
def InOrder (len : Nat) : List UnitLoc → Nat → Prop
  | [], prev => prev ≤ len
  | u :: us, prev => prev ≤ u.start ∧ u.start ≤ u.ioStart ∧ u.ioStart ≤ u.ioEnd ∧ u.ioEnd ≤ u.fin ∧ InOrder len us u.fin

/-- A name in the source: text and Lua expressions between dollars. -/
def NamePart.src : NamePart → List Char
  | .expr e => '$' :: e ++ ['$']
  | .text t => t

def NamePart.Fine : NamePart → Prop
  | .expr e => '$' ∉ e ∧ ∃ c s, e = c :: s ∧ isBlank c = false
  | .text t => '$' ∉ t ∧ ∃ c s, t = c :: s ∧ isBlank c = false ∧ c ≠ '\n'

/-- Text does not follow text. -/
def FineName : List NamePart → Prop
  | [] => True
  | i :: l => i.Fine ∧ FineName l ∧ ((∃ t, i = .text t) → ∀ t' l', l ≠ .text t' :: l')

end Silice
