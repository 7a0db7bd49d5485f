import Verif.Model.LuaText

/-!
What the source means to the preprocessor, and how Lua reads the text of a string.
-/

set_option autoImplicit false

namespace Silice

/-- What an `output` prints: characters, and values of Lua expressions. -/
inductive Shown where
  | ch (c : Char)
  | val (e : List Char)
  deriving DecidableEq, Repr

/-- Escape sequences of Lua with a single character (Lua manual, 3.1). Others are not read here. -/
def luaEscape : Char → Option Char
  | '\\' => some '\\'
  | '\'' => some '\''
  | '"' => some '"'
  | 'n' => some '\n'
  | 't' => some '\t'
  | 'r' => some '\r'
  | 'a' => some '\x07'
  | 'b' => some '\x08'
  | 'f' => some '\x0c'
  | 'v' => some '\x0b'
  | _ => none

/-- The text between two single quotes, as Lua reads it. `none`: the string ends early at a quote, is cut by the end of a line, or has another escape
sequence. -/
def luaText : List LElem → Option (List Shown)
  | [] => some []
  | .ins e :: s => (luaText s).map (.val e :: ·)
  | .ch c :: s =>
    if c = '\\' then
      match s with
      | .ch d :: s => (luaEscape d).bind fun d => (luaText s).map (.ch d :: ·)
      | _ => none
    else if c = '\'' ∨ c = '\n' then none
    else (luaText s).map (.ch c :: ·)

/-- Content of a string of the source: a character, or a backslash and a character. -/
inductive StrItem where
  | raw (c : Char)
  | esc (c : Char)

/-- Parts of a line of the source: anything without blanks, quotes, dollars and backslashes; blanks; comments; strings; Lua expressions between dollars; a slash on
its own. -/
inductive TItem where
  | word (w : List Char)
  | blanks (b : List Char)
  | lineC (c : List Char)
  | blockC (c : List Char)
  | str (l : List StrItem)
  | ins (e : List Char)
  | slash

/-- A line of the source: text, or Lua after `$$` (and blanks). A text line goes on after the end of a line that is inside a block comment. -/
inductive SrcLine where
  | text (l : List TItem)
  | lua (b l : List Char)

def StrItem.src : StrItem → List Char
  | .raw c => [c]
  | .esc c => ['\\', c]

def TItem.src : TItem → List Char
  | .word w => w
  | .blanks b => b
  | .lineC c => '/' :: '/' :: c
  | .blockC c => '/' :: '*' :: c ++ ['*', '/']
  | .str l => '"' :: l.flatMap StrItem.src ++ ['"']
  | .ins e => '$' :: e ++ ['$']
  | .slash => ['/']

def SrcLine.src : SrcLine → List Char
  | .text l => l.flatMap TItem.src
  | .lua b l => b ++ '$' :: '$' :: l

/-- The source: lines with their ends, then a last line. -/
def sourceText (lines : List SrcLine) (last : List TItem) : List Char :=
  lines.flatMap (fun l => l.src ++ ['\n']) ++ last.flatMap TItem.src

/-- What is printed for a line: everything but comments, with a space for blanks that follow a word or an insertion (`after`) and start with a space. -/
def shownLine : Bool → List TItem → List Shown
  | _, [] => []
  | _, .word w :: l => w.map .ch ++ shownLine true l
  | after, .blanks b :: l => (if after && b.head? == some ' ' then [.ch ' '] else []) ++ shownLine false l
  | _, .lineC _ :: l => shownLine false l
  | _, .blockC _ :: l => shownLine false l
  | _, .str i :: l => (TItem.str i).src.map .ch ++ shownLine false l
  | _, .ins e :: l => .val e :: shownLine true l
  | _, .slash :: l => .ch '/' :: shownLine false l

/-- Ends of lines inside comments. -/
def breaks : List TItem → Nat
  | [] => 0
  | .blockC c :: l => c.count '\n' + breaks l
  | _ :: l => breaks l

/-- A statement of the Lua program: prints a text, said to come from a line of the source, or is a line of Lua. -/
inductive Expect where
  | print (t : List Shown) (line : Nat)
  | lua (l : List Char)
  deriving DecidableEq, Repr

def expectText (l : List TItem) (n : Nat) : List Expect :=
  if shownLine false l = [] then [] else [.print (shownLine false l ++ [.ch '\n']) (n + breaks l)]

/-- The program for a source whose first line has number `n`: one statement per line, in order, nothing for empty lines. -/
def expectSource : Nat → List SrcLine → List TItem → List Expect
  | n, [], last => expectText last n
  | n, .text l :: ls, last => expectText l n ++ expectSource (n + breaks l + 1) ls last
  | n, .lua _ l :: ls, last => .lua l :: expectSource (n + 1) ls last

/-- A statement as Lua reads it; the text of an `output` ends with `\n`. -/
def LStm.read : LStm → Option Expect
  | .out cur n => (luaText (cur ++ [.ch '\\', .ch 'n'])).map (.print · n)
  | .code l => some (.lua l)

/-- Every star of a comment is followed, blanks apart, by something else than a star or a slash. -/
def StarsApart (c : List Char) : Prop :=
  ∀ a b, c = a ++ '*' :: b → ∃ d e, skipB b = d :: e ∧ d ≠ '*' ∧ d ≠ '/'

/-- Strings without quotes of Lua, escaped backslashes and ends of lines. If `readString` skips blanks: no blank first or after an escape sequence. -/
def FineStr (lead : Bool) : Bool → List StrItem → Prop
  | _, [] => True
  | start, .raw c :: l =>
    c ≠ '"' ∧ c ≠ '\\' ∧ c ≠ '\'' ∧ c ≠ '\n' ∧ (lead = true → start = true → isBlank c = false) ∧ FineStr lead false l
  | _, .esc c :: l => isBlank c = false ∧ c ≠ '\\' ∧ c ≠ '\'' ∧ c ≠ '\n' ∧ FineStr lead true l

/-- Characters that end a word. -/
def wordEnds : List Char := ['\\', '\r', '\n', '$', ' ', '"']

/-- A part that is what it says. -/
def TItem.Fine (lead : Bool) : TItem → Prop
  | .word w => (∀ c ∈ w, c ∉ wordEnds) ∧ ∃ c s, w = c :: s ∧ c ≠ '/' ∧ isBlank c = false
  | .blanks b => b ≠ [] ∧ ∀ c ∈ b, isBlank c = true
  | .lineC c => '\n' ∉ c
  | .blockC c => StarsApart c
  | .str l => FineStr lead true l
  | .ins e => '$' ∉ e ∧ ∃ c s, e = c :: s ∧ isBlank c = false
  | .slash => True

/-- What may follow a word: a space, a string, an insertion (anything else would be part of the word). -/
def afterWord : TItem → Prop
  | .blanks b => b.head? = some ' '
  | .str _ => True
  | .ins _ => True
  | _ => False

/-- Parts that stay apart: after words as above; a slash on its own is not followed, blanks apart, by a slash or a star; a comment to the end of the line is last. -/
def FineLine (lead : Bool) : List TItem → Prop
  | [] => True
  | i :: l => i.Fine lead ∧ FineLine lead l ∧
    (∀ w, i = .word w → ∀ j l', l = j :: l' → afterWord j) ∧
    (i = .slash → ∀ c s, skipB (l.flatMap TItem.src) = c :: s → c ≠ '/' ∧ c ≠ '*') ∧
    (∀ c, i = .lineC c → l = [])

def SrcLine.Fine (lead : Bool) : SrcLine → Prop
  | .text l => FineLine lead l
  | .lua b l => (∀ c ∈ b, isBlank c = true) ∧ '\n' ∉ l ∧ (lead = true → skipB l = l)

end Silice
