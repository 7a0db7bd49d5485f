import Verif.Prelude

/-!
# From the source text to a Lua program

`luaCodeSplit` and the functions it uses, /repo/src/LuaPreProcessor.cpp:993-1055, 1287-1364. The Lua program printed by it is a list of statements: a Lua line copied
from the source, or `output('…',line,0)`. Between the quotes are characters of Lua text, and expressions, written `' .. (e) .. '`.

The parser is `LibSL::BasicParser`, which is not part of the repository. Assumed of it: `readChar` first skips blanks (without this the loop would
not advance over a space) and `readChar(false)` does not consume the character; `readString(seps)` reads up to, not including, the first of `seps`, or to the end;
`reachChar(c)` reads up to and including the first `c`. Whether `readString` skips blanks first is not assumed: this is the parameter `lead`.
Carriage returns do not occur: `assembleSource` replaces them with spaces (/repo/src/LuaPreProcessor.cpp:974).
-/

set_option autoImplicit false

namespace Silice

/-- What stands between the quotes of an `output`. -/
inductive LElem where
  | ch (c : Char)
  | ins (e : List Char)
  deriving DecidableEq, Repr

/-- A statement of the Lua program. -/
inductive LStm where
  | out (cur : List LElem) (line : Nat)
  | code (l : List Char)
  deriving DecidableEq, Repr

/-- Spaces of the parser; `t_Parser parser(bs, false)`: ends of lines are not spaces, /repo/src/LuaPreProcessor.cpp:1290-1291. -/
def isBlank (c : Char) : Bool := c == ' ' || c == '\t' || c == '\r'

/-- `readChar` skips blanks first. -/
def skipB (s : List Char) : List Char := s.dropWhile isBlank

/-- `readString`, as in /repo/src/LuaPreProcessor.cpp:1335, 1350: what is read, what is left. -/
def readStr (lead : Bool) (seps : List Char) (s : List Char) : List Char × List Char :=
  let s := if lead then skipB s else s
  (s.takeWhile (fun c => decide (c ∉ seps)), s.dropWhile (fun c => decide (c ∉ seps)))

/-- Block comment, /repo/src/LuaPreProcessor.cpp:1004-1017: looks for a `*`, reads the next character that is not blank, and starts again after it unless it is `/`
(`star`: a `*` was just read). Returns the number of ends of lines and what is left; `none`: end of file. -/
def closeC : Bool → List Char → Option (Nat × List Char)
  | _, [] => none
  | star, c :: s =>
    if star && isBlank c then closeC true s
    else if star && c == '/' then some (0, s)
    else if !star && c == '*' then closeC true s
    else (closeC false s).map fun r => (r.1 + (if c = '\n' then 1 else 0), r.2)

/-- Outcomes of `jumpOverComment`. -/
inductive CommentRes where
  | comment (lines : Nat) (rest : List Char)
  | notOne (rest : List Char)
  | fail

/-- `jumpOverComment`, /repo/src/LuaPreProcessor.cpp:993-1026, on what follows the `/`. -/
def jumpOverComment (s : List Char) : CommentRes :=
  match skipB s with
  | '/' :: t => .comment 0 (t.dropWhile (· ≠ '\n'))
  | '*' :: t =>
    match closeC false t with
    | some (n, r) => .comment n r
    | none => .fail
  | r => .notOne r

/-- Where the loop of `jumpOverString` is: before a chunk, in a chunk, after a backslash. -/
inductive StrAt where
  | start
  | chunk
  | esc

/-- `jumpOverString`, /repo/src/LuaPreProcessor.cpp:1030-1051, on what follows the quote: the text read, and what is left; `none`: end of file. The
backslash of an escape sequence is doubled. -/
def jumpOverString (lead : Bool) : StrAt → List Char → Option (List Char × List Char)
  | _, [] => none
  | .esc, c :: s =>
    if isBlank c then jumpOverString lead .esc s
    else (jumpOverString lead .start s).map fun r => ('\\' :: '\\' :: c :: r.1, r.2)
  | .chunk, c :: s =>
    if c = '"' then some ([], s)
    else if c = '\\' then jumpOverString lead .esc s
    else (jumpOverString lead .chunk s).map fun r => (c :: r.1, r.2)
  | .start, c :: s =>
    if lead && isBlank c then jumpOverString lead .start s
    else if c = '"' then some ([], s)
    else if c = '\\' then jumpOverString lead .esc s
    else (jumpOverString lead .chunk s).map fun r => (c :: r.1, r.2)

/-- `luaProtectString`, /repo/src/LuaPreProcessor.cpp:833-837. -/
def luaProtect : List Char → List Char
  | [] => []
  | c :: s => if c = '\'' then '\\' :: '\'' :: luaProtect s else c :: luaProtect s

/-- Space added after a word or an insertion, /repo/src/LuaPreProcessor.cpp:1345-1347, 1351-1353. -/
def spaceAfter (rest : List Char) : List LElem :=
  match rest with
  | ' ' :: _ => [.ch ' ']
  | _ => []

/-- Text added to `current`, /repo/src/LuaPreProcessor.cpp:1350. -/
def chars (s : List Char) : List LElem := s.map .ch

/-- `output('…\n',line,0)`, /repo/src/LuaPreProcessor.cpp:1298-1303, 1357-1362. The `\n` at the end of the text is left out here, see `luaText`. -/
def emitCur (cur : List LElem) (line : Nat) : List LStm := if cur = [] then [] else [.out cur line]

/-- One turn of the loop. -/
inductive SplitRes where
  | done
  | fail
  | next (rest : List Char) (cur : List LElem) (line : Nat) (emitted : List LStm)

/-- A turn of the loop of `luaCodeSplit`, /repo/src/LuaPreProcessor.cpp:1294-1355. Simplification: a backslash at the very end of the text counts as an error. -/
def splitStep (lead : Bool) (s : List Char) (cur : List LElem) (line : Nat) : SplitRes :=
  match skipB s with
  | [] => .done
  | '\n' :: t => .next t [] (line + 1) (emitCur cur line)
  | '\\' :: t =>
    match skipB t with
    | [] => .fail
    | c :: t => .next t (cur ++ [.ch '\\', .ch c]) line []
  | '/' :: t =>
    match jumpOverComment t with
    | .comment n r => .next r cur (line + n) []
    | .notOne r => .next r (cur ++ [.ch '/']) line []
    | .fail => .fail
  | '"' :: t =>
    match jumpOverString lead .start t with
    | some (str, r) => .next r (cur ++ .ch '"' :: chars str ++ [.ch '"']) line []
    | none => .fail
  | '$' :: t =>
    match skipB t with
    | '$' :: t =>
      let r := readStr lead ['\n'] t
      .next r.2 cur line [.code r.1]
    | t =>
      let r := readStr lead ['$'] t
      .next (r.2.drop 1) (cur ++ .ins r.1 :: spaceAfter (r.2.drop 1)) line []
  | t =>
    let r := readStr lead ['\\', '\r', '\n', '$', ' ', '"'] t
    .next r.2 (cur ++ chars (luaProtect r.1) ++ spaceAfter r.2) line []

/-- The loop of `luaCodeSplit`, /repo/src/LuaPreProcessor.cpp:1294-1362: the program and the line reached; `none`: error. -/
def splitRun (lead : Bool) : Nat → List Char → List LElem → Nat → Option (List LStm × Nat)
  | 0, _, _, _ => none
  | f + 1, s, cur, line =>
    match splitStep lead s cur line with
    | .done => some (emitCur cur line, line)
    | .fail => none
    | .next r cur line e => (splitRun lead f r cur line).map fun p => (e ++ p.1, p.2)

/-- `luaCodeSplit`, /repo/src/LuaPreProcessor.cpp:1287-1364. Every turn reads a character. -/
def luaCodeSplit (lead : Bool) (s : List Char) (line : Nat) : Option (List LStm × Nat) := splitRun lead (s.length + 1) s [] line

end Silice
