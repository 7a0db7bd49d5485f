import Verif.Model.LuaText
import Verif.Model.LuaPath

/-!
# Units as Lua functions

The preprocessor looks for the units of a source and makes two Lua functions of each: one prints the unit, the other its inputs and outputs. `decomposeSource`,
`jumpOverUnit`, `jumpOverNestedBlocks`, `processLuaLine`, `LuaCodePath::update`, `nameToLua` and `prepareCode`, /repo/src/LuaPreProcessor.cpp:1061-1283, 1368-1400.

The parser is as in Model/LuaText.lean; `readString` skips blanks first (`lead`), otherwise `unit main` would have no name. Looking at the next character
also skips blanks. Positions are numbers of characters already read.
-/

set_option autoImplicit false

namespace Silice

/-- One turn of a loop. -/
inductive Turn (σ α : Type) where
  | stop (a : α)
  | fail
  | next (s : σ)

/-- A loop; `none`: error, or not enough turns given. -/
def loopRun {σ α : Type} (step : σ → Turn σ α) : Nat → σ → Option α
  | 0, _ => none
  | f + 1, s =>
    match step s with
    | .stop a => some a
    | .fail => none
    | .next s => loopRun step f s

/-- `reachChar`, as in /repo/src/LuaPreProcessor.cpp:1079, 1121: skips up to a character, that one included. -/
def reach (c : Char) (s : List Char) : List Char := (s.dropWhile (· ≠ c)).drop 1

/-- The tracker of Lua branches and the text left. -/
abbrev LuaAt := List Bool × List Char

/-- A turn of `LuaCodePath::update`, /repo/src/LuaPreProcessor.cpp:1070-1102. -/
def updateStep (x : LuaAt) : Turn LuaAt LuaAt :=
  match skipB x.2 with
  | [] => .stop (x.1, [])
  | c :: t =>
    if c = '\n' then .stop (x.1, t)
    else if c = '"' ∨ c = '\'' then .next (x.1, reach c t)
    else
      let r := readStr true [' ', '\t', '\r', '\n', '\'', '"'] (c :: t)
      if r.1 = ['-', '-'] then .stop (x.1, r.2)
      else match lcpStep x.1 (kwOf (String.ofList r.1)) with
        | none => .fail
        | some st => .next (st, r.2)

/-- `LuaCodePath::update`: a Lua line. -/
def luaUpdate (x : LuaAt) : Option LuaAt := loopRun updateStep (x.2.length + 1) x

/-- `processLuaLine`, /repo/src/LuaPreProcessor.cpp:1111-1123, on what follows the `$`. -/
def processLua (x : LuaAt) : Option LuaAt :=
  match skipB x.2 with
  | '$' :: t => luaUpdate (x.1, t)
  | t => some (x.1, reach '$' t)

/-- State of `jumpOverNestedBlocks`. -/
structure NestAt where
  lcp : List Bool
  inside : Int
  rest : List Char

/-- A turn of `jumpOverNestedBlocks`, /repo/src/LuaPreProcessor.cpp:1130-1177. A backslash or slash at the very end, or a comment or string without end, is an error:
the end of the file is reached. -/
def nestStep (cin cout : Char) (x : NestAt) : Turn NestAt LuaAt :=
  match skipB x.rest with
  | [] => .fail
  | c :: t =>
    if c = '\n' then .next { x with rest := t }
    else if c = '\\' then
      match skipB t with
      | [] => .fail
      | _ :: t => .next { x with rest := t }
    else if c = '$' then
      match processLua (x.lcp, t) with
      | none => .fail
      | some y => .next { x with lcp := y.1, rest := y.2 }
    else if c = '/' then
      match jumpOverComment t with
      | .comment _ r => .next { x with rest := r }
      | .notOne r => .next { x with rest := r }
      | .fail => .fail
    else if c = '"' then
      match jumpOverString true .start t with
      | some (_, r) => .next { x with rest := r }
      | none => .fail
    else if c = cin then .next { x with inside := if consider x.lcp then x.inside + 1 else x.inside, rest := t }
    else if c = cout then
      let k := if consider x.lcp then x.inside - 1 else x.inside
      if k = 0 then .stop (x.lcp, t) else .next { x with inside := k, rest := t }
    else .next { x with rest := t }

/-- `jumpOverNestedBlocks`. -/
def jumpOverNested (cin cout : Char) (x : LuaAt) : Option LuaAt :=
  loopRun (nestStep cin cout) (x.2.length + 1) { lcp := x.1, inside := 0, rest := x.2 }

/-- `t_unit_loc` and the name of the unit, /repo/src/LuaPreProcessor.h. -/
structure UnitLoc where
  name : List Char
  start : Nat
  ioStart : Nat
  ioEnd : Nat
  fin : Nat
  deriving DecidableEq, Repr

/-- `jumpOverUnit`, /repo/src/LuaPreProcessor.cpp:1183-1203, from the end of the name: what is left at the start and at the end of the inputs and outputs and at
the end of the unit. Each part has to leave the depth of Lua blocks unchanged (it is zero at the start: the tracker is new). -/
def jumpOverUnit (s : List Char) : Option (List Char × List Char × List Char) :=
  let io := skipB s
  match jumpOverNested '(' ')' ([], io) with
  | none => none
  | some x =>
    if x.1.length ≠ 0 then none
    else match jumpOverNested '{' '}' x with
      | none => none
      | some y => if y.1.length ≠ 0 then none else some (io, x.2, y.2)

/-- Words that start a unit, /repo/src/LuaPreProcessor.cpp:1228. -/
def unitWords : List (List Char) := ["unit".toList, "algorithm".toList, "algorithm#".toList, "circuitry".toList]

/-- State of `decomposeSource`. -/
structure TopAt where
  lcp : List Bool
  units : List UnitLoc
  rest : List Char

/-- A turn of `decomposeSource`, /repo/src/LuaPreProcessor.cpp:1217-1250, for a source of `len` characters. The sets of names kept for later are not modelled. -/
def topStep (len : Nat) (x : TopAt) : Turn TopAt (List UnitLoc) :=
  match skipB x.rest with
  | [] => .stop x.units
  | c :: t =>
    if c = '\n' then .next { x with rest := t }
    else if c = '$' then
      match processLua (x.lcp, t) with
      | none => .fail
      | some y => .next { x with lcp := y.1, rest := y.2 }
    else if c = '/' then
      match jumpOverComment t with
      | .comment _ r => .next { x with rest := r }
      | .notOne r => .next { x with rest := r }
      | .fail => .fail
    else
      let r := readStr true [' ', '\t', '\r', '/', '*'] (c :: t)
      if r.1 ∈ unitWords then
        let n := readStr true ['(', ' ', '\t', '\r'] r.2
        if n.1 = [] then .fail
        else match jumpOverUnit n.2 with
          | none => .fail
          | some (io, io', e) =>
            .next { x with rest := e, units := x.units ++
              [{ name := n.1, start := len - (c :: t).length, ioStart := len - io.length, ioEnd := len - io'.length, fin := len - e.length }] }
      else if r.1 = [] then .next { x with rest := t }
      else .next { x with rest := r.2 }

/-- `decomposeSource`. -/
def decomposeSource (s : List Char) : Option (List UnitLoc) :=
  loopRun (topStep s.length) (s.length + 1) { lcp := [], units := [], rest := s }

/-- `nameToLua`, /repo/src/LuaPreProcessor.cpp:1254-1283: pieces put together with `..`, expressions or quoted text. -/
inductive NamePart where
  | expr (e : List Char)
  | text (t : List Char)
  deriving DecidableEq, Repr

/-- A turn of `nameToLua`. An end of line at the start of a piece fails an assertion. -/
def nameStep (x : List NamePart × List Char) : Turn (List NamePart × List Char) (List NamePart) :=
  match skipB x.2 with
  | [] => .stop x.1
  | c :: t =>
    if c = '\n' then .fail
    else if c = '$' then
      let r := readStr true ['$'] t
      .next (x.1 ++ [.expr r.1], r.2.drop 1)
    else
      let r := readStr true ['$'] (c :: t)
      .next (x.1 ++ [.text r.1], r.2)

def nameToLua (s : List Char) : Option (List NamePart) := loopRun nameStep (s.length + 1) ([], s)

/-- Parts of the Lua program. -/
inductive LPart where
  | body (l : List LStm)
  | io (name : List NamePart) (l : List LStm)
  | unit (name : List NamePart) (l : List LStm)
  deriving DecidableEq, Repr

/-- `substr`: the characters from `a` to `b`. -/
def cut (s : List Char) (a b : Nat) : List Char := (s.drop a).take (b - a)

/-- `prepareCode`, /repo/src/LuaPreProcessor.cpp:1368-1400, from position `prev` and line `line`. -/
def prepareFrom (s : List Char) : List UnitLoc → Nat → Nat → Option (List LPart)
  | [], prev, line =>
    match luaCodeSplit true (s.drop prev) line with
    | none => none
    | some (l, _) => some [.body l]
  | u :: us, prev, line =>
    match luaCodeSplit true (cut s prev u.start) line with
    | none => none
    | some (l, line) =>
      match nameToLua u.name, luaCodeSplit true (cut s (u.ioStart + 1) (u.ioEnd - 1)) line, luaCodeSplit true (cut s u.start u.fin) line with
      | some n, some (i, _), some (b, line) => (prepareFrom s us u.fin line).map fun r => .body l :: .io n i :: .unit n b :: r
      | _, _, _ => none

/-- `generateBody`, /repo/src/LuaPreProcessor.cpp:1488-1490: the program for a source. -/
def luaProgram (s : List Char) : Option (List LPart) :=
  match decomposeSource s with
  | none => none
  | some us => prepareFrom s us 0 0

end Silice
