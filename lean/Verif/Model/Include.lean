/-
Assembly of the source files and line bookkeeping: /repo/src/LuaPreProcessor.cpp:121-147, 158-175, 896-977, 1616-1643.
-/
set_option autoImplicit false
namespace Silice

/-- Tokens of a source file as seen by the loop /repo/src/LuaPreProcessor.cpp:933-972. `bad` is a malformed include or a
`$display`. White space and carriage returns are not represented. -/
inductive SrcItem where
  | text (w : String)
  | eol
  | inc (name : String)
  | bad
deriving Repr, DecidableEq

/-- The files, by name as given to the operating system. `pathOf` stands for `robustExtractPath` (with `.` for names
without directory) and `baseName` for `extractFileName`. -/
structure FileSys where
  content : String → Option (List SrcItem)
  pathOf : String → String
  baseName : String → String

inductive AsmErr where
  | missing (f : String)
  | cyclic (f : String)
  | parse
deriving Repr, DecidableEq

inductive Tok where
  | text (w : String)
  | eol
deriving Repr, DecidableEq

/-- Members of the preprocessor used here: `m_SearchPaths`, `m_Files`, `m_SourceFilesLineRemapping` (line in output,
file id, line in file) and the running `_output_line_count`. -/
structure Asm where
  paths : List String := []
  files : List String := []
  remap : List (Nat × Nat × Nat) := []
  lines : Nat := 0
deriving Repr, DecidableEq

/-- `findFile(path,fname)`, /repo/src/LuaPreProcessor.cpp:121-137. -/
def findFile1 (fs : FileSys) (path fname : String) : String :=
  if (fs.content fname).isSome then fname
  else if (fs.content (path ++ "/" ++ fs.baseName fname)).isSome then path ++ "/" ++ fs.baseName fname
  else if (fs.content (path ++ "/" ++ fname)).isSome then path ++ "/" ++ fname
  else fname

/-- `findFile(path,fname)` then `findFile(fname)`, /repo/src/LuaPreProcessor.cpp:141-147 and 950-951. -/
def resolveInc (fs : FileSys) (paths : List String) (path fname : String) : String :=
  paths.foldl (fun f p => findFile1 fs p f) (findFile1 fs path fname)

abbrev AsmRes := Option (Except AsmErr (List Tok × Asm))

/-- Loop of `assembleSource`, /repo/src/LuaPreProcessor.cpp:933-972; `recur` is the recursive call of line 953. -/
def asmLoop (fs : FileSys) (recur : String → Asm → AsmRes) (file : String) (fid : Nat) :
    Nat → List SrcItem → Asm → AsmRes
  | _, [], st => some (.ok ([], st))
  | l, .text w :: is, st =>
    match asmLoop fs recur file fid l is st with
    | some (.ok (o, st')) => some (.ok (.text w :: o, st'))
    | r => r
  | l, .eol :: is, st =>
    match asmLoop fs recur file fid (l + 1) is { st with remap := st.remap ++ [(st.lines, fid, l)], lines := st.lines + 1 } with
    | some (.ok (o, st')) => some (.ok (.eol :: o, st'))
    | r => r
  | _, .bad :: _, _ => some (.error .parse)
  | l, .inc n :: is, st =>
    match recur (resolveInc fs st.paths (fs.pathOf file) n) st with
    | some (.ok (o, st')) =>
      match asmLoop fs recur file fid l is st' with
      | some (.ok (o', st'')) => some (.ok (o ++ o', st''))
      | r => r
    | r => r

/-- `assembleSource`, /repo/src/LuaPreProcessor.cpp:896-977. The first argument bounds the nesting of includes; `none`
means that the bound was reached (the code has no bound: the theorems show which one is enough). -/
def assembleSource (fs : FileSys) : Nat → List String → String → Asm → AsmRes
  | 0, _, _, _ => none
  | k + 1, already, f, st =>
    match fs.content f with
    | none => some (.error (.missing f))
    | some c =>
      if f ∈ already then some (.error (.cyclic f))
      else
        asmLoop fs (assembleSource fs k (f :: already)) f st.files.length 0 c
          { st with paths := st.paths ++ [fs.pathOf f], files := st.files ++ [f] }

/-- `lineAfterToFileAndLineBefore_search`, /repo/src/LuaPreProcessor.cpp:1616-1634: binary search between `l` and `r`.
The result is the index of the entry; reads past the end are `none`. -/
def searchLoop (remap : List (Nat × Nat × Nat)) (line : Nat) (l r : Nat) : Option (Nat × Nat × Nat) :=
  if _h : l < r then
    let m := (l + r) / 2
    match remap[m]? with
    | none => none
    | some e =>
      if e.1 < line then searchLoop remap line (m + 1) r
      else if line < e.1 then searchLoop remap line l m
      else some e
  else remap[l]?
termination_by r - l
decreasing_by all_goals omega

/-- Outcome of a search: no location (negative line), a location, or undefined behaviour (empty map or unknown
file). -/
inductive Loc where
  | noLoc
  | loc (file : String) (line : Nat)
  | undef
deriving Repr, DecidableEq

/-- `lineAfterToFileAndLineBefore_search`. With an empty map `r` is -1, the loop is not entered and `remap[0]` is read. -/
def searchLine (files : List String) (remap : List (Nat × Nat × Nat)) (line : Int) : Loc :=
  if line < 0 then .noLoc
  else
    match searchLoop remap line.toNat 0 (remap.length - 1) with
    | none => .undef
    | some (_, fid, l) =>
      match files[fid]? with
      | none => .undef
      | some f => .loc f l

/-- `lineAfterToFileAndLineBefore`, /repo/src/LuaPreProcessor.cpp:1638-1643: `stage1` is `lineRemapping` of the parsing
context. A first stage without location carries the line -1 on. -/
def originalLine (files : List String) (stage1 stage2 : List (Nat × Nat × Nat)) (line : Int) : Loc :=
  match searchLine files stage1 line with
  | .noLoc => searchLine files stage2 (-1)
  | .loc _ l => searchLine files stage2 l
  | .undef => .undef

/-- A call of `output` from the Lua code: number of line ends in the text and source line (file id 0),
/repo/src/LuaPreProcessor.cpp:158-167, 171-175 and 1299-1303. -/
structure OutCall where
  num : Nat
  src : Nat
deriving Repr, DecidableEq

/-- `addingLines` over a sequence of calls. -/
def stage1Map : Nat → List OutCall → List (Nat × Nat × Nat)
  | _, [] => []
  | n, c :: cs => (n, 0, c.src) :: stage1Map (n + c.num) cs

end Silice
