import Verif.Lemmas.LuaUnits

/-!
# C62: every unit becomes a function that prints it, and nothing of the source is lost

The preprocessor cuts the source at its units. Each unit becomes a Lua function that prints it, and one that prints what is between its parentheses; the text around units is
printed by the body of the program.
-/

set_option autoImplicit false

namespace Silice

/-- Whatever the source: when it is accepted, the units found follow one another and the pieces put together again are the source. -/
theorem C62_nothing_lost (s : List Char) (us : List UnitLoc) (h : decomposeSource s = some us) :
    InOrder s.length us 0 ∧ (pieces s us 0).flatten = s :=
  ⟨decompose_ordered h, by simpa using pieces_flatten s us 0 (decompose_ordered h)⟩

/-- Cutting a source always ends. -/
theorem C62_ends (s : List Char) (f : Nat) (hf : s.length < f) :
    loopRun (topStep s.length) f { lcp := [], units := [], rest := s } = decomposeSource s :=
  loop_enough (m := fun x : TopAt => x.rest.length) (fun x y => topStep_dec s.length x y) f (s.length + 1) _ hf (by simp)

/-- For a source made of units and text, the program has for each unit the text in front of it, then the two functions. Brackets in comments, strings, insertions and
in other branches than the first of Lua blocks are not counted. Partial: for sources of the form of `SrcUnit.Fine` and `FineTop`; see the counterexamples. -/
theorem C62_units_partial (ps : List (List TopItem × SrcUnit)) (last : List TopItem) (hp : ∀ p ∈ ps, FineTop false p.1 ∧ p.2.Fine) (hl : FineTop true last)
    (hb : ∃ π, sourceBranches last [] ps = some π) : luaProgram (wholeSource ps last) = programOf last ps 0 := by
  obtain ⟨π, hb⟩ := hb
  unfold luaProgram
  rw [decompose_source hl hp hb]
  exact prepare_source last (wholeSource ps last) ps [] 0 rfl

/-- The name of the functions is the name of the unit, with the values of the expressions between dollars. -/
theorem C62_names (l : List NamePart) (h : FineName l) : nameToLua (l.flatMap NamePart.src) = some l := by
  have := name_parts l h []
  rw [List.nil_append] at this
  exact this

/-- A comment on a Lua line is read as source: the word `unit` in it starts a unit, which swallows the one that follows. -/
theorem C62_counterexample_comment_unit :
    (decomposeSource "$$x=1 -- one unit each\n unit main() {}\n".toList).map (·.map fun u => String.ofList u.name) = some ["each\n"] := by decide +kernel

/-- A bracket in such a comment is counted. -/
theorem C62_counterexample_comment_bracket :
    decomposeSource "unit main() {\n $$x=1 -- {\n }\n".toList = none ∧ (decomposeSource "unit main() {\n $$x=1 -- (\n }\n".toList).isSome = true := by
  decide +kernel

/-- An apostrophe in a comment that starts without a space: everything up to the next apostrophe is skipped. -/
theorem C62_counterexample_apostrophe :
    decomposeSource "unit main() {\n $$x=1 --it's\n }\n".toList = none ∧ (decomposeSource "unit main() {\n $$x=1 -- it's\n }\n".toList).isSome = true := by
  decide +kernel

/-- Lua blocks are seen only if their words stand apart: `if(` and `function()` are not, and `end` is then an error. -/
theorem C62_counterexample_if :
    decomposeSource "unit main() {\n $$if(x) then\n $$end\n }\n".toList = none ∧
    decomposeSource "unit main() {\n $$if (x) then\n $$end\n }\n".toList ≠ none ∧
    decomposeSource "$$f = function() return 1 end\n".toList = none := by
  decide +kernel

/-- The name of a unit goes on over the end of its line; as a Lua string it is then cut. -/
theorem C62_counterexample_name :
    (decomposeSource " unit main\n () {}\n".toList).map (·.map fun u => String.ofList u.name) = some ["main\n"] ∧
    nameToLua "main\n".toList = some [.text "main\n".toList] := by decide +kernel

/-- `unit main(output uint8 o) <autorun> {`, then an `if` or a `while` opened in branches of a Lua block, closed after it. -/
def exUnitMain : SrcUnit where
  kw := "unit".toList
  b1 := [' ']
  name := "main".toList
  b2 := [' ']
  io := "output uint8 o".toList.map .ch
  pre := " <autorun> ".toList.map .ch
  body := .lua [.word "if".toList, .blanks [' '], .word "A".toList, .blanks [' '], .word "then".toList] :: "if (a) ".toList.map .ch ++
    .opn :: .ch ' ' :: .blockC " } ".toList :: .ch '\n' :: .lua [.word "else".toList] :: "while (1) ".toList.map .ch ++
    .opn :: .ch '\n' :: .lua [.word "end".toList] :: .str [.raw '}'] :: .ch '\n' :: .cls :: "\n".toList.map .ch

def exParts : List (List TopItem × SrcUnit) :=
  [([.lineC " a unit".toList, .nl, .lua [.word "for".toList, .blanks [' '], .word "i=0,1".toList, .blanks [' '], .word "do".toList], .blanks [' ']], exUnitMain)]

def exTail : List TopItem := [.nl, .lua [.word "end".toList]]

theorem exUnitMain_fine : exUnitMain.Fine where
  kw := by decide
  b1 := by decide
  name := by decide
  b2 := by decide
  io := by
    have := fine_chs (cin := '(') (cout := ')') (l := []) trivial "output uint8 o".toList (by decide)
    simpa [exUnitMain] using this
  ioNested := ⟨[], by decide +kernel, .nil⟩
  pre := by
    have := fine_chs (cin := '{') (cout := '}') (l := []) trivial " <autorun> ".toList (by decide)
    simpa [exUnitMain] using this
  preNone := by
    refine ⟨by decide +kernel, ?_, ?_⟩ <;> simp [exUnitMain]
  body := by
    have hst : StarsApart " } ".toList := by
      intro a b h
      have : '*' ∈ " } ".toList := by rw [h]; simp
      exact absurd this (by decide)
    unfold exUnitMain
    simp only [List.cons_append, List.append_assoc]
    refine ⟨?_, fine_chs ?_ _ (by decide), by simp, by simp, by simp⟩
    · simp [UItem.Fine, FineLua, LuaWord.Fine, LuaWord.src, luaSeps, isBlank]
    · refine ⟨trivial, ⟨by simp [UItem.Fine], ⟨hst, ⟨by simp [UItem.Fine], ⟨?_, fine_chs ?_ _ (by decide), by simp, by simp, by simp⟩, by simp, by simp, by simp⟩, by simp, by simp, by simp⟩,
        by simp, by simp, by simp⟩, by simp, by simp, by simp⟩
      · simp [UItem.Fine, FineLua, LuaWord.Fine, luaSeps]
      · refine ⟨trivial, ⟨by simp [UItem.Fine], ⟨?_, ⟨?_, ⟨by simp [UItem.Fine], ⟨trivial, ?_, by simp, by simp, by simp⟩, by simp, by simp, by simp⟩, by simp, by simp, by simp⟩,
          by simp, by simp, by simp⟩, by simp, by simp, by simp⟩, by simp, by simp, by simp⟩
        · simp [UItem.Fine, FineLua, LuaWord.Fine, luaSeps]
        · simp [UItem.Fine]
        · exact fine_chs (l := []) trivial "\n".toList (by decide)
  bodyNested := ⟨[true, false], by decide +kernel, .block .nil .nil⟩

theorem exParts_fine : ∀ p ∈ exParts, FineTop false p.1 ∧ p.2.Fine := by
  intro p hp
  obtain rfl := List.mem_singleton.1 hp
  refine ⟨?_, exUnitMain_fine⟩
  simp [FineTop, FineTop.StopsHere, TopItem.Fine, FineLua, LuaWord.Fine, LuaWord.src, luaSeps, isBlank, topSrc, TopItem.src]

theorem exTail_fine : FineTop true exTail := by
  simp [exTail, FineTop, TopItem.Fine, FineLua, LuaWord.Fine, luaSeps]

example : luaProgram (wholeSource exParts exTail) = programOf exTail exParts 0 :=
  C62_units_partial exParts exTail exParts_fine exTail_fine ⟨[], by decide +kernel⟩

/-- What the program is made of. -/
def partNames : List LPart → List String
  | [] => []
  | .body l :: ps => s!"body of {l.length}" :: partNames ps
  | .io n l :: ps => s!"io of {l.length}, {n.length}" :: partNames ps
  | .unit n l :: ps => s!"unit of {l.length}, {n.length}" :: partNames ps

example : (luaProgram (wholeSource exParts exTail)).map partNames = some ["body of 1", "io of 1, 1", "unit of 9, 1", "body of 1"] := by decide +kernel

example : FineName [.text "m_".toList, .expr "i".toList] ∧ nameToLua "m_$i$".toList = some [.text "m_".toList, .expr "i".toList] :=
  ⟨by simp [FineName, NamePart.Fine, isBlank], by decide +kernel⟩

end Silice
