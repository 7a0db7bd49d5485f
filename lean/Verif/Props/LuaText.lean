import Verif.Lemmas.LuaText

/-!
# C61: the text of the source goes through the preprocessor unchanged

Silice sources are turned into a Lua program that prints them. For a source made of words, blanks, comments, strings, insertions `$e$` and Lua lines `$$…`, the
Lua program has one statement per line, in the order of the source: a Lua line as it stands, or a statement printing the line, comments removed, with a space for every
blank after a word or an insertion, with the values of the insertions in their places, and with the number of the line. `luaText` in Spec/LuaText.lean says how Lua reads the
text given to `output`.
-/

set_option autoImplicit false

namespace Silice

/-- Partial: the sources are those of `SrcLine.Fine` (Spec/LuaText.lean). The counterexamples below are sources outside of it. -/
theorem C61_text_kept_partial (lead : Bool) (lines : List SrcLine) (last : List TItem) (h : ∀ l ∈ lines, l.Fine lead) (hl : FineLine lead last) (n : Nat) :
    ∃ stms m, luaCodeSplit lead (sourceText lines last) n = some (stms, m) ∧ stms.map LStm.read = (expectSource n lines last).map some :=
  splitAll_source hl lines h n

/-- The characters printed for a line are those of its words, strings, slashes and insertions, in order: blanks and comments only are dropped. -/
theorem C61_only_blanks_dropped (after : Bool) (l : List TItem) :
    (shownLine after l).filter (fun x => x ≠ .ch ' ') =
      (l.flatMap fun i => match i with
        | .blanks _ => []
        | .lineC _ => []
        | .blockC _ => []
        | .ins e => [.val e]
        | i => i.src.map .ch).filter (fun x => x ≠ .ch ' ') := by
  induction l generalizing after with
  | nil => rfl
  | cons i l ih =>
    cases i with
    | word w => simp only [shownLine, List.filter_append, List.flatMap_cons, ih]; rfl
    | blanks b =>
      simp only [shownLine, List.filter_append, List.flatMap_cons, ih, List.nil_append]
      split <;> simp
    | lineC c => simp only [shownLine, List.flatMap_cons, ih, List.nil_append]
    | blockC c => simp only [shownLine, List.flatMap_cons, ih, List.nil_append]
    | str x => simp only [shownLine, List.filter_append, List.flatMap_cons, ih]
    | ins e =>
      rw [shownLine, List.filter_cons_of_pos (by simp), ih, List.flatMap_cons, List.filter_append]
      simp
    | slash =>
      rw [shownLine, List.filter_cons_of_pos (by decide), ih, List.flatMap_cons, List.filter_append]
      rfl

/-- The preprocessor always ends: no source makes the loop go on for ever (`none` is an error message). -/
theorem C61_ends (lead : Bool) (s : List Char) (n f : Nat) (hf : s.length < f) : splitRun lead f s [] n = luaCodeSplit lead s n :=
  splitRun_enough lead f (s.length + 1) s [] n hf (by omega)

/-- What Lua reads for a source. -/
def luaReads (lead : Bool) (s : String) : Option (List (Option Expect)) := (luaCodeSplit lead s.toList 0).map fun p => p.1.map LStm.read

def shownText (s : String) : List Shown := s.toList.map .ch

/-- An apostrophe in a string of the source ends the string of the Lua program: `"it's"`. -/
theorem C61_counterexample_apostrophe : ∀ lead, luaReads lead "\"it's\"" = some [none] := by decide +kernel

/-- A backslash written in a string of the source, `"a\\b"`, becomes another string, here with a backspace. -/
theorem C61_counterexample_backslash : ∀ lead, luaReads lead "\"a\\\\b\"" = some [some (.print (shownText "\"a\\\x08\"\n") 0)] := by decide +kernel

/-- `readString` skips blanks (see Model/LuaUnits.lean), and so the first blanks of a string, and those after an escape sequence, are lost: `" a\n b"`. -/
theorem C61_counterexample_blanks : luaReads true "\" a\\n b\"" = some [some (.print (shownText "\"a\\nb\"\n") 0)] := by decide +kernel

/-- A block comment that ends with two stars is not left: the text up to the next comment is lost. -/
theorem C61_counterexample_stars : ∀ lead, luaReads lead "/** one **/ a=1;\n/* two */ b=2;" = some [some (.print (shownText "b=2;\n") 1)] := by decide +kernel

/-- … and without a next comment an error is reported. -/
theorem C61_counterexample_stars_end : ∀ lead, luaReads lead "/** one **/ a=1;" = none := by decide +kernel

/-- A comment that follows a word without a space is read as text: a quote in it starts a string. -/
theorem C61_counterexample_glued : ∀ lead, luaReads lead "a=1;//5\" disk" = none ∧ luaReads lead "a=1; //5\" disk" = some [some (.print (shownText "a=1; \n") 0)] := by
  decide +kernel

/-- A tab after an insertion does not separate: `$t$<tab>a` prints the value of `t` and `a` together, `$t$ a` does not. -/
theorem C61_counterexample_tab : ∀ lead, luaReads lead "$t$\ta" = some [some (.print (.val ['t'] :: shownText "a\n") 0)] ∧
    luaReads lead "$t$ a" = some [some (.print (.val ['t'] :: shownText " a\n") 0)] := by decide +kernel

/-- A slash followed by a comment is lost. -/
theorem C61_counterexample_slash : ∀ lead, luaReads lead "a / // by\n b" = some [some (.print (shownText "a \n") 0), some (.print (shownText "b\n") 1)] := by decide +kernel

/-- Text in front of `$$` is printed after the Lua line. -/
theorem C61_counterexample_order : ∀ lead, luaReads lead "a $$x=1\n" = some [some (.lua "x=1".toList), some (.print (shownText "a \n") 0)] := by decide +kernel

/-- `$$for i=0,3 do`, `  a$i$ = "x\n"; /* two`, `lines */ b' / c // end`, `$$end`. -/
def exLines : List SrcLine :=
  [.lua [] "for i=0,3 do".toList,
   .text [.blanks [' ', ' '], .word ['a'], .ins ['i'], .blanks [' '], .word ['='], .blanks [' '], .str [.raw 'x', .esc 'n'], .word [';'], .blanks [' '],
     .blockC " two\nlines ".toList, .blanks [' '], .word ['b', '\''], .blanks [' '], .slash, .blanks [' '], .word ['c'], .blanks [' '], .lineC " end".toList],
   .lua [' '] "end".toList]

theorem exLines_fine (lead : Bool) : ∀ l ∈ exLines, l.Fine lead := by
  have hst : StarsApart " two\nlines ".toList := by
    intro a b h
    have : '*' ∈ " two\nlines ".toList := by rw [h]; simp
    exact absurd this (by decide)
  intro l hl
  simp only [exLines, List.mem_cons, List.not_mem_nil, or_false] at hl
  rcases hl with rfl | rfl | rfl
  · refine ⟨by decide, by decide, fun _ => by decide⟩
  · simp only [SrcLine.Fine, FineLine, TItem.Fine, hst, FineStr]
    simp [afterWord, TItem.src, skipB, wordEnds, isBlank]
  · refine ⟨by decide, by decide, fun _ => by decide⟩

example : expectSource 10 exLines [] =
    [.lua "for i=0,3 do".toList,
     .print (.ch 'a' :: .val ['i'] :: shownText " = \"x\\n\"; b' /c \n") 12,
     .lua "end".toList] := by decide +kernel

example (lead : Bool) : ∃ stms m, luaCodeSplit lead (sourceText exLines []) 10 = some (stms, m) ∧
    stms.map LStm.read = (expectSource 10 exLines []).map some :=
  C61_text_kept_partial lead exLines [] (exLines_fine lead) trivial 10

end Silice
