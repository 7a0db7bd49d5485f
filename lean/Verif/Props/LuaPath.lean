import Verif.Prelude
import Verif.Model.LuaPath
/-! Property theorem C17. -/
set_option autoImplicit false
namespace Silice

/-- Specification: after the words `p`, the enclosing blocks are `π`, innermost first, each given by the number of the branch
we are in (0 before the first `else`/`elseif`). -/
inductive Inside : List Kw → List Nat → Prop where
  | start : Inside [] []
  | other {p π} : Inside p π → Inside (p ++ [.other]) π
  | enter {p π} : Inside p π → Inside (p ++ [.opn]) (0 :: π)
  | branch {p i π} : Inside p (i :: π) → Inside (p ++ [.els]) ((i + 1) :: π)
  | leave {p i π} : Inside p (i :: π) → Inside (p ++ [.fin]) π

mutual
/-- Complete statements, and their bodies up to `end`. -/
inductive Balanced : List Kw → Prop where
  | nil : Balanced []
  | other {p} : Balanced p → Balanced (.other :: p)
  | block {b p} : Bodies b → Balanced p → Balanced (.opn :: b ++ p)
inductive Bodies : List Kw → Prop where
  | last {b} : Balanced b → Bodies (b ++ [.fin])
  | more {b r} : Balanced b → Bodies r → Bodies (b ++ .els :: r)
end

/-- The stack of the tracker for given enclosing blocks. -/
def sideStack : List Nat → List Bool
  | [] => []
  | i :: π => (i == 0 && consider (sideStack π)) :: sideStack π

theorem lcpRun_append (p q : List Kw) : ∀ st, lcpRun st (p ++ q) = (lcpRun st p).bind (fun s => lcpRun s q) := by
  induction p with
  | nil => intro st; simp [lcpRun]
  | cons k p ih =>
    intro st
    simp only [List.cons_append, lcpRun]
    cases lcpStep st k with
    | none => rfl
    | some s => exact ih s

theorem inside_run {p π} (h : Inside p π) : lcpRun [] p = some (sideStack π) := by
  induction h with
  | start => rfl
  | other _ ih => rw [lcpRun_append, ih]; rfl
  | @enter p π _ ih =>
    rw [lcpRun_append, ih]
    cases π with
    | nil => rfl
    | cons i π => simp [lcpRun, lcpStep, sideStack, consider]
  | branch _ ih => rw [lcpRun_append, ih]; simp [lcpRun, lcpStep, sideStack]
  | leave _ ih => rw [lcpRun_append, ih]; simp [lcpRun, lcpStep, sideStack]

theorem inside_exists (p : List Kw) : ∀ st, lcpRun [] p = some st → ∃ π, Inside p π := by
  induction hn : p.length generalizing p with
  | zero => intro st _; rw [List.length_eq_zero_iff.mp hn]; exact ⟨[], .start⟩
  | succ n ih0 =>
    intro st h
    have hne : p ≠ [] := by rintro rfl; simp at hn
    obtain ⟨q, k, rfl⟩ : ∃ q k, p = q ++ [k] := ⟨p.dropLast, p.getLast hne, (List.dropLast_concat_getLast hne).symm⟩
    have ih := ih0 q (by simpa using hn)
    rename' q => p
    rw [lcpRun_append] at h
    cases hp : lcpRun [] p with
    | none => rw [hp] at h; simp at h
    | some s =>
      obtain ⟨π, hπ⟩ := ih s hp
      have hs := inside_run hπ
      rw [hp] at hs
      have hs := Option.some.inj hs
      subst hs
      rw [hp] at h
      cases k with
      | other => exact ⟨π, .other hπ⟩
      | opn => exact ⟨_, .enter hπ⟩
      | els =>
        cases π with
        | nil => simp [lcpRun, lcpStep, sideStack] at h
        | cons i π => exact ⟨_, .branch hπ⟩
      | fin =>
        cases π with
        | nil => simp [lcpRun, lcpStep, sideStack] at h
        | cons i π => exact ⟨_, .leave hπ⟩

theorem consider_sideStack (π : List Nat) : consider (sideStack π) = true ↔ ∀ i ∈ π, i = 0 := by
  induction π with
  | nil => simp [sideStack, consider]
  | cons i π ih =>
    simp only [sideStack, consider, Bool.and_eq_true, beq_iff_eq, List.mem_cons, forall_eq_or_imp]
    rw [← ih]
    rfl

theorem sideStack_length (π : List Nat) : (sideStack π).length = π.length := by
  induction π with
  | nil => rfl
  | cons i π ih => simp [sideStack, ih]

/-- C17. After any sequence of words without error, code is considered exactly when every enclosing block is in its first
branch, and the tracked depth is the nesting depth. -/
theorem C17_considers_first_branches (p : List Kw) (π : List Nat) (h : Inside p π) :
    ∃ st, lcpRun [] p = some st ∧ (consider st = true ↔ ∀ i ∈ π, i = 0) ∧ st.length = π.length :=
  ⟨_, inside_run h, consider_sideStack π, sideStack_length π⟩

/-- The same, spelled with the words of Lua. -/
inductive InsideWords : List String → List Nat → Prop where
  | start : InsideWords [] []
  | enter {p π w} : InsideWords p π → w ∈ ["if", "for", "while", "function"] → InsideWords (p ++ [w]) (0 :: π)
  | branch {p i π w} : InsideWords p (i :: π) → w ∈ ["else", "elseif"] → InsideWords (p ++ [w]) ((i + 1) :: π)
  | leave {p i π} : InsideWords p (i :: π) → InsideWords (p ++ ["end"]) π
  | other {p π w} : InsideWords p π → w ∉ ["if", "for", "while", "function", "else", "elseif", "end"] →
      InsideWords (p ++ [w]) π

theorem insideWords_inside {p π} (h : InsideWords p π) : Inside (p.map kwOf) π := by
  induction h with
  | start => exact .start
  | @enter _ _ w _ hw ih =>
    have : kwOf w = .opn := by simp only [List.mem_cons, List.not_mem_nil, or_false] at hw; simp [kwOf, hw]
    rw [List.map_append, List.map_singleton, this]; exact .enter ih
  | @branch _ _ _ w _ hw ih =>
    have : kwOf w = .els := by
      simp only [List.mem_cons, List.not_mem_nil, or_false] at hw
      rcases hw with rfl | rfl <;> decide +kernel
    rw [List.map_append, List.map_singleton, this]; exact .branch ih
  | leave _ ih =>
    have : kwOf "end" = .fin := by decide +kernel
    rw [List.map_append, List.map_singleton, this]; exact .leave ih
  | @other _ _ w _ hw ih =>
    have : kwOf w = .other := by
      simp only [List.mem_cons, List.not_mem_nil, or_false, not_or] at hw
      simp [kwOf, hw]
    rw [List.map_append, List.map_singleton, this]; exact .other ih

/-- C17. Reading lines of words (each up to its comment): code is considered exactly when every enclosing
`if`/`for`/`while`/`function` is in its first branch, none of its `else` or `elseif` having been passed. -/
theorem C17_words_considered (ls : List (List String)) (π : List Nat)
    (h : InsideWords (ls.map (fun l => l.takeWhile (fun w => w ≠ "--"))).flatten π) :
    ∃ st, lcpLines [] ls = some st ∧ (consider st = true ↔ ∀ i ∈ π, i = 0) ∧ st.length = π.length := by
  have key : ∀ (ls : List (List String)) st, lcpLines st ls =
      lcpRun st ((ls.map (fun l => l.takeWhile (fun w => w ≠ "--"))).flatten.map kwOf) := by
    intro ls
    induction ls with
    | nil => intro st; rfl
    | cons l ls ih =>
      intro st
      simp only [lcpLines, lcpLine, List.map_cons, List.flatten_cons, List.map_append]
      rw [lcpRun_append]
      cases lcpRun st ((l.takeWhile (fun w => w ≠ "--")).map kwOf) with
      | none => rfl
      | some s => exact ih s
  rw [key]
  exact C17_considers_first_branches _ _ (insideWords_inside h)

example : ∃ π, InsideWords ([["if", "x", "--", "end"], ["elseif", "y"]].map (fun l => l.takeWhile (fun w => w ≠ "--"))).flatten π ∧ π = [1] := by
  refine ⟨_, ?_, rfl⟩
  have : ([["if", "x", "--", "end"], ["elseif", "y"]].map (fun l => l.takeWhile (fun w => w ≠ "--"))).flatten = ((([] ++ ["if"]) ++ ["x"]) ++ ["elseif"]) ++ ["y"] := by decide +kernel
  rw [this]
  exact .other (.branch (.other (.enter .start (by decide)) (by decide)) (by decide)) (by decide)

/-- C17. An error is raised exactly for sequences that have no nesting structure (an `end` or `else` outside of any block). -/
theorem C17_error_iff_unmatched (p : List Kw) : lcpRun [] p = none ↔ ¬ ∃ π, Inside p π := by
  constructor
  · rintro h ⟨π, hπ⟩
    rw [inside_run hπ] at h
    simp at h
  · intro h
    cases hr : lcpRun [] p with
    | none => rfl
    | some st => exact absurd (inside_exists p st hr) h

mutual
theorem balanced_run {p} (h : Balanced p) : ∀ st, lcpRun st p = some st := by
  match h with
  | .nil => intro st; rfl
  | .other h => intro st; simp [lcpRun, lcpStep, balanced_run h st]
  | @Balanced.block b p hb hp =>
    intro st
    have h1 : ∃ x, lcpStep st .opn = some (x :: st) := by
      cases st with
      | nil => exact ⟨true, rfl⟩
      | cons y ys => exact ⟨y, rfl⟩
    obtain ⟨x, hx⟩ := h1
    rw [List.cons_append, lcpRun, hx]
    simp only
    rw [lcpRun_append, bodies_run hb x st]
    exact balanced_run hp st
theorem bodies_run {p} (h : Bodies p) : ∀ x st, lcpRun (x :: st) p = some st := by
  match h with
  | .last hb => intro x st; rw [lcpRun_append, balanced_run hb (x :: st)]; rfl
  | .more hb hr =>
    intro x st
    rw [lcpRun_append, balanced_run hb (x :: st)]
    simp only [Option.bind_some, lcpRun, lcpStep]
    exact bodies_run hr false st
end

/-- C17. Complete statements leave the tracker as it was, wherever they stand. -/
theorem C17_complete_statements_neutral (p : List Kw) (h : Balanced p) (st : List Bool) : lcpRun st p = some st :=
  balanced_run h st

/-- C17. Cutting the words in lines does not matter, and words after a comment mark are ignored. -/
theorem C17_lines (ls : List (List String)) (st : List Bool) :
    lcpLines st ls = lcpRun st (ls.flatMap (fun l => (l.takeWhile (fun w => w ≠ "--")).map kwOf)) := by
  induction ls generalizing st with
  | nil => rfl
  | cons l ls ih =>
    rw [List.flatMap_cons, lcpRun_append]
    simp only [lcpLines, lcpLine]
    cases lcpRun st _ with
    | none => rfl
    | some s => simpa using ih s

/-- C17 (finding). Words are cut at white space only: `if(x) then ... end` is not recognised as a block and its `end` is
reported as unbalanced; a comment mark stuck to its text does not end the line. -/
theorem C17_keyword_stuck_to_parenthesis :
    lcpLines [] [["if(x)", "then"], ["end"]] = none ∧
    lcpLines [] [["--see", "if", "needed"]] ≠ lcpLines [] [["--", "see", "if", "needed"]] := by
  decide +kernel

/-! Non-vacuity -/
example : Inside [.opn, .other, .els, .opn] [0, 1] := by
  have h := Inside.enter (.branch (.other (.enter .start)))
  simpa using h
example : lcpRun [] [.opn, .opn, .els, .opn] = some [false, false, true] := by decide +kernel
example : Balanced [.opn, .other, .els, .opn, .fin, .fin] := by
  have h1 : Balanced [.opn, .fin] := .block (b := [.fin]) (.last (b := []) .nil) .nil
  have h2 : Bodies [.other, .els, .opn, .fin, .fin] := .more (b := [.other]) (.other .nil) (.last h1)
  exact .block h2 .nil

end Silice
