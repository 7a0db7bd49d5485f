import Verif.Lemmas.Started
import Verif.Model.PipeRun

/-!
# C80: pipelines start when the code comes to them

In an algorithm, a pipeline placed in a branch of a conditional is to start in the cycles where that branch is
taken, and in no other.
-/

set_option autoImplicit false

namespace Silice

/-- **Pipelines start when the code comes to them.** In every cycle spent in a state, whatever the values of the
tests, a pipeline of the state is let start if and only if the flow of the code comes to it. This holds for any
nesting of `if`, `else` and `switch`, and for loops.
What is missing: the states that are not `simple`. A state is `simple` when no pipeline follows another one in the
same cycle, when none follows a conditional outside of all conditionals, when none is in a loop that has a `break`,
and when no branch goes to another cycle while the code after the conditional is in this cycle. For each of these
the claim fails, see the counterexamples. -/
theorem C80_starts_partial (s : StState) (hs : s.simple = true) (hn : s.pipes.Nodup) : StartsAsReached s := by
  intro v p hp
  cases s with
  | code b =>
    simp only [StState.simple, Bool.and_eq_true] at hs
    exact write_flow b false false [] v _ hs.1.1 hs.1.2 hn (by simp) (.inr ⟨hs.2, fun _ _ => rfl⟩) p hp
  | loop c body after split =>
    simp only [StState.simple, Bool.and_eq_true] at hs
    obtain ⟨⟨hc, hsb⟩, hs⟩ := hs
    cases split with
    | true =>
      simp only [if_true, List.isEmpty_iff] at hs
      simp [StState.pipes, hs] at hp
    | false =>
      simp only [Bool.false_eq_true, if_false, Bool.and_eq_true] at hs
      simp only [StState.pipes, Bool.false_eq_true, if_false, List.nodup_append] at hn
      simp only [StState.pipes, Bool.false_eq_true, if_false, List.mem_append] at hp
      obtain ⟨hnb, hna, hd⟩ := hn
      have hb := fun hp => write_flow body true false [] v (fun _ => false) hc hsb hnb (by simp) (.inl rfl) p hp
      have ha := fun hp => write_flow after false false [] v (fun _ => false) hs.1.1 hs.1.2 hna (by simp)
        (.inr ⟨hs.2, fun _ _ => rfl⟩) p hp
      simp only [StState.flags, StState.reached]
      by_cases hv : v c ≠ 0
      · simp only [ne_eq, hv, not_false_eq_true, if_true]
        rcases hp with hp | hp
        · rw [disable_other _ (fun hh => by
            rcases starting_sub after [] p hh with hh | hh
            · exact hd p hp p hh rfl
            · simp at hh)]
          exact hb hp
        · rw [disable_mem _ (pipes_starting after _ _ p hs.1.2 hp)]
          simp only [Bool.true_eq_false, false_iff]
          exact fun hh => hd p (flow_sub body v p hh) p hp rfl
      · have hv0 : v c = 0 := by simpa using hv
        simp only [hv0, ne_eq, not_true_eq_false, if_false, Bool.false_eq_true]
        rcases hp with hp | hp
        · rw [disable_mem _ (pipes_starting body _ _ p hsb hp)]
          simp only [Bool.true_eq_false, false_iff]
          exact fun hh => hd p hp p (flow_sub after v p hh) rfl
        · rw [disable_other _ (fun hh => by
            rcases starting_sub body [] p hh with hh | hh
            · exact hd p hh p hp rfl
            · simp at hh)]
          exact ha hp

/-- A pipeline outside of the state is never kept from starting by the straight code of the state. -/
theorem C80_others (b : StCode) (v : TestVals) (p : Nat) (hp : p ∉ b.pipes) : (StState.code b).flags v p = false :=
  write_other b false [] v _ p hp (by simp)

/-- The pipelines of one branch of a conditional are kept from starting when the other branch is taken. -/
theorem C80_branches (c : Nat) (t e : StCode) (hs : (StState.code (.ite c t e (.leave true))).simple = true)
    (hn : (t.pipes ++ e.pipes).Nodup) (v : TestVals) :
    (∀ p ∈ e.pipes, v c ≠ 0 → (StState.code (.ite c t e (.leave true))).flags v p = true) ∧
    (∀ p ∈ t.pipes, v c = 0 → (StState.code (.ite c t e (.leave true))).flags v p = true) := by
  have h := C80_starts_partial _ hs (by simpa [StState.pipes, StCode.pipes] using hn) v
  simp only [List.nodup_append] at hn
  refine ⟨fun p hp hv => ?_, fun p hp hv => ?_⟩
  · have := h p (by simp [StState.pipes, StCode.pipes, hp])
    rw [← Bool.not_eq_false, this]
    simp only [StState.reached, StCode.flow, ne_eq, hv, not_false_eq_true, if_true]
    have hpt : p ∉ (t.flow v).1 := fun hh => hn.2.2 p (flow_sub t v p hh) p hp rfl
    split <;> simp [hpt]
  · have := h p (by simp [StState.pipes, StCode.pipes, hp])
    rw [← Bool.not_eq_false, this]
    simp only [StState.reached, StCode.flow, hv, ne_eq, not_true_eq_false, if_false]
    have hpe : p ∉ (e.flow v).1 := fun hh => hn.2.2 p hp p (flow_sub e v p hh) rfl
    split <;> simp [hpe]

/-- The first stage of the pipeline (Model/PipeRun, C26), whose `disable` is the flag: it carries out its code exactly
in the cycles where it is not idle and the flow comes to the pipeline. The state is `simple`, as in
`C80_starts_partial`. -/
theorem C80_stage_partial {V : Type} (s : StState) (hs : s.simple = true) (hn : s.pipes.Nodup) (v : TestVals)
    (p : Nat) (hp : p ∈ s.pipes) (i : PipeIn V) (hi : i.disable = s.flags v p) (q : PipeSt V) :
    executes i q 0 = true ↔ q.idx 0 ≠ 0 ∧ p ∈ s.reached v := by
  rw [← C80_starts_partial s hs hn v p hp]
  simp [executes, hi]

/-- `if (a) { if (b) { {1} } else { {2} } } else { switch (s) { case 3: { {4} } default: { {5} } } } ++:` -/
def exNested : StState :=
  .code (.ite 0 (.ite 1 (.pipe 1 .fin) (.stmt (.pipe 2 .fin)) .fin)
    (.switch 2 (.cons (some 3) (.pipe 4 .fin) (.cons none (.pipe 5 .fin) .nil)) .fin) (.leave true))

/-- `while (a) { x = 1; if (b) { {1} } }  {2} ++:` -/
def exWhile : StState :=
  .loop 0 (.stmt (.ite 1 (.pipe 1 .fin) .fin (.leave false))) (.pipe 2 (.leave true)) false

/-- `if (a) { x = 1; } else { goto L; }  {1} ++:` -/
def exStartSkip : StState := .code (.ite 0 (.stmt .fin) (.leave false) (.pipe 1 (.leave true)))

example : exNested.compiles = true ∧ exNested.simple = true ∧ exNested.pipes.Nodup := by decide
example : exWhile.compiles = true ∧ exWhile.simple = true ∧ exWhile.pipes.Nodup := by decide
example : exStartSkip.compiles = true ∧ exStartSkip.simple = true ∧ exStartSkip.pipes.Nodup := by decide
example : exNested.reached (fun n => if n = 2 then 3 else 0) = [4] ∧ exNested.reached (fun _ => 1) = [1] := by decide
example : ∃ (i : PipeIn Nat) (q : PipeSt Nat), i.disable = exNested.flags (fun _ => 1) 1 ∧ executes i q 0 = true :=
  ⟨⟨true, false, fun _ => false, fun _ n => n, 0, fun _ n => n⟩, ⟨fun _ => 1, fun _ => false, fun _ => 0⟩,
    by decide, by decide⟩
example : 9 ∉ (StCode.ite 0 (.pipe 1 .fin) .fin (.leave true)).pipes := by decide
example : (StState.code (.ite 0 (.pipe 1 .fin) (.pipe 2 .fin) (.leave true))).simple = true ∧
    ((StCode.pipe 1 .fin).pipes ++ (StCode.pipe 2 .fin).pipes).Nodup := by decide

/-- `if (a) { x = 1; }  {1} ++:` -/
def exAfterIf : StState := .code (.ite 0 (.stmt .fin) .fin (.pipe 1 (.leave true)))

/-- `if (a) { {1} {2} } ++:` -/
def exStartTwo : StState := .code (.ite 0 (.pipe 1 (.pipe 2 .fin)) .fin (.leave true))

/-- `while (a) { if (b) { break; } {1} } …` -/
def exBreak : StState := .loop 0 (.ite 1 (.leave false) .fin (.pipe 1 (.leave false))) .fin true

/-- `if (a) { if (b) { {1} ++: } {2} } ++:` -/
def exStep : StState := .code (.ite 0 (.ite 1 (.pipe 1 (.leave true)) .fin (.pipe 2 .fin)) .fin (.leave true))

/-- **Finding: a pipeline that follows a conditional never starts.** In `if (a) { x = 1; } { … -> … } ++:` the
code always comes to the pipeline. Both branches set its flag, since the search for the pipelines of a branch goes
past the end of the branch. The flag is not cleared again, since this is only done inside of conditionals. -/
theorem C80_counterexample_after : exAfterIf.compiles = true ∧
    ∀ v, 1 ∈ exAfterIf.reached v ∧ exAfterIf.flags v 1 = true := by
  refine ⟨by decide, fun v => ?_⟩
  by_cases hv : v 0 = 0 <;>
    simp [exAfterIf, StState.reached, StState.flags, StCode.flow, StCode.write, StCode.starting, StCode.ends,
      disablePipes, hv]

/-- **Finding: the second pipeline of a branch starts when the branch is not taken.** The search for the pipelines
of a branch ends at the first one. In `if (a) { {1} {2} } ++:` pipeline 2 starts in all cases. -/
theorem C80_counterexample_two : exStartTwo.compiles = true ∧
    ∀ v, exStartTwo.flags v 2 = false ∧ (v 0 = 0 → 2 ∉ exStartTwo.reached v) := by
  refine ⟨by decide, fun v => ?_⟩
  by_cases hv : v 0 = 0 <;>
    simp [exStartTwo, StState.reached, StState.flags, StCode.flow, StCode.write, StCode.starting, StCode.ends,
      disablePipes, enablePipe, StCode.isState, hv]

/-- **Finding: a pipeline in a loop that has a `break` starts once more when the loop ends.** With a `break` the code
after the loop is a state, and then nothing is disabled when the test of the loop fails. -/
theorem C80_counterexample_break : exBreak.compiles = true ∧
    ∀ v, v 0 = 0 → exBreak.flags v 1 = false ∧ exBreak.reached v = [] := by
  refine ⟨by decide, fun v hv => ?_⟩
  simp [exBreak, StState.flags, StState.reached, hv]

/-- **Finding: a new cycle after a pipeline is missed.** A branch counts as taking one cycle when all of its cycles
are after a pipeline. In `if (a) { if (b) { {1} ++: } {2} } ++:` pipeline 2 starts together with pipeline 1, and not
in a later cycle. -/
theorem C80_counterexample_step : exStep.compiles = true ∧
    ∀ v, v 0 ≠ 0 → v 1 ≠ 0 → exStep.flags v 2 = false ∧ exStep.reached v = [1] := by
  refine ⟨by decide, fun v h0 h1 => ?_⟩
  simp [exStep, StState.reached, StState.flags, StCode.flow, StCode.write, StCode.starting, StCode.ends,
    disablePipes, enablePipe, StCode.isState, h0, h1]

/-- So the claim does not hold for all the sources that compile. -/
theorem C80_counterexample : ¬ ∀ s : StState, s.compiles = true → s.pipes.Nodup → StartsAsReached s := by
  intro h
  have := (h exAfterIf (by decide) (by decide) (fun _ => 0) 1 (by decide)).2
    (C80_counterexample_after.2 (fun _ => 0)).1
  rw [(C80_counterexample_after.2 (fun _ => 0)).2] at this
  exact absurd this (by decide)

end Silice
