import Verif.Lemmas.Padded

/-!
# C81: a pipeline stage is done with its data before it takes the next

A stage takes the next data when it is idle or in its last state. So the last state must not go back into the stage.
-/

set_option autoImplicit false

namespace Silice

/-- **The last state of a stage ends the stage**, whatever the values of the tests, once `padPipeline` has been
applied. What is missing: last states with a second conditional, or a loop and then a conditional, that goes back into
the stage, and nested pipelines. The claim fails there, see the counterexamples. -/
theorem C81_last_partial (s s' : StState) (hp : s.pipes = []) (hr : ∀ k, s.rest = some k → k.oneCycle = true)
    (h : s.pad = some s') (v : TestVals) : s'.done v = true :=
  pad_done hp hr h v

/-- **A stage goes on with its data until it is done.** In every state of the stage (`code` gives the code of each, `s`
is the last one before `padPipeline`), whatever the tests, and whether or not new data is waiting, if the code goes to
a state of the stage then that is the state of the next cycle. Missing: as in `C81_last_partial`. -/
theorem C81_goes_on_partial (s : StState) (code : Nat → StState) (last entry q n target : Nat) (v : TestVals)
    (start : Bool) (hp : s.pipes = []) (hr : ∀ k, s.rest = some k → k.oneCycle = true)
    (h : s.pad = some (code last)) (hq : q ≠ 0) (hg : (code q).goes v target = some n) :
    stageNext last entry q ((code q).goes v target) start = n := by
  have hl : q ≠ last := by
    rintro rfl
    have := pad_done hp hr h v
    simp [StState.goes, this] at hg
  simp [stageNext, hl, hq, hg]

/-- New data is taken at the end of the stage, in the last state, if there is any; else the stage is idle. -/
theorem C81_takes_next (s : StState) (last entry target : Nat) (v : TestVals) (start : Bool) (h : s.done v = true) :
    stageNext last entry last (s.goes v target) start = if start then entry else 0 := by
  cases start <;> simp [stageNext, StState.goes, h]

/-- The state added carries out the end of the code: whenever the state as written ends the stage in a cycle, the new
last state ends it too, and comes to the pipelines that the flow came to last. -/
theorem C81_same_code (s s' : StState) (h : s.pad = some s') (v : TestVals) (hd : s.done v = true) :
    s'.done v = true ∧ s'.reached v <:+ s.reached v :=
  pad_suffix h v hd

/-- No state is added to a stage whose last state does not go back: it takes as many cycles as written. -/
theorem C81_no_cycle_added (b : StCode) (hb : b.oneCycle = true) (hp : b.pipes = []) :
    (StState.code b).pad = some (.code b) := by
  simp [StState.pad, (back_oneCycle b hp).2 hb]

/-- Last state `x = 1; if (a) { goto L; }`. -/
def exGoBack : StState := .code (.stmt (.ite 0 (.leave false) .fin .fin))

/-- Last state `while (a) { x = 1; }  y = 1;`. -/
def exLastLoop : StState := .loop 0 (.stmt (.leave false)) (.stmt .fin) false

example : exGoBack.pipes = [] ∧ (∀ k, exGoBack.rest = some k → k.oneCycle = true) ∧ exGoBack.pad = some (.code .fin) ∧
    exGoBack.done (fun _ => 1) = false := by
  refine ⟨rfl, fun k h => ?_, rfl, rfl⟩
  simp only [exGoBack, StState.rest, StCode.oneCycle, StCode.tailOf, Bool.false_and, Bool.false_eq_true,
    if_false, Option.some.injEq] at h
  subst h; rfl
example : exLastLoop.pipes = [] ∧ (∀ k, exLastLoop.rest = some k → k.oneCycle = true) ∧
    exLastLoop.pad = some (.code (.stmt .fin)) := by
  refine ⟨rfl, fun k h => ?_, rfl⟩
  simp only [exLastLoop, StState.rest, Option.some.injEq] at h
  subst h; rfl
example : exGoBack.done (fun _ => 0) = true := rfl
example : (StState.code (.leave true)).goes (fun _ => 0) 5 = some 5 := rfl
example : (StState.code (.stmt .fin)).done (fun _ => 0) = true := rfl
example : (StCode.ite 0 (.stmt .fin) .fin (.stmt .fin)).oneCycle = true ∧
    (StCode.ite 0 (.stmt .fin) .fin (.stmt .fin)).pipes = [] := ⟨rfl, rfl⟩

/-- Last state `if (a) { goto L; }  if (b) { goto L; }`. -/
def exTwice : StState := .code (.ite 0 (.leave false) .fin (.ite 1 (.leave false) .fin .fin))

/-- Last state `while (a) { x = 1; }  if (b) { goto L; }`. -/
def exLoopThenBack : StState := .loop 0 (.stmt (.leave false)) (.ite 1 (.leave false) .fin .fin) false

/-- **Finding: a stage may take new data before it is done.** `padPipeline` is applied once, and the state it adds may
go back into the stage too. Then, with new data waiting, the `goto` is not followed: the stage starts with the new
data (state 1) and not at the label (state 2), and the data it had is lost. -/
theorem C81_counterexample_twice : ∃ s', exTwice.pad = some s' ∧ exTwice.compiles = true ∧
    ∀ v, v 1 ≠ 0 → s'.goes v 2 = some 2 ∧ stageNext 3 1 3 (s'.goes v 2) true = 1 := by
  refine ⟨.code (.ite 1 (.leave false) .fin .fin), rfl, by decide, fun v hv => ?_⟩
  simp [StState.goes, StState.done, StCode.flow, stageNext, hv]

/-- The same with a conditional after a loop. -/
theorem C81_counterexample_loop : ∃ s', exLoopThenBack.pad = some s' ∧ exLoopThenBack.compiles = true ∧
    ∀ v, v 1 ≠ 0 → s'.goes v 2 = some 2 ∧ stageNext 3 1 3 (s'.goes v 2) true = 1 := by
  refine ⟨.code (.ite 1 (.leave false) .fin .fin), rfl, by decide, fun v hv => ?_⟩
  simp [StState.goes, StState.done, StCode.flow, stageNext, hv]

/-- **Finding: some last states that go back are not handled at all** (a failed assertion): here
`x = 1; { y = 1; if (a) { goto L; } }`, where the conditional is not in the block that starts the state. -/
theorem C81_counterexample_assert : (StState.code (.stmt (.stmt (.ite 0 (.leave false) .fin .fin)))).pad = none ∧
    (StState.code (.stmt (.stmt (.ite 0 (.leave false) .fin .fin)))).compiles = true := ⟨rfl, by decide⟩

end Silice
