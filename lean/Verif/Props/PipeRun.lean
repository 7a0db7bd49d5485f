import Verif.Lemmas.PipeRun

/-!
C23: a carried variable holds the value of its own item. C26: pipelines neither lose nor duplicate items.
-/

set_option autoImplicit false

namespace Silice
variable {V : Type}

/-! ## Pipelines without state machines -/

/-- The item whose value is captured in cycle `t` has, `k` stages further and `k` cycles later, exactly the value
its own history gives it, whatever is captured for other items, and whatever the registers held initially. -/
theorem C23_value_of_own_item (f : Flow V) (q0 : Nat → V) (t k : Nat) :
    f.d (t + k) (f.q q0 (t + k)) (f.first + k) = f.item t k := by
  induction k with
  | zero => simp [Flow.d, Flow.item]
  | succ k ih =>
    have : f.q q0 (t + (k + 1)) (f.first + (k + 1)) = f.d (t + k) (f.q q0 (t + k)) (f.first + k) := by
      show f.q q0 (t + k + 1) (f.first + (k + 1)) = _
      simp only [Flow.q]
      rw [if_neg (by omega)]
      rfl
    unfold Flow.d
    rw [if_neg (by omega), this, ih]
    rfl

/-- What stage `first + k` reads at the beginning of the cycle (`k ≥ 1`) is the value the previous stage left for
the same item one cycle earlier. -/
theorem C23_read_sees_previous_stage (f : Flow V) (q0 : Nat → V) (t k : Nat) :
    f.q q0 (t + k + 1) (f.first + k + 1) = f.item t k := by
  rw [← C23_value_of_own_item f q0 t k]
  simp only [Flow.q]
  rw [if_neg (by omega)]
  rfl

/-- The register of the first writing stage holds what was captured in the cycle before. -/
theorem C23_first_register (f : Flow V) (q0 : Nat → V) (t : Nat) : f.q q0 (t + 1) f.first = f.cap t := by
  simp [Flow.q, Flow.d]

/-- Captured 5 in cycle 3 at stage 1; stage 2 doubles, stage 3 adds one. -/
example : Flow.item (V := Nat) ⟨1, fun t => if t = 3 then 5 else 0, fun s _ v => if s = 2 then 2 * v else v + 1⟩ 3 2 = 11 := by
  decide +kernel

/-! ## Pipelines whose stages are state machines -/

/-- What a stage finishes is what the next stage starts with, item by item and in order; at most one finished item
is waiting, and it is kept intact in the stage's copy of the variable. -/
theorem C26_in_order_no_loss_no_duplicate_partial (p : Pipe) (inp : Nat → PipeIn V) (reg : Nat → V)
    (hg : GoodStages p inp) (hk : KeepsEnabled p inp reg) (s t : Nat) (hs : s + 1 < p.n) (hf : p.first ≤ s) :
    results p inp reg s t = loads p inp reg (s + 1) t ∨
    results p inp reg s t = loads p inp reg (s + 1) t ++ [(pipeRun p inp reg t).reg s] := by
  have := (between p inp reg hg hk s hs t).vals hf
  split at this
  · exact Or.inr this
  · exact Or.inl (by simpa using this)

/-- Each item that a stage finishes starts the next stage exactly once: after any number of cycles the next stage
has started as many times as the stage finished, or one time less if an item is waiting (stage full and idle). -/
theorem C26_started_once_each_partial (p : Pipe) (inp : Nat → PipeIn V) (reg : Nat → V)
    (hg : GoodStages p inp) (hk : KeepsEnabled p inp reg) (s t : Nat) (hs : s + 1 < p.n) :
    finishes p inp reg s t = starts p inp reg (s + 1) t +
      if (pipeRun p inp reg t).full s = true ∧ (pipeRun p inp reg t).idx s = 0 then 1 else 0 :=
  (between p inp reg hg hk s hs t).count

/-- Each item a stage starts is finished once before the stage starts another one: the stage has started as many
times as it finished, plus one exactly when it is busy. -/
theorem C26_one_item_at_a_time (p : Pipe) (inp : Nat → PipeIn V) (reg : Nat → V)
    (hg : GoodStages p inp) (s t : Nat) (hs : s < p.n) (hd : s = 0 → ∀ t, (inp t).disable = false) :
    starts p inp reg s t = finishes p inp reg s t + if (pipeRun p inp reg t).idx s = 0 then 0 else 1 :=
  inside p inp reg hg s hs hd t

/-- Whatever identifies an item (`g`, kept by the code of the stages) is seen at the end of every later stage in the
order in which the items left the first writing stage, each once, with none skipped. -/
theorem C23_items_in_order_partial {K : Type} (g : V → K) (p : Pipe) (inp : Nat → PipeIn V) (reg : Nat → V)
    (hg : GoodStages p inp) (hk : KeepsEnabled p inp reg)
    (hw : ∀ t s v, g ((inp t).work s v) = g v) (k t : Nat) (hs : p.first + k < p.n) :
    (results p inp reg (p.first + k) t).map g <+: (results p inp reg p.first t).map g := by
  induction k with
  | zero => exact List.prefix_rfl
  | succ k ih =>
    refine List.IsPrefix.trans ?_ (ih (by omega))
    have h1 := inside_vals g p inp reg hg (p.first + (k + 1)) (by omega) hs (fun t v => hw t _ v) t
    have h2 := (between p inp reg hg hk (p.first + k) (by omega) t).vals (by omega)
    have h3 : (results p inp reg (p.first + (k + 1)) t).map g <+:
        (loads p inp reg (p.first + (k + 1)) t).map g := by rw [h1]; exact List.prefix_append _ _
    have h4 : (loads p inp reg (p.first + k + 1) t).map g <+: (results p inp reg (p.first + k) t).map g := by
      rw [h2, List.map_append]; exact List.prefix_append _ _
    exact h3.trans h4

/-- The copy of the first writing stage takes the value of the variable at the end of the stage's last state, and
keeps it until the next time. -/
theorem C23_capture (p : Pipe) (inp : Nat → PipeIn V) (reg : Nat → V) (t : Nat) :
    (pipeRun p inp reg (t + 1)).reg p.first =
      if (pipeRun p inp reg t).idx p.first = p.last p.first then (inp t).val
      else (pipeRun p inp reg t).reg p.first := by
  simp [pipeRun, pipeStep, dReg]

/-- The copy of a stage after the first writing one changes only in two ways: when the stage starts it takes the
value of the previous stage, and otherwise it takes what the stage's own code makes of it. -/
theorem C23_copy_is_private (p : Pipe) (inp : Nat → PipeIn V) (reg : Nat → V) (hg : GoodStages p inp)
    (s t : Nat) (hs : s < p.n) (hf : p.first < s) :
    (pipeRun p inp reg (t + 1)).reg s =
      if startsIn p inp reg s t then dReg p (inp t) (pipeRun p inp reg t) (s - 1)
      else if (pipeRun p inp reg t).idx s = 0 then (pipeRun p inp reg t).reg s
      else (inp t).work s ((pipeRun p inp reg t).reg s) := by
  have h := reg_step (p := p) (i := inp t) (q := pipeRun p inp reg t) hf hs (hg.entry s hs)
    (fun x => hg.next t s x hs)
  show (pipeStep p (inp t) (pipeRun p inp reg t)).reg s = _
  rw [h]
  unfold startsIn
  split
  · rfl
  · simp only [dReg, executes]
    rw [if_neg (by omega)]
    by_cases h0 : (pipeRun p inp reg t).idx s = 0
    · simp [h0]
    · simp [h0]; intro hx; omega

/-! A three stage pipeline; stage 1 takes two states; stage 2 stalls in cycles 4 to 8. -/

/-- Stages with states 1 and 2 for stage 1, state 1 only for the others. -/
def exPipe : Pipe := ⟨3, fun _ => 1, fun s => if s = 1 then 2 else 1, 0⟩

def exPipeIn (t : Nat) : PipeIn Nat :=
  { active := true, disable := false, stall := fun s => decide (s = 2) && (decide (4 ≤ t) && decide (t ≤ 8))
    next := fun _ q => q + 1, val := t, work := fun _ v => v }

example : GoodStages exPipe exPipeIn := by
  refine ⟨fun s _ => by simp [exPipe], fun s _ => by simp only [exPipe]; split <;> omega, ?_⟩
  intro t s q hs h0 _
  simp only [exPipeIn, exPipe]
  omega

example : KeepsEnabled exPipe exPipeIn (fun _ => 0) := by
  intro t h; simp [exPipeIn] at h

example : results exPipe exPipeIn (fun _ => 0) 0 12 = [1, 2, 4, 10] ∧
    results exPipe exPipeIn (fun _ => 0) 1 12 = [1, 2, 4] ∧
    results exPipe exPipeIn (fun _ => 0) 2 12 = [1, 2] := by
  decide +kernel

/-! ## The case where it fails -/

/-- Two stages of one state each, in a conditional. In cycle 1 stage 0 executes and stalls; in cycle 2 the
condition is false. -/
def exCondPipe : Pipe := ⟨2, fun _ => 1, fun _ => 1, 0⟩

def exCondIn (t : Nat) : PipeIn Nat :=
  { active := decide (t = 0), disable := decide (t = 2), stall := fun s => decide (s = 0) && decide (t = 1)
    next := fun _ q => q + 1, val := t, work := fun _ v => v }

/-- If the branch that holds the pipeline is not taken while its first stage is stalled, the second stage starts
with an item that the first stage never finished. -/
theorem C26_counterexample_disabled_while_stalled :
    GoodStages exCondPipe exCondIn ∧
    finishes exCondPipe exCondIn (fun _ => 0) 0 4 = 0 ∧ starts exCondPipe exCondIn (fun _ => 0) 1 4 = 1 := by
  refine ⟨⟨fun s _ => by simp [exCondPipe], fun s _ => by simp [exCondPipe], ?_⟩, by decide +kernel,
    by decide +kernel⟩
  intro t s q hs h0 _
  simp only [exCondIn, exCondPipe]
  omega

end Silice
