import Verif.Model.PipeRun

/-!
Specification for running pipelines: histories of what enters and leaves each stage.
-/

set_option autoImplicit false

namespace Silice
variable {V : Type}

/-- The value of the item that is in the first writing stage in cycle `t`, after the `k` following stages worked
on it in the `k` following cycles. -/
def Flow.item (f : Flow V) (t : Nat) : Nat → V
  | 0 => f.cap t
  | k + 1 => f.work (f.first + (k + 1)) (t + (k + 1)) (f.item t k)

/-- Stage `s` is started in cycle `t`: its index register is loaded with its entry state by its trigger. -/
def startsIn (p : Pipe) (inp : Nat → PipeIn V) (reg : Nat → V) (s t : Nat) : Bool :=
  (pipeComb p (inp t) (pipeRun p inp reg t)).started s

/-- Stage `s` finishes its item in cycle `t`: it executes its last state without stalling. -/
def finishesIn (p : Pipe) (inp : Nat → PipeIn V) (reg : Nat → V) (s t : Nat) : Bool :=
  executes (inp t) (pipeRun p inp reg t) s && decide ((pipeRun p inp reg t).idx s = p.last s) &&
    !(inp t).stall s

/-- Values found at the end of stage `s` each time it finishes an item, in order, during the first `t` cycles. -/
def results (p : Pipe) (inp : Nat → PipeIn V) (reg : Nat → V) (s : Nat) : Nat → List V
  | 0 => []
  | t + 1 => results p inp reg s t ++
      if finishesIn p inp reg s t then [dReg p (inp t) (pipeRun p inp reg t) s] else []

/-- Values with which stage `s` starts, in order, during the first `t` cycles: the content of its copy of the
carried variable in the cycle after it is triggered. -/
def loads (p : Pipe) (inp : Nat → PipeIn V) (reg : Nat → V) (s : Nat) : Nat → List V
  | 0 => []
  | t + 1 => loads p inp reg s t ++
      if startsIn p inp reg s t then [(pipeRun p inp reg (t + 1)).reg s] else []

/-- Number of times stage `s` started / finished during the first `t` cycles. -/
def starts (p : Pipe) (inp : Nat → PipeIn V) (reg : Nat → V) (s : Nat) : Nat → Nat
  | 0 => 0
  | t + 1 => starts p inp reg s t + if startsIn p inp reg s t then 1 else 0

def finishes (p : Pipe) (inp : Nat → PipeIn V) (reg : Nat → V) (s : Nat) : Nat → Nat
  | 0 => 0
  | t + 1 => finishes p inp reg s t + if finishesIn p inp reg s t then 1 else 0

/-- What is known of the stages' state machines: entry and last state are proper states, and a state other than
the last one goes neither to idle nor to the entry state (the entry block of a stage has no name to jump to). -/
structure GoodStages (p : Pipe) (inp : Nat → PipeIn V) : Prop where
  entry : ∀ s, s < p.n → p.entry s ≠ 0
  last : ∀ s, s < p.n → p.last s ≠ 0
  next : ∀ t s q, s < p.n → q ≠ 0 → q ≠ p.last s → (inp t).next s q ≠ 0 ∧ (inp t).next s q ≠ p.entry s

/-- The branch that holds the pipeline stays taken while the first stage is stalled. -/
def KeepsEnabled (p : Pipe) (inp : Nat → PipeIn V) (reg : Nat → V) : Prop :=
  ∀ t, (inp t).disable = true → (pipeRun p inp reg t).idx 0 = p.last 0 →
    (pipeRun p inp reg t).full 0 = false

end Silice
