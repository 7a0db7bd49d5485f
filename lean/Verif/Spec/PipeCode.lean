import Verif.Model.PipeCode
import Verif.Spec.Usage

/-!
# What a pipeline means

Each stage works on its own item. It finds the variables assigned by the previous stages as they left them for the same
item. It finds other variables as they are in the cycle, which is where the operators `^=`, `v=` and `vv=` matter
(/repo/learn-silice/Documentation.md, "Special assignment operators").
-/

set_option autoImplicit false

namespace Silice

variable {V : Type}

/-- Assigned with a pipeline operator in the stage. -/
def PStage.Special (s : PStage V) (x : String) : Prop := x ∈ s.back ∨ x ∈ s.fwd ∨ x ∈ s.after

/-- The names listed for each operator are those the code assigns, a pipeline operator being used on variables only. -/
def PipeCode.Listed (p : PipeCode V) : Prop :=
  ∀ s, s < p.n → (∀ x, x ∈ (p.stage s).code.wrNames ↔ (p.stage s).Special x ∨ x ∈ (p.stage s).plain) ∧
    ∀ x, (p.stage s).Special x → x ∉ p.outs

/-- The stage works on its item's own value of `x`: an earlier stage assigned it (with `=`) and this stage or a later one
reads it. -/
def PipeCode.Carried (p : PipeCode V) (x : String) (s : Nat) : Prop :=
  x ∉ p.outs ∧ (∃ a, a < s ∧ a < p.n ∧ x ∈ (p.stage a).code.wrNames ∧ ¬ (p.stage a).Special x) ∧
    ∃ b, s ≤ b ∧ b < p.n ∧ x ∈ (p.stage b).code.rdNames

/-- Values of variables at the start and at the end of each stage in each cycle. `before t` are the values when the pipeline is
reached in cycle `t`. -/
structure PipeCode.Means (p : PipeCode V) (before : Nat → String → V) (start stop : Nat → Nat → String → V) : Prop where
  code : ∀ t s, s < p.n → stop t s = ((p.stage s).code.run (start t s)).env
  carried : ∀ t s x, s < p.n → p.Carried x s → start (t + 1) s x = stop t (s - 1) x
  back : ∀ t s k x, s < p.n → k < p.n → k ≠ s → ¬ p.Carried x s → x ∈ (p.stage k).back → start t s x = stop t k x
  fwd : ∀ t s k x, s < p.n → k < s → ¬ p.Carried x s → x ∈ (p.stage k).fwd → start t s x = stop t k x
  other : ∀ t s x, s < p.n → ¬ p.Carried x s → (∀ k, k < p.n → k ≠ s → x ∉ (p.stage k).back) →
    (∀ k, k < s → x ∉ (p.stage k).fwd) → start t s x = before t x

/-- `k` comes before `s` in an order of the stages. -/
def Ahead (order : List Nat) (k s : Nat) : Prop := ∃ l1 l2, order = l1 ++ s :: l2 ∧ k ∈ l1

/-- What is asked of a pipeline for its meaning to be kept.
* `again`: a variable that several stages assign is read by the last of them or later, otherwise it is written several times
  in a cycle;
* `copies`: a copy is a temporary only in the last stage that uses it, and only if this stage always assigns it first;
* `seen`: a variable assigned with `^=` and read by a later stage is assigned first (see `C58_counterexample_backward`);
* `calm`: a variable read by a stage that is not to see what another one assigns is a register not assigned before the pipeline
  in the cycle, or is read first (see `C58_counterexample_assigned_before`). -/
structure PipeCode.Usual (p : PipeCode V) (cls : PCell → Store) (K0 : Keys) (order : List Nat) : Prop where
  shape : ∀ s, s < p.n → (p.stage s).code.Shape
  again : ∀ x i j, i < j → j < p.n → x ∉ p.outs → x ∈ (p.stage i).code.wrNames → x ∈ (p.stage j).code.wrNames → p.Carried x j
  copies : ∀ s x, s < p.n → p.Carried x s → cls (.copy s x) = .temp →
    ¬ p.Carried x (s + 1) ∧ ∀ m, WrittenBeforeRead x ((p.stage s).code.run m).evs
  seen : ∀ k s x, k < s → s < p.n → x ∈ (p.stage k).back → x ∈ (p.stage s).code.rdNames → Ahead order k s
  calm : ∀ k s x, k < p.n → s < p.n → k ≠ s → x ∈ (p.stage k).code.wrNames → ¬ p.Carried x k → x ∈ (p.stage s).code.rdNames →
    ¬ p.Carried x s → x ∉ (p.stage k).back → ¬ (k < s ∧ x ∈ (p.stage k).fwd) →
    (K0 x = false ∧ cls (.var x) = .flipflop) ∨ Ahead order s k

/-- The code of the first `s` stages, one after the other as without pipeline. -/
def PipeCode.together (p : PipeCode V) : Nat → Stm V
  | 0 => .skip
  | s + 1 => .seq (p.together s) (p.stage s).code

/-- All runs assign the whole of `x`, before any read of it. -/
def Stm.Sets (s : Stm V) (x : String) : Prop :=
  ∀ m, WrittenBeforeRead x (s.run m).evs ∧ ∃ e ∈ (s.run m).evs, x ∈ e.writes

end Silice
