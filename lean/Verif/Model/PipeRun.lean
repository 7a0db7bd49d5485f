import Verif.Prelude

/-!
# Generated hardware of pipelines

What the Verilog written for a pipeline does, cycle after cycle. Two cases: pipelines whose stages take one
cycle and have no state machine (`always` blocks), and pipelines whose stages are state machines (algorithms).
-/

set_option autoImplicit false

namespace Silice

/-! ## Stages without state machines -/

/-- What the rest of the design does to one carried variable: `cap t` is the value of the variable at the end of
the stage that first writes it, in cycle `t`; `work s t` is the effect of stage `s` on its own copy. -/
structure Flow (V : Type) where
  first : Nat
  cap : Nat → V
  work : Nat → Nat → V → V

/-- Values on the `D` side of the registers `T_s` in cycle `t`, given their `Q` side. At the first writing stage
the variable is captured (/repo/src/Algorithm.cpp 9358-9379); later stages start from the `Q` side of their own
copy (8143-8152, 1394-1426) and execute their code. -/
def Flow.d {V : Type} (f : Flow V) (t : Nat) (q : Nat → V) (s : Nat) : V :=
  if s = f.first then f.cap t else f.work s t (q s)

/-- `Q` sides after `t` cycles from the contents `q0` (trickling registers are never initialised, 2713): the
register of a stage takes the `D` side of the previous stage's register (`vio_prev_name`,
/repo/src/Algorithm.cpp 7950-7968), the register of the first stage keeps its own `D`. -/
def Flow.q {V : Type} (f : Flow V) (q0 : Nat → V) : Nat → Nat → V
  | 0, s => q0 s
  | t + 1, s => if s ≤ f.first then f.d t (f.q q0 t) s else f.d t (f.q q0 t) (s - 1)

/-! ## Stages that are state machines -/

/-- A pipeline of `n` stages. `entry s` and `last s` are the first and last state of stage `s` as encoded in its
index register; the idle (termination) state is encoded by `0`, other states by positive numbers
(/repo/src/Algorithm.cpp 4430-4490, the actual encoding does not matter). `first` is the stage at which the
carried variable is first written. -/
structure Pipe where
  n : Nat
  entry : Nat → Nat
  last : Nat → Nat
  first : Nat

/-- What the code inside and around the pipeline does in one cycle, all of it unconstrained:
`active` parent state machine goes to the state that holds the pipeline; `disable` the branch that holds the
pipeline is not taken (only concerns stage 0); `stall s` the last state of stage `s` executes `stall`;
`next s q` successor of state `q` of stage `s`; `val` value of the carried variable at the first writing stage;
`work s` effect of the current state of stage `s` on its copy of the variable. -/
structure PipeIn (V : Type) where
  active : Bool
  disable : Bool
  stall : Nat → Bool
  next : Nat → Nat → Nat
  val : V
  work : Nat → V → V

/-- Registers: stage indices, full flags, copies of the carried variable. -/
structure PipeSt (V : Type) where
  idx : Nat → Nat
  full : Nat → Bool
  reg : Nat → V

variable {V : Type}

/-- Stage `s` executes code in this cycle: it is not idle and, for stage 0, not disabled
(`if (~1stdisable)`, /repo/src/Algorithm.cpp 8813-8820). -/
def executes (i : PipeIn V) (q : PipeSt V) (s : Nat) : Bool :=
  decide (q.idx s ≠ 0) && !(decide (s = 0) && i.disable)

/-- The stall flag at the end of the cycle's stage code (reset to 0 each cycle 8186-8300, set by the `stall`
instruction, allowed only in the last state, 8687-8700). -/
def stalls (p : Pipe) (i : PipeIn V) (q : PipeSt V) (s : Nat) : Bool :=
  executes i q s && decide (q.idx s = p.last s) && i.stall s

/-- Full flag after the stage code: set by the last state (/repo/src/Algorithm.cpp 8833 and 9121). -/
def codeFull (p : Pipe) (i : PipeIn V) (q : PipeSt V) (s : Nat) : Bool :=
  q.full s || (executes i q s && decide (q.idx s = p.last s))

/-- Index after the stage code. The last state goes to idle or stays on stall, and this assignment is outside of
the conditional on `disable` (8836-8842, 9124-9130); other states go to a successor; an idle stage stays idle. -/
def codeIdx (p : Pipe) (i : PipeIn V) (q : PipeSt V) (s : Nat) : Nat :=
  if q.idx s = 0 then 0
  else if q.idx s = p.last s then (if stalls p i q s then p.last s else 0)
  else if executes i q s then i.next s (q.idx s) else q.idx s

/-- `D` side of the copies. The first writing stage captures in its last state and otherwise keeps
(/repo/src/Algorithm.cpp 9358-9379); other stages execute their code when they execute, else keep. -/
def dReg (p : Pipe) (i : PipeIn V) (q : PipeSt V) (s : Nat) : V :=
  if s = p.first then (if q.idx s = p.last s then i.val else q.reg s)
  else if executes i q s then i.work s (q.reg s) else q.reg s

/-- Variables assigned by the trigger code: `D` sides of index and full flag, plus a record (not in the
hardware) of which stages were started. -/
structure Trig where
  idx : Nat → Nat
  full : Nat → Bool
  started : Nat → Bool

/-- Functional update. -/
def set1 {A : Type} (f : Nat → A) (k : Nat) (v : A) : Nat → A := fun x => if x = k then v else f x

/-- The trigger of one stage (/repo/src/Algorithm.cpp 10552-10596): ready (last state or idle, on the `Q` side,
7902-7906), and parent active for stage 0 or previous stage full and not stalled, and self not full except for
the last stage, and self not stalled. -/
def trigger (p : Pipe) (i : PipeIn V) (q : PipeSt V) (d : Trig) (s : Nat) : Trig :=
  let ready := decide (q.idx s = p.last s) || decide (q.idx s = 0)
  let source := if s = 0 then i.active else d.full (s - 1) && !stalls p i q (s - 1)
  let room := decide (s + 1 = p.n) || !d.full s
  if ready && source && room && !stalls p i q s then
    { idx := set1 d.idx s (p.entry s)
      full := if s = 0 then d.full else set1 d.full (s - 1) false
      started := set1 d.started s true }
  else d

/-- The triggers are written from the last stage to the first (`for p = size-1 .. 0`, 10552). -/
def triggers (p : Pipe) (i : PipeIn V) (q : PipeSt V) : Nat → Trig → Trig
  | 0, d => d
  | k + 1, d => triggers p i q k (trigger p i q d k)

/-- The combinational outcome of a cycle. -/
def pipeComb (p : Pipe) (i : PipeIn V) (q : PipeSt V) : Trig :=
  triggers p i q p.n { idx := codeIdx p i q, full := codeFull p i q, started := fun _ => false }

/-- Register update at the end of the cycle (/repo/src/Algorithm.cpp 8059-8078 for index and full, without
reset; 7950-7972 for the copies: `(D_idx == entry && !stall) ? D_previous : D_own` for stages after the first
writing one). -/
def pipeStep (p : Pipe) (i : PipeIn V) (q : PipeSt V) : PipeSt V :=
  let d := pipeComb p i q
  { idx := d.idx
    full := d.full
    reg := fun s =>
      if p.first < s ∧ d.idx s = p.entry s ∧ stalls p i q s = false then dReg p i q (s - 1)
      else dReg p i q s }

/-- After reset all stages are idle and empty (8063-8070), the copies hold anything. -/
def PipeSt.start (reg : Nat → V) : PipeSt V := { idx := fun _ => 0, full := fun _ => false, reg := reg }

/-- State after `t` cycles. -/
def pipeRun (p : Pipe) (inp : Nat → PipeIn V) (reg : Nat → V) : Nat → PipeSt V
  | 0 => .start reg
  | t + 1 => pipeStep p (inp t) (pipeRun p inp reg t)

end Silice
