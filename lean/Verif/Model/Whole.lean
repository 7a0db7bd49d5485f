import Verif.Model.Usage
import Verif.Model.FsmHw
import Verif.Model.Gather

/-!
# The hardware of a whole algorithm

Puts together the parts modelled elsewhere: the statements gathered into blocks (Model/Gather), the code of the states and the control
registers (Model/Fsm, Model/FsmHw), and the storage of variables decided by the first pass of the writing, with flip-flops, temporaries and the
side on which each variable is read (Model/Usage). Models /repo/src/Algorithm.cpp:9535-9680 and 10471-10610 for one algorithm.

Not modelled here: pipelines, reset and the run input (Model/Regs), inlined expressions (Model/Inline), instances other than through
inputs, `done` signals and bound variables.
-/

set_option autoImplicit false

namespace Silice

/-- What stands in the statements: the assignments of each instruction and of the reads of the outputs of a subroutine or instance, and the
names and values in the conditions and the expressions of switches.
Models what the instruction lists of blocks hold, /repo/src/Algorithm.h:552-600; expressions are abstract functions of the names they read. -/
structure DataOf (V : Type) where
  instr : Nat → List (Ins V)
  take : Nat → List (Ins V)
  testReads : Nat → List String
  test : Nat → List V → Bool
  labelReads : Nat → List String
  label : Nat → Nat → List V → Bool

/-- Assignments of an instruction of a block. -/
def DataOf.ins {V : Type} (D : DataOf V) : PIns → List (Ins V)
  | .plain i => D.instr i
  | .readback i outs => if outs then D.take i else []

/-- Assignments of the control registers written in a state: those of Model/Fsm, and the choice between two states that depends on
the `done` signal of an instance (which is a wire, not a variable). /repo/src/Algorithm.cpp:9094-9117. -/
inductive Ctrl (B : Type) where
  | out (o : Out B)
  | wait (inst : Nat) (next waiting : B)

/-- What is assigned, given the `done` signals. -/
def Ctrl.resolve {B : Type} (done : Nat → Bool) : Ctrl B → Out B
  | .out o => o
  | .wait k n w => .jump (if done k then n else w)

/-- Instructions one after the other. -/
def seqIns {V L : Type} : List (Ins V) → Stm V L
  | [] => .skip
  | i :: is => .seq (.ins i) (seqIns is)

/-- Position of the entry a Verilog case statement takes: the first whose label matches, otherwise the default one. -/
def pickIdx (m : Nat → Bool) (labels : List (Option Nat)) : Option Nat :=
  match labels.findIdx? (labelMatches m) with
  | some k => some k
  | none => labels.findIdx? (·.isNone)

/-- The code of a state as the tree that the first pass walks: usages of the branches of an `if`, a `while` and a `switch` are combined as
described for `Stm`. Models /repo/src/Algorithm.cpp:8788-9199. -/
def Code.stm {V B : Type} (D : DataOf V) (ins : B → List PIns) : Code B → Stm V (Ctrl B)
  | .skip => .skip
  | .body b => seqIns ((ins b).flatMap D.ins)
  | .seq x y => .seq (x.stm D ins) (y.stm D ins)
  | .ite c x y =>
    .branch (D.testReads c) (fun vs => some (if D.test c vs then 0 else 1)) (.cons (x.stm D ins) (.one (y.stm D ins))) false none
  | .wend c x b =>
    .branch (D.testReads c) (fun vs => if D.test c vs then some 0 else none) (.one (x.stm D ins)) false (some (.out (.jump b)))
  | .case c es =>
    .branch (D.labelReads c) (fun vs => pickIdx (fun v => D.label c v vs) (es.map (·.1))) (brs es) (!es.any (·.1.isNone)) none
  | .waitDone k n w => .exit (.wait k n w)
  | .jump b => .exit (.out (.jump b))
  | .halt => .exit (.out .halt)
  | .call p t r => .exit (.out (.call p t r))
  | .ret p k => .exit (.out (.ret p k))
where
  /-- the cases of a switch; a switch without cases has no branch that could be taken -/
  brs : List (Option Nat × Code B) → Brs V (Ctrl B)
    | [] => .one .skip
    | [(_, x)] => .one (x.stm D ins)
    | (_, x) :: e :: es => .cons (x.stm D ins) (brs (e :: es))

/-- The algorithm as the first pass sees it: the always blocks and the code of the states, in the order in which they are written. -/
def wholeDesign {V B : Type} (D : DataOf V) (ins : B → List PIns) (entries : List (Entry B)) (pre post : Stm V (Ctrl B))
    (bindQ bindD outs : List String) : Design V (Ctrl B) where
  pre := pre
  states := entries.map fun e => e.code.stm D ins
  post := post
  bindQ := bindQ
  bindD := bindD
  outs := outs

/-- Inputs have the value given from outside. -/
def overlay {V : Type} (inputs : List String) (inp m : String → V) : String → V := fun x => if x ∈ inputs then inp x else m x

/-- Registers: state index, caller id, saved caller ids, flip-flops. -/
structure WReg (V : Type) where
  idx : Nat
  caller : Nat
  saved : Nat → Nat
  q : String → V

/-- One clock cycle: the signals at its end and the registers after the clock edge. The entry of the current index is found by its
number; an index without an entry is undefined (`none`), except 0, the termination state, which executes nothing. -/
def wCycle {V B : Type} [DecidableEq B] (g : Cfg B) (num : Num B) (ff : B → B) (ids : List (B × Nat)) (entries : List (Entry B))
    (a : Design V (Ctrl B)) (cls : String → Store) (inputs : List String) (junk inp : String → V) (done : Nat → Bool) (r : WReg V) :
    Option (HSt V (Ctrl B) × WReg V) :=
  if r.idx ≠ 0 ∧ ∀ e ∈ entries, e.index ≠ r.idx then none
  else
    let q := overlay inputs inp r.q
    let h := (a.emit cls).cycle cls junk ⟨entries.findIdx fun e => e.index = r.idx, q⟩
    (applyOut g num ff ids ⟨r.idx, r.caller, r.saved, ()⟩ () (h.next.map (·.resolve done))).map fun c =>
      (h, ⟨c.idx, c.caller, c.saved, h.latched cls q⟩)

/-- Registers after `n` cycles. Temporaries start each cycle with anything (`junk`), inputs and `done` signals are given per cycle. -/
def wRun {V B : Type} [DecidableEq B] (g : Cfg B) (num : Num B) (ff : B → B) (ids : List (B × Nat)) (entries : List (Entry B))
    (a : Design V (Ctrl B)) (cls : String → Store) (inputs : List String) (junk inp : Nat → String → V) (done : Nat → Nat → Bool)
    (r : WReg V) : Nat → Option (WReg V)
  | 0 => some r
  | n + 1 =>
    (wRun g num ff ids entries a cls inputs junk inp done r n).bind fun r =>
    (wCycle g num ff ids entries a cls inputs (junk n) (inp n) (done n) r).map (·.2)

end Silice
