import Verif.Model.WholeUnit
import Verif.Model.Regs

/-!
# A whole algorithm under reset and calls

The clock edge of all registers of an algorithm (Model/Whole), with the reset signal, the run input and the autorun flag (Model/Regs). Models
/repo/src/Algorithm.cpp:4417-4427, 7938-8055 for an algorithm that has a state machine. Not modelled here: pipelines.
-/

set_option autoImplicit false

namespace Silice

/-- All registers of an algorithm: those of its states and variables, and the autorun flag. -/
structure WSt (V : Type) where
  reg : WReg V
  autorun : Bool

/-- What the flip-flop of a variable takes, given the value computed in the cycle. /repo/src/Algorithm.cpp:7938-7976. The content of a table is
a single value here (7977-7987 write one assignment per entry). -/
def ffNext {V : Type} (K : AlgKind) (v : FFVar V) (rst run : Bool) (d : V) : V :=
  match initCond K v with
  | none => d
  | some c =>
    match v.init with
    | [] => d
    | x :: _ => if c.holds rst run then x else d

/-- One clock edge, where `d` is what the combinational part of the module computes. Caller ids are not initialised.
/repo/src/Algorithm.cpp:8020-8055. Variables that are constants have no flip-flop; as nothing assigns them, one that takes their initial value
makes no difference after a reset. -/
def wEdge {V : Type} (K : AlgKind) (entry : Nat) (decl : String → FFVar V) (rst run : Bool) (d : WReg V) (s : WSt V) : WSt V where
  reg :=
    { idx := if rst then 0 else nextIdx K entry s.autorun run d.idx
      caller := d.caller
      saved := d.saved
      q := fun x => ffNext K (decl x) rst run (d.q x) }
  autorun := if K.autorun then !rst else s.autorun

/-- Registers after `t` cycles of any history of the reset signal and the run input, from any power-up content. `comb` is the combinational part;
where it is undefined, it gives anything (`undef`). -/
def wHist {V S : Type} (K : AlgKind) (entry : Nat) (decl : String → FFVar V) (comb : Nat → WReg V → Option (S × WReg V)) (undef : Nat → WReg V)
    (rst run : Nat → Bool) (s0 : WSt V) : Nat → WSt V
  | 0 => s0
  | t + 1 =>
    let s := wHist K entry decl comb undef rst run s0 t
    wEdge K entry decl (rst t) (run t) (match comb t s.reg with | some (_, d) => d | none => undef t) s

end Silice
