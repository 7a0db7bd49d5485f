import Verif.Model.Always
import Verif.Model.AccessUnit

/-!
# A whole algorithm with its always blocks

The code of always blocks as part of the design (Model/Whole), and what `determineAccess` and `determineUsage` see of an algorithm
(Model/Access): the states with a number and the two always blocks. Models /repo/src/Algorithm.cpp:6007-6235, 8252-8300, 10534-10545.
-/

set_option autoImplicit false

namespace Silice

mutual
/-- Code of an always block within the module of an algorithm. It contains no assignment of the control registers (`Code.stays`,
C54): such assignments would be dropped. -/
def Stm.inert {V L L' : Type} : Stm V L → Stm V L'
  | .skip => .skip
  | .ins i => .ins i
  | .exit _ => .skip
  | .seq a b => .seq a.inert b.inert
  | .branch rs sel bs push _ => .branch rs sel bs.inert push none

/-- Of all branches. -/
def Brs.inert {V L L' : Type} : Brs V L → Brs V L'
  | .one s => .one s.inert
  | .cons s bs => .cons s.inert bs.inert
end

/-- The code of an always block. /repo/src/Algorithm.cpp:8268, 10540. -/
def alwaysStm {V L : Type} (D : DataOf V) (st : PSt) (last : Nat) (code : Code (Fin (last + 1))) : Stm V L :=
  (code.stm D fun b : Fin (last + 1) => (st.blk b).ins).inert

/-- Names that play a role outside of the code: inputs, outputs (registered ones and combinational ones), names bound to inputs of instances
(`<::` and `<:`; registered outputs are also used as the former and combinational ones as the latter, 10038-10040, see Model/Ports), names read by
memories, clocks, resets, wires and inputs of instances that are not bound, names bound to outputs and inouts of
instances, variables that are flip-flops by declaration, tables. -/
structure AlgPorts where
  inputs : List String := []
  outs : List String := []
  comb : List String := []
  bindQ : List String := []
  bindD : List String := []
  others : List String := []
  boundOut : List String := []
  boundInOut : List String := []
  internalFF : List String := []
  tables : List String := []

/-- A block of a graph among those of the three graphs. -/
def ABlock.map {B C : Type} (f : B → C) (b : ABlock B) : ABlock C := ⟨b.instrs, b.isState, b.children.map f⟩

/-- What `determineAccess` explores: from each state that has a number, and from the two always blocks. Names read outside of the
code are read at the end. Models /repo/src/Algorithm.cpp:6013-6118. Pipelines are not part of it. -/
def accWhole {V : Type} (D Dp Dq : DataOf V) (N : AlgPorts) {last lp lq : Nat} (st : PSt) (g : Cfg (Fin (last + 1)))
    (num : Num (Fin (last + 1))) (sp sq : PSt) : AccIn (Fin (last + 1) ⊕ Fin (lp + 1) ⊕ Fin (lq + 1)) where
  g := fun
    | .inl b => (accGraph (fun b : Fin (last + 1) => blockAcc D (st.blk b).ins (g.blk b).act) g b).map .inl
    | .inr (.inl b) =>
      (accGraph (fun b : Fin (lp + 1) => blockAcc Dp (sp.blk b).ins ((sp.cfg lp).blk b).act) (sp.cfg lp) b).map (.inr ∘ .inl)
    | .inr (.inr b) =>
      (accGraph (fun b : Fin (lq + 1) => blockAcc Dq (sq.blk b).ins ((sq.cfg lq).blk b).act) (sq.cfg lq) b).map (.inr ∘ .inr)
  heads := ((List.finRange (last + 1)).filter fun b => (g.blk b).isState && (num.sid b).isSome).map .inl ++
    [.inr (.inl (Fin.ofNat (lp + 1) 0)), .inr (.inr (Fin.ofNat (lq + 1) 0))]
  readEnd := N.bindQ ++ N.bindD ++ N.others
  trickle := []
  boundOut := N.boundOut
  boundInOut := N.boundInOut
  internalFF := N.internalFF
  tables := N.tables

/-- Storage of a variable before the code is written: temporaries are those of `determineUsage`, outputs are never temporaries. Constants
are flip-flops that nothing assigns. /repo/src/Algorithm.cpp:6157-6215. -/
def storeOf {B : Type} [DecidableEq B] (a : AccIn B) (log : List (B × List String)) (outputs : List String) (x : String) : Store :=
  match usageOf a log x with
  | .ok .temporary => if x ∈ outputs then .flipflop else .temp
  | _ => .flipflop

end Silice
