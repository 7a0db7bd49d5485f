import Verif.Model.Whole
import Verif.Spec.GatherTime
import Verif.Spec.Usage

/-!
What an algorithm does to its variables, cycle by cycle: the statements executed in a cycle are given by the rules on cycles
(Spec/GatherTime), each assigns variables that keep their values from then on.
-/

set_option autoImplicit false

namespace Silice

/-- Effect of a list of assignments on the variables. -/
def assignAll {V : Type} (is : List (Ins V)) (m : String → V) : String → V := is.foldl (fun m i => i.apply (i.reads.map m) m) m

/-- Meaning of the statements on the variables; the `done` signals of instances are part of the data. -/
def DataOf.meaning {V : Type} (D : DataOf V) : Meaning ((String → V) × (Nat → Bool)) where
  instr i s := (assignAll (D.instr i) s.1, s.2)
  take i s := (assignAll (D.take i) s.1, s.2)
  test q s := D.test q ((D.testReads q).map s.1)
  label q v s := D.label q v ((D.labelReads q).map s.1)
  done k s := s.2 k

/-- Assignments of something executed. -/
def DataOf.did {V : Type} (D : DataOf V) : Did → List (Ins V)
  | .instr i => D.instr i
  | .take i => D.take i

/-- `n` cycles of an algorithm: in each the inputs are given, `always_before` is executed, then the statements of the cycle, then
`always_after`. `vs` are the variables before cycle `n`, `trs` the instructions executed so far. -/
inductive WTRun {V : Type} (subs : List Prg) (main : Prg) (D : DataOf V) (pre post : (String → V) → (String → V)) (inputs : List String)
    (inp : Nat → String → V) (done : Nat → Nat → Bool) (m0 : String → V) :
    Nat → List (List Did) → Option (Ctl × Bool) → (String → V) → Prop where
  | start : WTRun subs main D pre post inputs inp done m0 0 [] (some (.run main [], false)) m0
  | next {n : Nat} {trs : List (List Did)} {tr : List Did} {c : Ctl} {f : Bool} {o : Option (Ctl × Bool)} {m m' : String → V}
      {d' : Nat → Bool} :
      WTRun subs main D pre post inputs inp done m0 n trs (some (c, f)) m →
      TCycle subs D.meaning c f (pre (overlay inputs (inp n) m), done n) tr (m', d') o →
      WTRun subs main D pre post inputs inp done m0 (n + 1) (trs ++ [tr]) o (post m')
  | over {n : Nat} {trs : List (List Did)} {m : String → V} : WTRun subs main D pre post inputs inp done m0 n trs none m →
      WTRun subs main D pre post inputs inp done m0 (n + 1) (trs ++ [[]]) none (post (pre (overlay inputs (inp n) m)))

end Silice
