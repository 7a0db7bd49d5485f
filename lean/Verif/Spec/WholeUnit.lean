import Verif.Spec.Whole
import Verif.Spec.Always

/-!
What an algorithm with always blocks does to its variables, cycle by cycle, from its source.
-/

set_option autoImplicit false

namespace Silice

/-- `n` cycles of an algorithm: in each the inputs are given, the statements of `always_before` (and the `x := e`) are executed, then the statements
that the rules on cycles give, then those of `always_after`. `D`, `Dp` and `Dq` are the contents of the statements of the three parts, `vs` the
variables before cycle `n`, `trs` what has been executed so far in the three parts. When the program has ended, the always blocks go on. -/
inductive PRun {V : Type} (subs : List Prg) (main before after : Prg) (D Dp Dq : DataOf V) (inputs : List String)
    (inp : Nat → String → V) (done : Nat → Nat → Bool) (m0 : String → V) :
    Nat → List (List Did × List Did × List Did) → Option (Ctl × Bool) → (String → V) → Prop where
  | start : PRun subs main before after D Dp Dq inputs inp done m0 0 [] (some (.run main [], false)) m0
  | next {n : Nat} {trs : List (List Did × List Did × List Did)} {e1 e2 e3 : List Did} {c : Ctl} {f : Bool} {o : Option (Ctl × Bool)}
      {m m1 m2 m3 : String → V} {d1 d2 d3 : Nat → Bool} :
      PRun subs main before after D Dp Dq inputs inp done m0 n trs (some (c, f)) m →
      Runs Dp.meaning before (overlay inputs (inp n) m, done n) e1 (m1, d1) →
      TCycle subs D.meaning c f (m1, d1) e2 (m2, d2) o →
      Runs Dq.meaning after (m2, d2) e3 (m3, d3) →
      PRun subs main before after D Dp Dq inputs inp done m0 (n + 1) (trs ++ [(e1, e2, e3)]) o m3
  | over {n : Nat} {trs : List (List Did × List Did × List Did)} {e1 e3 : List Did} {m m1 m3 : String → V} {d1 d3 : Nat → Bool} :
      PRun subs main before after D Dp Dq inputs inp done m0 n trs none m →
      Runs Dp.meaning before (overlay inputs (inp n) m, done n) e1 (m1, d1) →
      Runs Dq.meaning after (m1, d1) e3 (m3, d3) →
      PRun subs main before after D Dp Dq inputs inp done m0 (n + 1) (trs ++ [(e1, [], e3)]) none m3

/-- No statement assigns a part of `x`. -/
def DataOf.Whole {V : Type} (D : DataOf V) (x : String) : Prop := ∀ i, ∀ s ∈ D.instr i ++ D.take i, x ∉ s.parts ∧ x ∉ s.fields

/-- No statement assigns `x` through a bit field. -/
def DataOf.NoField {V : Type} (D : DataOf V) (x : String) : Prop := ∀ i, ∀ s ∈ D.instr i ++ D.take i, x ∉ s.fields

/-- No statement reads `x`. -/
def DataOf.Unread {V : Type} (D : DataOf V) (x : String) : Prop :=
  (∀ i, ∀ s ∈ D.instr i ++ D.take i, x ∉ s.reads) ∧ ∀ q, x ∉ D.testReads q ∧ x ∉ D.labelReads q

end Silice
