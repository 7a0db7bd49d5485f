import Verif.Model.Loops
import Verif.Spec.Deps

/-!
# Which values feed which within a cycle

The circuit of a unit seen from the user: outputs of instances and tracked expressions are always at work; the values
assigned by instructions come one after the other, and what is outside of the code sees the last one.
-/

set_option autoImplicit false

namespace Silice

/-- The instance sees the current value of `r`: it is bound with `<:`, or it is one of its inputs set with the dot
notation, unless these are registered (`<reginputs>`, or an instance that is called). -/
def LInst.Sees (I : LInst) (r : String) : Prop :=
  (∃ b ∈ I.binds, b.dir = .left ∧ b.host = r) ∨ (I.callable = false ∧ I.regInput = false ∧ r ∈ I.ins)

/-- `o` is an output of the instance declared `output!`, bound or read with the dot notation. -/
def LInst.Gives (I : LInst) (o : String) : Prop :=
  (∃ b ∈ I.binds, b.dir = .right true false ∧ b.host = o) ∨ (o, true, false) ∈ I.outs

/-- `o` holds the output of an instance, or a tracked expression. -/
def LUnit.Outside (u : LUnit) (o : String) : Prop := (∃ I ∈ u.insts, I.Gives o) ∨ ∃ w ∈ u.wires, w.name = o

/-- The value of `r` in this cycle feeds `o`, without any instruction: through an instance, or in a tracked expression.
With `<::` the value in the previous cycle is used, except if `r` has none because no flip-flop holds it. -/
def LUnit.Through (u : LUnit) (r o : String) : Prop :=
  (∃ I ∈ u.insts, I.Sees r ∧ I.Gives o) ∨ ∃ w ∈ u.wires, w.name = o ∧ r ∈ w.reads ∧ (w.delayed = true → u.Outside r)

/-- Values in a cycle: the one given to `w` by instruction `k`, and the one of an output or tracked expression. -/
inductive LNode where
  | val (k : Nat) (w : String)
  | out (o : String)
deriving DecidableEq, Repr

/-- Instruction `k` is the last one to assign `r`. -/
def FinalWrite (code : List (List String × List String)) (k : Nat) (r : String) : Prop :=
  (∃ i, code[k]? = some i ∧ r ∈ i.2) ∧ ∀ m im, k < m → code[m]? = some im → r ∉ im.2

/-- A value is directly computed from another, in a cycle that executes the instructions `p`. -/
inductive LUnit.Edge (u : LUnit) (p : List (List String × List String)) : LNode → LNode → Prop where
  /-- An instruction uses the value assigned by an earlier one. -/
  | use {j k : Nat} {r w : String} : Uses p (j, r) (k, w) → u.Edge p (.val j r) (.val k w)
  /-- An instruction reads an output or a tracked expression. -/
  | read {o w : String} {k : Nat} {i : List String × List String} :
      p[k]? = some i → o ∈ i.1 → w ∈ i.2 → u.Outside o → u.Edge p (.out o) (.val k w)
  /-- An instance or a tracked expression sees the last value assigned. -/
  | final {r o : String} {k : Nat} : FinalWrite p k r → u.Through r o → u.Edge p (.val k r) (.out o)
  /-- An instance or a tracked expression sees another. -/
  | direct {r o : String} : u.Outside r → u.Through r o → u.Edge p (.out r) (.out o)

/-- No value is computed from itself. -/
def LUnit.NoLoop (u : LUnit) (p : List (List String × List String)) : Prop := ∀ n, ¬ Relation.TransGen (u.Edge p) n n

/-- Outputs and tracked expressions have one origin: no instruction assigns them, no variable receives outputs of two
instances, or an output and a tracked expression, and there is one tracked expression for each wire. -/
structure LUnit.OneOrigin (u : LUnit) : Prop where
  code : ∀ w ∈ u.code.writes, ¬ u.Outside w
  insts : u.insts.Pairwise fun I J => ∀ o, I.Gives o → ¬ J.Gives o
  wires : (u.wires.map (·.name)).Nodup
  both : ∀ w ∈ u.wires, ∀ I ∈ u.insts, ¬ I.Gives w.name

end Silice
