import Verif.Model.Deps

/-!
# Reachability along recorded dependencies, and data flow between instructions
-/

set_option autoImplicit false

namespace Silice

/-- `y` has an entry and is recorded as something `w` directly depends on. -/
def Deps.Direct (D : Deps) (w y : String) : Prop := y ∈ D.keys ∧ ((D.on w y).q = true ∨ (D.on w y).d = true)

/-- `y` is reached from `w`. -/
def Deps.Reaches (D : Deps) : String → String → Prop := Relation.ReflTransGen D.Direct

/-- Only listed names occur. -/
def Deps.Wf (D : Deps) : Prop :=
  ∀ w x, ((D.on w x).q = true ∨ (D.on w x).d = true) → w ∈ D.keys ∧ x ∈ D.names

/-- The value given to `k.2` by instruction `k.1` is computed from the value given to `j.2` by the earlier instruction
`j.1`: the variable is read, and has not been written in between. -/
def Uses (is : List (List String × List String)) (j k : Nat × String) : Prop :=
  ∃ ij ik, is[j.1]? = some ij ∧ is[k.1]? = some ik ∧ j.1 < k.1 ∧ j.2 ∈ ij.2 ∧ j.2 ∈ ik.1 ∧ k.2 ∈ ik.2 ∧
    ∀ m im, j.1 < m → m < k.1 → is[m]? = some im → j.2 ∉ im.2

/-- Directly or through other instructions. -/
def UsesTrans (is : List (List String × List String)) : Nat × String → Nat × String → Prop := Relation.TransGen (Uses is)

/-! ### Code with conditionals -/

mutual
/-- Instructions that may be executed, in order; the flag says whether control goes on after the code. -/
inductive DStm.Path : DStm → List (List String × List String) → Bool → Prop where
  | skip : DStm.Path .skip [] true
  | stop : DStm.Path .stop [] false
  | ins {reads writes : List String} : DStm.Path (.ins reads writes) [(reads, writes)] true
  | seqStop {a b : DStm} {p : List (List String × List String)} : DStm.Path a p false → DStm.Path (.seq a b) p false
  | seq {a b : DStm} {p q : List (List String × List String)} {f : Bool} :
      DStm.Path a p true → DStm.Path b q f → DStm.Path (.seq a b) (p ++ q) f
  | branch {bs : DBrs} {p : List (List String × List String)} {f : Bool} : DBrs.Path bs p f → DStm.Path (.branch bs) p f

/-- Through one of the branches. -/
inductive DBrs.Path : DBrs → List (List String × List String) → Bool → Prop where
  | one {s : DStm} {p : List (List String × List String)} {f : Bool} : DStm.Path s p f → DBrs.Path (.one s) p f
  | here {s : DStm} {bs : DBrs} {p : List (List String × List String)} {f : Bool} :
      DStm.Path s p f → DBrs.Path (.cons s bs) p f
  | next {s : DStm} {bs : DBrs} {p : List (List String × List String)} {f : Bool} :
      DBrs.Path bs p f → DBrs.Path (.cons s bs) p f
end

mutual
/-- Variables assigned somewhere in the code. -/
def DStm.writes : DStm → List String
  | .skip => []
  | .stop => []
  | .ins _ ws => ws
  | .seq a b => a.writes ++ b.writes
  | .branch bs => bs.writes

/-- Variables assigned in some branch. -/
def DBrs.writes : DBrs → List String
  | .one s => s.writes
  | .cons s bs => s.writes ++ bs.writes
end

mutual
/-- With `w` the variables that may have been assigned before: a variable assigned inside a conditional is not assigned before
the conditional, nor in another of its branches. -/
def DStm.MergeOk (w : List String) : DStm → Prop
  | .skip => True
  | .stop => True
  | .ins _ _ => True
  | .seq a b => a.MergeOk w ∧ b.MergeOk (w ++ a.writes)
  | .branch bs => (∀ x ∈ bs.writes, x ∉ w) ∧ bs.MergeOk w

/-- Same for the branches. -/
def DBrs.MergeOk (w : List String) : DBrs → Prop
  | .one s => s.MergeOk w
  | .cons s bs => s.MergeOk w ∧ (∀ x ∈ s.writes, x ∉ bs.writes) ∧ bs.MergeOk w
end

end Silice
