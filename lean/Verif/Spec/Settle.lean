import Verif.Spec.Loops

/-!
# A circuit that settles

Values are recomputed one at a time, in any order, from those they depend on.
-/

set_option autoImplicit false

namespace Silice

/-- `f n v` is the value computed at `n` from the values `v`, and only looks at the values that feed `n`. -/
def LUnit.Computes {A : Type} (u : LUnit) (p : List (List String × List String)) (f : LNode → (LNode → A) → A) : Prop :=
  ∀ n v v', (∀ m, u.Edge p m n → v m = v' m) → f n v = f n v'

/-- Nothing changes when a value is recomputed. -/
def Settled {A : Type} (f : LNode → (LNode → A) → A) (v : LNode → A) : Prop := ∀ n, v n = f n v

/-- Values after `t` updates, in the order `s`, from the values `v`. -/
inductive Updates {A : Type} (f : LNode → (LNode → A) → A) (s : Nat → LNode) (v : LNode → A) : Nat → (LNode → A) → Prop where
  | start : Updates f s v 0 v
  | update {t : Nat} {w w' : LNode → A} : Updates f s v t w → w' (s t) = f (s t) w → (∀ n, n ≠ s t → w' n = w n) →
      Updates f s v (t + 1) w'

/-- Each of the values `l` is recomputed again and again. -/
def FairOrder (l : List LNode) (s : Nat → LNode) : Prop := ∀ n ∈ l, ∀ t, ∃ t', t ≤ t' ∧ s t' = n

end Silice
