import Verif.Model.Delayed

/-! What `x := e` and `x ::= e` mean. -/

set_option autoImplicit false

namespace Silice

/-- Positions of the delayed assignments. -/
def delayPos {V : Type} (as : List (AlwAsg V)) : List (Nat × Nat) := as.filterMap fun
  | .now _ _ _ => none
  | .delayed line col _ _ _ => some (line, col)

/-- Names in the statements as the user wrote them. -/
def AlwAsg.userNames {V : Type} : AlwAsg V → List String
  | .now x reads _ => x :: reads
  | .delayed _ _ x reads _ => x :: reads

/-- `v t k` are the values of variables in cycle `t` before statement `k` is carried out. In each cycle, `x := e` gives `x` the value that `e` has then;
`x ::= e` gives `x` the value that `e` had at the same place in the cycle before; no other variable of the user changes. -/
structure DelaysOneCycle {V : Type} (as : List (AlwAsg V)) (v : Nat → Nat → String → V) : Prop where
  now : ∀ (t k : Nat) (x : String) (reads : List String) (fn : List V → V), as[k]? = some (.now x reads fn) →
    v t (k + 1) x = fn (reads.map (v t k)) ∧ ∀ y, y ≠ x → v t (k + 1) y = v t k y
  delayed : ∀ (t k : Nat) (line col : Nat) (x : String) (reads : List String) (fn : List V → V), as[k]? = some (.delayed line col x reads fn) →
    v (t + 1) (k + 1) x = fn (reads.map (v t k)) ∧ ∀ y, y ≠ x → y ≠ delayedName line col → v t (k + 1) y = v t k y

end Silice
