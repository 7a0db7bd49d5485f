import Verif.Model.Started

/-!
# Which pipelines should start in a cycle

A pipeline starts in a cycle when the flow of the code, given the values of the tests in that cycle, comes to it.
-/

set_option autoImplicit false

namespace Silice

mutual
/-- The pipelines the flow comes to, in order, and whether it comes to the end of the code without going to
another state. -/
def StCode.flow (v : TestVals) : StCode → List Nat × Bool
  | .fin => ([], true)
  | .leave _ => ([], false)
  | .stmt k => k.flow v
  | .pipe p k => (p :: (k.flow v).1, (k.flow v).2)
  | .ite c t e k =>
    let b := if v c ≠ 0 then t.flow v else e.flow v
    if b.2 then (b.1 ++ (k.flow v).1, (k.flow v).2) else b
  | .switch s cs k =>
    let b := if cs.has (v s) then cs.flowAt (v s) v else cs.flowDefault v
    if b.2 then (b.1 ++ (k.flow v).1, (k.flow v).2) else b
/-- The flow through the first case with the given value. -/
def StCases.flowAt (n : Nat) (v : TestVals) : StCases → List Nat × Bool
  | .nil => ([], true)
  | .cons x b cs => if x = some n then b.flow v else cs.flowAt n v
/-- The flow through the `default` case, or past the switch if there is none. -/
def StCases.flowDefault (v : TestVals) : StCases → List Nat × Bool
  | .nil => ([], true)
  | .cons x b cs => if x = none then b.flow v else cs.flowDefault v
end

/-- The pipelines the flow comes to in a cycle spent in the state. -/
def StState.reached (v : TestVals) : StState → List Nat
  | .code b => (b.flow v).1
  | .loop c body after split => if v c ≠ 0 then (body.flow v).1 else if split then [] else (after.flow v).1

/-- The pipelines of the state. -/
def StState.pipes : StState → List Nat
  | .code b => b.pipes
  | .loop _ body after split => body.pipes ++ if split then [] else after.pipes

/-- In every cycle spent in the state, the pipelines of the state that may start are those the flow comes to. -/
def StartsAsReached (s : StState) : Prop :=
  ∀ (v : TestVals), ∀ p ∈ s.pipes, s.flags v p = false ↔ p ∈ s.reached v

/- No branch goes to a state, unless what follows the conditional is in another state or the branch never comes to
its end. -/
mutual
/-- No state within the code. -/
def StCode.oneCycle : StCode → Bool
  | .fin => true
  | .leave _ => false
  | .stmt k => k.oneCycle
  | .pipe _ k => k.oneCycle
  | .ite _ t e k => t.oneCycle && e.oneCycle && k.oneCycle
  | .switch _ cs k => cs.oneCycle && k.oneCycle
/-- The same for all the cases. -/
def StCases.oneCycle : StCases → Bool
  | .nil => true
  | .cons _ b cs => b.oneCycle && cs.oneCycle
end

mutual
/-- What follows a conditional in the same cycle follows branches that take one cycle, or never get there. -/
def StCode.clean : StCode → Bool
  | .fin => true
  | .leave _ => true
  | .stmt k => k.clean
  | .pipe _ k => k.clean
  | .ite _ t e k => t.clean && e.clean && k.clean &&
      (k.isState || ((!t.ends || t.oneCycle) && (!e.ends || e.oneCycle) && (t.ends || e.ends)))
  | .switch _ cs k => cs.clean && k.clean && (k.isState || cs.oneCycle)
/-- The same for all the cases. -/
def StCases.clean : StCases → Bool
  | .nil => true
  | .cons _ b cs => b.clean && cs.clean
end

/-- The end of the code is in the same cycle. -/
def StCode.within : StCode → Bool
  | .fin => true
  | .leave _ => false
  | .stmt k => k.within
  | .pipe _ k => k.within
  | .ite _ _ _ k => k.within
  | .switch _ _ k => k.within

mutual
/-- No pipeline comes after another one in the same cycle; `h` tells that one comes after the end of the code. -/
def StCode.single (h : Bool) : StCode → Bool
  | .fin => true
  | .leave _ => true
  | .stmt k => k.single h
  | .pipe _ k => k.pipes.isEmpty && !(h && k.within)
  | .ite _ t e k =>
    let h' := !k.pipes.isEmpty || (h && k.within)
    t.single h' && e.single h' && k.single h
  | .switch _ cs k => cs.single (!k.pipes.isEmpty || (h && k.within)) && k.single h
/-- The same for all the cases. -/
def StCases.single (h : Bool) : StCases → Bool
  | .nil => true
  | .cons _ b cs => b.single h && cs.single h
end

/-- Blocks with instructions only. -/
def StCode.straight : StCode → Bool
  | .fin => true
  | .stmt k => k.straight
  | _ => false

/-- No pipeline outside of all conditionals comes after a conditional in the same cycle, unless one of the two
branches always goes to another state and the other one has no conditional. -/
def StCode.first : StCode → Bool
  | .fin => true
  | .leave _ => true
  | .stmt k => k.first
  | .pipe _ k => k.first
  | .ite _ t e k => k.pipes.isEmpty ||
      (!k.isState && k.first && ((t.straight && !e.ends) || (e.straight && !t.ends)))
  | .switch _ _ k => k.pipes.isEmpty

/-- The states for which the flags are right: the conditions above, and no pipeline in a loop that has a
`break`. -/
def StState.simple : StState → Bool
  | .code b => b.clean && b.single false && b.first
  | .loop _ body after split => body.clean && body.single false &&
      (if split then body.pipes.isEmpty else after.clean && after.single false && after.first)

end Silice
