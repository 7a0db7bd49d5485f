import Verif.Spec.FsmRegion

/-!
Source-level execution of an algorithm over many cycles, with an explicit stack of return points, and the
graphs for which the generated machine is compared with it.
-/

set_option autoImplicit false

namespace Silice
variable {B : Type}

/-- Where the source program is at the start of a cycle: about to execute the state `b`, with the return
points of the subroutines entered so far (innermost first); or finished. -/
inductive Pos (B : Type) where
  | at (b : B) (stack : List B)
  | halted

/-- A jump to state `n` continues at the state `n` is fast-forwarded to; when this is the empty block at the
end of the algorithm, the algorithm is finished. -/
inductive Lands (g : Cfg B) (ff : B → B) (stack : List B) (n : B) : Pos B → Prop where
  | done : (g.blk (ff n)).empty = true → (g.blk (ff n)).act = .stop → ff n = g.last →
      Lands g ff stack n .halted
  | state : ¬ ((g.blk (ff n)).empty = true ∧ (g.blk (ff n)).act = .stop ∧ ff n = g.last) →
      Lands g ff stack n (.at (ff n) stack)

/-- One cycle: the blocks executed, and the new position and data. A call remembers its return point, a
return continues at the return point remembered last. -/
inductive SrcCycle {σ : Type} (g : Cfg B) (ff : B → B) (S : Sem B σ) (env : σ → σ) :
    Pos B → σ → List B → Pos B → σ → Prop where
  | halted {s : σ} : SrcCycle g ff S env .halted s [] .halted (env s)
  | jump {b n : B} {st : List B} {s s' : σ} {tr : List B} {p : Pos B} :
      Cycle g S b s tr s' (.jump n) → Lands g ff st n p → SrcCycle g ff S env (.at b st) s tr p (env s')
  | halt {b : B} {st : List B} {s s' : σ} {tr : List B} :
      Cycle g S b s tr s' .halt → SrcCycle g ff S env (.at b st) s tr .halted (env s')
  | call {b c t r : B} {st : List B} {s s' : σ} {tr : List B} {p : Pos B} :
      Cycle g S b s tr s' (.call c t r) → Lands g ff (r :: st) t p →
      SrcCycle g ff S env (.at b st) s tr p (env s')
  | ret {b c r : B} {st : List B} {k : Nat} {s s' : σ} {tr : List B} {p : Pos B} :
      Cycle g S b s tr s' (.ret c k) → Lands g ff st r p →
      SrcCycle g ff S env (.at b (r :: st)) s tr p (env s')

/-- `n` cycles from the entry, with the blocks executed in each cycle. `env i` is what the rest of the
design (inputs, always blocks) does to the data at the end of cycle `i`. -/
inductive SrcRun {σ : Type} (g : Cfg B) (ff : B → B) (S : Sem B σ) (env : Nat → σ → σ) (s0 : σ) :
    Nat → List (List B) → Pos B → σ → Prop where
  | start : SrcRun g ff S env s0 0 [] (.at g.first []) s0
  | next {n : Nat} {trs : List (List B)} {tr : List B} {p p' : Pos B} {s s' : σ} :
      SrcRun g ff S env s0 n trs p s → SrcCycle g ff S (env n) p s tr p' s' →
      SrcRun g ff S env s0 (n + 1) (trs ++ [tr]) p' s'

/-- Well-formed graph of a state machine without pipelines. -/
structure WellFormed (g : Cfg B) (fsm : Nat) (ff : B → B) (num : Num B) : Prop where
  /-- the entry is a state -/
  entry : (g.blk g.first).isState = true
  /-- one machine -/
  single : ∀ b, Reached g ff b → (g.blk b).fsm = fsm
  /-- what follows a state within its cycle is well structured -/
  region : ∀ b, Reached g ff b → (g.blk b).isState = true → Reg g num none b true
  /-- calls go to a state and return to a state; the callee comes back (its return is reached) -/
  calls : ∀ b t r, Reached g ff b → (g.blk b).act = .call t r →
    (g.blk t).isState = true ∧ (g.blk r).isState = true ∧ Reached g ff (ff r)
  /-- an empty last block is the end of the algorithm -/
  lastEnds : (g.blk g.last).empty = true → (g.blk g.last).act = .stop

/-- States that some execution visits, whatever the data and the outcome of the conditions: the entry, the
states a cycle jumps to, callees, and the return points of calls. -/
inductive Visited (g : Cfg B) (ff : B → B) : B → Prop where
  | first : Visited g ff g.first
  | jump {b n : B} {σ : Type} {S : Sem B σ} {s s' : σ} {tr : List B} :
      Visited g ff b → Cycle g S b s tr s' (.jump n) → Visited g ff (ff n)
  | callee {b c t r : B} {σ : Type} {S : Sem B σ} {s s' : σ} {tr : List B} :
      Visited g ff b → Cycle g S b s tr s' (.call c t r) → Visited g ff (ff t)
  | back {b c t r : B} {σ : Type} {S : Sem B σ} {s s' : σ} {tr : List B} :
      Visited g ff b → Cycle g S b s tr s' (.call c t r) → Visited g ff (ff r)

/-- Successors within the same subroutine. -/
def flow (g : Cfg B) (b : B) : List B :=
  match (g.blk b).act with
  | .ret _ | .call _ _ => []
  | _ => g.children b

/-- Subroutines are entered by calls and left by returns only. -/
structure SubsWellFormed (g : Cfg B) (ff : B → B) : Prop where
  main : (g.blk g.first).sub = none
  stay : ∀ b c, Reached g ff b → c ∈ flow g b → (g.blk c).sub = (g.blk b).sub
  call : ∀ b t r, Reached g ff b → (g.blk b).act = .call t r →
    (∃ k, (g.blk t).sub = some k) ∧ (g.blk r).sub = (g.blk b).sub
  ret : ∀ b k, Reached g ff b → (g.blk b).act = .ret k → (g.blk b).sub = some k
  /-- skipping empty states stays in the subroutine -/
  skip : ∀ b, (g.blk b).isState = true → (g.blk (ff b)).sub = (g.blk b).sub

/-- Subroutine `k` contains a call of subroutine `k'`. -/
def SubCalls (g : Cfg B) (k k' : Nat) : Prop :=
  ∃ b t r, (g.blk b).act = .call t r ∧ (g.blk b).sub = some k ∧ (g.blk t).sub = some k'

/-- No subroutine calls itself, directly or through others. -/
def NoRecursion (g : Cfg B) : Prop := ∀ k, ¬ Relation.TransGen (SubCalls g) k k

end Silice
