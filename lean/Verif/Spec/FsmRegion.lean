import Verif.Spec.Fsm

/-!
Well-structured control flow: the shape of block graphs under which the code emitted for one state is
compared with the source-level cycle.
-/

set_option autoImplicit false

namespace Silice
variable {B : Type}

/-- `Reg g num stop b ends`: the blocks executed from `b` on, within one cycle, are well structured.
`stop` is the block after the enclosing conditional. With `ends = false` control always comes to `stop`
within the cycle; with `ends = true` it always ends the cycle without the need to continue at `stop`.
For an if/else followed by a block that is not a state, both sides come to that block, or one side
does and the other ends the cycle (`num` then knows which: the last block of that side is not reached).
A switch that contains states needs a default. -/
inductive Reg (g : Cfg B) (num : Num B) : Option B → B → Bool → Prop where
  | stop {st : Option B} {b : B} : (g.blk b).act = .stop → Reg g num st b true
  | ret {st : Option B} {b : B} {s : Nat} : (g.blk b).act = .ret s → Reg g num st b true
  | call {st : Option B} {b t r : B} : (g.blk b).act = .call t r → Reg g num st b true
  | wait {st : Option B} {b w n : B} {k : Nat} : (g.blk b).act = .wait k w n →
      (g.blk w).isState = true → (g.blk n).isState = true → Reg g num st b true
  | gotoState {st : Option B} {b n : B} : (g.blk b).act = .goto n → (g.blk n).isState = true →
      Reg g num st b true
  | gotoStop {b n : B} : (g.blk b).act = .goto n → (g.blk n).isState = false →
      Reg g num (some n) b false
  | gotoMore {st : Option B} {b n : B} {k : Bool} : (g.blk b).act = .goto n →
      (g.blk n).isState = false → st ≠ some n → Reg g num st n k → Reg g num st b k
  | ifBoth {st : Option B} {b i it e et a : B} {c : Nat} {x y k : Bool} :
      (g.blk b).act = .ifElse c i x it e y et a → (g.blk a).isState = false →
      (num.pid it).isSome = (num.pid et).isSome →
      (g.blk i).isState = false → Reg g num (some a) i false →
      (g.blk e).isState = false → Reg g num (some a) e false →
      (st = some a → k = false) → (st ≠ some a → Reg g num st a k) → Reg g num st b k
  | ifElseEnds {st : Option B} {b i it e et a : B} {c : Nat} {x y : Bool} :
      (g.blk b).act = .ifElse c i x it e y et a → (g.blk a).isState = false →
      (num.pid it).isSome = true → (num.pid et).isSome = false →
      (g.blk i).isState = false → Reg g num (some a) i false →
      ((g.blk e).isState = false → Reg g num (some a) e true) →
      Reg g num st a true → Reg g num st b true
  | ifIfEnds {st : Option B} {b i it e et a : B} {c : Nat} {x y : Bool} :
      (g.blk b).act = .ifElse c i x it e y et a → (g.blk a).isState = false →
      (num.pid it).isSome = false → (num.pid et).isSome = true →
      ((g.blk i).isState = false → Reg g num (some a) i true) →
      (g.blk e).isState = false → Reg g num (some a) e false →
      Reg g num st a true → Reg g num st b true
  | ifState {st : Option B} {b i it e et a : B} {c : Nat} {x y : Bool} :
      (g.blk b).act = .ifElse c i x it e y et a → (g.blk a).isState = true →
      ((g.blk i).isState = false → Reg g num (some a) i true) →
      ((g.blk e).isState = false → Reg g num (some a) e true) → Reg g num st b true
  | switchFall {st : Option B} {b a : B} {c : Nat} {cs : List (Option Nat × B)} {k : Bool} :
      (g.blk b).act = .switch c cs a → (g.blk a).isState = false →
      (∀ p ∈ cs, (g.blk p.2).isState = false) → (∀ p ∈ cs, Reg g num (some a) p.2 false) →
      (st = some a → k = false) → (st ≠ some a → Reg g num st a k) → Reg g num st b k
  | switchState {st : Option B} {b a : B} {c : Nat} {cs : List (Option Nat × B)} :
      (g.blk b).act = .switch c cs a → (g.blk a).isState = true →
      (∃ p ∈ cs, p.1 = none) →
      (∀ p ∈ cs, (g.blk p.2).isState = false → Reg g num (some a) p.2 true) → Reg g num st b true
  | loop {st : Option B} {b i a : B} {c : Nat} : (g.blk b).act = .loop c i a →
      ((g.blk i).isState = false → Reg g num (some a) i true) →
      ((g.blk a).isState = false → Reg g num st a true) → Reg g num st b true

end Silice
