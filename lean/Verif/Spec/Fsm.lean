import Verif.Model.Fsm

/-!
Specifications for state machines: which blocks are reached, in which state a block is executed, and the
source-level meaning of one cycle.
-/

set_option autoImplicit false

namespace Silice
variable {B : Type}

/-- Where control arrives when going to block `c`: jumps to a state are fast-forwarded. -/
def arrive (g : Cfg B) (ff : B → B) (c : B) : B := if (g.blk c).isState then ff c else c

/-- Blocks reached from the entry, following all children. -/
inductive Reached (g : Cfg B) (ff : B → B) : B → Prop where
  | first : Reached g ff g.first
  | child {b c : B} : Reached g ff b → c ∈ g.children b → Reached g ff (arrive g ff c)

/-- Block `b` is a state of state machine `fsm`. -/
def OwnState (g : Cfg B) (fsm : Nat) (b : B) : Prop := (g.blk b).isState = true ∧ (g.blk b).fsm = fsm

/-- Block `b` is executed in state `s`: it is `s`, or follows a block executed in `s` and is not itself a
state of the machine. -/
inductive ExecutedIn (g : Cfg B) (fsm : Nat) (ff : B → B) (s : B) : B → Prop where
  | self : OwnState g fsm s → ExecutedIn g fsm ff s s
  | next {b c : B} : ExecutedIn g fsm ff s b → c ∈ g.children b → ¬ OwnState g fsm (arrive g ff c) →
      ExecutedIn g fsm ff s (arrive g ff c)

/-! ### Source-level control flow -/

/-- Where control goes after block `b`, the data being `s`: to another block, or out of the cycle. -/
inductive Go (B : Type) where
  | to (b : B)
  | out (o : Out B)

/-- Sequence, if/else, switch (first matching label, else default, else what follows), while, wait,
subroutine call and return, termination. -/
def go {σ : Type} (g : Cfg B) (S : Sem B σ) (b : B) (s : σ) : Go B :=
  match (g.blk b).act with
  | .stop => .out .halt
  | .goto n => .to n
  | .ifElse c i _ _ e _ _ _ => .to (if S.test c s then i else e)
  | .switch c cs a =>
    match pickCase (fun v => S.label c v s) cs with
    | some n => .to n
    | none => .to a
  | .loop c i a => .to (if S.test c s then i else a)
  | .wait k w n => .to (if S.done k s then n else w)
  | .ret k => .out (.ret b k)
  | .call t r => .out (.call b t r)

/-- One cycle at source level, starting at block `b` with data `s`: the blocks executed in order, the data
at the end, and how the cycle ends. A cycle ends when a state is reached. -/
inductive Cycle {σ : Type} (g : Cfg B) (S : Sem B σ) : B → σ → List B → σ → Out B → Prop where
  | out {b : B} {s : σ} {o : Out B} : go g S b (S.exec b s) = .out o →
      Cycle g S b s [b] (S.exec b s) o
  | state {b n : B} {s : σ} : go g S b (S.exec b s) = .to n → (g.blk n).isState = true →
      Cycle g S b s [b] (S.exec b s) (.jump n)
  | more {b n : B} {s s' : σ} {tr : List B} {o : Out B} : go g S b (S.exec b s) = .to n →
      (g.blk n).isState = false → Cycle g S n (S.exec b s) tr s' o →
      Cycle g S b s (b :: tr) s' o

end Silice
