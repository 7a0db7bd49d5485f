import Verif.Model.Jump
import Verif.Spec.Fsm

/-!
What a program with labels and jumps means, with no blocks and no states: positions in the text of the program.
-/

set_option autoImplicit false

namespace Silice

/-- Labels of a program, in the order of the text. -/
def JPrg.labels : JPrg → List String
  | .nil => []
  | .label l k => l :: k.labels
  | .instr _ k | .step k | .jump _ k | .brk k => k.labels
  | .block b k | .ifThen _ b k | .loop _ b k => b.labels ++ k.labels
  | .ifElse _ t e k => t.labels ++ (e.labels ++ k.labels)

/-- Labels of the `goto`s of a program. -/
def JPrg.jumps : JPrg → List String
  | .nil => []
  | .jump l k => l :: k.jumps
  | .instr _ k | .step k | .label _ k | .brk k => k.jumps
  | .block b k | .ifThen _ b k | .loop _ b k => b.jumps ++ k.jumps
  | .ifElse _ t e k => t.jumps ++ (e.jumps ++ k.jumps)

/-- The program without the label `l`. -/
def JPrg.unlabel (l : String) : JPrg → JPrg
  | .nil => .nil
  | .instr i k => .instr i (k.unlabel l)
  | .step k => .step (k.unlabel l)
  | .label l' k => if l' = l then k.unlabel l else .label l' (k.unlabel l)
  | .jump l' k => .jump l' (k.unlabel l)
  | .block b k => .block (b.unlabel l) (k.unlabel l)
  | .ifThen q t k => .ifThen q (t.unlabel l) (k.unlabel l)
  | .ifElse q t e k => .ifElse q (t.unlabel l) (e.unlabel l) (k.unlabel l)
  | .loop q b k => .loop q (b.unlabel l) (k.unlabel l)
  | .brk k => .brk (k.unlabel l)

/-- The statements contain a `break` of the enclosing loop. -/
def JPrg.breaks : JPrg → Bool
  | .nil => false
  | .instr _ k | .step k | .label _ k | .jump _ k | .loop _ _ k => k.breaks
  | .block b k | .ifThen _ b k => b.breaks || k.breaks
  | .ifElse _ t e k => t.breaks || e.breaks || k.breaks
  | .brk _ => true

/-- What remains to be done after a sequence of statements: the statements that follow it, or, when the sequence is the body of
`while (q) { b } k`, the next iteration and then `k`. -/
inductive JFr where
  | rest (k : JPrg)
  | body (q : Nat) (b k : JPrg)

/-- Where the program is: before some statements, before the test of a `while`, or at the end. -/
inductive JPos where
  | run (q : JPrg) (K : List JFr)
  | head (q : Nat) (b k : JPrg) (K : List JFr)
  | done

/-- The statements after the label `l`, when it is in these statements. -/
def JPrg.find (l : String) : JPrg → List JFr → Option (JPrg × List JFr)
  | .nil, _ => none
  | .label l' k, K => if l' = l then some (k, K) else k.find l K
  | .instr _ k, K | .step k, K | .jump _ k, K | .brk k, K => k.find l K
  | .block b k, K | .ifThen _ b k, K =>
    match b.find l (.rest k :: K) with
    | some r => some r
    | none => k.find l K
  | .ifElse _ t e k, K =>
    match t.find l (.rest k :: K) with
    | some r => some r
    | none =>
      match e.find l (.rest k :: K) with
      | some r => some r
      | none => k.find l K
  | .loop q b k, K =>
    match b.find l (.body q b k :: K) with
    | some r => some r
    | none => k.find l K

/-- What follows the innermost loop. -/
def afterLoop : List JFr → Option (JPrg × List JFr)
  | [] => none
  | .rest _ :: K => afterLoop K
  | .body _ _ k :: K => some (k, K)

/-- What can be observed: an instruction is carried out, or a new state is entered. -/
inductive JEv where
  | instr (i : Nat)
  | state
deriving DecidableEq

/-- Meaning of instructions and conditions. -/
structure JSem (σ : Type) where
  exec : Nat → σ → σ
  test : Nat → σ → Bool

/-- A new state when `b` holds. -/
def stateIf (b : Bool) : List JEv := if b then [.state] else []

/-- One step of program `p`. New states are entered: by `++:`, by a `goto`, when control comes to a label some `goto` names, before each test of a
`while`, by `break`, and when leaving a `while` that contains a `break`. `none`: there is no next step (end of the program; a `goto` without label; a
`break` without loop). -/
def jStep {σ : Type} (p : JPrg) (S : JSem σ) : JPos → σ → Option (JPos × σ × List JEv)
  | .done, _ => none
  | .run .nil [], s => some (.done, s, [])
  | .run .nil (.rest k :: K), s => some (.run k K, s, [])
  | .run .nil (.body q b k :: K), s => some (.head q b k K, s, [.state])
  | .head q b k K, s =>
    if S.test q s then some (.run b (.body q b k :: K), s, []) else some (.run k K, s, stateIf b.breaks)
  | .run (.instr i k) K, s => some (.run k K, S.exec i s, [.instr i])
  | .run (.step k) K, s => some (.run k K, s, [.state])
  | .run (.label l k) K, s => some (.run k K, s, stateIf (p.jumps.contains l))
  | .run (.jump l _) _, s => (p.find l []).map fun r => (.run r.1 r.2, s, [.state])
  | .run (.block b k) K, s => some (.run b (.rest k :: K), s, [])
  | .run (.ifThen q t k) K, s => if S.test q s then some (.run t (.rest k :: K), s, []) else some (.run k K, s, [])
  | .run (.ifElse q t e k) K, s => some (.run (if S.test q s then t else e) (.rest k :: K), s, [])
  | .run (.loop q b k) K, s => some (.head q b k K, s, [.state])
  | .run (.brk _) K, s => (afterLoop K).map fun r => (.run r.1 r.2, s, [.state])

/-- What was observed so far, the data, and whether there is a next step. -/
structure JObs (σ : Type) where
  events : List JEv
  data : σ
  ended : Bool

/-- Iteration of a step, from position `x`; nothing changes once there is no next step. -/
def iter {X σ : Type} (f : X → σ → Option (X × σ × List JEv)) (x : X) (s : σ) : Nat → X × σ × List JEv
  | 0 => (x, s, [])
  | n + 1 =>
    let r := iter f x s n
    match f r.1 r.2.1 with
    | none => r
    | some r' => (r'.1, r'.2.1, r.2.2 ++ r'.2.2)

/-- What is observed after `n` steps. -/
def observe {X σ : Type} (f : X → σ → Option (X × σ × List JEv)) (x : X) (s : σ) (n : Nat) : JObs σ :=
  let r := iter f x s n
  { events := r.2.2, data := r.2.1, ended := (f r.1 r.2.1).isNone }

/-- What is observed of a program after `n` steps. -/
def srcObserve {σ : Type} (p : JPrg) (S : JSem σ) (s : σ) (n : Nat) : JObs σ := observe (jStep p S) (.run p []) s n

/-- Meaning of the blocks of a graph. -/
def JSem.blocks {σ : Type} {B : Type} (S : JSem σ) (ins : B → List Nat) : Sem B σ where
  exec b s := (ins b).foldl (fun s i => S.exec i s) s
  test := S.test
  label _ _ _ := false
  done _ _ := false

/-- One step in a graph of blocks: the next instruction of the block, or else the move to the next block (`go`, the source-level control flow of
C21). A position is a block and the number of its instructions that have been carried out. -/
def gStep {σ : Type} {B : Type} (g : Cfg B) (ins : B → List Nat) (S : JSem σ) (x : B × Nat) (s : σ) :
    Option ((B × Nat) × σ × List JEv) :=
  match (ins x.1)[x.2]? with
  | some i => some ((x.1, x.2 + 1), S.exec i s, [.instr i])
  | none =>
    match go g (S.blocks ins) x.1 s with
    | .out _ => none
    | .to n => some ((n, 0), s, stateIf (g.blk n).isState)

/-- What is observed of the graph after `n` steps from its entry. -/
def graphObserve {σ : Type} {B : Type} (g : Cfg B) (ins : B → List Nat) (S : JSem σ) (s : σ) (n : Nat) : JObs σ :=
  observe (gStep g ins S) (g.first, 0) s n

end Silice
