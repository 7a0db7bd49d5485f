import Verif.Spec.Gather

/-!
Cycle-accurate meaning of statements: what is executed in each clock cycle, said on the program itself, without blocks, states or indices.
The rules are those of /repo/learn-silice/Documentation.md:1285-1500 (`++:` and loops end the cycle, code that fits does not, the cycle ends after
a conditional when a side takes several cycles, calls and joins take cycles), with the cases the documentation leaves open or gets wrong made
explicit: see `Prg.isLong`, `move` and DESIGN.md.
-/

set_option autoImplicit false

namespace Silice

/-- What the instructions, conditions, case labels and instances of a program mean on data `σ`. -/
structure Meaning (σ : Type) where
  instr : Nat → σ → σ
  take : Nat → σ → σ
  test : Nat → σ → Bool
  label : Nat → Nat → σ → Bool
  done : Nat → σ → Bool

/-- Something executed: an instruction, or the read of the outputs of a subroutine or instance. -/
inductive Did where
  | instr (i : Nat)
  | take (i : Nat)
deriving DecidableEq, Repr

/-- Its effect. -/
def Meaning.did {σ : Type} (M : Meaning σ) : Did → σ → σ
  | .instr i => M.instr i
  | .take i => M.take i

/-- Control may come to the end of the sequence: it holds no `break` or `return` outside of conditionals, loops and switches. -/
def Prg.canEnd : Prg → Bool
  | .nil => true
  | .instr _ k | .step k | .ifThen _ _ k | .ifElse _ _ _ k | .loop _ _ k | .switch _ _ k | .call _ _ _ _ k | .join _ _ _ k => k.canEnd
  | .block b k => b.canEnd && k.canEnd
  | .brk _ | .ret _ => false

/-- The empty sequence. -/
def Prg.isNil : Prg → Bool
  | .nil => true
  | _ => false

mutual

/-- Nothing is written after a `break` or `return`, where it would never be executed. -/
def Prg.tidy : Prg → Bool
  | .nil => true
  | .instr _ k | .step k | .call _ _ _ _ k | .join _ _ _ k => k.tidy
  | .brk k | .ret k => k.isNil
  | .block b k => b.tidy && k.tidy && (b.canEnd || k.isNil)
  | .ifThen _ b k | .loop _ b k => b.tidy && k.tidy
  | .ifElse _ t e k => t.tidy && e.tidy && k.tidy
  | .switch _ cs k => casesTidy cs && k.tidy

/-- Nor in the cases of a switch. -/
def casesTidy : List (Option Nat × Prg) → Bool
  | [] => true
  | (_, p) :: cs => p.tidy && casesTidy cs

end

/-- Programs in which nothing is written after a `break` or `return`. -/
def AlgUnit.tidy (u : AlgUnit) : Bool := u.main.tidy && (u.globals ++ u.locals).all Prg.tidy

/-- A side of a conditional takes more than a cycle, and what follows the conditional comes after it. -/
def Prg.isLong (p : Prg) : Bool := p.canEnd && !p.stateless

/-- What remains to be done when a sequence comes to its end. -/
inductive Frame where
  /-- the rest of the enclosing sequence; the cycle ends before it or not -/
  | after (k : Prg) (cut : Bool)
  /-- the loop whose body this was, followed by `k` -/
  | again (q : Nat) (b k : Prg)
  /-- the caller: it reads the outputs of the subroutine, then does `k` -/
  | back (take : Nat) (outs : Bool) (k : Prg)

/-- Where execution is. -/
inductive Ctl where
  /-- before these statements -/
  | run (p : Prg) (K : List Frame)
  /-- before the test of a loop -/
  | head (q : Nat) (b k : Prg) (K : List Frame)
  /-- waiting for an instance -/
  | waiting (inst take : Nat) (outs : Bool) (k : Prg) (K : List Frame)
  /-- before the read of the outputs of a subroutine or instance -/
  | reading (take : Nat) (outs : Bool) (k : Prg) (K : List Frame)
  /-- the inputs of subroutine `z` are written, it is about to be entered -/
  | calling (z take : Nat) (outs : Bool) (k : Prg) (K : List Frame)

/-- What happens next. -/
inductive Move where
  /-- something is executed -/
  | did (e : Did) (c : Ctl)
  /-- nothing, control goes on -/
  | on (c : Ctl)
  /-- a condition is tested, control goes on -/
  | tested (c : Ctl)
  /-- the cycle ends, unless nothing happened since it started -/
  | cut (c : Ctl)
  /-- the cycle ends, because of `++:` -/
  | step (c : Ctl)
  /-- the cycle ends -/
  | jump (c : Ctl)
  /-- the algorithm ends -/
  | halt
  /-- not a program: `break` outside of a loop, `return` outside of a subroutine, call of an unknown subroutine -/
  | stuck

/-- `break` leaves the innermost loop. -/
def leave : List Frame → Option (Prg × List Frame)
  | .after _ _ :: K => leave K
  | .again _ _ k :: K => some (k, K)
  | _ => none

/-- `return` leaves the subroutine. -/
def unwind : List Frame → Option (Nat × Bool × Prg × List Frame)
  | .after _ _ :: K | .again _ _ _ :: K => unwind K
  | .back t o k :: K => some (t, o, k, K)
  | [] => none

/-- The cycle ends, or not, before `c`. -/
def Move.cutIf (b : Bool) (c : Ctl) : Move := if b then .cut c else .on c

/-- After a test the cycle ends, or not, before `c`. -/
def Move.jumpIf (b : Bool) (c : Ctl) : Move := if b then .jump c else .tested c

/-- The next move. The cycle ends: at `++:`; when a loop is entered and before each iteration; at `break`; after a loop, but only if it contains a
`break`; after a conditional of which a side takes more than a cycle and comes to its end; after a switch of which a case takes more than a cycle;
when a subroutine is entered and when it returns; before waiting for an instance and after each cycle of the wait; and before the instructions that
lead to a `return` that follow a block, conditional, loop or switch. -/
def move {σ : Type} (subs : List Prg) (M : Meaning σ) (s : σ) : Ctl → Move
  | .run .nil [] => .halt
  | .run .nil (.after k cut :: K) => .cutIf cut (.run k K)
  | .run .nil (.again q b k :: K) => .cut (.head q b k K)
  | .run .nil (.back t o k :: K) => .jump (.reading t o k K)
  | .run (.instr i k) K => .did (.instr i) (.run k K)
  | .run (.step k) K => .step (.run k K)
  | .run (.block b k) K => .cutIf b.endsAtRet (.run b (.after k k.endsAtRet :: K))
  | .run (.ifThen q t k) K =>
    .tested (.run (if M.test q s then .block t .nil else .nil) (.after k (t.isLong || k.endsAtRet) :: K))
  | .run (.ifElse q t e k) K =>
    .tested (.run (.block (if M.test q s then t else e) .nil) (.after k (t.isLong || e.isLong || k.endsAtRet) :: K))
  | .run (.loop q b k) K => .cut (.head q b k K)
  | .head q b k K =>
    if M.test q s then .tested (.run (.block b .nil) (.again q b k :: K))
    else .jumpIf (b.breaks || k.endsAtRet) (.run k K)
  | .run (.brk _) K =>
    match leave K with
    | some (k, K) => .cut (.run k K)
    | none => .stuck
  | .run (.switch q cs k) K =>
    match pickCase (fun v => M.label q v s) cs with
    | some p => .tested (.run (.block p .nil) (.after k (!casesStateless cs || k.endsAtRet) :: K))
    | none => .jumpIf (!casesStateless cs || k.endsAtRet) (.run k K)
  | .run (.call z give t o k) K => .did (.instr give) (.calling z t o k K)
  | .calling z t o k K =>
    match subs[z]? with
    | some p => .jump (.run p (.back t o k :: K))
    | none => .stuck
  | .run (.join inst t o k) K => .cut (.waiting inst t o k K)
  | .waiting inst t o k K => if M.done inst s then .jump (.reading t o k K) else .jump (.waiting inst t o k K)
  | .reading t o k K => if o then .did (.take t) (.run k K) else .on (.run k K)
  | .run (.ret _) K =>
    match unwind K with
    | some (t, o, k, K) => .jump (.reading t o k K)
    | none => .stuck

/-- One cycle from `c`: what is executed in order, the data at the end, and where the next cycle starts (`none`: the algorithm ended). The flag says
that nothing happened since the cycle started and that it was not started by `++:`: then a `cut` is the one the cycle started with. -/
inductive TCycle {σ : Type} (subs : List Prg) (M : Meaning σ) : Ctl → Bool → σ → List Did → σ → Option (Ctl × Bool) → Prop where
  | halt {c : Ctl} {f : Bool} {s : σ} : move subs M s c = .halt → TCycle subs M c f s [] s none
  | did {c c' : Ctl} {f : Bool} {s s' : σ} {e : Did} {es : List Did} {o : Option (Ctl × Bool)} : move subs M s c = .did e c' →
      TCycle subs M c' false (M.did e s) es s' o → TCycle subs M c f s (e :: es) s' o
  | on {c c' : Ctl} {f : Bool} {s s' : σ} {es : List Did} {o : Option (Ctl × Bool)} : move subs M s c = .on c' →
      TCycle subs M c' f s es s' o → TCycle subs M c f s es s' o
  | tested {c c' : Ctl} {f : Bool} {s s' : σ} {es : List Did} {o : Option (Ctl × Bool)} : move subs M s c = .tested c' →
      TCycle subs M c' false s es s' o → TCycle subs M c f s es s' o
  | merged {c c' : Ctl} {s s' : σ} {es : List Did} {o : Option (Ctl × Bool)} : move subs M s c = .cut c' →
      TCycle subs M c' true s es s' o → TCycle subs M c true s es s' o
  | cut {c c' : Ctl} {s : σ} : move subs M s c = .cut c' → TCycle subs M c false s [] s (some (c', true))
  | step {c c' : Ctl} {f : Bool} {s : σ} : move subs M s c = .step c' → TCycle subs M c f s [] s (some (c', false))
  | jump {c c' : Ctl} {f : Bool} {s : σ} : move subs M s c = .jump c' → TCycle subs M c f s [] s (some (c', true))

/-- `n` cycles of algorithm `main` with subroutines `subs`, from data `s0`; `env i` is what the rest of the design does to the data at the end of
cycle `i`. -/
inductive TRun {σ : Type} (subs : List Prg) (main : Prg) (M : Meaning σ) (env : Nat → σ → σ) (s0 : σ) :
    Nat → List (List Did) → Option (Ctl × Bool) → σ → Prop where
  | start : TRun subs main M env s0 0 [] (some (.run main [], false)) s0
  | next {n : Nat} {trs : List (List Did)} {tr : List Did} {c : Ctl} {f : Bool} {o : Option (Ctl × Bool)} {s s' : σ} :
      TRun subs main M env s0 n trs (some (c, f)) s → TCycle subs M c f s tr s' o →
      TRun subs main M env s0 (n + 1) (trs ++ [tr]) o (env n s')
  | over {n : Nat} {trs : List (List Did)} {s : σ} : TRun subs main M env s0 n trs none s →
      TRun subs main M env s0 (n + 1) (trs ++ [[]]) none (env n s)

/-! ### Events of blocks -/

/-- What an instruction of a block does, if it does something. -/
def PIns.dids : PIns → List Did
  | .plain i => [.instr i]
  | .readback i outs => if outs then [.take i] else []

/-- What the instructions of a block do. -/
def insDids (is : List PIns) : List Did := is.flatMap PIns.dids

/-- Effect of a sequence of events. -/
def Meaning.all {σ : Type} (M : Meaning σ) (es : List Did) (s : σ) : σ := es.foldl (fun s e => M.did e s) s

/-- Meaning of the blocks `F`, given a meaning of instructions. -/
def Meaning.sem {σ B : Type} (M : Meaning σ) (ins : B → List PIns) : Sem B σ where
  exec b s := M.all (insDids (ins b)) s
  test := M.test
  label := M.label
  done := M.done

/-! ### Code that takes no time -/

/-- Ordinary execution of code without `++:`, loop, `break`, call, join or `return`: what is executed, and the data afterwards. -/
inductive Runs {σ : Type} (M : Meaning σ) : Prg → σ → List Did → σ → Prop where
  | nil {s : σ} : Runs M .nil s [] s
  | instr {i : Nat} {k : Prg} {s s' : σ} {es : List Did} : Runs M k (M.instr i s) es s' → Runs M (.instr i k) s (.instr i :: es) s'
  | block {b k : Prg} {s s1 s' : σ} {e1 e2 : List Did} : Runs M b s e1 s1 → Runs M k s1 e2 s' → Runs M (.block b k) s (e1 ++ e2) s'
  | ifThen {q : Nat} {t k : Prg} {s s1 s' : σ} {e1 e2 : List Did} : Runs M (if M.test q s then t else .nil) s e1 s1 → Runs M k s1 e2 s' →
      Runs M (.ifThen q t k) s (e1 ++ e2) s'
  | ifElse {q : Nat} {t e k : Prg} {s s1 s' : σ} {e1 e2 : List Did} : Runs M (if M.test q s then t else e) s e1 s1 → Runs M k s1 e2 s' →
      Runs M (.ifElse q t e k) s (e1 ++ e2) s'
  | case {q : Nat} {cs : List (Option Nat × Prg)} {p k : Prg} {s s1 s' : σ} {e1 e2 : List Did} :
      pickCase (fun v => M.label q v s) cs = some p → Runs M p s e1 s1 → Runs M k s1 e2 s' → Runs M (.switch q cs k) s (e1 ++ e2) s'
  | noCase {q : Nat} {cs : List (Option Nat × Prg)} {k : Prg} {s s' : σ} {es : List Did} :
      pickCase (fun v => M.label q v s) cs = none → Runs M k s es s' → Runs M (.switch q cs k) s es s'

end Silice
