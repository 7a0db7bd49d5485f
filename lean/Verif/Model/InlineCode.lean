import Verif.Model.Inline
import Verif.Model.Usage

/-!
# Variables replaced by the expression assigned to them, in code with conditionals

Adds to `Verif.Model.Inline` the conditionals: `combineUsageInto` as far as it combines `stable_in_cycle`
(/repo/src/Algorithm.cpp:5093-5127), the walk of if/else and switch in `writeStatelessBlockGraph` (8850-8902, 8921-8999) and
the states of a machine (`writeCombinationalStates` 8316-8395), which are the branches of the test on the state.

The text macros of the second pass are directives: the Verilog preprocessor goes through them in the order of the text,
whatever branch is taken. So the second pass is modelled as a translation, with the macros known at each place, followed
by an execution.
-/

set_option autoImplicit false

namespace Silice

mutual
/-- Code of a cycle. `branch reads pick bs`: the test reads `reads` and selects a branch from their values; the last branch
serves for all larger numbers. If/else has two branches, a switch without default has an additional empty branch
(/repo/src/Algorithm.cpp:8990-8992), and the machine has a branch for each state. The code after a conditional that
is written inside of one branch (8864-8873) counts as part of this branch. -/
inductive ICode (V : Type) where
  | skip
  | asg (i : Asg V)
  | seq (a b : ICode V)
  | branch (reads : List String) (pick : List V → Nat) (bs : IBrs V)

/-- Branches. -/
inductive IBrs (V : Type) where
  | one (c : ICode V)
  | cons (c : ICode V) (bs : IBrs V)
end

/-- `num_stable` of one variable after the branches, /repo/src/Algorithm.cpp:5113-5124: counts the branches where it is stable;
a branch where it is not sets the count to two. -/
def numStable (n : Nat) : List (Option Bool) → Nat
  | [] => n
  | none :: bs => numStable n bs
  | some true :: bs => numStable (n + 1) bs
  | some false :: bs => numStable 2 bs

/-- The combination of `stable_in_cycle`, /repo/src/Algorithm.cpp:5093-5127. -/
def combineStable (before : Stable) (brs : List Stable) : Stable := fun t =>
  match before t with
  | some false => some false
  | some true => some (brs.all fun b => match b t with
    | none => true
    | some v => v)
  | none =>
    if brs.all fun b => (b t).isNone then none
    else some (decide (numStable 0 (brs.map fun b => b t) = 1))

section
variable {V : Type}

mutual
/-- First pass on the code: dependencies and stability, or an error. All branches start from the same dependencies and
stability; the dependencies are then merged in turn (8894-8899, 8957-8975). The tests are not recorded as dependencies
of what the branches assign. -/
def stableCode (fuel : Nat) (D : Deps) (st : Stable) : ICode V → Option (Except String (Deps × Stable))
  | .skip => some (.ok (D, st))
  | .asg i =>
    match Deps.instr fuel D i.reads [i.target] with
    | none => none
    | some (.error w) => some (.error w)
    | some (.ok D') => some (.ok (D', stableUpd D.keys D' i.target st))
  | .seq a b =>
    match stableCode fuel D st a with
    | none => none
    | some (.error w) => some (.error w)
    | some (.ok (D', st')) => stableCode fuel D' st' b
  | .branch _ _ bs =>
    match stableBrs fuel D st bs with
    | none => none
    | some (.error w) => some (.error w)
    | some (.ok rs) => some (.ok (rs.foldl (fun acc r => Deps.merge r.1 acc) D, combineStable st (rs.map Prod.snd)))

/-- The branches, one after the other. -/
def stableBrs (fuel : Nat) (D : Deps) (st : Stable) : IBrs V → Option (Except String (List (Deps × Stable)))
  | .one c =>
    match stableCode fuel D st c with
    | none => none
    | some (.error w) => some (.error w)
    | some (.ok r) => some (.ok [r])
  | .cons c bs =>
    match stableCode fuel D st c with
    | none => none
    | some (.error w) => some (.error w)
    | some (.ok r) =>
      match stableBrs fuel D st bs with
      | none => none
      | some (.error w) => some (.error w)
      | some (.ok rs) => some (.ok (r :: rs))
end

mutual
/-- Verilog after the preprocessor has expanded the macros: the names read are functions of the current values.
`target = none`: the definition of a macro, which does nothing when the code runs; the values of the names it reads are
kept to be compared. -/
inductive HCode (V : Type) where
  | skip
  | act (reads : List ((String → V) → V)) (target : Option String) (fn : List V → V)
  | seq (a b : HCode V)
  | branch (reads : List ((String → V) → V)) (pick : List V → Nat) (bs : HBrs V)

/-- Branches. -/
inductive HBrs (V : Type) where
  | one (c : HCode V)
  | cons (c : HCode V) (bs : HBrs V)
end

mutual
/-- Second pass: translation of the code, given the variables written before on some path and the macros defined before in
the text. Returns those after the code. `none`: a macro is not defined where it is used. -/
def inlCode (q : String → V) (inl : String → Bool) (keys : List String) (defs : String → Option ((String → V) → V)) :
    ICode V → Option (HCode V × List String × (String → Option ((String → V) → V)))
  | .skip => some (.skip, keys, defs)
  | .asg i =>
    match i.reads.mapM (inlRead q inl keys defs) with
    | none => none
    | some fs =>
      if inl i.target then
        some (.act fs none i.fn, keys ++ [i.target],
          Function.update defs i.target (some fun v => i.fn (fs.map fun f => f v)))
      else some (.act fs (some i.target) i.fn, keys ++ [i.target], defs)
  | .seq a b =>
    match inlCode q inl keys defs a with
    | none => none
    | some (ha, keys', defs') =>
      match inlCode q inl keys' defs' b with
      | none => none
      | some (hb, r) => some (.seq ha hb, r)
  | .branch reads pick bs =>
    match reads.mapM (inlRead q inl keys defs) with
    | none => none
    | some fs =>
      match inlBrs q inl keys defs bs with
      | none => none
      | some (hbs, keys', defs') => some (.branch fs pick hbs, keys ++ keys', defs')

/-- The branches: each starts with the variables written before the conditional, but with the macros of the text before
it. -/
def inlBrs (q : String → V) (inl : String → Bool) (keys : List String) (defs : String → Option ((String → V) → V)) :
    IBrs V → Option (HBrs V × List String × (String → Option ((String → V) → V)))
  | .one c =>
    match inlCode q inl keys defs c with
    | none => none
    | some (hc, keys', defs') => some (.one hc, keys', defs')
  | .cons c bs =>
    match inlCode q inl keys defs c with
    | none => none
    | some (hc, keys', defs') =>
      match inlBrs q inl keys defs' bs with
      | none => none
      | some (hbs, keys'', defs'') => some (.cons hc hbs, keys' ++ keys'', defs'')
end

mutual
/-- Execution during a cycle: the values read along the path, and the final values. -/
def runH (v : String → V) : HCode V → List (List V) × (String → V)
  | .skip => ([], v)
  | .act fs none _ => ([fs.map fun f => f v], v)
  | .act fs (some t) fn => ([fs.map fun f => f v], Function.update v t (fn (fs.map fun f => f v)))
  | .seq a b => ((runH v a).1 ++ (runH (runH v a).2 b).1, (runH (runH v a).2 b).2)
  | .branch fs pick bs =>
    ((fs.map fun f => f v) :: (runHBrs v (pick (fs.map fun f => f v)) bs).1, (runHBrs v (pick (fs.map fun f => f v)) bs).2)

/-- The branch of a number. -/
def runHBrs (v : String → V) (m : Nat) : HBrs V → List (List V) × (String → V)
  | .one c => runH v c
  | .cons c bs => if m = 0 then runH v c else runHBrs v (m - 1) bs
end

/-- An assignment as an instruction of `Verif.Model.Usage`. -/
def Asg.toIns (i : Asg V) : Ins V := { reads := i.reads, writes := [i.target], fn := fun vs _ => i.fn vs }

mutual
/-- The code as walked for the usage of the flip-flops (`Verif.Model.Usage`): the same walk, the same conditionals. -/
def ICode.toStm : ICode V → Stm V Nat
  | .skip => .skip
  | .asg i => .ins i.toIns
  | .seq a b => .seq a.toStm b.toStm
  | .branch reads pick bs => .branch reads (fun vs => some (pick vs)) bs.toBrs false none

/-- Branches. -/
def IBrs.toBrs : IBrs V → Brs V Nat
  | .one c => .one c.toStm
  | .cons c bs => .cons c.toStm bs.toBrs
end

/-- Choice made after the first pass, /repo/src/Algorithm.cpp:9583-9640: a variable becomes a macro if the first pass found it
stable and did not use its previous value. Simplified: the variables are flip-flops in the first pass (those that
`determineUsage` already made temporaries are not considered). `couldBeADefine`: the tests on
the variable itself (no table, not an output, no part of it accessed, ...), any set of names here. -/
def inlChosen (couldBeADefine : String → Bool) (st : Stable) (c : ICode V) (x : String) : Bool :=
  couldBeADefine x && decide (st x = some true) && !(c.toStm.use (fun _ => .flipflop) (fun _ => false) (fun _ => {}) x).q

end

end Silice
