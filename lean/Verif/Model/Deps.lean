import Verif.Prelude

/-!
# Dependencies between variables inside a cycle

Models `dependencyClosure`, `updateAndCheckDependencies` (for variables; the checks on instances and on wires are
separate tests on the same map), `mergeDependenciesInto` and `updateUsageStableInCycle`,
/repo/src/Algorithm.cpp:4706-4970.
-/

set_option autoImplicit false

namespace Silice

/-- `e_FFUsage` restricted to the two sides, /repo/src/Algorithm.h:154-156: `d` is the value given in the cycle, `q` the
value from the previous cycle. An entry with no bit stands for an absent entry: entries start with `e_D` or `e_Q`
and only get more bits. -/
structure QD where
  q : Bool := false
  d : Bool := false
deriving DecidableEq, Repr

/-- The entry exists (`count`). -/
def QD.here (f : QD) : Bool := f.q || f.d

/-- `t_vio_dependencies`, /repo/src/Algorithm.h:540-545: the variables with an entry, and on what they depend. `names` lists
the names that may occur; the code does not have it, it serves to compare two maps. -/
structure Deps where
  keys : List String
  names : List String
  on : String → String → QD

/-- No dependencies. -/
def Deps.empty : Deps := ⟨[], [], fun _ _ => {}⟩

/-- Body of the loop of `dependencyClosure` for the variable `w`, 4716-4734: adds to what `w` depends on the dependencies
of those that have an entry. -/
def Deps.closeKey (D : Deps) (w : String) : Deps :=
  { D with on := Function.update D.on w fun x =>
      { q := (D.on w x).q || D.keys.any fun y => (D.on w y).here && (D.on y x).q
        d := (D.on w x).d || D.keys.any fun y => (D.on w y).here && (D.on y x).d } }

/-- One turn of the `while`, 4709-4735. The code goes through the keys in increasing order, here in any order of the
list. -/
def Deps.closePass (D : Deps) : Deps := D.keys.foldl Deps.closeKey D

/-- Whether the turn changed anything. -/
def Deps.same (D D' : Deps) : Bool := D.keys.all fun w => D.names.all fun x => decide (D.on w x = D'.on w x)

/-- `dependencyClosure`, 4706-4737. -/
def Deps.closure : Nat → Deps → Option Deps
  | 0, _ => none
  | fuel + 1, D => if D.same D.closePass then some D.closePass else Deps.closure fuel D.closePass

/-- Side read, 4790-4794: the current value if the variable has been written before. -/
def Deps.side (D : Deps) (r : String) : QD := if r ∈ D.keys then { d := true } else { q := true }

/-- Names not in the list are added. -/
def addNew (l l' : List String) : List String := l ++ l'.filter fun x => decide (x ∉ l)

/-- Replacement of the entries of written variables, 4788-4799. -/
def Deps.assign (D : Deps) (reads writes : List String) : Deps :=
  { keys := addNew D.keys writes
    names := addNew D.names (reads ++ writes)
    on := fun w x => if w ∈ writes then (if x ∈ reads then D.side x else {}) else D.on w x }

/-- Outcome of an instruction: the map, or the first written variable found to depend on itself on the `d` side, 4818-4840. -/
def Deps.instr (fuel : Nat) (D : Deps) (reads writes : List String) : Option (Except String Deps) :=
  (Deps.closure fuel (D.assign reads writes)).map fun D' =>
    match writes.find? fun w => (D'.on w w).d with
    | some w => .error w
    | none => .ok D'

/-- A sequence of instructions. -/
def Deps.instrs (fuel : Nat) : Deps → List (List String × List String) → Option (Except String Deps)
  | D, [] => some (.ok D)
  | D, i :: is =>
    match Deps.instr fuel D i.1 i.2 with
    | none => none
    | some (.error w) => some (.error w)
    | some (.ok D') => Deps.instrs fuel D' is

/-- `mergeDependenciesInto`, 4964-4970: `std::map::insert` keeps the entries that exist. -/
def Deps.merge (src dst : Deps) : Deps :=
  { keys := addNew dst.keys src.keys
    names := addNew dst.names src.names
    on := fun w x => if w ∈ dst.keys then dst.on w x else src.on w x }

mutual
/-- Code of a cycle as walked by `writeStatelessBlockGraph`, /repo/src/Algorithm.cpp:8788-9199, as far as dependencies are
concerned. `stop`: control leaves the cycle. `branch`: if/else (8850-8902) or switch (8921-8999); a switch without default
has an additional empty branch, which changes nothing in the code. The tests of conditionals are not recorded as
dependencies of what the branches assign, so they are not represented. The code after a conditional that is written
inside of one branch (8864-8873) counts as part of this branch. -/
inductive DStm where
  | skip
  | stop
  | ins (reads writes : List String)
  | seq (a b : DStm)
  | branch (bs : DBrs)

/-- Branches. -/
inductive DBrs where
  | one (s : DStm)
  | cons (s : DStm) (bs : DBrs)
end

mutual
/-- Dependencies after the code. -/
def Deps.stm (fuel : Nat) (D : Deps) : DStm → Option (Except String Deps)
  | .skip => some (.ok D)
  | .stop => some (.ok D)
  | .ins reads writes => Deps.instr fuel D reads writes
  | .seq a b =>
    match Deps.stm fuel D a with
    | none => none
    | some (.error w) => some (.error w)
    | some (.ok D') => Deps.stm fuel D' b
  | .branch bs => Deps.brs fuel D D bs

/-- All branches start from the same map `D`, and each is then merged into the result: 8894-8896, 8957-8959. -/
def Deps.brs (fuel : Nat) (D acc : Deps) : DBrs → Option (Except String Deps)
  | .one s =>
    match Deps.stm fuel D s with
    | none => none
    | some (.error w) => some (.error w)
    | some (.ok D') => some (.ok (Deps.merge D' acc))
  | .cons s bs =>
    match Deps.stm fuel D s with
    | none => none
    | some (.error w) => some (.error w)
    | some (.ok D') => Deps.brs fuel D (Deps.merge D' acc) bs
end

end Silice
