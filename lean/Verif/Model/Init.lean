import Verif.Model.Regs

/-!
Initial values of variables: what a declaration gives (`gatherVarNfo`), where initial values are written (constants,
declarations of registers, start of blocks, clock edges), and what a cycle of the generated module does with them.
The text of a cycle is any program that reads and writes variables and enters blocks, the branches being decided by
what is read.
-/

set_option autoImplicit false

namespace Silice
variable {V R E : Type}

/-- How a variable is initialised in its declaration (/repo/antlr/silice.g4 211-215): `= v`, `(v)`, `= uninitialized`
or `(uninitialized)`, `= expression`, nothing; a table `[n] = {...}` with its list of values (`readInitList`, modelled in
`Table`), or uninitialised; and a member of a variable declared `sameas` a group. -/
inductive VarInit (V : Type) where
  | set (v : V)
  | cstr (v : V)
  | setNone
  | cstrNone
  | expr
  | absent
  | table (size : Nat) (vs : List V)
  | tableNone (size : Nat)
  | groupMember

/-- A declaration: block it is in (0 is `_top`), initialisation, and for `sameas` the initial values of the variable,
input or output the type is taken from. The search for it is modelled in `SameAs`; one that is `auto` is not modelled. -/
structure VarDecl (V : Type) where
  block : Nat
  init : VarInit V
  sameAs : Option (List V)

/-- What the code keeps of it (`t_var_nfo`, /repo/src/Blueprint.h 70-90), and whether it was put in the set of
variables its block initialises. -/
structure VarNfo (V : Type) where
  block : Nat
  noInit : Bool
  atStartup : Bool
  size : Nat
  init : List V
  sameAs : Option (List V)
  inBlock : Bool

/-- `insertVar` (/repo/src/Algorithm.cpp 524-547), for the set of variables the block initialises. -/
def VarNfo.insert (v : VarNfo V) : VarNfo V := { v with inBlock := !v.noInit && !v.atStartup }

/-- `gatherVarNfo` (/repo/src/Algorithm.cpp 613-665) with `default_no_init` false, `gatherTableNfo` (723-744) and the
members made for `sameas` a group (690-704). A declaration without initialisation is refused (`none`). A variable with
an expression has no initial value: an instruction assigns the expression where it is declared (706-717). -/
def gatherVar (d : VarDecl V) : Option (VarNfo V) :=
  match d.init with
  | .set v => some (VarNfo.insert ⟨d.block, false, false, 0, [v], d.sameAs, false⟩)
  | .cstr v => some (VarNfo.insert ⟨d.block, false, true, 0, [v], d.sameAs, false⟩)
  | .setNone => some (VarNfo.insert ⟨d.block, true, false, 0, [], d.sameAs, false⟩)
  | .cstrNone => some (VarNfo.insert ⟨d.block, true, true, 0, [], d.sameAs, false⟩)
  | .expr => some (VarNfo.insert ⟨d.block, true, false, 0, [], d.sameAs, false⟩)
  | .absent => none
  | .table n vs => some (VarNfo.insert ⟨d.block, false, false, n, vs, d.sameAs, false⟩)
  | .tableNone n => some (VarNfo.insert ⟨d.block, true, false, n, [], d.sameAs, false⟩)
  | .groupMember => some (VarNfo.insert ⟨d.block, false, false, 0, [], d.sameAs, false⟩)

/-- Start of `optimize` (/repo/src/Algorithm.cpp 6823-6831): with the option that forces initialisation at reset, no
variable is initialised at startup. The sets of the blocks are not changed. -/
def forceReset (force : Bool) (v : VarNfo V) : VarNfo V := if force then { v with atStartup := false } else v

/-- The variables, in order of declaration. -/
def gatherVars (force : Bool) : List (VarDecl V) → Option (List (VarNfo V))
  | [] => some []
  | d :: ds => do
    let v ← gatherVar d
    let vs ← gatherVars force ds
    return forceReset force v :: vs

/-- `varInitValue` (/repo/src/Blueprint.cpp 176-209) for a plain variable: with `sameas`, the value of the variable the
type is taken from, or 0. Outer `none`: the assertion fails; inner `none`: no value. -/
def varInitValue (z : V) (v : VarNfo V) : Option (Option V) :=
  match v.sameAs with
  | some (b :: _) => some (some b)
  | some [] => some (some z)
  | none =>
    match v.init with
    | b :: _ => some (some b)
    | [] => if v.noInit then some none else none

/-- How a variable is kept (`e_FlipFlop`, `e_Temporary`, `e_Const`). The choice is modelled in `Usage`; variables that
became macros are modelled in `Inline`. -/
inductive VarKept where
  | ff
  | temp
  | const
deriving DecidableEq, Repr

/-- The variables of a module: how it is used, declarations, how each is kept, and those that are never read
(`e_WriteOnly`). -/
structure VarSet (V : Type) where
  kind : AlgKind
  vars : List (VarNfo V)
  kept : Nat → VarKept
  writeOnly : Nat → Bool

/-- One cycle of the module, as a program: it reads entry `i` of variable `x` (0 for a plain variable) and goes on
according to the value, writes, enters a block, and ends. -/
inductive CycProg (V R : Type) where
  | done (r : R)
  | read (x i : Nat) (k : V → CycProg V R)
  | write (x i : Nat) (v : V) (k : CycProg V R)
  | enter (b : Nat) (k : CycProg V R)

/-- Sides of the variables: register input and output, temporaries, constants. -/
structure VarSides (V : Type) where
  d : Nat → Nat → V
  q : Nat → Nat → V
  t : Nat → Nat → V
  c : Nat → Nat → V

/-- An entry assigned. -/
def setEntry (f : Nat → Nat → V) (x i : Nat) (v : V) : Nat → Nat → V := fun y j => if y = x ∧ j = i then v else f y j

/-- Entries `i`, `i+1`, ... assigned. -/
def setEntries (f : Nat → Nat → V) (x : Nat) : Nat → List V → Nat → Nat → V
  | _, [] => f
  | i, v :: vs => setEntries (setEntry f x i v) x (i + 1) vs

/-- `writeConstDeclarations` (/repo/src/Algorithm.cpp 7753-7785), one variable: a plain one is assigned its initial
value, or 0; the entries of a table are assigned theirs. Entries that are not assigned have any value (`f`). -/
def constDecl (u : VarSet V) (z : V) (x : Nat) (v : VarNfo V) (f : Nat → Nat → V) : Option (Nat → Nat → V) :=
  if u.kept x ≠ .const then some f
  else if v.size = 0 then
    if !v.noInit then
      match varInitValue z v with
      | some (some w) => some (setEntry f x 0 w)
      | _ => none
    else some (setEntry f x 0 z)
  else if !v.noInit then some (setEntries f x 0 v.init)
  else some f

/-- `writeFlipFlopDeclarations` (/repo/src/Algorithm.cpp 7846-7866), one variable: initial value at configuration of both
sides. Registers without have any value. -/
def ffDecl (u : VarSet V) (x : Nat) (v : VarNfo V) (f : Nat → Nat → V) : Nat → Nat → V :=
  if u.kept x ≠ .ff then f
  else if v.size = 0 then
    match v.atStartup, v.init with
    | true, w :: _ => setEntry f x 0 w
    | _, _ => f
  else f

/-- The declarations, one variable after the other, from `x` on. -/
def declAll (u : VarSet V) (z : V) : Nat → List (VarNfo V) → VarSides V → Option (VarSides V)
  | _, [], s => some s
  | x, v :: vs, s => do
    let c ← constDecl u z x v s.c
    declAll u z (x + 1) vs { s with c := c, d := ffDecl u x v s.d, q := ffDecl u x v s.q }

/-- `writeVarInits` (/repo/src/Algorithm.cpp 9397-9421), one variable. -/
def varInit (u : VarSet V) (z : V) (x : Nat) (v : VarNfo V) (s : VarSides V) : Option (VarSides V) :=
  if u.kept x = .const then some s
  else if u.writeOnly x then some s
  else if v.noInit then some s
  else if v.atStartup then some s
  else if v.size = 0 then
    match varInitValue z v with
    | some (some w) => some (if u.kept x = .ff then { s with d := setEntry s.d x 0 w } else { s with t := setEntry s.t x 0 w })
    | _ => none
  else some (if u.kept x = .ff then { s with d := setEntries s.d x 0 v.init } else { s with t := setEntries s.t x 0 v.init })

/-- The variables of a block in order of declaration (9400-9405). -/
def varInits (u : VarSet V) (z : V) (b : Nat) : Nat → List (VarNfo V) → VarSides V → Option (VarSides V)
  | _, [], s => some s
  | x, v :: vs, s => do
    let s ← if v.inBlock && v.block == b then varInit u z x v s else some s
    varInits u z b (x + 1) vs s

/-- Start of a block (`writeBlock`, /repo/src/Algorithm.cpp 8485-8490): not for `_top`. -/
def enterBlock (u : VarSet V) (z : V) (b : Nat) (s : VarSides V) : Option (VarSides V) :=
  if b = 0 then some s else varInits u z b 0 u.vars s

/-- The text of a cycle. Registers are read on their input side, which is equal to the output side until they are
assigned (8143-8150); which one is written in the text is modelled in `Deps` and `Usage`. Constants are not assigned. -/
def runCycle (u : VarSet V) (z : V) : CycProg V R → VarSides V → Option (R × VarSides V)
  | .done r, s => some (r, s)
  | .read x i k, s =>
    match u.kept x with
    | .ff => runCycle u z (k (s.d x i)) s
    | .temp => runCycle u z (k (s.t x i)) s
    | .const => runCycle u z (k (s.c x i)) s
  | .write x i v k, s =>
    match u.kept x with
    | .ff => runCycle u z k { s with d := setEntry s.d x i v }
    | .temp => runCycle u z k { s with t := setEntry s.t x i v }
    | .const => none
  | .enter b k, s => do
    let s ← enterBlock u z b s
    runCycle u z k s

/-- What the update of a register uses of a variable (/repo/src/Algorithm.cpp 7971-7987). -/
def VarNfo.ff (z : V) (v : VarNfo V) : Option (FFVar V) :=
  if v.size = 0 then
    match varInitValue z v with
    | none => none
    | some none => some ⟨v.atStartup, v.noInit, 0, []⟩
    | some (some w) => some ⟨v.atStartup, v.noInit, 0, [w]⟩
  else some ⟨v.atStartup, v.noInit, v.size, v.init⟩

/-- Number of entries. -/
def VarNfo.entries (v : VarNfo V) : Nat := if v.size = 0 then 1 else v.size

/-- Entries of a register as a list, and back. -/
def entriesOf (f : Nat → Nat → V) (x n : Nat) : List V := (List.range n).map (f x)

/-- Clock edge: registers from `x` on. -/
def edgeAll (u : VarSet V) (z : V) (rst run : Bool) : Nat → List (VarNfo V) → VarSides V → Option (VarSides V)
  | _, [], s => some s
  | x, v :: vs, s => do
    let s ← if u.kept x = .ff then do
        let f ← v.ff z
        let q ← ffUpdate u.kind f rst run (entriesOf s.d x v.entries)
        pure { s with q := setEntries s.q x 0 q }
      else some s
    edgeAll u z rst run (x + 1) vs s

/-- What a cycle is given: inputs, reset, run, and what the temporaries hold before they are assigned. -/
structure CycIn (E V : Type) where
  ext : E
  rst : Bool
  run : Bool
  junk : Nat → Nat → V

/-- One cycle: registers (8143-8150), text, clock edge. `body` is the text for the current state of control and
`ctl` gives the next state of control from what the text gives (modelled in `Regs`, `Fsm`). -/
def unitCycle (u : VarSet V) (z : V) (body : E → R → CycProg V R) (ctl : Bool → Bool → R → R) (i : CycIn E V) (rs : R × VarSides V) : Option (R × VarSides V) := do
  let (r, s) ← runCycle u z (body i.ext rs.1) { rs.2 with d := rs.2.q, t := i.junk }
  let s ← edgeAll u z i.rst i.run 0 u.vars s
  return (ctl i.rst i.run r, s)

/-- A history of cycles. -/
def unitRun (u : VarSet V) (z : V) (body : E → R → CycProg V R) (ctl : Bool → Bool → R → R) : List (CycIn E V) → R × VarSides V → Option (R × VarSides V)
  | [], rs => some rs
  | i :: is, rs => do
    let rs ← unitCycle u z body ctl i rs
    unitRun u z body ctl is rs

/-- From configuration on: the declarations, then the cycles. `any` is what is not initialised. -/
def unitFrom (u : VarSet V) (z : V) (body : E → R → CycProg V R) (ctl : Bool → Bool → R → R) (r0 : R) (any : VarSides V) (is : List (CycIn E V)) : Option (R × VarSides V) := do
  let s ← declAll u z 0 u.vars any
  unitRun u z body ctl is (r0, s)

end Silice
