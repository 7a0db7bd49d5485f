import Verif.Prelude

/-!
# Which variables are registers: usage of flip-flops, storage classes, sides of reads

Models the two-pass writing of an algorithm in /repo/src/Algorithm.cpp as far as the storage of variables
is concerned: `rewriteIdentifier`, `updateFFUsage`, `clearNoLatchFFUsage`, `combineUsageInto` (bits of the
flip-flops only, stability of expressions in a cycle is not part of this file), the walk of `writeStatelessBlockGraph`,
`writeCombinationalAlwaysPre`, `writeCombinationalStates`, the end of `writeAsModule` and the demotion of
flip-flops to temporaries after the first pass.

The code of one cycle is given as a tree (`Stm`), the way the recursion of `writeStatelessBlockGraph` walks
the graph of blocks. The bodies of instructions are abstract functions of the values they read.
Not modelled: pipelines, wires, combinational outputs, initialisation of variables local to a block,
tables.
-/

set_option autoImplicit false

namespace Silice

/-! ### Code of a cycle -/

/-- One instruction: names read, names assigned as a whole, names assigned in part through a part select
(`x[i,n] = ...`), names assigned in part through a bit field (`F(x).m = ...`), and what is assigned:
`fn` for whole assignments, `upd` (of the old value) for partial ones.
Models what `determineVIOAccess` and `writeAssignement` see of an instruction,
/repo/src/Algorithm.cpp:5406-5724, 7434-7610. The expressions are abstract. -/
structure Ins (V : Type) where
  reads : List String
  writes : List String
  parts : List String := []
  fields : List String := []
  fn : List V → String → V
  upd : List V → String → V → V := fun _ _ v => v

mutual
/-- Code of one cycle as walked by `writeStatelessBlockGraph`, /repo/src/Algorithm.cpp:8788-9199.
* `exit l`: the index of the next state is assigned and the walk stops (jump, end, call, return, wait). `L` stands for
  these assignments; here the index itself, in Model/Whole also the calls and returns.
* `branch reads sel bs push other`: conditional. `reads` are the names in the test, `sel` gives the branch
  taken from their values, or `none` when no branch is entered; then control goes on after the conditional
  (`other = none`) or to state `l` (`other = some l`). `push`: whether an untouched copy of the usage is
  added to the branches.
  * if/else (8850-8905): two branches, `push = false`, `sel` never `none`;
  * switch (8906-8999): the cases, `push = true` without default and not onehot;
  * while followed by code of the same cycle (9000-9040): two branches (iteration, rest);
  * while followed by a state (same lines): one branch, `push = false`, `other = some l`. -/
inductive Stm (V : Type) (L : Type := Nat) where
  | skip
  | ins (i : Ins V)
  | exit (l : L)
  | seq (a b : Stm V L)
  | branch (reads : List String) (sel : List V → Option Nat) (bs : Brs V L) (push : Bool) (other : Option L)

/-- Non empty list of branches. -/
inductive Brs (V : Type) (L : Type := Nat) where
  | one (s : Stm V L)
  | cons (s : Stm V L) (bs : Brs V L)
end

/-! ### Bits of usage -/

/-- `e_FFUsage` as four bits, /repo/src/Algorithm.h:154-158. -/
structure FFUse where
  d : Bool := false
  q : Bool := false
  latch : Bool := false
  noLatch : Bool := false
deriving DecidableEq, Repr

/-- `updateFFUsage(e_Q, true, _)`, /repo/src/Algorithm.cpp:4974-4990. -/
def FFUse.readQ (f : FFUse) : FFUse := { f with q := true }

/-- `updateFFUsage(e_D, true, _)`, /repo/src/Algorithm.cpp:4974-4990. -/
def FFUse.readD (f : FFUse) : FFUse := { f with d := true, q := f.q || f.latch }

/-- `updateFFUsage(e_D, false, _)`, /repo/src/Algorithm.cpp:4974-4990. -/
def FFUse.writeD (f : FFUse) : FFUse := { f with d := true }

/-- `clearNoLatchFFUsage`, /repo/src/Algorithm.cpp:4994-4999. -/
def FFUse.clearNoLatch (f : FFUse) : FFUse := { f with noLatch := false }

/-- `v == e_D || v == (e_D|e_NoLatch)`, /repo/src/Algorithm.cpp:5013. -/
def FFUse.exactlyD (f : FFUse) : Bool := f.d && !f.q && !f.latch

/-- `combineUsageInto` for one variable, /repo/src/Algorithm.cpp:5003-5098. Names absent from a map count as
no bit set. -/
def combine1 (before : FFUse) (brs : List FFUse) : FFUse :=
  let inAll := !brs.isEmpty && brs.all FFUse.exactlyD
  let promote := brs.any fun b => b.d && !b.q && before.latch
  let latch := brs.any fun b => (b.d || b.noLatch) && !b.q && !before.noLatch && !inAll
  { d := before.d || brs.any (·.d)
    q := before.q || brs.any (·.q) || promote
    latch := latch
    noLatch := inAll }

/-- Storage class of a variable: flip-flop or temporary. -/
inductive Store where
  | flipflop
  | temp
deriving DecidableEq, Repr

/-- Names with an entry in the map of dependencies: those assigned so far in the cycle, on some path. -/
abbrev Keys := String → Bool

/-- `ff_usage`. -/
abbrev Usage := String → FFUse

/-- Usage after one read of a variable, `rewriteIdentifier` with ff = FF_Q and read access,
/repo/src/Algorithm.cpp:1628-1668. -/
def readUse (c : Store) (k : Bool) (u : FFUse) : FFUse :=
  match c with
  | .temp => u.readD
  | .flipflop => if k then u.readD else u.readQ

/-- Usage after the reads of an expression. -/
def readsUse (cls : String → Store) (rs : List String) (K : Keys) (U : Usage) : Usage := fun x =>
  if x ∈ rs then readUse (cls x) (K x) (U x) else U x

/-- Usage after the left hand sides of an instruction: `e_D` for each assigned name, `e_Q` in addition for
part selects (7498-7506), not for bit fields (7434-7473). The code writes the left hand side before the
right one; the two commute. /repo/src/Algorithm.cpp:7344-7530. -/
def writesUse {V : Type} (i : Ins V) (U : Usage) : Usage := fun x =>
  let u := if x ∈ i.writes ∨ x ∈ i.parts ∨ x ∈ i.fields then (U x).writeD else U x
  if x ∈ i.parts then u.readQ else u

/-- Names assigned after an instruction (first part of `updateAndCheckDependencies`),
/repo/src/Algorithm.cpp:4741-4800. -/
def insKeys {V : Type} (i : Ins V) (K : Keys) : Keys := fun x =>
  K x || decide (x ∈ i.writes ∨ x ∈ i.parts ∨ x ∈ i.fields)

mutual
/-- Names with dependencies after some code: at the end of a conditional those of all branches
(`mergeDependenciesInto`), /repo/src/Algorithm.cpp:4964-4970, 8788-9199. -/
def Stm.keys {V L : Type} : Stm V L → Keys → Keys
  | .skip, K => K
  | .ins i, K => insKeys i K
  | .exit _, K => K
  | .seq a b, K => b.keys (a.keys K)
  | .branch _ _ bs _ _, K => fun x => K x || bs.anyKey K x

/-- Does some branch assign the name. -/
def Brs.anyKey {V L : Type} : Brs V L → Keys → String → Bool
  | .one s, K, x => s.keys K x
  | .cons s bs, K, x => s.keys K x || bs.anyKey K x
end

mutual
/-- Usage after some code. Every branch starts from the usage after the test, the branches are combined at
the end, /repo/src/Algorithm.cpp:8788-9199. -/
def Stm.use {V L : Type} (cls : String → Store) : Stm V L → Keys → Usage → Usage
  | .skip, _, U => U
  | .ins i, K, U => writesUse i (readsUse cls i.reads K U)
  | .exit _, _, U => U
  | .seq a b, K, U => b.use cls (a.keys K) (a.use cls K U)
  | .branch rs _ bs push _, K, U => fun x =>
    let U1 := readsUse cls rs K U
    combine1 (U1 x) ((bs.uses cls K U1).map (· x) ++ if push then [U1 x] else [])

/-- Usage after each branch. -/
def Brs.uses {V L : Type} (cls : String → Store) : Brs V L → Keys → Usage → List Usage
  | .one s, K, U => [s.use cls K U]
  | .cons s bs, K, U => s.use cls K U :: bs.uses cls K U
end

/-! ### Emitted code -/

/-- What is read: the flip-flop output (`_q_x`), or the flip-flop input or temporary (`_d_x`, `_t_x`). -/
inductive Side where
  | q
  | v
deriving DecidableEq, Repr

mutual
/-- Emitted code. -/
inductive ECode (V : Type) (L : Type := Nat) where
  | skip
  | ins (sides : List Side) (i : Ins V)
  | exit (l : L)
  | seq (a b : ECode V L)
  | branch (sides : List Side) (reads : List String) (sel : List V → Option Nat) (bs : EBrs V L) (other : Option L)

/-- Emitted branches. -/
inductive EBrs (V : Type) (L : Type := Nat) where
  | one (s : ECode V L)
  | cons (s : ECode V L) (bs : EBrs V L)
end

/-- Side on which a variable is read, `rewriteIdentifier`, /repo/src/Algorithm.cpp:1628-1668. -/
def readSide (cls : String → Store) (K : Keys) (x : String) : Side :=
  match cls x with
  | .temp => .v
  | .flipflop => if K x then .v else .q

mutual
/-- Code emitted by `writeStatelessBlockGraph`, given the names assigned before. -/
def Stm.emit {V L : Type} (cls : String → Store) : Stm V L → Keys → ECode V L
  | .skip, _ => .skip
  | .ins i, K => .ins (i.reads.map (readSide cls K)) i
  | .exit l, _ => .exit l
  | .seq a b, K => .seq (a.emit cls K) (b.emit cls (a.keys K))
  | .branch rs sel bs _ other, K => .branch (rs.map (readSide cls K)) rs sel (bs.emits cls K) other

/-- Code emitted for branches, all from the same names assigned before. -/
def Brs.emits {V L : Type} (cls : String → Store) : Brs V L → Keys → EBrs V L
  | .one s, K => .one (s.emit cls K)
  | .cons s bs, K => .cons (s.emit cls K) (bs.emits cls K)
end

/-- What an executed instruction or test did: names read, values read, names assigned as a whole. -/
structure Ev (V : Type) where
  reads : List String
  vals : List V
  writes : List String

/-- Assignments of an instruction, given the values read. -/
def Ins.apply {V : Type} (i : Ins V) (vals : List V) (m : String → V) : String → V := fun x =>
  if x ∈ i.writes then i.fn vals x
  else if x ∈ i.parts ∨ x ∈ i.fields then i.upd vals x (m x)
  else m x

/-- State of the combinational part during a cycle: outputs of the flip-flops, current values of flip-flop
inputs and temporaries, index assigned so far, what was done. -/
structure HSt (V : Type) (L : Type := Nat) where
  q : String → V
  v : String → V
  next : Option L
  evs : List (Ev V)

/-- Value read. -/
def HSt.rd {V L : Type} (h : HSt V L) (p : Side × String) : V :=
  match p.1 with
  | .q => h.q p.2
  | .v => h.v p.2

mutual
/-- Blocking assignments, in order. Assigning the index does not stop the code. -/
def ECode.run {V L : Type} : ECode V L → HSt V L → HSt V L
  | .skip, h => h
  | .ins sides i, h =>
    let vals := (sides.zip i.reads).map h.rd
    { h with v := i.apply vals h.v, evs := h.evs ++ [⟨i.reads, vals, i.writes⟩] }
  | .exit l, h => { h with next := some l }
  | .seq a b, h => b.run (a.run h)
  | .branch sides rs sel bs other, h =>
    let vals := (sides.zip rs).map h.rd
    let h1 := { h with evs := h.evs ++ [⟨rs, vals, []⟩] }
    match sel vals with
    | some k => bs.run k h1
    | none => { h1 with next := other <|> h1.next }

/-- The branch selected (the last one for indices beyond). -/
def EBrs.run {V L : Type} : EBrs V L → Nat → HSt V L → HSt V L
  | .one s, _, h => s.run h
  | .cons s _, 0, h => s.run h
  | .cons _ bs, k + 1, h => bs.run k h
end

/-! ### A whole algorithm -/

/-- An algorithm: `always_before`, code of each state (state 0 is the termination state and has no code,
here states are numbered from 0 and every index beyond is the termination state), `always_after`, and the
variables bound to inputs of instances: read before (`bindQ`, `<::`) or after (`bindD`, `<:`) the cycle, and the
outputs that are not combinational (`output!` ones are not listed). No state at all: `hasNoFSM`. -/
structure Design (V : Type) (L : Type := Nat) where
  pre : Stm V L
  states : List (Stm V L)
  post : Stm V L
  bindQ : List String
  bindD : List String
  outs : List String := []

/-- Names assigned after `always_before`. /repo/src/Algorithm.cpp:8157-8302. Simplified: no combinational
instance outputs. -/
def Design.preKeys {V L : Type} (a : Design V L) : Keys := a.pre.keys fun _ => false

/-- Names assigned before `always_after` (`post_dependencies`): merged at the end of `always_before` and of each
state. /repo/src/Algorithm.cpp:8314-8416, 10471-10540. -/
def Design.postKeys {V L : Type} (a : Design V L) : Keys := fun x =>
  a.preKeys x || a.states.any fun s => s.keys a.preKeys x

/-- Names assigned in the whole cycle. -/
def Design.endKeys {V L : Type} (a : Design V L) : Keys := a.post.keys a.postKeys

/-- Usage after `always_before`: starts with the inputs bound on the Q side, 10476-10490, 8270-8275. -/
def Design.preUse {V L : Type} (a : Design V L) (cls : String → Store) : Usage := fun x =>
  (a.pre.use cls (fun _ => false) (fun y => { q := decide (y ∈ a.bindQ) }) x).clearNoLatch

/-- Usage after the states, `writeCombinationalStates`, 8314-8416 (not called without states). -/
def Design.stateUse {V L : Type} (a : Design V L) (cls : String → Store) : Usage := fun x =>
  if a.states.isEmpty then a.preUse cls x
  else combine1 (a.preUse cls x) (a.states.map fun s => (s.use cls a.preKeys (a.preUse cls) x).clearNoLatch)

/-- Usage after `always_after`, 10531-10546. -/
def Design.postUse {V L : Type} (a : Design V L) (cls : String → Store) : Usage := fun x =>
  (a.post.use cls a.postKeys (a.stateUse cls) x).clearNoLatch

/-- Usage at the end of the pass: combined with the inputs bound on the D side, 10600-10603. -/
def Design.endUse {V L : Type} (a : Design V L) (cls : String → Store) : Usage := fun x =>
  (combine1 (a.postUse cls x) [{ d := decide (x ∈ a.bindD) }]).clearNoLatch

/-- Classes after the first pass: a flip-flop that is assigned somewhere and whose Q side is never used becomes
a temporary; for outputs only without states or if they are combinational. /repo/src/Algorithm.cpp:9594-9640 (a
flip-flop never assigned has access `e_ReadOnly` and becomes a constant instead). -/
def Design.demote {V L : Type} (a : Design V L) (cls : String → Store) : String → Store := fun x =>
  if !(a.endUse cls x).q && a.endKeys x && !(decide (x ∈ a.outs) && !a.states.isEmpty) then .temp else cls x

/-- Emitted algorithm. -/
structure EDesign (V : Type) (L : Type := Nat) where
  pre : ECode V L
  states : List (ECode V L)
  post : ECode V L

/-- Second pass, /repo/src/Algorithm.cpp:9655-9680, 10500-10546. -/
def Design.emit {V L : Type} (a : Design V L) (cls : String → Store) : EDesign V L :=
  { pre := a.pre.emit cls fun _ => false
    states := a.states.map fun s => s.emit cls a.preKeys
    post := a.post.emit cls a.postKeys }

/-- Registers of the hardware: state index and flip-flops. -/
structure HReg (V : Type) where
  idx : Nat
  q : String → V

/-- The combinational part of a cycle. Flip-flop inputs start equal to the outputs; temporaries start with an
arbitrary value `junk` (8276-8300: an initial value, or nothing at all). -/
def EDesign.cycle {V L : Type} (e : EDesign V L) (cls : String → Store) (junk : String → V) (r : HReg V) : HSt V L :=
  let h0 : HSt V L := ⟨r.q, fun x => match cls x with | .temp => junk x | .flipflop => r.q x, none, []⟩
  let h1 := e.pre.run h0
  let h2 := match e.states[r.idx]? with
    | some c => c.run h1
    | none => h1
  e.post.run h2

/-- The clock edge for the flip-flops, `writeFlipFlopUpdates`, 7938-8139 without reset. -/
def HSt.latched {V L : Type} (cls : String → Store) (q : String → V) (h : HSt V L) : String → V :=
  fun x => match cls x with | .temp => q x | .flipflop => h.v x

/-- The clock edge: the index and the flip-flops are updated, `writeFlipFlopUpdates`, 7938-8139 without reset. -/
def HSt.clock {V : Type} (cls : String → Store) (r : HReg V) (h : HSt V) : HReg V :=
  ⟨match h.next with | some l => l | none => r.idx, h.latched cls r.q⟩

/-- Registers after `n` cycles; `junk` may differ in each cycle. -/
def EDesign.regs {V : Type} (e : EDesign V) (cls : String → Store) (junk : Nat → String → V) (r : HReg V) : Nat → HReg V
  | 0 => r
  | n + 1 => (e.cycle cls (junk n) (e.regs cls junk r n)).clock cls (e.regs cls junk r n)

end Silice
