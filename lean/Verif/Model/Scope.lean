import Verif.Prelude

/-!
# Scopes

Models how declarations in blocks get their names and how identifiers are translated to these names: `addBlock`, `addVar`, `insertVar`, `blockVIOName`, `translateVIOName`, the parts of
`gather` that make blocks, and the check of scopes (/repo/src/Algorithm.cpp:372-415, 525-582, 1394-1426, 1934-2075, 2268-2436, 2448-2540, 2744-2840, 3097-3191, 3284-3337, 3930-4110).
Left out: circuitries and repeat blocks (C47, C48), registers that carry variables through a pipeline (C23, C58), groups, forward declarations of subroutines, ports, which no variable may hide
(C13).
-/

set_option autoImplicit false

namespace Silice

mutual
/-- Statements, as far as they declare and use identifiers. Identifiers of declarations and uses tell them apart. Conditions are uses that come before the statement: they are
translated in the block before it (/repo/src/Algorithm.cpp:2049, 3116, 3143, 3183). -/
inductive ScStmt where
  /-- A declaration. -/
  | decl (d : Nat) (x : String)
  /-- An instruction that reads or writes an identifier. -/
  | use (u : Nat) (x : String)
  /-- `++:` or a label. -/
  | step (label : Option String)
  /-- Instructions after which a new block starts: `break`, `goto`, `return` from a subroutine, calls of subroutines, joins. -/
  | cut
  | block (b : ScStmts)
  | ifElse (t e : ScStmts)
  | ifThen (t : ScStmts)
  | switch (cs : ScCases)
  | loop (b : ScStmts)
  /-- A pipeline: statements of each stage. -/
  | pipe (stages : ScCases)
  /-- A subroutine with its parameters, `true` for inputs. -/
  | sub (f : String) (params : List (Nat × Bool × String)) (b : ScStmts)

/-- Sequences of statements. -/
inductive ScStmts where
  | nil
  | cons (s : ScStmt) (r : ScStmts)

/-- Cases of a switch, stages of a pipeline. -/
inductive ScCases where
  | nil
  | cons (b : ScStmts) (r : ScCases)
end

/-- A block with its context. `io`: parameters of the subroutine it is in (`io2var`). `rewrites` and `io` are maps: what comes first counts. -/
structure ScBlock where
  name : String
  parent : Option Nat
  io : Option (List (String × String))
  rewrites : List (String × String)
  declared : List String
deriving Repr, DecidableEq

/-- A variable: the declaration it comes from, the identifier there and its name. -/
structure ScVar where
  id : Nat
  base : String
  name : String
deriving Repr, DecidableEq

/-- Blocks so far, number of the next generated name, variables, uses in order (block, use, identifier), the last block of the state machine, `in_algorithm_preamble`. -/
structure ScState where
  blocks : List ScBlock
  next : Nat
  vars : List ScVar
  uses : List (Nat × Nat × String)
  last : Nat
  pre : Bool
deriving Repr, DecidableEq

/-- Errors. -/
inductive ScErr where
  | collision
  | subHere
  | subInSub
  | outOfScope
  | internal
deriving Repr, DecidableEq

/-- First entry for a key. -/
def assoc {β : Type} : List (String × β) → String → Option β
  | [], _ => none
  | (k, v) :: r, x => if k = x then some v else assoc r x

/-- `generateBlockName`, /repo/src/Algorithm.cpp:1927-1930. -/
def ScState.genName (st : ScState) : String × ScState := ("__block_" ++ toString st.next, { st with next := st.next + 1 })

/-- `addBlock`, /repo/src/Algorithm.cpp:374-415. The block takes the translations of its parent, as they are now. -/
def ScState.addBlock (st : ScState) (name : String) (parent : Nat) : Except ScErr (ScState × Nat) :=
  match st.blocks[parent]? with
  | none => .error .internal
  | some p => .ok ({ st with blocks := st.blocks ++ [⟨name, some parent, p.io, p.rewrites, []⟩], last := st.blocks.length }, st.blocks.length)

/-- A block with a generated name. -/
def ScState.newBlock (st : ScState) (pre post : String) (parent : Nat) : Except ScErr (ScState × Nat) := st.genName.2.addBlock (pre ++ st.genName.1 ++ post) parent

/-- `blockVIOName`, /repo/src/Algorithm.cpp:2440-2447. -/
def scVIOName (host x : String) : String := if host ≠ "_top" then host ++ "_" ++ x else x

/-- `addVar` and `insertVar`, /repo/src/Algorithm.cpp:525-582: names that are in use are refused, hiding is allowed. -/
def ScState.addVar (st : ScState) (cur d : Nat) (x : String) : Except ScErr ScState :=
  match st.blocks[cur]? with
  | none => .error .internal
  | some b =>
    if scVIOName b.name x ∈ st.vars.map ScVar.name then .error .collision
    else .ok { st with
      blocks := st.blocks.set cur { b with rewrites := (x, scVIOName b.name x) :: b.rewrites, declared := scVIOName b.name x :: b.declared }
      vars := ⟨d, x, scVIOName b.name x⟩ :: st.vars }

/-- Name of the variable of a parameter, /repo/src/Algorithm.cpp:2394. -/
def paramVar (f : String) (p : Nat × Bool × String) : String := (if p.2.1 then "i" else "o") ++ "_" ++ f ++ "_" ++ p.2.2

/-- The parameters of a subroutine are variables of the block it is declared in, /repo/src/Algorithm.cpp:2383-2419. Identifiers that are names of variables of the unit are refused;
the name made for the variable is not checked. -/
def ScState.addParams (st : ScState) (cur : Nat) (f : String) : List (Nat × Bool × String) → Except ScErr (ScState × List (String × String))
  | [] => .ok (st, [])
  | p :: ps =>
    if p.2.2 ∈ st.vars.map ScVar.name then .error .collision
    else
      match st.blocks[cur]? with
      | none => .error .internal
      | some b =>
        match ({ st with
            blocks := st.blocks.set cur { b with declared := paramVar f p :: b.declared }
            vars := ⟨p.1, p.2.2, paramVar f p⟩ :: st.vars } : ScState).addParams cur f ps with
        | .error e => .error e
        | .ok (st', io) => .ok (st', (p.2.2, paramVar f p) :: io)

/-- `gatherBlock`, /repo/src/Algorithm.cpp:1934-1947, for what `k` gathers inside. -/
def ScState.inBlock (st : ScState) (cur : Nat) (k : ScState → Nat → Except ScErr (ScState × Nat)) : Except ScErr (ScState × Nat) :=
  match st.newBlock "" "" cur with
  | .error e => .error e
  | .ok (st, nb) =>
    match k { st with pre := false } nb with
    | .error e => .error e
    | .ok (st, _) => st.newBlock "" "" cur

mutual
/-- `gather`, /repo/src/Algorithm.cpp:3890-4110, for one statement. Gives the block to go on in. -/
def gStmt (st : ScState) (cur : Nat) : ScStmt → Except ScErr (ScState × Nat)
  | .decl d x =>
    match st.addVar cur d x with
    | .error e => .error e
    | .ok st => .ok (st, cur)
  | .use u x => .ok ({ st with uses := st.uses ++ [(cur, u, x)], pre := false }, cur)
  | .step none => ({ st with pre := false } : ScState).newBlock "" "" cur
  | .step (some l) => ({ st with pre := false } : ScState).addBlock l cur
  | .cut => ({ st with pre := false } : ScState).newBlock "" "" cur
  | .block b => st.inBlock cur fun st c => gStmts st c b
  | .ifElse t e =>
    match ({ st with pre := false } : ScState).newBlock "" "" cur with
    | .error e => .error e
    | .ok (st, ib) =>
      match st.newBlock "" "" cur with
      | .error e => .error e
      | .ok (st, eb) =>
        match st.inBlock ib fun st c => gStmts st c t with
        | .error e => .error e
        | .ok (st, _) =>
          match st.inBlock eb fun st c => gStmts st c e with
          | .error e => .error e
          | .ok (st, _) => st.newBlock "" "" cur
  | .ifThen t =>
    match ({ st with pre := false } : ScState).newBlock "" "" cur with
    | .error e => .error e
    | .ok (st, ib) =>
      match st.newBlock "" "" cur with
      | .error e => .error e
      | .ok (st, _) =>
        match st.inBlock ib fun st c => gStmts st c t with
        | .error e => .error e
        | .ok (st, _) => st.newBlock "" "" cur
  | .switch cs =>
    match ({ st with pre := false } : ScState).newBlock "" "" cur with
    | .error e => .error e
    | .ok (st, after) =>
      match gCases st cur cs with
      | .error e => .error e
      | .ok st => .ok (st, after)
  | .loop b =>
    match ({ st with pre := false } : ScState).newBlock "__while" "" cur with
    | .error e => .error e
    | .ok (st, _) =>
      match st.newBlock "" "" cur with
      | .error e => .error e
      | .ok (st, iter) =>
        match st.newBlock "" "" cur with
        | .error e => .error e
        | .ok (st, after) =>
          match st.inBlock iter fun st c => gStmts st c b with
          | .error e => .error e
          | .ok (st, _) => .ok ({ st with last := after }, after)
  | .pipe stages =>
    match gStages { st with pre := false } cur stages with
    | .error e => .error e
    | .ok st' => ({ st' with last := st.last } : ScState).newBlock "" "" cur
  | .sub f ps b =>
    if st.pre = false then .error .subHere
    else
      match st.blocks[cur]? with
      | none => .error .internal
      | some c =>
        if c.io.isSome then .error .subInSub
        else
          match st.addParams cur f ps with
          | .error e => .error e
          | .ok (st, io) =>
            match st.blocks[cur]? with
            | none => .error .internal
            | some c =>
              match gStmts { st with blocks := st.blocks ++ [⟨"__sub_" ++ f, some cur, some io, c.rewrites, io.map Prod.snd⟩], last := st.blocks.length, pre := true } st.blocks.length b with
              | .error e => .error e
              | .ok (st, _) => .ok ({ st with pre := true }, cur)

/-- A sequence of statements. -/
def gStmts (st : ScState) (cur : Nat) : ScStmts → Except ScErr (ScState × Nat)
  | .nil => .ok (st, cur)
  | .cons s r =>
    match gStmt st cur s with
    | .error e => .error e
    | .ok (st, cur) => gStmts st cur r

/-- Cases of a switch, /repo/src/Algorithm.cpp:3163-3172. -/
def gCases (st : ScState) (cur : Nat) : ScCases → Except ScErr ScState
  | .nil => .ok st
  | .cons b r =>
    match st.newBlock "" "_case" cur with
    | .error e => .error e
    | .ok (st, cb) =>
      match st.inBlock cb fun st c => gStmts st c b with
      | .error e => .error e
      | .ok (st, _) => gCases st cur r

/-- Stages of a pipeline, /repo/src/Algorithm.cpp:2475-2539: a stage starts from the last block of the state machine of the stage before. -/
def gStages (st : ScState) (cur : Nat) : ScCases → Except ScErr ScState
  | .nil => .ok st
  | .cons b r =>
    match st.newBlock "__stage_" "" cur with
    | .error e => .error e
    | .ok (st, from_) =>
      match gStmts st from_ b with
      | .error e => .error e
      | .ok (st, _) => gStages st st.last r
end

/-- `translateVIOName`, /repo/src/Algorithm.cpp:1394-1413. -/
def translate (b : ScBlock) (x : String) : String :=
  let x := match b.io with
    | none => x
    | some io => match assoc io x with
      | some y => y
      | none => x
  match assoc b.rewrites x with
  | some y => y
  | none => x

/-- Identifiers are translated once when they are read and several times when they are written (7571 and 1584; accesses also 5370, 5382): `k + 1` times. -/
def translateTimes (b : ScBlock) : Nat → String → String
  | 0, x => translate b x
  | k + 1, x => translateTimes b k (translate b x)

/-- Names declared in a block and in those around it, /repo/src/Algorithm.cpp:3324-3331. `n`: number of blocks, parents come before. -/
def inScope (blocks : List ScBlock) : Nat → Nat → String → Bool
  | 0, _, _ => false
  | n + 1, i, v =>
    match blocks[i]? with
    | none => false
    | some b => v ∈ b.declared || match b.parent with
      | none => false
      | some p => inScope blocks n p v

/-- The check of a use: the variable exists (1620-1623) and is in scope (3317-3335). Scopes are only checked in the blocks that have a state number
(6598-6602), which are those `chk` holds for. -/
def useOk (st : ScState) (chk : Nat → Bool) (k : Nat) (use : Nat × Nat × String) : Bool :=
  match st.blocks[use.1]? with
  | none => false
  | some b =>
    translateTimes b k use.2.2 ∈ st.vars.map ScVar.name && (!chk use.1 || inScope st.blocks st.blocks.length use.1 (translateTimes b k use.2.2))

/-- The start of `gatherBody`, /repo/src/Algorithm.cpp:6477; blocks 1 and 2 are those of `always_before` and `always_after` (6463-6466, 3967-3968), which translate nothing. -/
def scInit : ScState :=
  { blocks := [⟨"_top", none, none, [], []⟩, ⟨"_always_pre", some 0, none, [], []⟩, ⟨"_always_post", some 0, none, [], []⟩], next := 1, vars := [], uses := [], last := 0, pre := true }

/-- An algorithm: all is gathered in the first block, /repo/src/Algorithm.cpp:3940-3959. -/
def gAlgorithm (body : ScStmts) : Except ScErr ScState :=
  match gStmts scInit 0 body with
  | .error e => .error e
  | .ok (st, _) => .ok st

/-- A unit: declarations, `always_before`, `always_after`, algorithm, in the order in which they are gathered (/repo/src/Algorithm.cpp:3960-4048). -/
def gUnit (decls : List (Nat × String)) (before after body : ScStmts) : Except ScErr ScState :=
  match decls.foldlM (fun (st : ScState) d => st.addVar 0 d.1 d.2) scInit with
  | .error e => .error e
  | .ok st =>
    match st.inBlock 1 fun st c => gStmts st c before with
    | .error e => .error e
    | .ok (st, _) =>
      match st.inBlock 2 fun st c => gStmts st c after with
      | .error e => .error e
      | .ok (st, _) =>
        match st.inBlock 0 fun st c => gStmts { st with pre := true } c body with
        | .error e => .error e
        | .ok (st, _) => .ok st

end Silice
