import Verif.Model.Gather

/-!
# Permissions of subroutines

Models what a subroutine is given access to and the check of its accesses (/repo/src/Algorithm.cpp: `addVar` 559-567, `gatherSubroutine` 2306-2421,
`gatherSyncExec` 2795-2804, `checkPermissions` 3284-3337 and 6561-6618).

Simplifications: names of variables are those the compiler uses (translation of identifiers is C68); what an instruction or a condition reads and
writes is given (`determineVIOAccess`, C32); the check of scopes in the same function is C68.
-/

set_option autoImplicit false

namespace Silice

/-- Parameters of a subroutine, /repo/antlr/silice.g4:462-464. -/
inductive SubParam where
  | reads (x : String)
  | writes (x : String)
  | readwrites (x : String)
  | calls (f : String)
  | input (x : String)
  | output (x : String)
deriving DecidableEq

/-- A subroutine: its name, its parameters, the variables it declares. -/
structure SubDecl where
  name : String
  params : List SubParam
  vars : List String

/-- The sets `allowed_reads`, `allowed_writes`. -/
structure SubPerms where
  reads : List String
  writes : List String

/-- What is around subroutines: members of groups (`m_VIOGroups`, `getGroupMembers`), and the variables of the inputs and of the outputs of the
subroutines and instances that can be called. -/
structure SubHost where
  groups : String → Option (List String)
  callee : String → Option (List String × List String)

/-- A name and, if it is a group, its members. Models /repo/src/Algorithm.cpp:2311-2320, 2325-2334, 2339-2350. -/
def SubHost.withMembers (h : SubHost) (x : String) : List String :=
  x :: match h.groups x with
    | none => []
    | some ms => ms.map fun m => x ++ "_" ++ m

/-- Variable of an input or output, /repo/src/Algorithm.cpp:2394. -/
def SubDecl.ioVar (d : SubDecl) (dir x : String) : String := dir ++ "_" ++ d.name ++ "_" ++ x

/-- What one parameter allows, /repo/src/Algorithm.cpp:2306-2419. -/
def SubDecl.paramPerms (h : SubHost) (d : SubDecl) : SubParam → SubPerms
  | .reads x => ⟨h.withMembers x, []⟩
  | .writes x => ⟨[], h.withMembers x⟩
  | .readwrites x => ⟨h.withMembers x, h.withMembers x⟩
  | .calls _ => ⟨[], []⟩
  | .input x => ⟨[d.ioVar "i" x], []⟩
  | .output x => ⟨[d.ioVar "o" x], [d.ioVar "o" x]⟩

/-- What the declaration allows, and the variables of the subroutine (`addVar`, /repo/src/Algorithm.cpp:559-567). -/
def SubDecl.ownPerms (h : SubHost) (d : SubDecl) : SubPerms :=
  ⟨d.params.flatMap (fun p => (d.paramPerms h p).reads) ++ d.vars, d.params.flatMap (fun p => (d.paramPerms h p).writes) ++ d.vars⟩

/-- `allowed_calls`, /repo/src/Algorithm.cpp:2353-2356. -/
def SubDecl.calls (d : SubDecl) : List String :=
  d.params.filterMap fun
    | .calls f => some f
    | _ => none

/-- Errors of `checkPermissions`: "unknown unit or subroutine '%s' declared called". -/
inductive PermErr where
  | unknown (f : String)
deriving DecidableEq

/-- Inputs of what may be called can be written and outputs can be read, /repo/src/Algorithm.cpp:6564-6590. -/
def SubPerms.addCalls (h : SubHost) : List String → SubPerms → Except PermErr SubPerms
  | [], p => .ok p
  | f :: fs, p =>
    match h.callee f with
    | none => .error (.unknown f)
    | some (ins, outs) => addCalls h fs ⟨p.reads ++ outs, p.writes ++ ins⟩

/-- The permissions of a subroutine. -/
def SubDecl.perms (h : SubHost) (d : SubDecl) : Except PermErr SubPerms := SubPerms.addCalls h d.calls (d.ownPerms h)

/-- Warning "variable '%s' is read (written) by subroutine '%s' without explicit permission". -/
structure PermWarn where
  sub : Nat
  var : String
  write : Bool
deriving DecidableEq

/-- What instructions and conditions access. -/
structure AccessOf where
  reads : PIns → List String
  writes : PIns → List String
  test : Nat → List String

/-- `checkPermissions` on an instruction or condition of subroutine `k`, /repo/src/Algorithm.cpp:3300-3315. -/
def permWarnings (k : Nat) (p : SubPerms) (reads writes : List String) : List PermWarn :=
  (reads.filter fun x => x ∉ p.reads).map (⟨k, ·, false⟩) ++ (writes.filter fun x => x ∉ p.writes).map (⟨k, ·, true⟩)

/-- The condition a block ends with, /repo/src/Algorithm.cpp:6607-6615. -/
def Act.cond {B : Type} : Act B → Option Nat
  | .ifElse c _ _ _ _ _ _ _ => some c
  | .switch c _ _ => some c
  | .loop c _ _ => some c
  | _ => none

/-- The checks of one block, /repo/src/Algorithm.cpp:6603-6615. -/
def blockWarnings (A : AccessOf) (k : Nat) (p : SubPerms) (b : PBlk) : List PermWarn :=
  b.ins.flatMap (fun i => permWarnings k p (A.reads i) (A.writes i)) ++
    match b.act.cond with
    | none => []
    | some c => permWarnings k p (A.test c) []

/-- `checkPermissions`, /repo/src/Algorithm.cpp:6598-6616: blocks without state number are passed over. `subs` are the subroutines, in the order of
the unit. -/
def checkBlocks {B : Type} (num : Num B) (blk : B → PBlk) (A : AccessOf) (subs : List SubPerms) (blocks : List B) : List PermWarn :=
  blocks.flatMap fun b =>
    if (num.sid b).isNone then []
    else
      match (blk b).sub with
      | none => []
      | some k =>
        match subs[k]? with
        | none => []
        | some p => blockWarnings A k p (blk b)

/-- `checkPermissions`, /repo/src/Algorithm.cpp:6561-6618, on subroutines: warnings, or an error. -/
def checkPermissions {B : Type} (h : SubHost) (ds : List SubDecl) (num : Num B) (blk : B → PBlk) (A : AccessOf) (blocks : List B) :
    Except PermErr (List PermWarn) :=
  match ds.mapM (SubDecl.perms h) with
  | .error e => .error e
  | .ok ps => .ok (checkBlocks num blk A ps blocks)

mutual

/-- Warnings "subroutine '%s' calls other subroutine '%s' without permssion", given while gathering the body of a subroutine; `name` gives the
names of the subroutines. Models /repo/src/Algorithm.cpp:2795-2804. -/
def callWarnings (name : Nat → String) (allowed : List String) : Prg → List String
  | .nil => []
  | .instr _ k => callWarnings name allowed k
  | .step k => callWarnings name allowed k
  | .block b k => callWarnings name allowed b ++ callWarnings name allowed k
  | .ifThen _ t k => callWarnings name allowed t ++ callWarnings name allowed k
  | .ifElse _ t e k => callWarnings name allowed t ++ (callWarnings name allowed e ++ callWarnings name allowed k)
  | .loop _ b k => callWarnings name allowed b ++ callWarnings name allowed k
  | .brk k => callWarnings name allowed k
  | .switch _ cs k => casesWarnings name allowed cs ++ callWarnings name allowed k
  | .call s _ _ _ k => (if name s ∈ allowed then [] else [name s]) ++ callWarnings name allowed k
  | .join _ _ _ k => callWarnings name allowed k
  | .ret k => callWarnings name allowed k

/-- For the cases of a switch. -/
def casesWarnings (name : Nat → String) (allowed : List String) : List (Option Nat × Prg) → List String
  | [] => []
  | (_, p) :: cs => callWarnings name allowed p ++ casesWarnings name allowed cs

end

end Silice
