/-
Declarations and names: /repo/src/Algorithm.cpp:525-582, 881-1033, 1119-1151, 1314-1390, 2212-2300, 3421-3690.
-/
set_option autoImplicit false
namespace Silice

/-- A variable: full name (`name`) and name written by the user (`base_name`). -/
structure DVar where
  full : String
  base : String
deriving Repr, DecidableEq

/-- A block of the current scope chain with its `declared_vios`. -/
structure Blk where
  name : String
  decl : List DVar
deriving Repr, DecidableEq

/-- Declared objects. `stack` is the chain `parent_scope` of the current block, current block first; the last one is
`m_Blocks.front()`, of name `_top`. -/
structure NState where
  inputs : List String := []
  outputs : List String := []
  inouts : List String := []
  memories : List String := []
  instances : List String := []
  subs : List String := []
  groups : List String := []
  vars : List DVar := []
  stack : List Blk := [⟨"_top", []⟩]
deriving Repr, DecidableEq

inductive Avail where
  | available | shadowing | collision
deriving Repr, DecidableEq

/-- `blockVIOName`, /repo/src/Algorithm.cpp:2436-2443. -/
def blockVIOName (base : String) (blk : String) : String := if blk ≠ "_top" then blk ++ "_" ++ base else base

/-- `isIdentifierAvailable`, /repo/src/Algorithm.cpp:2212-2265. `subIos` are the inputs and outputs of the subroutine the
block belongs to (none outside of subroutines). -/
def isAvailable (s : NState) (subIos : List String) (base name : String) : Avail :=
  if base ∈ s.subs then .collision
  else if base ∈ subIos then .collision
  else if base ∈ s.instances then .collision
  else if base ∈ s.inputs then .collision
  else if base ∈ s.outputs then .collision
  else if base ∈ s.inouts then .collision
  else if base ∈ s.memories then .collision
  else if name ∈ s.vars.map DVar.full then .collision
  else if s.stack.any (fun b => b.decl.any (fun d => d.base = base)) then .shadowing
  else .available

/-- `addVar` and `insertVar`, /repo/src/Algorithm.cpp:525-582, for the current block; `none` is the collision error
(shadowing is only a warning). -/
def addVar (s : NState) (subIos : List String) (base : String) : Option NState :=
  match s.stack with
  | [] => none
  | b :: bs =>
    let full := blockVIOName base b.name
    match isAvailable s subIos base full with
    | .collision => none
    | _ => some { s with vars := s.vars ++ [⟨full, base⟩], stack := { b with decl := b.decl ++ [⟨full, base⟩] } :: bs }

/-- `addVar` called in a loop on the members of a group or memory. -/
def addVars (s : NState) (subIos : List String) : List String → Option NState
  | [] => some s
  | b :: bs =>
    match addVar s subIos b with
    | none => none
    | some s' => addVars s' subIos bs

/-- Kinds of ports. -/
inductive IoKind where
  | input | output | inout
deriving Repr, DecidableEq

def addIo (s : NState) (k : IoKind) (n : String) : NState :=
  match k with
  | .input => { s with inputs := s.inputs ++ [n] }
  | .output => { s with outputs := s.outputs ++ [n] }
  | .inout => { s with inouts := s.inouts ++ [n], groups := s.groups ++ [n] }

/-- An element of the port list: a plain port, or a member of a group or interface of ports. -/
inductive IoDecl where
  | plain (k : IoKind) (name : String)
  | member (k : IoKind) (group member : String)
deriving Repr, DecidableEq

/-- `gatherIOs`, /repo/src/Algorithm.cpp:3631-3689: a plain port is refused if the name is known
(`getVIODefinition`); members of groups and interfaces (3486-3530, 3583-3624) are added without check. -/
def declareIo (s : NState) : IoDecl → Option NState
  | .plain k n =>
    if n ∈ s.vars.map DVar.full ∨ n ∈ s.inputs ∨ n ∈ s.outputs ∨ n ∈ s.inouts then none else some (addIo s k n)
  | .member k g m => some (addIo s k (g ++ "_" ++ m))

def declareIos (s : NState) : List IoDecl → Option NState
  | [] => some s
  | d :: ds =>
    match declareIo s d with
    | none => none
    | some s' => declareIos s' ds

/-- Declarations of the body and moves between scopes. -/
inductive DeclEv where
  | enter (name : String)      -- `addBlock` with the current block as parent
  | leave                      -- back to the enclosing block
  | var (subIos : List String) (base : String)
  | memory (subIos : List String) (base : String) (members : List String)
  | inst (subIos : List String) (base : String)
  | sub (subIos : List String) (base : String)
  | group (subIos : List String) (base : String) (members : List String)
deriving Repr, DecidableEq

/-- One declaration. Memories: /repo/src/Algorithm.cpp:891-893 then 1017 and 1027-1031. Instances: 1324-1328 and 1386-1387
(the variables created for the ports of instances are not represented). Subroutines: 2289-2292 (first
declaration). Groups: 1121-1147. -/
def declStep (s : NState) : DeclEv → Option NState
  | .enter n => some { s with stack := ⟨n, []⟩ :: s.stack }
  | .leave => some { s with stack := s.stack.tail }
  | .var io b => addVar s io b
  | .memory io b ms =>
    if isAvailable s io b b ≠ .available then none
    else
      match addVars s io (ms.map (fun m => b ++ "_" ++ m)) with
      | none => none
      | some s' => some { s' with memories := s'.memories ++ [b], groups := s'.groups ++ [b] }
  | .inst io b =>
    if isAvailable s io b b ≠ .available then none
    else some { s with instances := s.instances ++ [b] }
  | .sub io b =>
    if isAvailable s io b b ≠ .available then none
    else some { s with subs := s.subs ++ [b] }
  | .group io b ms =>
    if isAvailable s io b b ≠ .available then none
    else addVars { s with groups := s.groups ++ [b] } io (ms.map (fun m => b ++ "_" ++ m))

def declRun (s : NState) : List DeclEv → Option NState
  | [] => some s
  | e :: es =>
    match declStep s e with
    | none => none
    | some s' => declRun s' es

/-- Ports first (`gatherIOs`), then the body. -/
def declareAll (ios : List IoDecl) (evs : List DeclEv) : Option NState :=
  match declareIos {} ios with
  | none => none
  | some s => declRun s evs

end Silice
