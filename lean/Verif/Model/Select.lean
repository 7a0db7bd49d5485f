import Verif.Model.Bitfield

/-!
# Accesses

Models the writers of accesses (`writeAccess`, `writePartSelect`, `writeBitfieldAccess`, `writeTableAccess`, `writeIOAccess`,
/repo/src/Algorithm.cpp:7344-7530), the determination of their type, which holds the checks (6864-7045), and `rewriteIdentifier` (1559-1675), for
straight code made of assignments. The text written is kept as a tree: how Verilog reads that text is C55. Names are those left by
`translateVIOName` (C13, C23, C48).
-/

set_option autoImplicit false

namespace Silice

/-- Type of a variable: width of a value, number of entries (0 when it is not a table). `t_var_nfo`, /repo/src/Blueprint.h. The sign plays no role:
members of bit fields are unsigned (`verifyMemberBitfield`, /repo/src/Algorithm.cpp:5212-5241). -/
structure VarTy where
  width : Nat
  size : Nat
deriving Repr, DecidableEq

/-- An instance: prefix of its signals, inputs, outputs, inputs given through a binding. `t_instanced_nfo`, /repo/src/Algorithm.h:200-240. -/
structure InstPorts where
  pre : String
  inputs : List (String × VarTy)
  outputs : List (String × VarTy)
  bound : List String

/-- What is declared: variables (and outputs) of the algorithm, its inputs, groups with their members, instances, bit fields.
`m_Vars`, `m_Inputs`, `m_VIOGroups`, `m_InstancedBlueprints`, `m_KnownBitFields`, /repo/src/Algorithm.h. -/
structure Declared where
  vars : List (String × VarTy)
  ins : List (String × VarTy)
  groups : List (String × List (String × VarTy))
  insts : List (String × InstPorts)
  fields : List (String × Bitfield)

/-- All variables, under the name used by the compiler: those declared, `group_member` for the members of groups
(`gatherDeclarationGroup`, /repo/src/Algorithm.cpp:1145), `prefix_port` for the outputs and the inputs without binding of instances (`createInstancedBlueprintsVars`, 6495-6520). -/
def Declared.allVars (D : Declared) : List (String × VarTy) :=
  D.vars ++ D.groups.flatMap (fun g => g.2.map fun m => (g.1 ++ "_" ++ m.1, m.2)) ++
    D.insts.flatMap (fun i => (i.2.inputs.filter (fun p => p.1 ∉ i.2.bound) ++ i.2.outputs).map fun p => (i.2.pre ++ "_" ++ p.1, p.2))

/-- `determineVIOTypeWidthAndTableSize`, /repo/src/Algorithm.cpp:6864-6884. -/
def Declared.typeOf (D : Declared) (x : String) : Option VarTy :=
  match D.allVars.lookup x with
  | some t => some t
  | none => D.ins.lookup x

/-- What holds a variable (`usage`): flip-flop, temporary, constant, text macro, expression (wire), output of an instance. -/
inductive Held where
  | flipflop
  | temp
  | const
  | textMacro
  | expr
  | bound (wire : String)
deriving Repr, DecidableEq

/-- Names in the generated module: `_q_x`, `_d_x`, `_t_x`, `_c_x`, `_w_x`, `in_x`, and the wire of an output. -/
inductive Net where
  | q (x : String)
  | d (x : String)
  | t (x : String)
  | c (x : String)
  | w (x : String)
  | i (x : String)
  | o (wire : String)
deriving Repr, DecidableEq

/-- What the suffixes apply to: a name, or a macro within `$signed( )` or `$unsigned( )`. -/
inductive Root where
  | net (n : Net)
  | mac (x : String)
deriving Repr, DecidableEq

/-- `x` or `x.m`, `idOrIoAccess`, /repo/antlr/silice.g4:338, 343. -/
inductive SBase where
  | id (x : String)
  | io (b m : String)
deriving Repr, DecidableEq

mutual
/-- Expressions: numbers, reads, operators (any function of the values). /repo/antlr/silice.g4:261-333. -/
inductive SEx where
  | num (v : Nat)
  | read (a : SAcc)
  | un (f : Nat → Nat) (e : SEx)
  | bin (f : Nat → Nat → Nat) (e e' : SEx)
/-- An index `[e]` or none. -/
inductive SIdx where
  | no
  | at (e : SEx)
/-- A part `[e,n]` or none. -/
inductive SPart where
  | no
  | at (e : SEx) (n : Nat)
/-- Accesses: what is accessed, entry, member of a bit field, part. The grammar allows all combinations,
/repo/antlr/silice.g4:337-341 (`access`), with `IDENTIFIER` alone (`idOrAccess`, 344). -/
inductive SAcc where
  | mk (b : SBase) (i : SIdx) (fd : Option (String × String)) (p : SPart)
end

mutual
/-- Expressions written. -/
inductive VEx where
  | num (v : Nat)
  | ref (r : VRef)
  | un (f : Nat → Nat) (e : VEx)
  | bin (f : Nat → Nat → Nat) (e e' : VEx)
/-- First bit of a range: an expression, a number, `((e)+(k))`. -/
inductive VFirst where
  | ex (e : VEx)
  | num (k : Nat)
  | plus (e : VEx) (k : Nat)
/-- Suffixes `[e]` and `[f+:n]`. -/
inductive VSufs where
  | nil
  | index (e : VEx) (rest : VSufs)
  | range (f : VFirst) (n : Nat) (rest : VSufs)
/-- A name followed by suffixes. -/
inductive VRef where
  | mk (root : Root) (s : VSufs)
end

/-- Errors reported on accesses. -/
inductive SelErr where
  | undeclared
  | noMember
  | notAPort
  | boundInput
  | writesOutput
  | notATable
  | unknownField
  | outOfField
  | zeroWidth
  | writesInput
  | writesWire
deriving Repr, DecidableEq

/-- How an access is used: read, or assigned. `e_AccessType`, /repo/src/Algorithm.h. -/
inductive RW where
  | rd
  | wr
deriving Repr, DecidableEq

/-- What the writers look at besides declarations: how variables are held, variables written before in the cycle (`dependencies`). -/
structure SelCtx where
  held : String → Held
  deps : List String

/-- `Algorithm::rewriteIdentifier`, /repo/src/Algorithm.cpp:1559-1675. When writing the side is `FF_D`, otherwise `FF_Q`, which becomes `FF_D` for what
was written before in the cycle. Simplifications: no custom clock or reset, no inouts, variables bound bit by bit are C05. -/
def rewriteName (D : Declared) (c : SelCtx) (rw : RW) (x : String) : Except SelErr Root :=
  if (D.ins.lookup x).isSome then .ok (.net (.i x))
  else if (D.allVars.lookup x).isNone then .error .undeclared
  else match c.held x with
    | .bound w => .ok (.net (.o w))
    | .temp => .ok (.net (.t x))
    | .textMacro => .ok (.mac x)
    | .const => .ok (.net (.c x))
    | .expr => .ok (.net (.w x))
    | .flipflop =>
      match rw with
      | .wr => .ok (.net (.d x))
      | .rd => if x ∈ c.deps then .ok (.net (.d x)) else .ok (.net (.q x))

/-- The variable an identifier or a member stands for, with the checks of `writeIOAccess`, /repo/src/Algorithm.cpp:7352-7404: an instance, or a group.
`some w`: wire of an output of an instance. Returns the type too. -/
def ioTarget (D : Declared) (rw : RW) (b m : String) : Except SelErr ((String ⊕ String) × Option VarTy) :=
  match D.insts.lookup b with
  | some i =>
    if (i.inputs.lookup m).isNone && (i.outputs.lookup m).isNone then .error .notAPort
    else if rw = .wr && (i.inputs.lookup m).isNone then .error .writesOutput
    else match i.inputs.lookup m with
      | some t => if m ∈ i.bound then .error .boundInput else .ok (.inl (i.pre ++ "_" ++ m), some t)
      | none => .ok (.inr (i.pre ++ "_" ++ m), i.outputs.lookup m)
  | none =>
    match D.groups.lookup b with
    | some g => if (g.lookup m).isNone then .error .noMember else .ok (.inl (b ++ "_" ++ m), D.typeOf (b ++ "_" ++ m))
    | none => .error .undeclared

/-- `writeIOAccess` and `rewriteIdentifier` applied to a suffix, /repo/src/Algorithm.cpp:7344-7404, 7420-7425: the reference and the type. -/
def writeBase (D : Declared) (c : SelCtx) (rw : RW) (b : SBase) (s : VSufs) : Except SelErr (VRef × Option VarTy) :=
  match b with
  | .id x =>
    match rewriteName D c rw x with
    | .error e => .error e
    | .ok r => .ok (.mk r s, D.typeOf x)
  | .io b m =>
    match ioTarget D rw b m with
    | .error e => .error e
    | .ok (.inr w, t) => .ok (.mk (.net (.o w)) s, t)
    | .ok (.inl x, t) =>
      match rewriteName D c rw x with
      | .error e => .error e
      | .ok r => .ok (.mk r s, t)

/-- `writeTableAccess`, /repo/src/Algorithm.cpp:7407-7432, for the index already rewritten (7413). -/
def writeEntry (D : Declared) (c : SelCtx) (rw : RW) (b : SBase) (i : VEx) (s : VSufs) : Except SelErr VRef :=
  match writeBase D c rw b (.index i s) with
  | .error e => .error e
  | .ok (_, none) => .error .undeclared
  | .ok (r, some t) => if t.size = 0 then .error .notATable else .ok r

/-- The dispatch between table and other accesses at the end of the writers, /repo/src/Algorithm.cpp:7461-7471, 7487-7498. -/
def writeAny (D : Declared) (c : SelCtx) (rw : RW) (b : SBase) (i : Option VEx) (s : VSufs) : Except SelErr VRef :=
  match i with
  | some i => writeEntry D c rw b i s
  | none =>
    match writeBase D c rw b s with
    | .error e => .error e
    | .ok (r, _) => .ok r

/-- `writeBitfieldAccess`, /repo/src/Algorithm.cpp:7436-7475, with the range of a part select if any. -/
def writeField (D : Declared) (c : SelCtx) (rw : RW) (b : SBase) (i : Option VEx) (fd : String × String) (range : Option (VEx × Nat)) : Except SelErr VRef :=
  match D.fields.lookup fd.1 with
  | none => .error .unknownField
  | some f =>
    match bitfieldMember f fd.2 with
    | none => .error .unknownField
    | some (w, off) =>
      match range with
      | none => writeAny D c rw b i (.range (.num off) w .nil)
      | some (e, n) => writeAny D c rw b i (.range (.plus e off) n .nil)

/-- `writeAccess` and `writePartSelect`, /repo/src/Algorithm.cpp:7479-7524, for indices already rewritten. -/
def writeSel (D : Declared) (c : SelCtx) (rw : RW) (b : SBase) (i : Option VEx) (fd : Option (String × String)) (p : Option (VEx × Nat)) : Except SelErr VRef :=
  match p, fd with
  | none, none => writeAny D c rw b i .nil
  | none, some fd => writeField D c rw b i fd none
  | some (e, n), none => writeAny D c rw b i (.range (.ex e) n .nil)
  | some (e, n), some fd => writeField D c rw b i fd (some (e, n))

/-- The type of what is accessed, `determineIdentifierTypeAndWidth`, `determineIOAccessTypeAndWidth`, `determineTableAccessTypeAndWidth`,
/repo/src/Algorithm.cpp:6888-6951, 7021-7029. -/
def baseType (D : Declared) (b : SBase) : Except SelErr VarTy :=
  match b with
  | .id x => match D.typeOf x with
    | some t => .ok t
    | none => .error .undeclared
  | .io b m => match ioTarget D .rd b m with
    | .error e => .error e
    | .ok (_, some t) => .ok t
    | .ok (_, none) => .error .undeclared

/-- Checks made when the type of an access is determined: `determineBitfieldAccessTypeAndWidth`, `determinePartSelectTypeAndWidth`,
/repo/src/Algorithm.cpp:6955-7017, called on every access by the checks on expressions (6620-6779). -/
def checkSel (D : Declared) (b : SBase) (fd : Option (String × String)) (p : Option Nat) : Except SelErr Unit :=
  match baseType D b with
  | .error e => .error e
  | .ok t =>
    match (match fd with
      | none => (.ok () : Except SelErr Unit)
      | some fd =>
        match D.fields.lookup fd.1 with
        | none => .error .unknownField
        | some f =>
          match bitfieldMember f fd.2 with
          | none => .error .unknownField
          | some (w, off) => if w + off > t.width then .error .outOfField else .ok ()) with
    | .error e => .error e
    | .ok () =>
      match p with
      | none => .ok ()
      | some n => if n = 0 then .error .zeroWidth else .ok ()

mutual
/-- `rewriteExpression` on the accesses of an expression, /repo/src/Algorithm.cpp:1691-1770. Reads are on the side `FF_Q`. -/
def compEx (D : Declared) (c : SelCtx) : SEx → Except SelErr VEx
  | .num v => .ok (.num v)
  | .read a =>
    match compAcc D c .rd a with
    | .error e => .error e
    | .ok r => .ok (.ref r)
  | .un f e =>
    match compEx D c e with
    | .error e => .error e
    | .ok e => .ok (.un f e)
  | .bin f e e' =>
    match compEx D c e with
    | .error e => .error e
    | .ok e =>
      match compEx D c e' with
      | .error e => .error e
      | .ok e' => .ok (.bin f e e')
/-- Index of a table access, /repo/src/Algorithm.cpp:7413: always read. -/
def compIdx (D : Declared) (c : SelCtx) : SIdx → Except SelErr (Option VEx)
  | .no => .ok none
  | .at e =>
    match compEx D c e with
    | .error e => .error e
    | .ok e => .ok (some e)
/-- First bit and width of a part select, /repo/src/Algorithm.cpp:7484-7485. -/
def compPart (D : Declared) (c : SelCtx) : SPart → Except SelErr (Option (VEx × Nat))
  | .no => .ok none
  | .at e n =>
    match compEx D c e with
    | .error e => .error e
    | .ok e => .ok (some (e, n))
/-- An access: check of its type, then the writers. -/
def compAcc (D : Declared) (c : SelCtx) (rw : RW) : SAcc → Except SelErr VRef
  | .mk b i fd p =>
    match compIdx D c i with
    | .error e => .error e
    | .ok i =>
      match compPart D c p with
      | .error e => .error e
      | .ok p =>
        match checkSel D b fd (p.map Prod.snd) with
        | .error e => .error e
        | .ok () => writeSel D c rw b i fd p
end

/-- `determineAccessedVar`, /repo/src/Algorithm.cpp:5318-5398: the variable of which an access is a part. -/
def accessedVar (D : Declared) : SAcc → String
  | .mk (.id x) _ _ _ => x
  | .mk (.io b m) _ _ _ =>
    match D.insts.lookup b with
    | some i => i.pre ++ "_" ++ m
    | none => b ++ "_" ++ m

/-- `writeAssignement`, /repo/src/Algorithm.cpp:7534-7607, and the check before it in `writeBlock` (8520-8526), for a variable that is not a macro. -/
def writeAsg (D : Declared) (c : SelCtx) (a : SAcc) (e : SEx) : Except SelErr (VRef × VEx) :=
  let x := accessedVar D a
  if (D.allVars.lookup x).isSome && c.held x = .expr then .error .writesWire
  else if (D.ins.lookup x).isSome then .error .writesInput
  else
    match compAcc D c .wr a with
    | .error e => .error e
    | .ok r =>
      match compEx D c e with
      | .error e => .error e
      | .ok v => .ok (r, v)

/-- Straight code: the variable assigned becomes known as written (`updateDependencies`, /repo/src/Algorithm.cpp:4790-4830). -/
def writeCode (D : Declared) (held : String → Held) : List String → List (SAcc × SEx) → Except SelErr (List (VRef × VEx))
  | _, [] => .ok []
  | deps, (a, e) :: rest =>
    match writeAsg D ⟨held, deps⟩ a e with
    | .error er => .error er
    | .ok v =>
      match writeCode D held (accessedVar D a :: deps) rest with
      | .error er => .error er
      | .ok vs => .ok (v :: vs)

/-- `isPartialAccess`, /repo/src/Algorithm.cpp:5246-5300: accesses after which a variable does not become a macro (7525-7529). A member of a bit field
counts only within a table. -/
def isPartialAccess : SAcc → Bool
  | .mk _ i _ p =>
    match p with
    | .at _ _ => true
    | .no =>
      match i with
      | .at _ => true
      | .no => false

end Silice
