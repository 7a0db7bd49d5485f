/-!
# Circuitries and repeat blocks

Models how the body of a circuitry is gathered where it is instantiated (`gatherCircuitryInst`, /repo/src/Algorithm.cpp:2967-3093,
`getIdentifiers`, 2929-2963, `getCallParams`, 3718-3745, `addTemporary`, 3226-3249), repeat blocks (`gatherRepeatBlock`, 3195-3212), blocks
(`gatherBlock`, 1934-1947), declarations (`addVar`, 551-577, `gatherDeclarationVar`, 672-715) and the renaming of identifiers
(`translateVIOName`, 1394-1426).

Simplifications: straight line code (assignments, declarations with an initial expression, blocks, instantiations, repeat blocks), so that the
blocks made by the compiler run one after the other; identifiers of variables only (no groups, tables or part selects); outputs
of an instantiation are identifiers; names made by the compiler (`block_x`, `temp_...`) are different from those of the source; static
circuitries, given by their body at each instantiation (hence not recursive).
-/

set_option autoImplicit false

namespace Silice

/-- Names of variables after renaming: those of the top block are unchanged, those of another block get the name of the block as a prefix
(`blockVIOName`, /repo/src/Algorithm.cpp:2436-2443), temporaries get a name of their own (`temporaryName`, 3216-3222). -/
inductive VName where
  | top (x : String)
  | loc (b : Nat) (x : String)
  | temp (k : Nat)
deriving DecidableEq, Repr

/-- Expressions over names; `idx` is `__id`. -/
inductive AExp (A : Type) where
  | num (n : Int)
  | var (x : A)
  | idx
  | op (k : Nat) (a b : AExp A)
deriving DecidableEq, Repr

/-- What is given to an input of a circuitry. -/
inductive CArg where
  | id (x : String)
  | expr (e : AExp String)
deriving DecidableEq, Repr

/-- Source code, as a sequence. `inst`: names of the inputs and outputs of the circuitry (an inout is in both lists, /repo/src/Algorithm.cpp:3008-3010),
what is given to them, body. -/
inductive CCode where
  | done
  | asg (x : String) (e : AExp String) (rest : CCode)
  | declare (x : String) (e : AExp String) (rest : CCode)
  | block (body rest : CCode)
  | inst (ins outs : List String) (insArgs : List CArg) (outsArgs : List String) (body rest : CCode)
  | rep (n : Nat) (body rest : CCode)
deriving DecidableEq, Repr

inductive CircErr where
  | inputs
  | outputs
  | nested
  | count
  | idOutside
  | redeclared
deriving DecidableEq, Repr

/-- `vio_rewrites`, /repo/src/Algorithm.h:548, the last rule given to a name first. -/
abbrev Rules := List (String × VName)

/-- `translateVIOName`, /repo/src/Algorithm.cpp:1406-1412 (rules of the block). -/
def look (r : Rules) (x : String) : VName :=
  match r with
  | [] => .top x
  | (y, v) :: r => if y = x then v else look r x

/-- The rules applied to a name that is already renamed, /repo/src/Algorithm.cpp:3031-3036 and 3041-3046: only names of the source
have rules. -/
def relook (r : Rules) : VName → VName
  | .top x => look r x
  | v => v

/-- `__id` replaced by its value, /repo/src/Algorithm.cpp:1706-1710; each instruction keeps the index it was gathered with. `none`: used
outside of a repeat block. -/
def AExp.setId {A : Type} (id : Option Nat) : AExp A → Option (AExp A)
  | .num n => some (.num n)
  | .var x => some (.var x)
  | .idx =>
    match id with
    | none => none
    | some i => some (.num i)
  | .op k a b =>
    match a.setId id, b.setId id with
    | some a', some b' => some (.op k a' b')
    | _, _ => none

/-- An expression with its names replaced. -/
def AExp.rename {A B : Type} (f : A → B) : AExp A → AExp B
  | .num n => .num n
  | .var x => .var (f x)
  | .idx => .idx
  | .op k a b => .op k (a.rename f) (b.rename f)

/-- An instruction of a block, before renaming: an assignment of the source, or the assignment of a temporary. -/
inductive CIns where
  | asg (x : String) (e : AExp String)
  | tmp (k : Nat) (e : AExp String)
deriving DecidableEq, Repr

/-- An instruction as it is written, with the rules of its block. -/
def CIns.write (r : Rules) : CIns → VName × AExp VName
  | .asg x e => (look r x, e.rename (look r))
  | .tmp k e => (.temp k, e.rename (look r))

/-- State of the gathering: rules, number (`none` for the top block), names declared in the current block, instructions of the current block;
next block and temporary; instructions of the blocks before. -/
structure GS where
  rules : Rules
  blk : Option Nat
  decls : List String
  cur : List CIns
  nb : Nat
  nt : Nat
  out : List (VName × AExp VName)
deriving DecidableEq, Repr

/-- `blockVIOName`, /repo/src/Algorithm.cpp:2436-2443. -/
def blockName (b : Option Nat) (x : String) : VName :=
  match b with
  | none => .top x
  | some b => .loc b x

/-- `addBlock`, /repo/src/Algorithm.cpp:375-410, with the given rules, the current block being complete: its instructions are written with its
rules as they are in the end. -/
def GS.newBlock (s : GS) (r : Rules) : GS :=
  { s with rules := r, blk := some s.nb, decls := [], cur := [], nb := s.nb + 1, out := s.out ++ s.cur.map (CIns.write s.rules) }

/-- `getIdentifiers`, /repo/src/Algorithm.cpp:2929-2963: names of what is given, and temporaries to create, from number `t`. Identifiers
are renamed by `getCallParams` (3733). -/
def argNames (r : Rules) : Nat → List CArg → List VName × List (Nat × AExp String)
  | _, [] => ([], [])
  | t, .id x :: l => ((look r x) :: (argNames r t l).1, (argNames r t l).2)
  | t, .expr e :: l => (.temp t :: (argNames r (t + 1) l).1, (t, e) :: (argNames r (t + 1) l).2)

/-- Rules for ports, added one after the other, /repo/src/Algorithm.cpp:3030-3049. `prev` are the rules of the block of the instantiation. -/
def bindPorts (prev : Rules) : Rules → List String → List VName → Rules
  | r, p :: ps, v :: vs => bindPorts prev ((p, relook prev v) :: r) ps vs
  | r, _, _ => r

/-- Index of all temporaries. -/
def setIds (id : Option Nat) : List (Nat × AExp String) → Option (List CIns)
  | [] => some []
  | (k, e) :: l =>
    match e.setId id, setIds id l with
    | some e', some l' => some (.tmp k e' :: l')
    | _, _ => none

/-- Copies of a repeat block, /repo/src/Algorithm.cpp:3205-3208, `f i` gathering copy `i`. -/
def copies {S E : Type} (f : Nat → S → Except E S) : Nat → Nat → S → Except E S
  | _, 0, s => .ok s
  | i, n + 1, s =>
    match f i s with
    | .error e => .error e
    | .ok s' => copies f (i + 1) n s'

/-- `gather`, /repo/src/Algorithm.cpp:3875-4131, for this code. `id` is `_context->__id`. Temporaries are inserted at the beginning of
the current block one after the other (3052, 3248). -/
def gatherC (id : Option Nat) : CCode → GS → Except CircErr GS
  | .done, s => .ok s
  | .asg x e r, s =>
    match e.setId id with
    | none => .error .idOutside
    | some e' => gatherC id r { s with cur := s.cur ++ [.asg x e'] }
  | .declare x e r, s =>
    if x ∈ s.decls then .error .redeclared
    else
      match e.setId id with
      | none => .error .idOutside
      | some e' =>
        gatherC id r { s with rules := (x, blockName s.blk x) :: s.rules, decls := x :: s.decls, cur := s.cur ++ [.asg x e'] }
  | .block body r, s =>
    match gatherC id body (s.newBlock s.rules) with
    | .error e => .error e
    | .ok s' => gatherC id r (s'.newBlock s.rules)
  | .inst ins outs ia oa body r, s =>
    if ins.length ≠ ia.length then .error .inputs
    else if outs.length ≠ oa.length then .error .outputs
    else
      match setIds id (argNames s.rules s.nt ia).2 with
      | none => .error .idOutside
      | some tmps =>
        match gatherC id body
            (({ s with cur := tmps.reverse ++ s.cur, nt := s.nt + ia.length } : GS).newBlock
              (bindPorts s.rules (bindPorts s.rules s.rules ins (argNames s.rules s.nt ia).1) outs (oa.map (look s.rules)))) with
        | .error e => .error e
        | .ok s' => gatherC id r (s'.newBlock s.rules)
  | .rep n body r, s =>
    if id ≠ none then .error .nested
    else if n = 0 then .error .count
    else
      match copies (fun i => gatherC (some i) body) 0 n s with
      | .error e => .error e
      | .ok s' => gatherC id r s'

/-- The instructions of a body, from the top block. -/
def gatherTop (c : CCode) : Except CircErr (List (VName × AExp VName)) :=
  match gatherC none c ⟨[], none, [], [], 0, 0, []⟩ with
  | .error e => .error e
  | .ok s => .ok (s.out ++ s.cur.map (CIns.write s.rules))

end Silice
