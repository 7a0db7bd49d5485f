import Verif.Prelude

/-!
# Inouts

Models what is written for the inouts of a unit (/repo/src/Algorithm.cpp:10359-10458), and how inouts of instances are connected (8156-8184, 10188-10216). Each inout `x` has the
variables `x_i`, `x_o`, `x_oenable` (6793-6811), unless it is bound: then they cannot be accessed (7386-7390). With `g_SplitInouts` the port is replaced by three ports `_oe`, `_o`, `_i`.
-/

set_option autoImplicit false

namespace Silice

/-- An inout: width and `!`. -/
structure InoDecl where
  width : Nat
  comb : Bool
deriving Repr, DecidableEq

/-- Which of the members are accessed in the unit (`access != e_NotAccessed`). -/
structure InoUse where
  i : Bool
  o : Bool
  oenable : Bool
deriving Repr, DecidableEq

/-- Nets of an inout: the port itself, or the three ports when inouts are split; the wire of `x_i`. -/
inductive InoNet where
  | pin
  | oe
  | o
  | i
  | wireI
deriving Repr, DecidableEq

/-- Registers read: `x_oenable` and `x_o`, as held (`FF_Q`) or as being assigned (`FF_D`). -/
inductive InoReg where
  | oenableQ
  | oQ
  | oD
deriving Repr, DecidableEq

/-- Right-hand sides, for one bit. -/
inductive InoEx where
  | z
  | const (v : Bool)
  | reg (r : InoReg) (b : Nat)
  | tern (c a b : InoEx)
  | net (n : InoNet) (b : Nat)
deriving Repr, DecidableEq

/-- `assign n[b] = e;` (whole assignments are written as one statement, here one per bit). `closed`: the semicolon is written. -/
structure InoStm where
  net : InoNet
  bit : Nat
  rhs : InoEx
  closed : Bool
deriving Repr, DecidableEq

/-- Direction of a binding on an inout: an input of an instance, an output of an instance, an inout of an instance. -/
inductive InoDir where
  | left
  | right
  | bidir
deriving Repr, DecidableEq

/-- An inout used within the unit, /repo/src/Algorithm.cpp:10362-10427. -/
def writeInoUsed (split : Bool) (d : InoDecl) (u : InoUse) : List InoStm :=
  let en (b : Nat) : InoEx := if u.oenable then .reg .oenableQ b else .const false
  let o (b : Nat) : InoEx := if u.o then .reg (if d.comb then .oD else .oQ) b else .const false
  (if u.o || u.oenable then
    if ¬ split then (List.range d.width).map fun b => ⟨.pin, b, .tern (en b) (o b) .z, true⟩
    else (List.range d.width).flatMap fun b => [⟨.oe, b, en b, true⟩, ⟨.o, b, o b, true⟩]
  else
    if ¬ split then (List.range d.width).map fun b => ⟨.pin, b, .z, true⟩
    else (List.range d.width).map fun b => ⟨.oe, b, .z, true⟩) ++
  (if u.i then (List.range d.width).map fun b => ⟨.wireI, b, .net (if split then .i else .pin) b, true⟩ else [])

/-- What is written for one binding of a bound inout, /repo/src/Algorithm.cpp:10431-10455. The range is that of the part which is bound; it is (-1,-1) when the whole inout is
bound (6241), and then there is no bit to write. -/
def writeInoBound (split : Bool) (d : InoDecl) (r : Option (Nat × Nat)) : InoDir → List InoStm
  | .left =>
    match r with
    | none => []
    | some (f, n) => (List.range' f n).map fun b => if ¬ split then ⟨.pin, b, .z, true⟩ else ⟨.oe, b, .const false, true⟩
  | .right =>
    match r with
    | none => []
    | some (f, n) => (List.range' f n).flatMap fun b =>
      let v : InoEx := .reg (if d.comb then .oD else .oQ) b
      if ¬ split then [⟨.pin, b, v, false⟩] else [⟨.oe, b, .const true, true⟩, ⟨.o, b, v, false⟩]
  | .bidir => []

/-- How ports of an instance are connected: port of the instance, net of the unit, /repo/src/Algorithm.cpp:10196-10212. -/
def inoConnects (split : Bool) : List (InoNet × InoNet) :=
  if ¬ split then [(.pin, .pin)] else [(.oe, .oe), (.o, .o), (.i, .i)]

/-- The text given to a port of an instance, /repo/src/Algorithm.cpp:8156-8184, 10196-10212: what is bound is cut at its first bracket, and the name of the net is put in between. -/
def inoPortText (split : Bool) (bound : List Char) : List (List Char) :=
  let base := bound.takeWhile (· ≠ '[')
  let access := bound.dropWhile (· ≠ '[')
  if ¬ split then [base ++ access] else [base ++ "_oe".toList ++ access, base ++ "_o".toList ++ access, base ++ "_i".toList ++ access]

/-- The bindings recorded for an inout, /repo/src/Algorithm.cpp:6316-6363: a map from ranges, where the first binding of a range stays. -/
def inoRecord (bs : List (Option (Nat × Nat) × InoDir)) : List (Option (Nat × Nat) × InoDir) :=
  bs.foldl (fun acc b => if (acc.map Prod.fst).contains b.1 then acc else acc ++ [b]) []

/-- All that is written for a bound inout. -/
def writeInoAll (split : Bool) (d : InoDecl) (bs : List (Option (Nat × Nat) × InoDir)) : List InoStm :=
  (inoRecord bs).flatMap fun b => writeInoBound split d b.1 b.2

end Silice
