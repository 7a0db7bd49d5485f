import Verif.Model.Inout

/-!
Inouts in a hierarchy of units: which register drives a pin in the source, and what the nets of the generated Verilog carry.
-/

set_option autoImplicit false

namespace Silice

/-- What a net carries: nothing (high impedance), a value, or an unknown value. -/
inductive InoTri where
  | z
  | v (b : Bool)
  | x
deriving Repr, DecidableEq

/-- Two drivers of a net, IEEE 1364-2005 table 4-2. -/
def InoTri.join : InoTri → InoTri → InoTri
  | .z, t => t
  | t, .z => t
  | .v a, .v b => if a = b then .v a else .x
  | _, _ => .x

/-- All drivers of a net. -/
def resolveAll (l : List InoTri) : InoTri := l.foldr InoTri.join .z

/-- Contents of the registers of a unit for one inout, in some cycle. -/
structure InoRegs where
  oenableQ : Nat → Bool
  oQ : Nat → Bool
  oD : Nat → Bool

mutual
/-- An inout and what is connected to it: used in its unit, or bound to instances. -/
inductive InoTree where
  | used (d : InoDecl) (u : InoUse) (r : InoRegs)
  | bound (d : InoDecl) (r : InoRegs) (bs : InoBinds)
/-- Bindings of an inout: each binds the whole inout or a range of bits, to an inout of an instance, an input, or an output. -/
inductive InoBinds where
  | nil
  | bidir (range : Option (Nat × Nat)) (t : InoTree) (rest : InoBinds)
  | input (range : Option (Nat × Nat)) (rest : InoBinds)
  | output (range : Option (Nat × Nat)) (rest : InoBinds)
end

/-- Declaration of the inout. -/
def InoTree.decl : InoTree → InoDecl
  | .used d _ _ => d
  | .bound d _ _ => d

/-- Bindings as recorded by the compiler. -/
def InoBinds.dirs : InoBinds → List (Option (Nat × Nat) × InoDir)
  | .nil => []
  | .bidir r _ rest => (r, .bidir) :: rest.dirs
  | .input r rest => (r, .left) :: rest.dirs
  | .output r rest => (r, .right) :: rest.dirs

/-- First bit of a range. -/
def rangeFirst : Option (Nat × Nat) → Nat
  | none => 0
  | some (f, _) => f

/-- Bits of a range of an inout of `w` bits. -/
def InRange (w : Nat) (r : Option (Nat × Nat)) (b : Nat) : Prop := b < w ∧ ∀ f n, r = some (f, n) → f ≤ b ∧ b < f + n

/-! ### Source -/

mutual
/-- In the source, bit `b` of the inout belongs to bit `b'` of the inout of the unit found at `path`, which uses it. -/
inductive InoOwner : InoTree → Nat → List Nat → InoDecl → InoUse → InoRegs → Nat → Prop where
  | used {d : InoDecl} {u : InoUse} {r : InoRegs} {b : Nat} (h : b < d.width) : InoOwner (.used d u r) b [] d u r b
  | bound {d d' : InoDecl} {u : InoUse} {r r' : InoRegs} {bs : InoBinds} {b k b' : Nat} {path : List Nat} (h : InoOwners d.width bs b k path d' u r' b') :
      InoOwner (.bound d r bs) b (k :: path) d' u r' b'
/-- The same, through one of the bindings. -/
inductive InoOwners : Nat → InoBinds → Nat → Nat → List Nat → InoDecl → InoUse → InoRegs → Nat → Prop where
  | here {w : Nat} {range : Option (Nat × Nat)} {t : InoTree} {rest : InoBinds} {b b' : Nat} {path : List Nat} {d : InoDecl} {u : InoUse} {r : InoRegs} (hr : InRange w range b)
      (h : InoOwner t (b - rangeFirst range) path d u r b') : InoOwners w (.bidir range t rest) b 0 path d u r b'
  | bidir {w : Nat} {range : Option (Nat × Nat)} {t : InoTree} {rest : InoBinds} {b k b' : Nat} {path : List Nat} {d : InoDecl} {u : InoUse} {r : InoRegs}
      (h : InoOwners w rest b k path d u r b') : InoOwners w (.bidir range t rest) b (k + 1) path d u r b'
  | input {w : Nat} {range : Option (Nat × Nat)} {rest : InoBinds} {b k b' : Nat} {path : List Nat} {d : InoDecl} {u : InoUse} {r : InoRegs}
      (h : InoOwners w rest b k path d u r b') : InoOwners w (.input range rest) b (k + 1) path d u r b'
  | output {w : Nat} {range : Option (Nat × Nat)} {rest : InoBinds} {b k b' : Nat} {path : List Nat} {d : InoDecl} {u : InoUse} {r : InoRegs}
      (h : InoOwners w rest b k path d u r b') : InoOwners w (.output range rest) b (k + 1) path d u r b'
end

/-- What the unit does with one of its bits: it drives the bit with `o` where `oenable` is set. Members that the unit never mentions are zero. -/
def inoDriven (d : InoDecl) (u : InoUse) (r : InoRegs) (b : Nat) : InoTri :=
  if u.oenable = true ∧ r.oenableQ b = true then .v (u.o && (if d.comb then r.oD b else r.oQ b)) else .z

mutual
/-- Bindings connect ranges of the width of what is bound to them, within the inout; no two inouts of instances share a bit; no output is bound to an inout. -/
def InoTree.WF : InoTree → Prop
  | .used _ _ _ => True
  | .bound d _ bs => bs.WF d.width
/-- The same for the bindings of an inout of `w` bits. -/
def InoBinds.WF (w : Nat) : InoBinds → Prop
  | .nil => True
  | .bidir range t rest => t.WF ∧ (∀ b, InRange w range b → ∀ r, rest.Has r → ¬ InRange w r b) ∧
      (match range with
        | none => t.decl.width = w
        | some (f, n) => t.decl.width = n ∧ f + n ≤ w) ∧ rest.WF w
  | .input range rest => (∀ f n, range = some (f, n) → f + n ≤ w) ∧ rest.WF w
  | .output _ _ => False
/-- Ranges bound to inouts of instances. -/
def InoBinds.Has : InoBinds → Option (Nat × Nat) → Prop
  | .nil, _ => False
  | .bidir range _ rest, r => r = range ∨ rest.Has r
  | .input _ rest, r => rest.Has r
  | .output _ rest, r => rest.Has r
end

mutual
/-- No input of an instance is bound to the inout. -/
def InoTree.NoInput : InoTree → Prop
  | .used _ _ _ => True
  | .bound _ _ bs => bs.NoInput
/-- No input of an instance is bound. -/
def InoBinds.NoInput : InoBinds → Prop
  | .nil => True
  | .bidir _ t rest => t.NoInput ∧ rest.NoInput
  | .input _ _ => False
  | .output _ rest => rest.NoInput
end

/-! ### Verilog -/

/-- Value of a right-hand side; `ext` are the nets that are read. A condition that is not a value gives an unknown. -/
def InoEx.val (r : InoRegs) (ext : InoNet → Nat → InoTri) : InoEx → InoTri
  | .z => .z
  | .const v => .v v
  | .reg .oenableQ b => .v (r.oenableQ b)
  | .reg .oQ b => .v (r.oQ b)
  | .reg .oD b => .v (r.oD b)
  | .tern c a b =>
    match c.val r ext with
    | .v true => a.val r ext
    | .v false => b.val r ext
    | _ => .x
  | .net n b => ext n b

/-- Drivers that statements put on a bit of a net. -/
def stmDrivers (r : InoRegs) (ext : InoNet → Nat → InoTri) (l : List InoStm) (n : InoNet) (b : Nat) : List InoTri :=
  (l.filter fun s => s.net = n ∧ s.bit = b).map fun s => s.rhs.val r ext

mutual
/-- Drivers that the Verilog of a unit, with all its instances, puts on a bit of one of the ports of the inout. Driving statements read registers only. -/
def InoTree.drivers (split : Bool) : InoTree → InoNet → Nat → List InoTri
  | .used d u r, n, b => stmDrivers r (fun _ _ => .x) (writeInoUsed split d u) n b
  | .bound d r bs, n, b => stmDrivers r (fun _ _ => .x) (writeInoAll split d bs.dirs) n b ++ bs.drivers split n b
/-- Drivers from the instances. -/
def InoBinds.drivers (split : Bool) : InoBinds → InoNet → Nat → List InoTri
  | .nil, _, _ => []
  | .bidir range t rest, n, b =>
    ((inoConnects split).flatMap fun c =>
      if c.2 = n then
        match range with
        | none => t.drivers split c.1 b
        | some (f, k) => if f ≤ b ∧ b < f + k then t.drivers split c.1 (b - f) else []
      else []) ++ rest.drivers split n b
  | .input _ rest, n, b => rest.drivers split n b
  | .output _ rest, n, b => rest.drivers split n b
end

/-- What a port of an instance connected to a range of a net carries. -/
def portOf (split : Bool) (range : Option (Nat × Nat)) (ext : InoNet → Nat → InoTri) (n : InoNet) (b : Nat) : InoTri :=
  resolveAll ((inoConnects split).flatMap fun c => if c.1 = n then [ext c.2 (rangeFirst range + b)] else [])

mutual
/-- What the wire `x_i` of the unit at `path` carries, when the nets of the inout carry `ext`. -/
def InoTree.wireI (split : Bool) : InoTree → List Nat → (InoNet → Nat → InoTri) → Nat → List InoTri
  | .used d u r, [], ext, b => stmDrivers r ext (writeInoUsed split d u) .wireI b
  | .bound _ _ bs, k :: path, ext, b => bs.wireI split k path ext b
  | _, _, _, _ => []
/-- The same, below one of the bindings. -/
def InoBinds.wireI (split : Bool) : InoBinds → Nat → List Nat → (InoNet → Nat → InoTri) → Nat → List InoTri
  | .bidir range t _, 0, path, ext, b => t.wireI split path (portOf split range ext) b
  | .bidir _ _ rest, k + 1, path, ext, b => rest.wireI split k path ext b
  | .input _ rest, k + 1, path, ext, b => rest.wireI split k path ext b
  | .output _ rest, k + 1, path, ext, b => rest.wireI split k path ext b
  | _, _, _, _, _ => []
end

/-- A driver outside of the design that joins the three ports of a split inout to a pin. -/
def padOf (oe o : InoTri) : InoTri :=
  match oe with
  | .v true => o
  | .v false => .z
  | _ => .x

end Silice
