/-
Bitfields: packed layout, initialisers, member accesses.
-/
set_option autoImplicit false
namespace Silice

/-- A bitfield declaration: members in declaration order with their width in bits
(`BitfieldContext`, /repo/antlr/silice.g4:255; widths come from `splitType`,
/repo/src/TypesAndConsts.cpp). Simplification: member types are taken to be well formed `uintN`
(`verifyMemberBitfield`, /repo/src/Algorithm.cpp:5212-5241 refuses the others). -/
abbrev Bitfield := List (String × Nat)

/-- `Algorithm::bitfieldWidth`, /repo/src/Algorithm.cpp:431-443. -/
def bitfieldWidth (f : Bitfield) : Nat := f.foldl (fun tot v => tot + v.2) 0

/-- Loop of `Algorithm::bitfieldMemberTypeAndOffset`, /repo/src/Algorithm.cpp:449-462, on the list of members in
the order visited by the loop (last declared first): returns `(width, offset)`. -/
def memberLoop (member : String) : Bitfield → Nat → Option (Nat × Nat)
  | [], _ => none
  | (n, w) :: rest, offset => if member = n then some (w, offset) else memberLoop member rest (offset + w)

/-- `Algorithm::bitfieldMemberTypeAndOffset`, /repo/src/Algorithm.cpp:447-464; not found (offset −1) is `none`. -/
def bitfieldMember (f : Bitfield) (member : String) : Option (Nat × Nat) := memberLoop member f.reverse 0

/-- A constant of an initialiser: `SIZED_NUMBER` (literal width, sign and magnitude as decoded from the literal)
or `NUMBER` (sign and magnitude), /repo/antlr/silice.g4:181. -/
inductive Const where
  | sized (width : Nat) (neg : Bool) (mag : Nat)
  | unsized (neg : Bool) (mag : Nat)
deriving Repr, DecidableEq

/-- One element of the emitted Verilog concatenation. `bad` stands for text that is not a Verilog number
(`8'd-5`), which the code emits for a negative unsized value. -/
inductive Piece where
  | lit (width : Nat) (neg : Bool) (mag : Nat)
  | bad
deriving Repr, DecidableEq

/-- Errors raised by `gatherBitfieldValue` / `verifyMemberBitfield`. -/
inductive BfErr where
  | unknownMember
  | wrongCount
deriving Repr, DecidableEq

/-- `named_values[name] = v` on an `unordered_map` kept as an association list without duplicate keys. -/
def assignNamed (m : List (String × Const)) (k : String) (v : Const) : List (String × Const) :=
  if m.any (fun e => e.1 = k) then m.map (fun e => if e.1 = k then (k, v) else e) else m ++ [(k, v)]

/-- `verifyMemberBitfield`, /repo/src/Algorithm.cpp:5212-5241: existence of the member. -/
def hasMember (f : Bitfield) (member : String) : Bool := f.any (fun v => v.1 = member)

/-- Loop gathering named values, /repo/src/Algorithm.cpp:477-482. -/
def gatherNamed (f : Bitfield) : List (String × Const) → List (String × Const) → Except BfErr (List (String × Const))
  | acc, [] => .ok acc
  | acc, (n, v) :: rest => if hasMember f n then gatherNamed f (assignNamed acc n v) rest else .error .unknownMember

/-- Text emitted for one member, /repo/src/Algorithm.cpp:499-503: sized constants as they are, the others with
the width of the member. -/
def emitPiece (w : Nat) : Const → Piece
  | .sized lw neg mag => .lit lw neg mag
  | .unsized false mag => .lit w false mag
  | .unsized true _ => .bad

/-- Loop emitting the concatenation in declaration order, /repo/src/Algorithm.cpp:491-507
(`named_values.at` throws when the key is missing: `wrongCount` cannot be distinguished by the user from that
internal exception, both abort the compilation). -/
def emitPieces (named : List (String × Const)) : Bitfield → Except BfErr (List Piece)
  | [] => .ok []
  | (n, w) :: rest =>
    match named.lookup n with
    | none => .error .wrongCount
    | some c =>
      match emitPieces named rest with
      | .error e => .error e
      | .ok ps => .ok (emitPiece w c :: ps)

/-- `Algorithm::gatherBitfieldValue`, /repo/src/Algorithm.cpp:468-509 (for a known bitfield). -/
def gatherBitfieldValue (f : Bitfield) (inits : List (String × Const)) : Except BfErr (List Piece) :=
  match gatherNamed f [] inits with
  | .error e => .error e
  | .ok named => if named.length ≠ f.length then .error .wrongCount else emitPieces named f

/-- Bit range of an access to a member, optionally followed by a part select with constant bounds,
as written by `writeBitfieldAccess`, /repo/src/Algorithm.cpp:7452-7459, and returned by
`determineAccessConstBitRange`, 7067-7090: `(first bit, number of bits)`. -/
def memberRange (f : Bitfield) (member : String) (part : Option (Nat × Nat)) : Option (Nat × Nat) :=
  match bitfieldMember f member with
  | none => none
  | some (w, off) =>
    match part with
    | none => some (off, w)
    | some (first, num) => some (off + first, num)

/-- Width check of `determineBitfieldAccessTypeAndWidth`, /repo/src/Algorithm.cpp:6972-6979 and of
`determinePartSelectTypeAndWidth`, 7002-7011: accepted accesses to a word of `packed` bits. -/
def accessAccepted (f : Bitfield) (member : String) (part : Option (Nat × Nat)) (packed : Nat) : Bool :=
  match bitfieldMember f member with
  | none => false
  | some (w, off) =>
    if w + off > packed then false
    else match part with
      | none => true
      | some (_, num) => decide (0 < num)

end Silice
