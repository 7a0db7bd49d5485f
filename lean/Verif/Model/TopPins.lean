import Verif.Model.Text

/-!
# Pins and the top module

Models the declaration of pins and pin groups by the framework (`lua_pin_index`, `lua_pin_newindex`,
/repo/src/LuaPreProcessor.cpp:264-362, `addPin`, `addPinGroup`, /repo/src/LuaPreProcessor.h:93-98, `pinsUsedByIOPort`, `pinWidth`,
872-892) and the top module (`addTopModulePort`, `verilogTopModuleSignature`, `verilogMainGlue`, first part of `writeBody`,
/repo/src/SiliceCompiler.cpp:551-691).

Simplifications: strings are lists of characters; widths given by the framework are non-negative; the only strings put in
groups are those obtained by indexing a pin.
-/

set_option autoImplicit false

namespace Silice

abbrev Txt := List Char

inductive PortType where
  | input
  | output
  | inout
deriving DecidableEq, Repr

/-- An element of a group: `pair<string,int>`, an empty name for a bit not used, -1 for all the bits of a pin. -/
inductive PinSel where
  | unused
  | whole (n : Txt)
  | bit (n : Txt) (b : Nat)
deriving DecidableEq, Repr

inductive TopErr where
  | undeclaredPin
  | badValue
  | undeclaredPort
  | emptyGroup
  | usedTwice
deriving DecidableEq, Repr

/-- `m_Pins` and `m_PinGroups`, /repo/src/LuaPreProcessor.h:89-91, in order of declaration. -/
structure PinEnv where
  pins : List (Txt × Nat)
  groups : List (Txt × List PinSel)
deriving DecidableEq, Repr

/-- Lookup by name; `insert` on a map keeps the first value given to a name. -/
def lookupT {A : Type} (l : List (Txt × A)) (n : Txt) : Option A :=
  match l with
  | [] => none
  | (m, a) :: r => if m = n then some a else lookupT r n

/-- What the framework writes in a group: a bit of a pin, a whole pin, a number. -/
inductive LuaPin where
  | bit (n : Txt) (b : Nat)
  | whole (n : Txt)
  | num (v : Int)
deriving DecidableEq, Repr

/-- What the framework assigns to a name. -/
inductive LuaVal where
  | num (w : Nat)
  | whole (n : Txt)
  | group (l : List LuaPin)
deriving DecidableEq, Repr

/-- Text of a bit of a pin in the table given by `lua_pin_index`, /repo/src/LuaPreProcessor.cpp:284-286. -/
def bitText (n : Txt) (b : Nat) : Txt := n ++ ':' :: natToDec b

/-- The text of a bit taken apart again, /repo/src/LuaPreProcessor.cpp:324-329: split at the first colon. `none`: no colon, which throws. -/
def splitBit (s : Txt) : Option PinSel :=
  match getlineC ':' s with
  | (n, some r) => some (.bit n (decAcc 0 r))
  | (_, none) => none

/-- Elements of a group, the loop of /repo/src/LuaPreProcessor.cpp:321-350. Indexing a pin that is not declared is an error (276-280). An
index out of the width gives `nil`, which a table does not hold: the loop does not see the element. -/
def groupPins (env : PinEnv) : List LuaPin → Except TopErr (List PinSel)
  | [] => .ok []
  | .bit n b :: r =>
    match lookupT env.pins n with
    | none => .error .undeclaredPin
    | some w =>
      if b < w then
        match splitBit (bitText n b) with
        | none => .error .badValue
        | some p =>
          match groupPins env r with
          | .error e => .error e
          | .ok ps => .ok (p :: ps)
      else groupPins env r
  | .whole n :: r =>
    match lookupT env.pins n with
    | none => .error .undeclaredPin
    | some _ =>
      match groupPins env r with
      | .error e => .error e
      | .ok ps => .ok (.whole n :: ps)
  | .num v :: r =>
    if v = 0 then
      match groupPins env r with
      | .error e => .error e
      | .ok ps => .ok (.unused :: ps)
    else .error .badValue

/-- An assignment to a name of the table of pins, `lua_pin_newindex`, /repo/src/LuaPreProcessor.cpp:300-362. -/
def declarePin (env : PinEnv) (key : Txt) : LuaVal → Except TopErr PinEnv
  | .num w => .ok { env with pins := env.pins ++ [(key, w)] }
  | .whole n =>
    match lookupT env.pins n with
    | none => .error .undeclaredPin
    | some _ => .ok { env with groups := env.groups ++ [(key, [.whole n])] }
  | .group l =>
    match groupPins env l with
    | .error e => .error e
    | .ok ps => .ok { env with groups := env.groups ++ [(key, ps)] }

/-- `pinsUsedByIOPort`, /repo/src/LuaPreProcessor.cpp:872-881. -/
def pinsOf (env : PinEnv) (port : Txt) : Option (List PinSel) :=
  match lookupT env.pins port with
  | some _ => some [.whole port]
  | none => lookupT env.groups port

/-- The loop of `addTopModulePort`, /repo/src/SiliceCompiler.cpp:569-582. -/
def usePins (ty : PortType) : List PinSel → List (Txt × PortType) → Except TopErr (List (Txt × PortType))
  | [], used => .ok used
  | .unused :: r, used => usePins ty r used
  | .whole n :: r, used => if n ∈ used.map (·.1) then .error .usedTwice else usePins ty r (used ++ [(n, ty)])
  | .bit n _ :: r, used => usePins ty r (if n ∈ used.map (·.1) then used else used ++ [(n, ty)])

/-- The ports of the main unit, /repo/src/SiliceCompiler.cpp:664-679, with `addTopModulePort` (551-585); inputs, outputs and inouts in
this order. `strict` is false when undeclared ports only give a warning. Result: ports and pins used. -/
def topPorts (env : PinEnv) (strict : Bool) : List (Txt × PortType) → List (Txt × PortType) →
    Except TopErr (List (Txt × PortType) × List (Txt × PortType))
  | [], used => .ok ([], used)
  | (port, ty) :: r, used =>
    match pinsOf env port with
    | none => if strict then .error .undeclaredPort else topPorts env strict r used
    | some ps =>
      if ps = [] then .error .emptyGroup
      else
        match usePins ty ps used with
        | .error e => .error e
        | .ok used' =>
          match topPorts env strict r used' with
          | .error e => .error e
          | .ok (ports, pins) => .ok ((port, ty) :: ports, pins)

/-- Name of the wire for an unused bit, /repo/src/SiliceCompiler.cpp:625 and 688. -/
def unusedName (port : Txt) (p : Nat) : Txt := "__unused_".toList ++ port ++ '_' :: natToDec p

/-- Text of one element of the concatenation, with its comma, /repo/src/SiliceCompiler.cpp:624-632. -/
def selText (port : Txt) (p : Nat) : PinSel → Txt
  | .unused => unusedName port p ++ [',']
  | .whole n => n ++ [',']
  | .bit n b => n ++ '[' :: natToDec b ++ [']', ',']

/-- The loop at 623, from position `p`. -/
def selTexts (port : Txt) : Nat → List PinSel → Txt
  | _, [] => []
  | p, s :: r => selText port p s ++ selTexts port (p + 1) r

/-- What is connected to a port, /repo/src/SiliceCompiler.cpp:622-635: the last comma is removed. -/
def glueVector (port : Txt) (ps : List PinSel) : Txt := ('{' :: selTexts port 0 ps).dropLast ++ ['}']

/-- Prefix of a port of the main unit, /repo/src/SiliceCompiler.cpp:614-618. -/
def portPrefix : PortType → Txt
  | .input => ".in_".toList
  | .output => ".out_".toList
  | .inout => ".inout_".toList

/-- One line of `verilogMainGlue`, /repo/src/SiliceCompiler.cpp:613-637. -/
def glueLine (port : Txt) (ty : PortType) (ps : List PinSel) : Txt :=
  portPrefix ty ++ port ++ '(' :: glueVector port ps ++ "),\n".toList

/-- Wires declared for the unused bits of a port, /repo/src/SiliceCompiler.cpp:686-690. -/
def unusedWires (port : Txt) : Nat → List PinSel → List Txt
  | _, [] => []
  | p, .unused :: r => unusedName port p :: unusedWires port (p + 1) r
  | p, _ :: r => unusedWires port (p + 1) r

/-- One pin of the signature, /repo/src/SiliceCompiler.cpp:592-603: name, type and range if any. `none`: unknown pin, which throws. -/
def sigPin (env : PinEnv) (P : Txt × PortType) : Option (Txt × PortType × Option Nat) :=
  match lookupT env.pins P.1 with
  | none => none
  | some w => some (P.1, P.2, if w > 1 then some (w - 1) else none)

end Silice
