import Verif.Model.TopPins

/-!
Specification: which bits the text of a Verilog concatenation connects, and names the framework may use.
-/

set_option autoImplicit false

namespace Silice

/-- An identifier. -/
def PlainName (n : Txt) : Prop := n ≠ [] ∧ ∀ c ∈ n, c.isAlphanum = true ∨ c = '_'

instance (n : Txt) : Decidable (PlainName n) := by unfold PlainName; infer_instance

/-- Nets of a module: a vector with its last index, or a single bit. -/
abbrev Nets := Txt → Option (Option Nat)

/-- Bits of an element of a concatenation, least significant first: a name, or a bit `name[index]` of a vector (Verilog has no bit select
on a single bit). -/
def itemBits (nets : Nets) (t : Txt) : Option (List (Txt × Nat)) :=
  match getlineC '[' t with
  | (n, none) =>
    match nets n with
    | some none => some [(n, 0)]
    | some (some m) => some ((List.range (m + 1)).map fun b => (n, b))
    | none => none
  | (n, some r) =>
    match getlineC ']' r, nets n with
    | (d, some []), some (some m) =>
      match stoiDec d with
      | some b => if b ≤ m then some [(n, b)] else none
      | none => none
    | _, _ => none

/-- Bits of a concatenation `{a,b,...}`, least significant first: the last element is the least significant. -/
def concatBits (nets : Nets) (t : Txt) : Option (List (Txt × Nat)) :=
  match t with
  | '{' :: r =>
    match getlineC '}' r with
    | (body, some []) => ((getlines ',' body).mapM (itemBits nets)).map fun l => l.reverse.flatten
    | _ => none
  | _ => none

/-- Nets of the top module: the pins of its signature, and wires for unused bits. -/
def topNets (env : PinEnv) (pins : List (Txt × PortType)) (wires : List Txt) : Nets := fun n =>
  if n ∈ wires then some none
  else if n ∈ pins.map (·.1) then
    match lookupT env.pins n with
    | none => none
    | some w => some (if w > 1 then some (w - 1) else none)
  else none

/-- Bits of an element of a group, least significant first; unused bits have a wire of their own. -/
def selBits (env : PinEnv) (port : Txt) (p : Nat) : PinSel → List (Txt × Nat)
  | .unused => [(unusedName port p, 0)]
  | .whole n =>
    match lookupT env.pins n with
    | some w => (List.range w).map fun b => (n, b)
    | none => []
  | .bit n b => [(n, b)]

/-- Bits of a group, most significant element first in the group, least significant bit first in the result. -/
def groupBits (env : PinEnv) (port : Txt) : Nat → List PinSel → List (Txt × Nat)
  | _, [] => []
  | p, s :: r => groupBits env port (p + 1) r ++ selBits env port p s

/-- The pin of an element of a group. -/
def PinSel.pin : PinSel → Option Txt
  | .unused => none
  | .whole n => some n
  | .bit n _ => some n

/-- Two elements share a bit of a pin. -/
def PinSel.Clash : PinSel → PinSel → Prop
  | .whole n, .whole m => n = m
  | .whole n, .bit m _ => n = m
  | .bit n _, .whole m => n = m
  | .bit n b, .bit m c => n = m ∧ b = c
  | _, _ => False

/-- The elements given to all the ports, in order. -/
def allSels (env : PinEnv) : List (Txt × PortType) → List PinSel
  | [] => []
  | (port, _) :: r => (match pinsOf env port with | some ps => ps | none => []) ++ allSels env r

/-- All unused wires of the ports. -/
def allWires (env : PinEnv) : List (Txt × PortType) → List Txt
  | [] => []
  | (port, _) :: r => (match pinsOf env port with | some ps => unusedWires port 0 ps | none => []) ++ allWires env r

/-- A sequence of assignments of the framework. -/
def declarePins (env : PinEnv) : List (Txt × LuaVal) → Except TopErr PinEnv
  | [] => .ok env
  | (k, v) :: r =>
    match declarePin env k v with
    | .error e => .error e
    | .ok env' => declarePins env' r

/-- What the framework wrote, as an element of a group. -/
def written : LuaPin → PinSel
  | .bit n b => .bit n b
  | .whole n => .whole n
  | .num _ => .unused

/-- The declarations the theorems are about: every name is an identifier, no pin has the name of a private wire, no pin is empty. -/
structure PlainPins (l : List (Txt × LuaVal)) (env : PinEnv) : Prop where
  declared : declarePins ⟨[], []⟩ l = .ok env
  names : ∀ a ∈ l, PlainName a.1
  positive : ∀ n w, (n, w) ∈ env.pins → 0 < w
  notPrivate : ∀ n w, (n, w) ∈ env.pins → ¬ "__unused_".toList <+: n

end Silice
