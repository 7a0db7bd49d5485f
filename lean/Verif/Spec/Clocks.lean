import Verif.Model.Clocks
import Verif.Spec.BitBinding

/-! Specification of clocks and resets: what the source designates. -/

set_option autoImplicit false

namespace Silice

/-- The name after `@` in a modifier. -/
def ClkMod.clockName : ClkMod → Option String
  | .clock x => some x
  | _ => none

/-- The name after `!` in a modifier. -/
def ClkMod.resetName : ClkMod → Option String
  | .reset x => some x
  | _ => none

/-- The last name given, or else the one of the context. -/
def lastOr (dflt : String) (names : List String) : String := (names.getLast?).getD dflt

/-- Clock and reset given to a unit by the one that instantiates it. -/
structure Given where
  clock : Bool
  reset : Bool

/-- The binding drives bit 0 of its variable. -/
def OutBind.bit0 : OutBind → Bool
  | .part b => b.first == 0 && b.num != 0
  | .whole _ => true

/-- Value of (bit 0 of) a variable: of the output bound to it; 0 if outputs are bound to other bits only; its own when
no output is bound to it. -/
def srcVar (h : ClkHead) (wire : List Char → Nat → Bool) (var : String → Bool) (x : String) : Bool :=
  match (h.outs.filter (fun o => o.1 == x)).map (·.2) with
  | [] => var x
  | l => match l.find? OutBind.bit0 with
    | some b => wire b.wireName 0
    | none => false

/-- What a name stands for in a unit. -/
def srcSignal (h : ClkHead) (g : Given) (wire : List Char → Nat → Bool) (var : String → Bool) (x : String) : Bool :=
  if x = "clock" then g.clock else if x = "reset" then g.reset else srcVar h wire var x

/-- The clock of a unit is the one of its modifiers, or else the one it is given. -/
def ClkHead.srcClock (h : ClkHead) : String := lastOr "clock" (h.mods.filterMap ClkMod.clockName)

/-- The reset of a unit is the one of its modifiers, or else the one it is given. -/
def ClkHead.srcReset (h : ClkHead) : String := lastOr "reset" (h.mods.filterMap ClkMod.resetName)

/-- The clock given to an instance is the one of its modifiers, or else the one of the unit it is in. -/
def ClkInst.srcClock (h : ClkHead) (i : ClkInst) : String := lastOr h.srcClock (i.mods.filterMap ClkMod.clockName)

/-- The reset given to an instance. -/
def ClkInst.srcReset (h : ClkHead) (i : ClkInst) : String := lastOr h.srcReset (i.mods.filterMap ClkMod.resetName)

/-- The unit reached by a path of instances, and what it is given. -/
def srcGiven (w : ClkWorld) : List String → ClkUnit → Given → List String → Option (ClkUnit × Given)
  | _, u, g, [] => some (u, g)
  | pre, u, g, i :: path =>
    match u.insts.toList.find? (fun j => j.name == i) with
    | none => none
    | some inst => match inst.what with
      | .unit v =>
        let sig := srcSignal u.head g (w.wire pre) (w.var pre)
        srcGiven w (pre ++ [i]) v ⟨sig (inst.srcClock u.head), sig (inst.srcReset u.head)⟩ path
      | _ => none

/-- The clocks of a memory: the two given, or else the one of the unit. -/
def ClkMem.srcClocks (h : ClkHead) (m : ClkMem) : List String :=
  if m.clocks = [] then (if m.dual then [h.srcClock, h.srcClock] else [h.srcClock]) else m.clocks

/-- What the source designates for everything that uses a clock or a reset in a unit. Registers are reset when they have
an initial value that is not one of the configuration; units and processors get a clock, and a reset as soon as
something in them is initialised or is a state machine; Verilog modules get what is bound. -/
def srcView (u : ClkUnit) (sig : String → Bool) : ClkView where
  outClock := some (sig u.head.srcClock)
  regs := u.head.regs.map (fun r => (r.name, some (sig u.head.srcClock),
    if r.noInit || r.atStartup then none else some (some (sig u.head.srcReset))))
  fsm := if u.head.fsm then some (some (sig u.head.srcClock), some (sig u.head.srcReset)) else none
  checks := if u.head.checks then some (some (sig u.head.srcReset)) else none
  mems := u.head.mems.map (fun m => (m.name, (m.srcClocks u.head).map (fun x => some (sig x))))
  insts := u.insts.toList.map (fun i => ⟨i.name,
    if i.what.requiresClock then some (some (sig (i.srcClock u.head))) else none,
    if i.what.requiresReset then some (some (sig (i.srcReset u.head))) else none,
    i.binds.map (fun b => (b.1, some (sig b.2)))⟩)

/-- `v` is the unit reached by a path. -/
inductive UnitAt : ClkUnit → List String → ClkUnit → Prop
  | here (u : ClkUnit) : UnitAt u [] u
  | there (u v x : ClkUnit) (i : ClkInst) (path : List String) :
    u.insts.toList.find? (fun j => j.name == i.name) = some i → i.what = .unit v → UnitAt v path x →
    UnitAt u (i.name :: path) x

/-- The compiler writes every module of the design. -/
def ClkUnit.Accepted (top : ClkUnit) : Prop :=
  ∀ path v, UnitAt top path v → (v.text path.isEmpty).isSome ∧ ∀ i ∈ v.insts.toList, (v.head.connect i).isSome

/-- Wires are named as the compiler does, outputs are bound to variables (not to `clock` or `reset`), variables have at least a bit, and no variable is bound as a whole and also in
part (which is not refused, see C05). -/
structure ClkHead.BoundOk (h : ClkHead) : Prop where
  names : ∀ o ∈ h.outs, o.1 ≠ "clock" ∧ o.1 ≠ "reset"
  part : ∀ o ∈ h.outs, ∀ b, o.2 = .part b → b.NameOk
  whole : ∀ o ∈ h.outs, ∀ t, o.2 = .whole t → t ≠ [] ∧ ';' ∉ t
  width : ∀ x n, h.vios.lookup x = some n → 0 < n
  once : ∀ x t, OutBind.whole t ∈ (h.outs.filter (fun o => o.1 == x)).map (·.2) →
    (h.outs.filter (fun o => o.1 == x)).map (·.2) = [.whole t]

/-- The clock and the reset given by the modifiers of the unit itself are variables bound to whole outputs. -/
def ClkHead.OwnWhole (h : ClkHead) : Prop :=
  ∀ x, (x = h.srcClock ∧ x ≠ "clock") ∨ (x = h.srcReset ∧ x ≠ "reset") →
    ∀ o ∈ h.outs, o.1 = x → ∃ t, o.2 = .whole t

/-- The unit uses the reset it is given: as its own, for something that is instantiated, as a bound input or as the
clock of something. -/
def ClkUnit.UsesReset (u : ClkUnit) : Prop :=
  (u.head.checks = true ∧ u.head.srcReset = "reset") ∨
  (∃ m ∈ u.head.mems, "reset" ∈ m.clocks) ∨
  ∃ i ∈ u.insts.toList, (∃ b ∈ i.binds, b.2 = "reset") ∨ (i.what.requiresClock = true ∧ i.srcClock u.head = "reset")

/-- Something in the unit, at any depth, is initialised at reset or configuration, or is a state machine or a processor. -/
inductive ClkUnit.NeedsReset : ClkUnit → Prop
  | fsm (u : ClkUnit) : u.head.fsm = true → NeedsReset u
  | reg (u : ClkUnit) (r : ClkReg) : r ∈ u.head.regs → r.noInit = false → NeedsReset u
  | riscv (u : ClkUnit) (i : ClkInst) : i ∈ u.insts.toList → i.what = .riscv → NeedsReset u
  | unit (u v : ClkUnit) (i : ClkInst) : i ∈ u.insts.toList → i.what = .unit v → NeedsReset v → NeedsReset u

end Silice
