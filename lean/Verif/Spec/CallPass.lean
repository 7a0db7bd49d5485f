import Verif.Model.CallPass
import Verif.Spec.Select

/-!
What calls and joins do in a source: all arguments are evaluated, then the inputs receive their values; all places that receive results are determined,
then the results are stored, in order.
-/

set_option autoImplicit false

namespace Silice

/-- The argument as an expression. -/
def GArg.toEx : GArg → SEx
  | .ex e => e
  | .member g m => .read (.mk (.io g m) .no none .no)

/-- The receiver as an access. -/
def Recv.toAcc : Recv → Option SAcc
  | .name x => some (.mk (.id x) .no none .no)
  | .member g m => some (.mk (.io g m) .no none .no)
  | .acc a => some a
  | .other => none

/-- Members are members of groups (C14). -/
def GArg.Grouped (D : Declared) : GArg → Prop
  | .ex _ => True
  | .member g m => (D.ty (.member g m)).isSome

/-- Members are members of groups (C14). -/
def Recv.Grouped (D : Declared) : Recv → Prop
  | .member g m => (D.ty (.member g m)).isSome
  | _ => True

/-- Storing a value in a whole variable. -/
def SrcMem.put (D : Declared) (σ : SrcMem) (x : SVar) (v : Nat) : SrcMem :=
  match D.ty x with
  | some t => σ.set x ⟨0, 0, t.width⟩ v
  | none => σ

/-- The inputs receive the values of the arguments. -/
def SrcMem.putAll (D : Declared) : SrcMem → List (SVar × Nat) → SrcMem
  | σ, [] => σ
  | σ, (x, v) :: rest => SrcMem.putAll D (σ.put D x v) rest

/-- The results are stored in order. -/
def SrcMem.storeAll : SrcMem → List ((SVar × Bits) × Nat) → SrcMem
  | σ, [] => σ
  | σ, (p, v) :: rest => SrcMem.storeAll (σ.set p.1 p.2 v) rest

/-- The value of a word. -/
def SrcMem.word (D : Declared) (σ : SrcMem) (x : SVar) : Nat :=
  match D.ty x with
  | some t => bitsVal (fun j => σ x 0 j) t.width
  | none => 0

/-- The variable is declared, it is a word, and it is not given by a binding. -/
def Declared.Word (D : Declared) (x : SVar) : Prop := ∃ t, D.ty x = some t ∧ t.size = 0 ∧ D.Free x

/-- Held by a register or a temporary. -/
def Written (held : String → Held) (x : String) : Prop := held x = .flipflop ∨ held x = .temp

/-- Arguments may read everything except inputs of the callee that change during the call: those which are no flip-flops or were written before in the cycle. -/
def ArgMay (D : Declared) (c : SelCtx) (xs : List SVar) (v : SVar) : Prop := v ∈ xs → c.held (D.name v) = .flipflop ∧ D.name v ∉ c.deps

/-- Indices of receivers, and results, may read everything except flip-flops written before in the cycle, and other receivers that are no flip-flops. -/
def RecvMay (D : Declared) (held : String → Held) (deps : List String) (xs : List SVar) (v : SVar) : Prop :=
  (v.Stored → held (D.name v) = .flipflop → D.name v ∉ deps) ∧ (v ∈ xs → held (D.name v) = .flipflop)

/-- The argument can be given: its value is defined, what it reads is as required. -/
structure Gives (D : Declared) (c : SelCtx) (σ : SrcMem) (xs : List SVar) (a : GArg) (v : Nat) : Prop where
  grouped : a.Grouped D
  whole : a.toEx.MacroWhole D c.held
  within : a.toEx.Within D (ArgMay D c xs)
  val : SVal D σ a.toEx v

/-- The receiver is a place: a part of a variable held by a register or a temporary. -/
structure Receives (D : Declared) (held : String → Held) (deps : List String) (σ : SrcMem) (xs : List SVar) (r : Recv) (p : SVar × Bits) : Prop where
  grouped : r.Grouped D
  place : ∃ a, r.toAcc = some a ∧ a.MacroWhole D held ∧ a.IndicesWithin D (RecvMay D held deps xs) ∧ SPlace D σ a p.1 p.2
  noInput : ∀ y, p.1 ≠ .own y
  written : Written held (D.name p.1)

/-- A receiver that makes sense: an existing variable, not bound to the output of an instance (where this is checked), or an access that can be assigned. -/
def Recv.Sensible (D : Declared) (held : String → Held) (chk : Bool) : Recv → Prop
  | .name x => (∃ v, StandsFor D (.id x) v) ∧ (chk = true → ∀ w, held x ≠ .bound w)
  | .member g m => chk = true → ∀ w, held (g ++ "_" ++ m) ≠ .bound w
  | .acc a => a.Sensible D .wr
  | .other => False

/-- Identifiers of a receiver. -/
def Recv.ids : Recv → List String
  | .name x => [x]
  | .acc a => a.ids
  | _ => []

end Silice
