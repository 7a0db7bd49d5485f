import Verif.Model.Init
import Verif.Spec.Regs

/-!
Specification of initial values: the variables of the source as a store that says what is known, updated where the
documentation says that a variable is given its initial value.
-/

set_option autoImplicit false

namespace Silice
variable {V R E : Type}

/-- Known values of the entries of the variables. -/
abbrev VarStore (V : Type) := Nat → Nat → Option V

/-- Value given to entry `i` in the declaration. Members of a `sameas` group have the value of the member they are the
same as, or 0. -/
def VarDecl.value (z : V) (d : VarDecl V) (i : Nat) : Option V :=
  match d.init with
  | .set v => if i = 0 then some v else none
  | .cstr v => if i = 0 then some v else none
  | .table _ vs => vs[i]?
  | .groupMember =>
    if i = 0 then
      match d.sameAs with
      | some (w :: _) => some w
      | _ => some z
    else none
  | _ => none

/-- Number of entries. -/
def VarDecl.entries (d : VarDecl V) : Nat :=
  match d.init with
  | .table n _ => n
  | .tableNone n => n
  | _ => 1

/-- The value is given with parentheses: on configuration. -/
def VarDecl.OnConfig (d : VarDecl V) : Prop := ∃ v, d.init = .cstr v

instance (d : VarDecl V) : Decidable d.OnConfig :=
  match h : d.init with
  | .cstr v => isTrue ⟨v, h⟩
  | .set _ | .setNone | .cstrNone | .expr | .absent | .table _ _ | .tableNone _ | .groupMember => isFalse fun ⟨_, h'⟩ => by rw [h] at h'; cases h'

/-- The values of the variables chosen by `p` are given to them. -/
def VarStore.given (z : V) (ds : List (VarDecl V)) (p : VarDecl V → Bool) (σ : VarStore V) : VarStore V := fun x i =>
  match ds[x]? with
  | none => σ x i
  | some d => if p d then (match d.value z i with | some v => some v | none => σ x i) else σ x i

/-- On configuration: `TYPE x(v)` has its value, unless initialisation at reset is forced. Nothing else is known. -/
def srcConfig (z : V) (ds : List (VarDecl V)) (force : Bool) : VarStore V :=
  VarStore.given z ds (fun d => !force && decide d.OnConfig) fun _ _ => none

/-- The cycle in the source. Entering a block other than the outermost gives the variables declared with `=` in it their
values. Reading what is not known has no meaning (`none`). -/
def srcCycle (z : V) (ds : List (VarDecl V)) : CycProg V R → VarStore V → Option (R × VarStore V)
  | .done r, σ => some (r, σ)
  | .read x i k, σ =>
    match σ x i with
    | none => none
    | some v => srcCycle z ds (k v) σ
  | .write x i v k, σ => srcCycle z ds k fun y j => if y = x ∧ j = i then some v else σ y j
  | .enter b k, σ => srcCycle z ds k (σ.given z ds fun d => decide (d.block = b ∧ b ≠ 0) && !decide d.OnConfig)

/-- The unit is in reset, or is called and not started: variables declared with `=` have their values (with the option,
all variables). -/
def srcEdge (z : V) (ds : List (VarDecl V)) (force starts : Bool) (σ : VarStore V) : VarStore V :=
  if starts then σ.given z ds fun d => force || !decide d.OnConfig else σ

/-- The cycle is one before the unit starts. -/
def starting (a : AlgKind) (rst run : Bool) : Bool := rst || (!a.autorun && !a.noFsm && !run)

/-- A history of cycles of the source. -/
def srcHistory (z : V) (ds : List (VarDecl V)) (force : Bool) (a : AlgKind) (body : E → R → CycProg V R) (ctl : Bool → Bool → R → R) :
    List (CycIn E V) → R × VarStore V → Option (R × VarStore V)
  | [], rs => some rs
  | i :: is, rs =>
    match srcCycle z ds (body i.ext rs.1) rs.2 with
    | none => none
    | some (r, σ) => srcHistory z ds force a body ctl is (ctl i.rst i.run r, srcEdge z ds force (starting a i.rst i.run) σ)

/-- On every way through the cycle: constants are not written, variables that are never read are not, temporaries are
read after they are written or their block has started (`w` says which are), and entries that are written exist. -/
def CycProg.Fits (u : VarSet V) (z : V) (ds : List (VarDecl V)) : CycProg V R → (Nat → Nat → Prop) → Prop
  | .done _, _ => True
  | .read x i k, w => u.writeOnly x = false ∧ (u.kept x = .temp → w x i) ∧ ∀ v, (k v).Fits u z ds w
  | .write x i _ k, w => u.kept x ≠ .const ∧ (∃ d, ds[x]? = some d ∧ i < d.entries) ∧ k.Fits u z ds fun y j => (y = x ∧ j = i) ∨ w y j
  | .enter b k, w => k.Fits u z ds fun y j => w y j ∨ ∃ d, ds[y]? = some d ∧ d.block = b ∧ b ≠ 0 ∧ ¬ d.OnConfig ∧ (d.value z j).isSome

/-- A `sameas` variable has no initial value, or the one of the variable it is the same as. -/
def VarDecl.SameValue (z : V) (d : VarDecl V) : Prop := ∀ bs, d.sameAs = some bs → ∀ v, d.init = .set v ∨ d.init = .cstr v → bs.head? = some v ∨ (bs = [] ∧ v = z)

/-- Tables have entries and values for all of them, and no `sameas`. -/
def VarDecl.FullTable (d : VarDecl V) : Prop :=
  (∀ n vs, d.init = .table n vs → 0 < n ∧ vs.length = n ∧ d.sameAs = none) ∧ (∀ n, d.init = .tableNone n → 0 < n ∧ d.sameAs = none) ∧
  (d.init = .groupMember → d.sameAs ≠ none)

end Silice
