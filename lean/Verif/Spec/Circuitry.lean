import Verif.Model.Circuitry

/-!
Specification: meaning of code with circuitries and repeat blocks. A port stands for what is given to it, any other identifier for what it
stands for where the circuitry is instantiated; an expression given to an input is evaluated there; a repeat block runs its body with indices
0, 1, ... in order.
-/

set_option autoImplicit false

namespace Silice

/-- Values of variables. -/
abbrev VStore := VName → Int

def VStore.set (st : VStore) (v : VName) (a : Int) : VStore := fun w => if w = v then a else st w

/-- Value of a source expression, names standing for variables through `env`. `I` gives the meaning of operators. -/
def evalS (I : Nat → Int → Int → Int) (env : String → VName) (id : Option Nat) (st : VStore) : AExp String → Option Int
  | .num n => some n
  | .var x => some (st (env x))
  | .idx => id.map fun (i : Nat) => (i : Int)
  | .op k a b =>
    match evalS I env id st a, evalS I env id st b with
    | some u, some v => some (I k u v)
    | _, _ => none

/-- Value of a written expression. -/
def evalW (I : Nat → Int → Int → Int) (st : VStore) : AExp VName → Option Int
  | .num n => some n
  | .var x => some (st x)
  | .idx => none
  | .op k a b =>
    match evalW I st a, evalW I st b with
    | some u, some v => some (I k u v)
    | _, _ => none

/-- Written instructions run in order. -/
def runW (I : Nat → Int → Int → Int) : List (VName × AExp VName) → VStore → Option VStore
  | [], st => some st
  | (v, e) :: l, st =>
    match evalW I st e with
    | none => none
    | some a => runW I l (st.set v a)

/-- Variables that stand for what is given, from temporary `t`, and the values of the expressions given. -/
def given (I : Nat → Int → Int → Int) (env : String → VName) (id : Option Nat) (st : VStore) :
    Nat → List CArg → Option (List VName × List (Nat × Int))
  | _, [] => some ([], [])
  | t, .id x :: l =>
    match given I env id st t l with
    | some (vs, ts) => some (env x :: vs, ts)
    | none => none
  | t, .expr e :: l =>
    match evalS I env id st e, given I env id st (t + 1) l with
    | some a, some (vs, ts) => some (.temp t :: vs, (t, a) :: ts)
    | _, _ => none

/-- Values after the temporaries are given theirs. -/
def withTemps (st : VStore) : List (Nat × Int) → VStore
  | [] => st
  | (k, a) :: l => (withTemps st l).set (.temp k) a

/-- The variable given to a port. -/
def portArg : List String → List VName → String → Option VName
  | p :: ps, v :: vs, x => if p = x then some v else portArg ps vs x
  | _, _, _ => none

/-- What identifiers stand for inside a circuitry. -/
def portEnv (env : String → VName) (ins : List String) (iv : List VName) (outs : List String) (ov : List VName) (x : String) : VName :=
  match portArg ins iv x with
  | some v => v
  | none =>
    match portArg outs ov x with
    | some v => v
    | none => env x

/-- What identifiers stand for, current block, next block and temporary, values. -/
structure MS where
  env : String → VName
  blk : Option Nat
  nb : Nat
  nt : Nat
  st : VStore

/-- `f i`, `f (i + 1)`, ..., `n` times. -/
def times {S : Type} (f : Nat → S → Option S) : Nat → Nat → S → Option S
  | _, 0, s => some s
  | i, n + 1, s =>
    match f i s with
    | none => none
    | some s' => times f (i + 1) n s'

/-- Meaning of code; `none` if it has none (wrong number of arguments, index outside of a repeat block, nested or empty repeat). -/
def meaning (I : Nat → Int → Int → Int) (id : Option Nat) : CCode → MS → Option MS
  | .done, s => some s
  | .asg x e r, s =>
    match evalS I s.env id s.st e with
    | none => none
    | some a => meaning I id r { s with st := s.st.set (s.env x) a }
  | .declare x e r, s =>
    match evalS I s.env id s.st e with
    | none => none
    | some a =>
      meaning I id r { s with env := fun y => if x = y then blockName s.blk x else s.env y, st := s.st.set (blockName s.blk x) a }
  | .block body r, s =>
    match meaning I id body { s with blk := some s.nb, nb := s.nb + 1 } with
    | none => none
    | some s' => meaning I id r { s' with env := s.env, blk := some s'.nb, nb := s'.nb + 1 }
  | .inst ins outs ia oa body r, s =>
    if ins.length ≠ ia.length ∨ outs.length ≠ oa.length then none
    else
      match given I s.env id s.st s.nt ia with
      | none => none
      | some (iv, ts) =>
        match meaning I id body
            { s with env := portEnv s.env ins iv outs (oa.map s.env), blk := some s.nb, nb := s.nb + 1, nt := s.nt + ia.length,
                     st := withTemps s.st ts } with
        | none => none
        | some s' => meaning I id r { s' with env := s.env, blk := some s'.nb, nb := s'.nb + 1 }
  | .rep n body r, s =>
    if id ≠ none ∨ n = 0 then none
    else
      match times (fun i => meaning I (some i) body) 0 n s with
      | none => none
      | some s' => meaning I id r s'

/-- Names of an expression. -/
def AExp.names {A : Type} : AExp A → List A
  | .num _ => []
  | .var x => [x]
  | .idx => []
  | .op _ a b => a.names ++ b.names

def CArg.names : CArg → List String
  | .id x => [x]
  | .expr e => e.names

/-- Names read to compute what is given. -/
def CArg.read : CArg → List String
  | .id _ => []
  | .expr e => e.names

/-- Names declared in the block itself. -/
def CCode.declared : CCode → List String
  | .done => []
  | .asg _ _ r => r.declared
  | .declare x _ r => x :: r.declared
  | .block _ r => r.declared
  | .inst _ _ _ _ _ r => r.declared
  | .rep _ b r => b.declared ++ r.declared

/-- What is given to a port. -/
def portGiven : List String → List CArg → String → Option CArg
  | p :: ps, a :: as, x => if p = x then some a else portGiven ps as x
  | _, _, _ => none

/-- The name a name in scope comes from: a port given an identifier is that identifier. Names that come from different names are different
variables. -/
def portRoot (root : String → String) (ins : List String) (ia : List CArg) (outs : List String) (oa : List String) (x : String) : String :=
  match portGiven ins ia x with
  | some (.id y) => root y
  | some (.expr _) => x
  | none =>
    match portGiven outs (oa.map CArg.id) x with
    | some (.id y) => root y
    | some (.expr _) => x
    | none => root x

/-- Surely not assigned; `none` if nothing is known. -/
def NotIn (W : Option (List String)) (r : String) : Prop :=
  match W with
  | none => False
  | some l => r ∉ l

def addW (W : Option (List String)) (r : String) : Option (List String) := W.map (r :: ·)

/-- Code where names in scope (`V`) are never hidden, by a declaration nor by the name of a port; an inout is given the same identifier as
input and as output; expressions given to inputs do not read variables assigned before in the same block (`W`: names these come from, not tracked
in and after repeat blocks until the next block). -/
def Hygienic (V : List String) (root : String → String) (W : Option (List String)) : CCode → Prop
  | .done => True
  | .asg x e r => x ∈ V ∧ (∀ y ∈ e.names, y ∈ V) ∧ Hygienic V root (addW W (root x)) r
  | .declare x e r =>
    x ∉ V ∧ (∀ y ∈ e.names, y ∈ V) ∧ Hygienic (x :: V) (fun y => if y = x then x else root y) (addW W x) r
  | .block body r => Hygienic V root (some []) body ∧ Hygienic V root (some []) r
  | .inst ins outs ia oa body r =>
    (∀ p ∈ ins, p ∉ V) ∧ (∀ p ∈ outs, p ∉ V) ∧ ins.Nodup ∧ outs.Nodup ∧ (∀ a ∈ ia, ∀ y ∈ a.names, y ∈ V) ∧ (∀ y ∈ oa, y ∈ V) ∧
    (∀ i < ins.length, ∀ j < outs.length, ins[i]? = outs[j]? → ∃ x ∈ oa, ia[i]? = some (.id x) ∧ oa[j]? = some x) ∧
    (∀ a ∈ ia, ∀ y ∈ a.read, NotIn W (root y)) ∧
    Hygienic (ins ++ outs ++ V) (portRoot root ins ia outs oa) (some []) body ∧ Hygienic V root (some []) r
  | .rep _ body r => body.declared = [] ∧ Hygienic V root none body ∧ Hygienic V root none r

instance (W : Option (List String)) (r : String) : Decidable (NotIn W r) :=
  match W with
  | none => inferInstanceAs (Decidable False)
  | some l => inferInstanceAs (Decidable (r ∉ l))

/-- A program to decide it. -/
def hygienicB (V : List String) (root : String → String) (W : Option (List String)) : CCode → Bool
  | .done => true
  | .asg x e r => decide (x ∈ V) && decide (∀ y ∈ e.names, y ∈ V) && hygienicB V root (addW W (root x)) r
  | .declare x e r =>
    decide (x ∉ V) && decide (∀ y ∈ e.names, y ∈ V) && hygienicB (x :: V) (fun y => if y = x then x else root y) (addW W x) r
  | .block body r => hygienicB V root (some []) body && hygienicB V root (some []) r
  | .inst ins outs ia oa body r =>
    decide (∀ p ∈ ins, p ∉ V) && decide (∀ p ∈ outs, p ∉ V) && decide ins.Nodup && decide outs.Nodup &&
    decide (∀ a ∈ ia, ∀ y ∈ a.names, y ∈ V) && decide (∀ y ∈ oa, y ∈ V) &&
    decide (∀ i < ins.length, ∀ j < outs.length, ins[i]? = outs[j]? → ∃ x ∈ oa, ia[i]? = some (.id x) ∧ oa[j]? = some x) &&
    decide (∀ a ∈ ia, ∀ y ∈ a.read, NotIn W (root y)) &&
    hygienicB (ins ++ outs ++ V) (portRoot root ins ia outs oa) (some []) body && hygienicB V root (some []) r
  | .rep _ body r => decide (body.declared = []) && hygienicB V root none body && hygienicB V root none r

theorem hygienicB_iff (c : CCode) : ∀ (V : List String) (root : String → String) (W : Option (List String)),
    hygienicB V root W c = true ↔ Hygienic V root W c := by
  induction c with
  | done => intro V root W; simp [hygienicB, Hygienic]
  | asg x e r ih => intro V root W; simp only [hygienicB, Hygienic, Bool.and_eq_true, decide_eq_true_eq, ih, and_assoc]
  | declare x e r ih => intro V root W; simp only [hygienicB, Hygienic, Bool.and_eq_true, decide_eq_true_eq, ih, and_assoc]
  | block b r ihb ihr => intro V root W; simp only [hygienicB, Hygienic, Bool.and_eq_true, ihb, ihr]
  | inst ins outs ia oa b r ihb ihr =>
    intro V root W; simp only [hygienicB, Hygienic, Bool.and_eq_true, decide_eq_true_eq, ihb, ihr, and_assoc]
  | rep n b r ihb ihr => intro V root W; simp only [hygienicB, Hygienic, Bool.and_eq_true, decide_eq_true_eq, ihb, ihr, and_assoc]

instance (V : List String) (root : String → String) (W : Option (List String)) (c : CCode) : Decidable (Hygienic V root W c) :=
  decidable_of_iff _ (hygienicB_iff c V root W)

/-- One piece of code after the other. -/
def CCode.append : CCode → CCode → CCode
  | .done, d => d
  | .asg x e r, d => .asg x e (r.append d)
  | .declare x e r, d => .declare x e (r.append d)
  | .block b r, d => .block b (r.append d)
  | .inst i o ia oa b r, d => .inst i o ia oa b (r.append d)
  | .rep n b r, d => .rep n b (r.append d)

/-- An expression with `__id` replaced. -/
def AExp.withId {A : Type} (i : Nat) : AExp A → AExp A
  | .num n => .num n
  | .var x => .var x
  | .idx => .num i
  | .op k a b => .op k (a.withId i) (b.withId i)

def CArg.withId (i : Nat) : CArg → CArg
  | .id x => .id x
  | .expr e => .expr (e.withId i)

/-- Code with `__id` replaced. -/
def CCode.withId (i : Nat) : CCode → CCode
  | .done => .done
  | .asg x e r => .asg x (e.withId i) (r.withId i)
  | .declare x e r => .declare x (e.withId i) (r.withId i)
  | .block b r => .block (b.withId i) (r.withId i)
  | .inst ins outs ia oa b r => .inst ins outs (ia.map (CArg.withId i)) oa (b.withId i) (r.withId i)
  | .rep n b r => .rep n (b.withId i) (r.withId i)

/-- Code without repeat blocks. -/
def CCode.NoRep : CCode → Prop
  | .done => True
  | .asg _ _ r => r.NoRep
  | .declare _ _ r => r.NoRep
  | .block b r => b.NoRep ∧ r.NoRep
  | .inst _ _ _ _ b r => b.NoRep ∧ r.NoRep
  | .rep _ _ _ => False

/-- `n` copies of a body, with indices from `i`. -/
def CCode.unrolled (body : CCode) : Nat → Nat → CCode → CCode
  | _, 0, r => r
  | i, n + 1, r => (body.withId i).append (body.unrolled (i + 1) n r)

/-- Expressions without `__id`. -/
def AExp.NoId {A : Type} : AExp A → Prop
  | .num _ => True
  | .var _ => True
  | .idx => False
  | .op _ a b => a.NoId ∧ b.NoId

/-- Code where `__id` is only used in repeat blocks and no repeat block is inside another, nor empty; `inRep`: the code is in a repeat
block, directly or because a circuitry is instantiated there. -/
def CCode.RepOk (inRep : Bool) : CCode → Prop
  | .done => True
  | .asg _ e r => (inRep = true ∨ e.NoId) ∧ r.RepOk inRep
  | .declare _ e r => (inRep = true ∨ e.NoId) ∧ r.RepOk inRep
  | .block b r => b.RepOk inRep ∧ r.RepOk inRep
  | .inst _ _ ia _ b r => (inRep = true ∨ ∀ e, CArg.expr e ∈ ia → e.NoId) ∧ b.RepOk inRep ∧ r.RepOk inRep
  | .rep n b r => inRep = false ∧ 0 < n ∧ b.RepOk true ∧ r.RepOk inRep

end Silice
