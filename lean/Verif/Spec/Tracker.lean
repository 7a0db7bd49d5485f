import Verif.Model.Tracker

/-!
What expression trackers mean in the source.

"Variables can be bound to expressions, thus tracking the value of the expression." "The second operator, `<::` tracks the expression
with a one cycle latency." (/repo/learn-silice/Documentation.md 445-500.)
-/

set_option autoImplicit false

namespace Silice

section
variable {V : Type}

/-- The trackers carry their expressions: on the current values for `<:`, on the values the cycle started with for `<::`. -/
def Tracks (kind : String → Option TrkKind) (fx : TFix V) (ts : List (Trk V)) (q cur w : String → V) : Prop :=
  ∀ t ∈ ts, w t.name = t.cut (t.e.eval (codeVal kind fx w (if t.dbl then q else cur)))

/-- The source: the code is run in order, and wherever it reads a tracker it gets the expression on the values of that moment. -/
inductive SrcTrk (kind : String → Option TrkKind) (fx : TFix V) (tr : V → Bool) (ts : List (Trk V)) (q : String → V) :
    TCode V → (String → V) → (String → V) → Prop where
  | nil (cur : String → V) : SrcTrk kind fx tr ts q .nil cur cur
  | asg (x : String) (e : TExp V) (k : TCode V) (cur w r : String → V) :
      Tracks kind fx ts q cur w → SrcTrk kind fx tr ts q k (Function.update cur x (e.eval (codeVal kind fx w cur))) r →
      SrcTrk kind fx tr ts q (.asg x e k) cur r
  | ite (c : TExp V) (t e k : TCode V) (cur w m r : String → V) :
      Tracks kind fx ts q cur w → SrcTrk kind fx tr ts q (if tr (c.eval (codeVal kind fx w cur)) then t else e) cur m →
      SrcTrk kind fx tr ts q k m r → SrcTrk kind fx tr ts q (.ite c t e k) cur r

/-- What code may assign. -/
def TCode.assigned : TCode V → List String
  | .nil => []
  | .asg x _ k => x :: k.assigned
  | .ite _ t e k => t.assigned ++ (e.assigned ++ k.assigned)

/-- An expression reads a name. -/
def TExp.Reads (e : TExp V) (x : String) : Prop := ∃ c, (c, x) ∈ e.refs

/-- `y` is tracked as it changes by `n`: it is an operand of a `<:` tracker, possibly through other trackers. -/
inductive Follows (kind : String → Option TrkKind) (ts : List (Trk V)) : String → String → Prop where
  | here (t : Trk V) (y : String) : t ∈ ts → t.dbl = false → t.e.Reads y → kind y ≠ some .wire → Follows kind ts t.name y
  | through (t : Trk V) (s y : String) : t ∈ ts → t.e.Reads s → kind s = some .wire → Follows kind ts s y → Follows kind ts t.name y

/-- No tracker read by the expression follows one of these. -/
def TrkClear (kind : String → Option TrkKind) (ts : List (Trk V)) (e : TExp V) (l : List String) : Prop :=
  ∀ n, e.Reads n → kind n = some .wire → ∀ y, Follows kind ts n y → y ∉ l

/-- What a tracker follows is not assigned after the tracker was read, nor by the assignment that reads it. `after` is what is assigned
after the code. -/
def NotLate (kind : String → Option TrkKind) (ts : List (Trk V)) : List String → TCode V → Prop
  | _, .nil => True
  | after, .asg x e k => TrkClear kind ts e (x :: (k.assigned ++ after)) ∧ NotLate kind ts after k
  | after, .ite c t e k =>
    TrkClear kind ts c (t.assigned ++ (e.assigned ++ (k.assigned ++ after))) ∧ NotLate kind ts (k.assigned ++ after) t ∧
      NotLate kind ts (k.assigned ++ after) e ∧ NotLate kind ts after k

/-- Everything an instruction of the code reads. -/
def TCode.Reads : TCode V → String → Prop
  | .nil, _ => False
  | .asg _ e k, x => e.Reads x ∨ k.Reads x
  | .ite c t e k, x => c.Reads x ∨ t.Reads x ∨ e.Reads x ∨ k.Reads x

/-- The trackers of a unit: distinct names that are wires, the wires that are read are among them, their expressions do not lead back
to themselves (C57), and operands of `<::` are not temporaries (they are marked as used from one cycle to the next,
/repo/src/Algorithm.cpp 7723-7726). -/
structure TrkSound (kind : String → Option TrkKind) (ts : List (Trk V)) (code : TCode V) : Prop where
  names : (ts.map (·.name)).Nodup
  wires : ∀ t ∈ ts, kind t.name = some .wire
  inCode : ∀ x, code.Reads x → kind x = some .wire → ∃ t ∈ ts, t.name = x
  inTrks : ∀ t ∈ ts, ∀ x, t.e.Reads x → kind x = some .wire → ∃ s ∈ ts, s.name = x
  noCycle : ∃ rank : String → Nat, ∀ t ∈ ts, ∀ x, t.e.Reads x → kind x = some .wire → rank x < rank t.name
  held : ∀ t ∈ ts, t.dbl = true → ∀ x, t.e.Reads x → kind x ≠ some .temp

/-- An operand that `<::` does not delay: an input, the output of an instance, or a `<:` tracker. -/
def NotDelayed (kind : String → Option TrkKind) (ts : List (Trk V)) (x : String) : Prop :=
  kind x = some .input ∨ kind x = some .bound ∨ ∃ s ∈ ts, s.name = x ∧ s.dbl = false

/-- The operand a warning is about. -/
def TWarn.about : TWarn → String
  | .tracker x => x
  | .bound x => x
  | .input x => x

end

end Silice
