import Verif.Model.Usage

/-!
# What the source means, cycle by cycle

Variables hold their value from one cycle to the next. A read gives the value assigned last.
-/

set_option autoImplicit false

namespace Silice

/-- Result of running source code: variables, state to go to if control left, what was done. -/
structure Res (V : Type) (L : Type := Nat) where
  env : String → V
  out : Option L
  evs : List (Ev V)

mutual
/-- Meaning of source code. Leaving the cycle stops the code. -/
def Stm.run {V L : Type} : Stm V L → (String → V) → Res V L
  | .skip, m => ⟨m, none, []⟩
  | .ins i, m => ⟨i.apply (i.reads.map m) m, none, [⟨i.reads, i.reads.map m, i.writes⟩]⟩
  | .exit l, m => ⟨m, some l, []⟩
  | .seq a b, m =>
    let r := a.run m
    match r.out with
    | some l => ⟨r.env, some l, r.evs⟩
    | none => ⟨(b.run r.env).env, (b.run r.env).out, r.evs ++ (b.run r.env).evs⟩
  | .branch rs sel bs _ other, m =>
    match sel (rs.map m) with
    | some k => ⟨(bs.run k m).env, (bs.run k m).out, ⟨rs, rs.map m, []⟩ :: (bs.run k m).evs⟩
    | none => ⟨m, other, [⟨rs, rs.map m, []⟩]⟩

/-- The branch selected. -/
def Brs.run {V L : Type} : Brs V L → Nat → (String → V) → Res V L
  | .one s, _, m => s.run m
  | .cons s _, 0, m => s.run m
  | .cons _ bs, k + 1, m => bs.run k m
end

/-- Source configuration between cycles. -/
structure SReg (V : Type) where
  idx : Nat
  env : String → V

/-- Code of the state, nothing in the termination state. -/
def Design.stateRun {V L : Type} (a : Design V L) (k : Nat) (m : String → V) : Res V L :=
  match a.states[k]? with
  | some s => s.run m
  | none => ⟨m, none, []⟩

/-- A cycle of the source: `always_before`, the code of the current state, `always_after`. -/
def Design.srcCycle {V L : Type} (a : Design V L) (r : SReg V) : Res V L :=
  let r1 := a.pre.run r.env
  let r2 := a.stateRun r.idx r1.env
  let r3 := a.post.run r2.env
  ⟨r3.env, r2.out, r1.evs ++ r2.evs ++ r3.evs⟩

/-- Source configuration after `n` cycles. -/
def Design.src {V : Type} (a : Design V) (r : SReg V) : Nat → SReg V
  | 0 => r
  | n + 1 =>
    let c := a.srcCycle (a.src r n)
    ⟨match c.out with | some l => l | none => (a.src r n).idx, c.env⟩

/-- In what was done, every read of `x` comes after an assignment of the whole of `x`. -/
def WrittenBeforeRead {V : Type} (x : String) (evs : List (Ev V)) : Prop :=
  ∀ before e after, evs = before ++ e :: after → x ∈ e.reads → ∃ e' ∈ before, x ∈ e'.writes

mutual
/-- The code never leaves the cycle. -/
def Stm.NoExit {V L : Type} : Stm V L → Prop
  | .skip => True
  | .ins _ => True
  | .exit _ => False
  | .seq a b => a.NoExit ∧ b.NoExit
  | .branch _ _ bs _ other => bs.NoExit ∧ other = none

/-- No branch does. -/
def Brs.NoExit {V L : Type} : Brs V L → Prop
  | .one s => s.NoExit
  | .cons s bs => s.NoExit ∧ bs.NoExit
end

mutual
/-- Shape of the code the compiler walks: nothing follows code that may leave the cycle, and a conditional
without the extra branch always enters one of its branches (a one-hot switch is given a one-hot value), or
leaves the cycle. -/
def Stm.Shape {V L : Type} : Stm V L → Prop
  | .skip => True
  | .ins _ => True
  | .exit _ => True
  | .seq a b => a.NoExit ∧ a.Shape ∧ b.Shape
  | .branch _ sel bs push other => bs.Shape ∧ (push = false → other = none → ∀ vs, (sel vs).isSome)

/-- Of all branches. -/
def Brs.Shape {V L : Type} : Brs V L → Prop
  | .one s => s.Shape
  | .cons s bs => s.Shape ∧ bs.Shape
end

mutual
/-- No `while` followed by a state in the code: a conditional that may enter no branch has the extra branch. -/
def Stm.Closed {V L : Type} : Stm V L → Prop
  | .skip => True
  | .ins _ => True
  | .exit _ => True
  | .seq a b => a.Closed ∧ b.Closed
  | .branch _ _ bs push other => bs.Closed ∧ (push = false → other = none)

/-- Of all branches. -/
def Brs.Closed {V L : Type} : Brs V L → Prop
  | .one s => s.Closed
  | .cons s bs => s.Closed ∧ bs.Closed
end

mutual
/-- No member of `x` is assigned through a bit field. -/
def Stm.NoField {V L : Type} (x : String) : Stm V L → Prop
  | .skip => True
  | .ins i => x ∉ i.fields
  | .exit _ => True
  | .seq a b => a.NoField x ∧ b.NoField x
  | .branch _ _ bs _ _ => bs.NoField x

/-- Of all branches. -/
def Brs.NoField {V L : Type} (x : String) : Brs V L → Prop
  | .one s => s.NoField x
  | .cons s bs => s.NoField x ∧ bs.NoField x
end

mutual
/-- `x` is never read. -/
def Stm.NoRead {V L : Type} (x : String) : Stm V L → Prop
  | .skip => True
  | .ins i => x ∉ i.reads
  | .exit _ => True
  | .seq a b => a.NoRead x ∧ b.NoRead x
  | .branch rs _ bs _ _ => x ∉ rs ∧ bs.NoRead x

/-- Of all branches. -/
def Brs.NoRead {V L : Type} (x : String) : Brs V L → Prop
  | .one s => s.NoRead x
  | .cons s bs => s.NoRead x ∧ bs.NoRead x
end

mutual
/-- `x` is never assigned. -/
def Stm.NoWrite {V L : Type} (x : String) : Stm V L → Prop
  | .skip => True
  | .ins i => x ∉ i.writes ∧ x ∉ i.parts ∧ x ∉ i.fields
  | .exit _ => True
  | .seq a b => a.NoWrite x ∧ b.NoWrite x
  | .branch _ _ bs _ _ => bs.NoWrite x

/-- Of all branches. -/
def Brs.NoWrite {V L : Type} (x : String) : Brs V L → Prop
  | .one s => s.NoWrite x
  | .cons s bs => s.NoWrite x ∧ bs.NoWrite x
end

/-- Shape of the code of an algorithm; the always blocks stay in the cycle. -/
structure Design.Shape {V L : Type} (a : Design V L) : Prop where
  pre : a.pre.Shape
  preStays : a.pre.NoExit
  states : ∀ s ∈ a.states, s.Shape
  post : a.post.Shape
  postStays : a.post.NoExit

/-- No member of `x` is assigned through a bit field. -/
structure Design.NoField {V L : Type} (a : Design V L) (x : String) : Prop where
  pre : a.pre.NoField x
  states : ∀ s ∈ a.states, s.NoField x
  post : a.post.NoField x

/-- Reads of `x` after the code of state `k` cannot be misled: there is no such read, or no state assigns `x`, or
`k` is not the termination state and its code has no `while` followed by a state. -/
def Design.PostSafe {V L : Type} (a : Design V L) (x : String) (k : Nat) : Prop :=
  (a.post.NoRead x ∧ x ∉ a.bindD) ∨ (∀ s ∈ a.states, s.NoWrite x) ∨ ∃ s, a.states[k]? = some s ∧ s.Closed

end Silice
