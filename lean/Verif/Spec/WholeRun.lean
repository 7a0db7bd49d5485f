import Verif.Spec.WholeUnit
import Verif.Model.Regs

/-!
What an algorithm does under any history of its reset signal and of the input by which it is called.
-/

set_option autoImplicit false

namespace Silice

/-- The value a variable takes on reset, if it takes one: it is declared with a value, not at power-up only. -/
def FFVar.onReset {V : Type} (v : FFVar V) : Option V := if v.atStartup = true ∨ v.noInit = true then none else v.init.head?

/-- Variables after those declared with a value have taken it. -/
def reloaded {V : Type} (decl : String → FFVar V) (m : String → V) : String → V := fun x =>
  match (decl x).onReset with
  | some v => v
  | none => m x

/-- One cycle of an algorithm that is at `o` (`none`: stopped): always blocks, and the statements of the cycle in between. -/
inductive PCycle {V : Type} (subs : List Prg) (before after : Prg) (D Dp Dq : DataOf V) (inputs : List String) (inp : String → V)
    (done : Nat → Bool) : Option (Ctl × Bool) → (String → V) → List Did × List Did × List Did → Option (Ctl × Bool) → (String → V) → Prop where
  | next {e1 e2 e3 : List Did} {c : Ctl} {f : Bool} {o : Option (Ctl × Bool)} {m m1 m2 m3 : String → V} {d1 d2 d3 : Nat → Bool} :
      Runs Dp.meaning before (overlay inputs inp m, done) e1 (m1, d1) → TCycle subs D.meaning c f (m1, d1) e2 (m2, d2) o →
      Runs Dq.meaning after (m2, d2) e3 (m3, d3) → PCycle subs before after D Dp Dq inputs inp done (some (c, f)) m (e1, e2, e3) o m3
  | stopped {e1 e3 : List Did} {m m1 m3 : String → V} {d1 d3 : Nat → Bool} :
      Runs Dp.meaning before (overlay inputs inp m, done) e1 (m1, d1) → Runs Dq.meaning after (m1, d1) e3 (m3, d3) →
      PCycle subs before after D Dp Dq inputs inp done none m (e1, [], e3) none m3

/-- An algorithm since the reset of cycle `t0`, which left the variables `m0`: where it is at the start of cycle `t` (`none`: stopped), whether this is
the first cycle after a reset, and the variables. In each cycle it executes what `PCycle` says. Then: on reset it is stopped and its variables are
initialised. Otherwise, on autorun, it starts at the end of the first cycle after the reset. An algorithm that is called (run input at 0) starts from its
beginning, with its variables initialised, wherever it was. Else it goes on. -/
inductive ARun {V : Type} (subs : List Prg) (main before after : Prg) (D Dp Dq : DataOf V) (inputs : List String) (inp : Nat → String → V)
    (done : Nat → Nat → Bool) (decl : String → FFVar V) (auto : Bool) (rst run : Nat → Bool) (t0 : Nat) (m0 : String → V) :
    Nat → Bool → Option (Ctl × Bool) → (String → V) → Prop where
  | first : ARun subs main before after D Dp Dq inputs inp done decl auto rst run t0 m0 (t0 + 1) true none m0
  | reset {t : Nat} {fresh : Bool} {o o' : Option (Ctl × Bool)} {m m' : String → V} {e : List Did × List Did × List Did} :
      ARun subs main before after D Dp Dq inputs inp done decl auto rst run t0 m0 t fresh o m →
      PCycle subs before after D Dp Dq inputs (inp t) (done t) o m e o' m' → rst t = true →
      ARun subs main before after D Dp Dq inputs inp done decl auto rst run t0 m0 (t + 1) true none (reloaded decl m')
  | start {t : Nat} {o o' : Option (Ctl × Bool)} {m m' : String → V} {e : List Did × List Did × List Did} :
      ARun subs main before after D Dp Dq inputs inp done decl auto rst run t0 m0 t true o m →
      PCycle subs before after D Dp Dq inputs (inp t) (done t) o m e o' m' → rst t = false → auto = true →
      ARun subs main before after D Dp Dq inputs inp done decl auto rst run t0 m0 (t + 1) false (some (.run main [], false)) m'
  | called {t : Nat} {fresh : Bool} {o o' : Option (Ctl × Bool)} {m m' : String → V} {e : List Did × List Did × List Did} :
      ARun subs main before after D Dp Dq inputs inp done decl auto rst run t0 m0 t fresh o m →
      PCycle subs before after D Dp Dq inputs (inp t) (done t) o m e o' m' → rst t = false → auto = false → run t = false →
      ARun subs main before after D Dp Dq inputs inp done decl auto rst run t0 m0 (t + 1) false (some (.run main [], false)) (reloaded decl m')
  | go {t : Nat} {fresh : Bool} {o o' : Option (Ctl × Bool)} {m m' : String → V} {e : List Did × List Did × List Did} :
      ARun subs main before after D Dp Dq inputs inp done decl auto rst run t0 m0 t fresh o m →
      PCycle subs before after D Dp Dq inputs (inp t) (done t) o m e o' m' → rst t = false →
      (if auto = true then fresh = false else run t = true) →
      ARun subs main before after D Dp Dq inputs inp done decl auto rst run t0 m0 (t + 1) false o' m'

end Silice
