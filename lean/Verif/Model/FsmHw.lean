import Verif.Model.Fsm

/-!
The generated state machine as hardware: registers (state index, caller id, one saved caller id per
subroutine), the `case` on the index, and the register update at the clock edge.

Simplifications: binary state encoding; registers hold natural numbers (their widths are the business of
C02); reset, autorun and the run input are not represented, the machine starts in its entry state; the data
are an abstract value, updated by the emitted code and then, at the end of the cycle, by an arbitrary
environment (inputs, always blocks).
-/

set_option autoImplicit false

namespace Silice
variable {B : Type} [DecidableEq B]

/-- Call ids: position of the call among all calls, in the order of the blocks.
Models /repo/src/Algorithm.cpp:6388-6394. -/
def callIdsFrom (g : Cfg B) : Nat → List B → List (B × Nat)
  | _, [] => []
  | n, b :: bs =>
    match (g.blk b).act with
    | .call _ _ => (b, n) :: callIdsFrom g (n + 1) bs
    | _ => callIdsFrom g n bs

/-- Return states of subroutine `k`, in order: for each call of it, the id and the block to return to.
Models /repo/src/Algorithm.cpp:6395-6406. -/
def returnStates (g : Cfg B) (ids : List (B × Nat)) (k : Nat) : List (Nat × B) :=
  ids.filterMap fun (b, n) =>
    match (g.blk b).act with
    | .call t r => if (g.blk t).sub = some k then some (n, r) else none
    | _ => none

/-- Registers and data. -/
structure HW (σ : Type) where
  idx : Nat
  caller : Nat
  saved : Nat → Nat
  data : σ

/-- The id of a call site (m_SubroutineCallerIds). -/
def idOf (ids : List (B × Nat)) (b : B) : Option Nat := (ids.find? (fun p => p.1 = b)).map (·.2)

/-- A call made within subroutine `s` first saves the caller id in the register of `s`.
Models /repo/src/Algorithm.cpp:9081-9085. -/
def saveCaller (saved : Nat → Nat) (caller : Nat) : Option Nat → Nat → Nat
  | some s => upd saved s caller
  | none => saved

/-- When returning into subroutine `s`, the caller id is restored from the register of `s`.
Models /repo/src/Algorithm.cpp:9051-9055 and 9063-9067. -/
def restoreCaller (saved : Nat → Nat) (caller : Nat) : Option Nat → Nat
  | some s => saved s
  | none => caller

/-- Control registers after the control assignment in force at the end of the cycle; `none` when an index
that does not exist (-1) would be assigned, or an assertion fails. `h` holds the values at the start of
the cycle. Models the assignments of /repo/src/Algorithm.cpp:8806, 9021, 9046-9073 (return), 9079-9091
(call), 9106-9113, 9173, 9183, and D = Q when there is none (8204-8212). -/
def applyOut {σ : Type} (g : Cfg B) (num : Num B) (ff : B → B) (ids : List (B × Nat)) (h : HW σ) (data : σ) :
    Option (Out B) → Option (HW σ)
  | none => some { h with data := data }
  | some (.jump b) => (stateIndex g num ff b).map fun k => { h with idx := k, data := data }
  | some .halt => some { h with idx := 0, data := data }
  | some (.call p t _) =>
    (stateIndex g num ff t).bind fun k =>
    (idOf ids p).map fun c =>
      { idx := k
        caller := c
        saved := saveCaller h.saved h.caller (g.blk p).sub
        data := data }
  | some (.ret _ s) =>
    let restore (r : B) (k : Nat) : HW σ :=
      { idx := k
        caller := restoreCaller h.saved h.caller (g.blk r).sub
        saved := h.saved
        data := data }
    match g.returns s with
    | [] => some { h with idx := 0, data := data }
    | [(_, r)] => (stateIndex g num ff r).map (restore r)
    | rs =>
      match rs.find? (fun p => p.1 = h.caller) with
      | some (_, r) => (stateIndex g num ff r).map (restore r)
      | none => some { h with idx := 0, data := data }

/-- One clock cycle: the entry of the current index is executed, then the registers are updated. `none` is
an undefined value (an index without an entry). Returns the blocks executed as well.
Models the `case` of /repo/src/Algorithm.cpp:8324-8416 and the update 8036-8056. -/
def hwCycle {σ : Type} (g : Cfg B) (num : Num B) (ff : B → B) (ids : List (B × Nat))
    (entries : List (Entry B)) (S : Sem B σ) (env : σ → σ) (h : HW σ) : Option (List B × HW σ) :=
  if h.idx = 0 then some ([], { h with data := env h.data })
  else
    match entries.find? (fun e => e.index = h.idx) with
    | none => none
    | some e =>
      let r := e.code.run S ⟨[], h.data, none⟩
      (applyOut g num ff ids h r.data r.ctl).map fun h' => (r.trace, { h' with data := env h'.data })

/-- `n` cycles, the environment being given per cycle; the blocks executed in each cycle, in order. -/
def hwRun {σ : Type} (g : Cfg B) (num : Num B) (ff : B → B) (ids : List (B × Nat))
    (entries : List (Entry B)) (S : Sem B σ) (env : Nat → σ → σ) (h0 : HW σ) :
    Nat → Option (List (List B) × HW σ)
  | 0 => some ([], h0)
  | n + 1 =>
    (hwRun g num ff ids entries S env h0 n).bind fun (trs, h) =>
    (hwCycle g num ff ids entries S (env n) h).map fun (tr, h') => (trs ++ [tr], h')

end Silice
