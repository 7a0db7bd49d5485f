import Verif.Model.FsmHw
import Verif.Spec.FsmRun
import Verif.Props.FsmNumber
import Verif.Props.FsmSkip

/-! A state machine generated by the compiler, and an example of one. -/

set_option autoImplicit false

namespace Silice

section
variable {B : Type} [DecidableEq B]

/-- All that is assumed of a generated machine: its graph is well formed and without recursion, the blocks
have been numbered, `entries` is the case statement written for it, and the return states have been recorded
from the calls found in `blocks` (all blocks, in their order). -/
structure Machine (g : Cfg B) (fsm : Nat) (ff : B → B) (num : Num B) (maxState : Nat) (blocks : List B)
    (entries : List (Entry B)) : Prop where
  wf : WellFormed g fsm ff num
  subs : SubsWellFormed g ff
  norec : NoRecursion g
  numbers : GoodNumbers g fsm ff num maxState
  states : ∃ efuel fuel, emitStates g num ff efuel fuel = .ok entries
  all : ∀ b, b ∈ blocks
  returns : ∀ k, g.returns k = returnStates g (callIdsFrom g 0 blocks) k

end

/-! ### Example

```
subroutine f() { i9; ++: i10; }                 // blocks 9, 10
subroutine g() { i6; f(); i7; f(); i8; }        // blocks 6, 7, 8
i0; if (c) { i1; } i3; g(); i4; f();            // blocks 0 .. 5
```
-/

/-- The graph of the example. -/
def exCalls : Cfg (Fin 11) where
  blk := fun
    | 0 => { isState := true, act := .ifElse 0 1 true 1 2 true 2 3 }
    | 1 => { act := .goto 3 }
    | 2 => { empty := true, act := .goto 3 }
    | 3 => { act := .call 6 4 }
    | 4 => { isState := true, act := .call 9 5 }
    | 5 => { isState := true, empty := true }
    | 6 => { isState := true, sub := some 1, act := .call 9 7 }
    | 7 => { isState := true, sub := some 1, act := .call 9 8 }
    | 8 => { isState := true, sub := some 1, act := .ret 1 }
    | 9 => { isState := true, sub := some 0, act := .goto 10 }
    | 10 => { isState := true, noSkip := true, sub := some 0, act := .ret 0 }
  first := 0
  last := 5
  returns := fun
    | 0 => [(1, 5), (2, 7), (3, 8)]
    | 1 => [(0, 4)]
    | _ => []

/-- Its numbering. -/
def exCallsNum : RenSt (Fin 11) := (renumber exCalls 0 id 11).get (by decide +kernel)

/-- Its case statement. -/
def exCallsEntries : List (Entry (Fin 11)) :=
  match emitStates exCalls exCallsNum.num id 10 20 with
  | .ok es => es
  | .error _ => []

theorem exCalls_isFF : IsFF exCalls id := by
  have h : ∀ b, fastForward exCalls 3 b = some b := by decide +kernel
  exact fun b => ⟨3, h b⟩

theorem exCalls_numbers : GoodNumbers exCalls 0 id exCallsNum.num exCallsNum.maxState :=
  C18_numbering exCalls 0 id 11 exCallsNum ⟨rfl, rfl⟩ (Option.some_get _).symm

theorem exCalls_reached : ∀ b, Reached exCalls id b := by
  have h : ∀ b c, Reached exCalls id b → c ∈ exCalls.children b → Reached exCalls id c := by
    intro b c h1 h2
    have := Reached.child h1 h2
    unfold arrive at this
    simpa using this
  have r0 : Reached exCalls id 0 := .first
  have r1 := h 0 1 r0 (by decide)
  have r2 := h 0 2 r0 (by decide)
  have r3 := h 0 3 r0 (by decide)
  have r6 := h 3 6 r3 (by decide)
  have r9 := h 6 9 r6 (by decide)
  have r10 := h 9 10 r9 (by decide)
  have r5 := h 10 5 r10 (by decide)
  have r7 := h 10 7 r10 (by decide)
  have r8 := h 10 8 r10 (by decide)
  have r4 := h 8 4 r8 (by decide)
  intro b
  match b with
  | 0 => exact r0
  | 1 => exact r1
  | 2 => exact r2
  | 3 => exact r3
  | 4 => exact r4
  | 5 => exact r5
  | 6 => exact r6
  | 7 => exact r7
  | 8 => exact r8
  | 9 => exact r9
  | 10 => exact r10

theorem exCalls_wellFormed : WellFormed exCalls 0 id exCallsNum.num where
  entry := rfl
  single := by
    have : ∀ b, (exCalls.blk b).fsm = 0 := by decide +kernel
    exact fun b _ => this b
  region := by
    intro b _ hs
    match b with
    | 0 =>
      exact .ifBoth rfl rfl (by decide +kernel) rfl (.gotoStop rfl rfl) rfl (.gotoStop rfl rfl)
        (by simp) (fun _ => .call rfl)
    | 1 => cases hs
    | 2 => cases hs
    | 3 => cases hs
    | 4 => exact .call rfl
    | 5 => exact .stop rfl
    | 6 => exact .call rfl
    | 7 => exact .call rfl
    | 8 => exact .ret rfl
    | 9 => exact .gotoState rfl rfl
    | 10 => exact .ret rfl
  calls := by
    intro b t r _ ha
    refine ⟨?_, ?_, exCalls_reached _⟩
    all_goals
      match b, ha with
      | 3, rfl => rfl
      | 4, rfl => rfl
      | 6, rfl => rfl
      | 7, rfl => rfl
      | 8, h => cases h
      | 9, h => cases h
      | 10, h => cases h
  lastEnds := fun _ => rfl

theorem exCalls_subs : SubsWellFormed exCalls id where
  main := rfl
  stay := by
    have : ∀ b, ∀ c ∈ flow exCalls b, (exCalls.blk c).sub = (exCalls.blk b).sub := by decide +kernel
    exact fun b c _ => this b c
  call := by
    intro b t r _ ha
    match b, ha with
    | 3, rfl => exact ⟨⟨1, rfl⟩, rfl⟩
    | 4, rfl => exact ⟨⟨0, rfl⟩, rfl⟩
    | 6, rfl => exact ⟨⟨0, rfl⟩, rfl⟩
    | 7, rfl => exact ⟨⟨0, rfl⟩, rfl⟩
    | 8, h => cases h
    | 9, h => cases h
    | 10, h => cases h
  ret := by
    intro b k _ ha
    match b, ha with
    | 8, rfl => rfl
    | 9, h => cases h
    | 10, rfl => rfl
  skip := fun _ _ => rfl

theorem exCalls_norec : NoRecursion exCalls := by
  have h : ∀ k k', SubCalls exCalls k k' → k = 1 ∧ k' = 0 := by
    rintro k k' ⟨b, t, r, ha, h1, h2⟩
    match b, ha with
    | 3, rfl => cases h1
    | 4, rfl => cases h1
    | 6, rfl => cases h1; cases h2; exact ⟨rfl, rfl⟩
    | 7, rfl => cases h1; cases h2; exact ⟨rfl, rfl⟩
    | 8, h => cases h
    | 9, h => cases h
    | 10, h => cases h
  have h' : ∀ k k', Relation.TransGen (SubCalls exCalls) k k' → k = 1 ∧ k' = 0 := by
    intro k k' ht
    induction ht with
    | single hs => exact h _ _ hs
    | tail _ hs ih => exact ⟨ih.1, (h _ _ hs).2⟩
  intro k hk
  obtain ⟨h1, h2⟩ := h' k k hk
  omega

theorem exCalls_emit : emitStates exCalls exCallsNum.num id 10 20 = .ok exCallsEntries := by
  have h : (match emitStates exCalls exCallsNum.num id 10 20 with
    | .ok _ => true
    | .error _ => false) = true := by decide +kernel
  unfold exCallsEntries
  split at h
  · rename_i es he; rw [he]
  · cases h

theorem exCalls_machine :
    Machine exCalls 0 id exCallsNum.num exCallsNum.maxState (List.finRange 11) exCallsEntries where
  wf := exCalls_wellFormed
  subs := exCalls_subs
  norec := exCalls_norec
  numbers := exCalls_numbers
  states := ⟨10, 20, exCalls_emit⟩
  all := List.mem_finRange
  returns := by
    intro k
    match k with
    | 0 => decide +kernel
    | 1 => decide +kernel
    | k + 2 =>
      have h : callIdsFrom exCalls 0 (List.finRange 11) = [(3, 0), (4, 1), (6, 2), (7, 3)] := by
        decide +kernel
      rw [h]
      simp [returnStates, exCalls]

end Silice
