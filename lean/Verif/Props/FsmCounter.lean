import Verif.Props.FsmRun

/-!
Programs accepted by the compiler for which the generated state machine does not follow the source
(C21, C22), or is not generated (C20). Each one violates one condition of `WellFormed` or `NoRecursion`, so
these conditions cannot be dropped; the compiler does not check them.
-/

set_option autoImplicit false

namespace Silice

/-- Numbers given to the blocks of a graph. -/
def exNums {N : Nat} (g : Cfg (Fin N)) : Num (Fin N) :=
  match renumber g 0 id (N + 1) with
  | some st => st.num
  | none => ⟨fun _ => none, fun _ => none⟩

/-- Case statement of a graph. -/
def exStates {N : Nat} (g : Cfg (Fin N)) : List (Entry (Fin N)) :=
  match emitStates g (exNums g) id (N + 1) (2 * N + 2) with
  | .ok es => es
  | .error _ => []

/-- `fastForward` leaves all blocks in place, numbering and emission succeed. -/
def Compiles {N : Nat} (g : Cfg (Fin N)) : Prop :=
  IsFF g id ∧ renumber g 0 id (N + 1) ≠ none ∧
    ∃ es, emitStates g (exNums g) id (N + 1) (2 * N + 2) = .ok es

theorem compiles_of {N : Nat} (g : Cfg (Fin N)) (h1 : ∀ b, fastForward g (N + 1) b = some b)
    (h2 : (renumber g 0 id (N + 1)).isSome = true)
    (h3 : (match emitStates g (exNums g) id (N + 1) (2 * N + 2) with
      | .ok _ => true
      | .error _ => false) = true) : Compiles g := by
  refine And.intro (fun b => ⟨N + 1, h1 b⟩) (And.intro (fun h => by rw [h] at h2; cases h2) ?_)
  split at h3
  · rename_i es he; exact ⟨es, he⟩
  · cases h3

/-! ### A switch without default whose cases contain a step -/

/-- ```
i0; switch (x) { case 0: { i1; ++: i3; } } i2;
``` -/
def exSwitch : Cfg (Fin 4) where
  blk := fun
    | 0 => { isState := true, act := .switch 0 [(some 0, 1)] 2 }
    | 1 => { act := .goto 3 }
    | 2 => { isState := true }
    | 3 => { isState := true, noSkip := true, act := .goto 2 }
  first := 0
  last := 3
  returns := fun _ => []

/-- No label matches. -/
def noLabel : Sem (Fin 4) Unit := ⟨fun _ s => s, fun _ _ => false, fun _ _ _ => false, fun _ _ => false⟩

/-- C21 fails: when no label matches, no index is assigned and the machine stays in the state of the switch,
whereas control flow goes on after it. -/
theorem C21_counterexample_switch :
    Compiles exSwitch ∧ ¬ Faithful exSwitch id (exNums exSwitch) (List.finRange 4) (exStates exSwitch) := by
  refine ⟨compiles_of _ (by decide +kernel) (by decide +kernel) (by decide +kernel), fun h => ?_⟩
  have hsrc : SrcRun exSwitch id noLabel (fun _ s => s) () 1 ([] ++ [[0]]) (.at 2 []) () :=
    .next .start (.jump (s' := ()) (n := 2) (.state rfl rfl) (.state (by rintro ⟨h, _⟩; cases h)))
  obtain ⟨hw, h1, _, _, h4⟩ := h Unit noLabel (fun _ s => s) ⟨1, 0, fun _ => 0, ()⟩ (by decide +kernel) 1 _ _ _ hsrc
  have h5 := (h4 2 [] rfl).1
  have h6 : (hwRun exSwitch (exNums exSwitch) id (callIdsFrom exSwitch 0 (List.finRange 4)) (exStates exSwitch)
      noLabel (fun _ s => s) ⟨1, 0, fun _ => 0, ()⟩ 1).map (fun r => r.2.idx) = some 1 := by decide +kernel
  rw [h1] at h6
  have h7 : (exNums exSwitch).sid 2 ≠ some 1 := by decide +kernel
  simp only [Option.map_some, Option.some.injEq] at h6
  rw [h6] at h5
  exact h7 h5

/-! ### The last block added is not the end of the algorithm -/

/-- ```
i0; switch (x) { default: { i1; ++: } } i2;
```
The block after the switch (2) is added before those of the cases, so `lastBlock` is the empty block 3. -/
def exLast : Cfg (Fin 4) where
  blk := fun
    | 0 => { isState := true, act := .switch 0 [(none, 1)] 2 }
    | 1 => { act := .goto 3 }
    | 2 => { isState := true }
    | 3 => { isState := true, noSkip := true, empty := true, act := .goto 2 }
  first := 0
  last := 3
  returns := fun _ => []

/-- C21 fails: the jump to the step at the end of the last case is taken for the end of the algorithm, and
what follows the switch (`i2`) is never executed. -/
theorem C21_counterexample_last_block :
    Compiles exLast ∧ ¬ Faithful exLast id (exNums exLast) (List.finRange 4) (exStates exLast) := by
  refine ⟨compiles_of _ (by decide +kernel) (by decide +kernel) (by decide +kernel), fun h => ?_⟩
  have hsrc : SrcRun exLast id noLabel (fun _ s => s) () 3 ((([] ++ [[0, 1]]) ++ [[3]]) ++ [[2]]) .halted () :=
    .next (.next (.next .start
      (.jump (s' := ()) (n := 3) (.more (n := 1) rfl rfl (.state rfl rfl)) (.state (by simp [exLast]))))
      (.jump (s' := ()) (n := 2) (.state rfl rfl) (.state (by rintro ⟨h, _⟩; cases h)))) (.halt (.out rfl))
  obtain ⟨hw, h1, _⟩ := h Unit noLabel (fun _ s => s) ⟨1, 0, fun _ => 0, ()⟩ (by decide +kernel) 3 _ _ _ hsrc
  have h6 : (hwRun exLast (exNums exLast) id (callIdsFrom exLast 0 (List.finRange 4)) (exStates exLast)
      noLabel (fun _ s => s) ⟨1, 0, fun _ => 0, ()⟩ 3).map (fun r => r.1) = some [[0, 1], [], []] := by
    decide +kernel
  rw [h1] at h6
  simp at h6

/-! ### A label inside a conditional that is jumped to later -/

/-- ```
i0; if (c) { i1; L: i4; } i3; ++: i5; goto L;
```
When the `if` is read, `L` is not yet a state, and its side is recorded as stateless. -/
def exStale : Cfg (Fin 7) where
  blk := fun
    | 0 => { isState := true, act := .ifElse 0 1 true 4 2 true 2 3 }
    | 1 => { act := .goto 4 }
    | 2 => { empty := true, act := .goto 3 }
    | 3 => { act := .goto 5 }
    | 4 => { isState := true, act := .goto 3 }
    | 5 => { isState := true, noSkip := true, act := .goto 4 }
    | 6 => { empty := true }
  first := 0
  last := 6
  returns := fun _ => []

/-- Conditions hold. -/
def allTrue {N : Nat} : Sem (Fin N) Unit := ⟨fun _ s => s, fun _ _ => true, fun _ _ _ => true, fun _ _ => true⟩

/-- C21 fails: after `i1` the source goes to `L` in the next cycle; the machine executes `i3` at once and
skips `L`. The blocks that follow an if are the ones of `preventIfElseCodeDup`: none is promoted. -/
theorem C21_counterexample_stale_label :
    Compiles exStale ∧
    (∀ b, ((preventDup exStale 0 (exNums exStale) (List.finRange 7)).blk b).isState = (exStale.blk b).isState) ∧
    ¬ Faithful exStale id (exNums exStale) (List.finRange 7) (exStates exStale) := by
  refine ⟨compiles_of _ (by decide +kernel) (by decide +kernel) (by decide +kernel), by decide +kernel,
    fun h => ?_⟩
  have hsrc : SrcRun exStale id allTrue (fun _ s => s) () 1 ([] ++ [[0, 1]]) (.at 4 []) () :=
    .next .start (.jump (s' := ()) (n := 4) (.more (n := 1) rfl rfl (.state rfl rfl)) (.state (by rintro ⟨h, _⟩; cases h)))
  obtain ⟨hw, h1, _⟩ := h Unit allTrue (fun _ s => s) ⟨1, 0, fun _ => 0, ()⟩ (by decide +kernel) 1 _ _ _ hsrc
  have h6 : (hwRun exStale (exNums exStale) id (callIdsFrom exStale 0 (List.finRange 7)) (exStates exStale)
      allTrue (fun _ s => s) ⟨1, 0, fun _ => 0, ()⟩ 1).map (fun r => r.1) = some [[0, 1, 3]] := by
    decide +kernel
  rw [h1] at h6
  simp at h6

/-! ### Recursion -/

/-- ```
subroutine f() { i1; if (c) { i3; f(); i4; } else { i5; } i6; }
i0; f();
``` -/
def exRec : Cfg (Fin 7) where
  blk := fun
    | 0 => { isState := true, act := .call 1 2 }
    | 1 => { isState := true, sub := some 0, act := .ifElse 0 3 false 4 5 true 5 6 }
    | 2 => { isState := true, empty := true }
    | 3 => { sub := some 0, act := .call 1 4 }
    | 4 => { isState := true, sub := some 0, act := .goto 6 }
    | 5 => { sub := some 0, act := .goto 6 }
    | 6 => { isState := true, sub := some 0, act := .ret 0 }
  first := 0
  last := 2
  returns := fun k => if k = 0 then [(0, 2), (1, 4)] else []

/-- The data count how often `f` was entered; it calls itself twice. -/
def twice : Sem (Fin 7) Nat :=
  ⟨fun b s => if b = 1 then s + 1 else s, fun _ s => decide (s < 3), fun _ _ _ => true, fun _ _ => true⟩

/-- C22 fails for recursive calls, which the compiler accepts: the one saved caller id of `f` is overwritten,
the outermost return goes back into `f`, and the algorithm never finishes. -/
theorem C22_counterexample_recursion :
    Compiles exRec ∧ (∀ k, exRec.returns k = returnStates exRec (callIdsFrom exRec 0 (List.finRange 7)) k) ∧
    ¬ Faithful exRec id (exNums exRec) (List.finRange 7) (exStates exRec) := by
  refine ⟨compiles_of _ (by decide +kernel) (by decide +kernel) (by decide +kernel), ?_, fun h => ?_⟩
  · have hi : callIdsFrom exRec 0 (List.finRange 7) = [(0, 0), (3, 1)] := by decide +kernel
    intro k
    rw [hi]
    by_cases hk : k = 0
    · subst hk; decide +kernel
    · have : ¬ (0 = k) := fun e => hk e.symm
      simp [returnStates, exRec, hk, this]
  have hl : ∀ (st : List (Fin 7)) (n : Fin 7), n ≠ 2 → Lands exRec id st n (.at n st) := by
    intro st n hn
    exact .state (by rintro ⟨_, _, h3⟩; exact hn h3)
  have c0 : SrcRun exRec id twice (fun _ s => s) 0 1 ([] ++ [[0]]) (.at 1 [2]) 0 :=
    .next .start (.call (s' := 0) (.out rfl) (hl _ 1 (by decide)))
  have c1 : SrcRun exRec id twice (fun _ s => s) 0 2 (([] ++ [[0]]) ++ [[1, 3]]) (.at 1 [4, 2]) 1 :=
    .next c0 (.call (s' := 1) (.more (n := 3) rfl rfl (.out rfl)) (hl _ 1 (by decide)))
  have c2 := SrcRun.next c1 (.call (env := fun s => s) (s' := 2) (p := .at 1 [4, 4, 2])
    (.more (n := 3) rfl rfl (.out rfl)) (hl _ 1 (by decide)))
  have c3 := SrcRun.next c2 (.jump (env := fun s => s) (s' := 3) (p := .at 6 [4, 4, 2]) (n := 6)
    (.more (n := 5) rfl rfl (.state rfl rfl)) (hl _ 6 (by decide)))
  have c4 := SrcRun.next c3 (.ret (env := fun s => s) (s' := 3) (p := .at 4 [4, 2]) (.out rfl) (hl _ 4 (by decide)))
  have c5 := SrcRun.next c4 (.jump (env := fun s => s) (s' := 3) (p := .at 6 [4, 2]) (n := 6)
    (.state rfl rfl) (hl _ 6 (by decide)))
  have c6 := SrcRun.next c5 (.ret (env := fun s => s) (s' := 3) (p := .at 4 [2]) (.out rfl) (hl _ 4 (by decide)))
  have c7 := SrcRun.next c6 (.jump (env := fun s => s) (s' := 3) (p := .at 6 [2]) (n := 6)
    (.state rfl rfl) (hl _ 6 (by decide)))
  have c8 := SrcRun.next c7 (.ret (env := fun s => s) (s' := 3) (p := .halted) (.out rfl) (.done rfl rfl rfl))
  obtain ⟨hw, h1, _, h3, _⟩ := h Nat twice (fun _ s => s) ⟨1, 0, fun _ => 0, 0⟩ (by decide +kernel) _ _ _ _ c8
  have h3 := h3 rfl
  have h6 : (hwRun exRec (exNums exRec) id (callIdsFrom exRec 0 (List.finRange 7)) (exStates exRec)
      twice (fun _ s => s) ⟨1, 0, fun _ => 0, 0⟩ 9).map (fun r => decide (r.2.idx = 0)) = some false := by
    decide +kernel
  rw [h1] at h6
  simp [h3] at h6

/-! ### A subroutine that never returns -/

/-- ```
subroutine f() { L: i1; goto L; }
i0; f(); i2;
```
Block 3 is what follows the `goto`, and ends with the return of `f`. -/
def exNoReturn : Cfg (Fin 4) where
  blk := fun
    | 0 => { isState := true, act := .call 1 2 }
    | 1 => { isState := true, sub := some 0, act := .goto 1 }
    | 2 => { isState := true }
    | 3 => { sub := some 0, empty := true, act := .ret 0 }
  first := 0
  last := 2
  returns := fun k => if k = 0 then [(0, 2)] else []

/-- C20 fails: the block to return to has no number, and the emission stops on a failed assertion. -/
theorem C20_counterexample_no_return :
    (renumber exNoReturn 0 id 5).isSome = true ∧
    emitStates exNoReturn (exNums exNoReturn) id 5 10 = .error (.noStateId 2) := by
  refine ⟨by decide +kernel, ?_⟩
  have h : (match emitStates exNoReturn (exNums exNoReturn) id 5 10 with
    | .error (.noStateId b) => decide (b = 2)
    | _ => false) = true := by decide +kernel
  split at h
  · rename_i b hb
    simp only [decide_eq_true_eq] at h
    rw [hb, h]
  · cases h

end Silice
