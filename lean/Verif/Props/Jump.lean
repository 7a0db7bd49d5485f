import Verif.Lemmas.JumpSim
import Verif.Props.FsmRun

/-!
# C74: labels and jumps

What a program means is in Spec/Jump.lean: positions in its text, with no blocks and no states.
-/

set_option autoImplicit false

namespace Silice

/-- C74: the block graph of a program with labels and jumps carries out the same instructions, enters new states at the same points, computes the
same data and ends when the program ends. Missing: that the emitted machine follows the block graph. It does for the graphs of C21, and not for
all of these, see `C74_counterexample_label_in_if`. -/
theorem C74_graph_partial {σ : Type} (p : JPrg) (last : Nat) (st : JSt) (h : jGather p = .ok (last, st)) (S : JSem σ) (s : σ) :
    (∀ n, ∃ m, srcObserve p S s n = graphObserve (st.cfg last) (fun b => (st.blk b.val).ins) S s m) ∧
      (∀ m, ∃ n, graphObserve (st.cfg last) (fun b => (st.blk b.val).ins) S s m = srcObserve p S s n) :=
  graph_follows h S s

/-- C74: a program is accepted when no label is given twice, all jumps have their label, and every `break` is in a loop. -/
theorem C74_accepted (p : JPrg) :
    (∃ r, jGather p = .ok r) ↔ p.labels.Nodup ∧ (∀ l ∈ p.jumps, l ∈ p.labels) ∧ p.breaks = false := by
  have h := jGather_res p
  cases e : jGather p with
  | ok r => rw [e] at h; exact ⟨fun _ => h, fun _ => ⟨r, rfl⟩⟩
  | error x =>
    rw [e] at h
    refine ⟨fun ⟨_, h⟩ => (by cases h), fun ⟨h1, h2, h3⟩ => ?_⟩
    cases x with
    | again l =>
      have := List.nodup_iff_count_le_one.mp h1 l
      have h : 2 ≤ p.labels.count l := h
      omega
    | unknown l => exact absurd (h2 l h.1) h.2
    | breakOutside => rw [show p.breaks = true from h] at h3; cases h3

/-- C74: the errors name what is wrong. -/
theorem C74_errors (p : JPrg) (l : String) :
    (jGather p = .error (.again l) → 2 ≤ p.labels.count l) ∧ (jGather p = .error (.unknown l) → l ∈ p.jumps ∧ l ∉ p.labels) ∧
      (jGather p = .error .breakOutside → p.breaks = true) := by
  have h := jGather_res p
  refine ⟨fun e => ?_, fun e => ?_, fun e => ?_⟩ <;> rw [e] at h <;> exact h

/-- C74: a label no `goto` names has no effect: without it the program is accepted too, and does the same, in the same cycles. -/
theorem C74_idle_label {σ : Type} (p : JPrg) (last : Nat) (st : JSt) (h : jGather p = .ok (last, st)) (l : String) (hl : l ∉ p.jumps) :
    ∃ last' st', jGather (p.unlabel l) = .ok (last', st') ∧ ∀ (S : JSem σ) (s : σ),
      (∀ n, ∃ m, graphObserve (st.cfg last) (fun b => (st.blk b.val).ins) S s n =
        graphObserve (st'.cfg last') (fun b => (st'.blk b.val).ins) S s m) ∧
      (∀ m, ∃ n, graphObserve (st'.cfg last') (fun b => (st'.blk b.val).ins) S s m =
        graphObserve (st.cfg last) (fun b => (st.blk b.val).ins) S s n) := by
  obtain ⟨h1, h2, h3⟩ := (C74_accepted p).mp ⟨_, h⟩
  obtain ⟨⟨last', st'⟩, h'⟩ := (C74_accepted (p.unlabel l)).mpr ⟨by rw [unlabel_labels]; exact h1.filter _, fun x hx => by
    rw [unlabel_jumps] at hx
    rw [unlabel_labels, List.mem_filter]
    exact ⟨h2 x hx, by simp only [decide_eq_true_eq]; rintro rfl; exact hl hx⟩, by rw [unlabel_breaks]; exact h3⟩
  refine ⟨last', st', h', fun S s => ?_⟩
  obtain ⟨a1, a2⟩ := graph_follows h S s
  obtain ⟨b1, b2⟩ := graph_follows h' S s
  obtain ⟨c1, c2⟩ := unlabel_observe S h hl s
  constructor
  · intro n
    obtain ⟨k, e1⟩ := a2 n
    obtain ⟨j, e2⟩ := c2 k
    obtain ⟨m, e3⟩ := b1 j
    exact ⟨m, by rw [e1, e2, e3]⟩
  · intro m
    obtain ⟨k, e1⟩ := b2 m
    obtain ⟨j, e2⟩ := c1 k
    obtain ⟨n, e3⟩ := a1 j
    exact ⟨n, by rw [e1, e2, e3]⟩

/-- Jumps forward, backward, and into and out of conditionals and loops; `M` is never jumped to:
```
i0; A: i1; if (c0) { goto B; i2; } else { M: i3; goto C; }
while (c1) { i4; C: if (c2) { break; } i5; ++: goto A; }
B: { i6; }
``` -/
def exJumps : JPrg :=
  .instr 0 <| .label "A" <| .instr 1 <|
  .ifElse 0 (.jump "B" <| .instr 2 .nil) (.label "M" <| .instr 3 <| .jump "C" .nil) <|
  .loop 1 (.instr 4 <| .label "C" <| .ifThen 2 (.brk .nil) <| .instr 5 <| .step <| .jump "A" .nil) <|
  .label "B" <| .block (.instr 6 .nil) .nil

/-- It is accepted, and `M` is a label that is not jumped to. -/
example : (∃ r, jGather exJumps = .ok r) ∧ "M" ∈ exJumps.labels ∧ "M" ∉ exJumps.jumps := by
  refine ⟨(C74_accepted _).mpr ?_, ?_, ?_⟩ <;> decide +kernel

/-- With all conditions true: `i0 i1`, then `B` in the next cycle, `i6`, and the program ends. -/
example : (srcObserve exJumps ⟨fun i s => s ++ [i], fun _ _ => true⟩ [] 30).events = [.instr 0, .state, .instr 1, .state, .instr 6] ∧
    (srcObserve exJumps ⟨fun i s => s ++ [i], fun _ _ => true⟩ [] 30).ended = true := by
  constructor <;> decide +kernel

/-- Refused: label given twice; jump without label; `break` outside of a loop. -/
example :
    (match jGather (.label "A" <| .instr 0 <| .label "A" .nil) with | .error e => some e | .ok _ => none) = some (.again "A") ∧
    (match jGather (.instr 0 <| .jump "A" .nil) with | .error e => some e | .ok _ => none) = some (.unknown "A") ∧
    (match jGather (.ifThen 0 (.brk .nil) .nil) with | .error e => some e | .ok _ => none) = some .breakOutside := by
  refine ⟨?_, ?_, ?_⟩ <;> decide +kernel

/-- What is recorded of the sides of the conditionals, for all blocks that end with one: does the side fit in a cycle. -/
def sideFlags (p : JPrg) : Option (List (Bool × Bool)) :=
  match jGather p with
  | .error _ => none
  | .ok (last, st) => some ((List.range (last + 1)).filterMap fun b =>
      match (st.blk b).act with
      | .act (.ifElse _ _ x _ _ y _ _) => some (x, y)
      | _ => none)

/-- A side with a step in a block in a conditional does not fit in a cycle, nor does one with a jump; sides made of instructions do:
`L: if (c0) { i0; { i1; if (c1) { ++: } } } else { if (c2) { i2; } i3; } if (c3) { i4; goto L; } if (c4) { i5; goto N; } N: i6;` -/
example : sideFlags (.label "L" <| .ifElse 0 (.instr 0 <| .block (.instr 1 <| .ifThen 1 (.step .nil) .nil) .nil)
      (.ifThen 2 (.instr 2 .nil) <| .instr 3 .nil) <| .ifThen 3 (.instr 4 <| .jump "L" .nil) <| .ifThen 4 (.instr 5 <| .jump "N" .nil) <|
      .label "N" <| .instr 6 .nil) =
    some [(false, true), (false, true), (true, true), (false, true), (false, true)] := by decide +kernel

/-! ### A label in a conditional -/

/-- `i0; if (c0) { L: i1; } i2; if (c1) { goto L; } i3;` -/
def exJumpIn : JPrg := .instr 0 <| .ifThen 0 (.label "L" <| .instr 1 .nil) <| .instr 2 <| .ifThen 1 (.jump "L" .nil) <| .instr 3 .nil

/-- Its graph. -/
def exJumpInCfg : Cfg (Fin 15) :=
  match jGather exJumpIn with
  | .ok (_, st) => st.cfg 14
  | .error _ => ⟨fun _ => {}, 0, 0, fun _ => []⟩

/-- Skipping on that graph. -/
def exJumpInFF (b : Fin 15) : Fin 15 := if b = 2 ∨ b = 4 ∨ b = 8 ∨ b = 10 then 5 else b

/-- Its numbers. -/
def exJumpInNum : Num (Fin 15) :=
  match generateStates exJumpInCfg 0 (fun _ => exJumpInFF) 15 (List.finRange 15) with
  | some r => r.2.num
  | none => ⟨fun _ => none, fun _ => none⟩

/-- Its code. -/
def exJumpInCode : List (Entry (Fin 15)) :=
  match emitStates exJumpInCfg exJumpInNum exJumpInFF 40 80 with
  | .ok es => es
  | .error _ => []

/-- `c0` holds, `c1` does not. -/
def exJumpInSem : Sem (Fin 15) Unit := ⟨fun _ s => s, fun c _ => c == 0, fun _ _ _ => false, fun _ _ => false⟩

/-- C74 fails for the machine: when the first `if` is gathered its side is recorded as one that fits in a cycle; `L` becomes a state later. With
`c0` true and `c1` false, the index is set to `L`, then `i2` and `i3` are carried out in the same cycle and the index is overwritten: `i1` is
skipped. -/
theorem C74_counterexample_label_in_if :
    (∃ st, jGather exJumpIn = .ok (14, st)) ∧ IsFF exJumpInCfg exJumpInFF ∧
    (generateStates exJumpInCfg 0 (fun _ => exJumpInFF) 15 (List.finRange 15)).isSome = true ∧
    (∀ b, ((preventDup exJumpInCfg 0 exJumpInNum (List.finRange 15)).blk b).isState = (exJumpInCfg.blk b).isState) ∧
    exJumpInCode.length = 2 ∧
    ¬ Faithful exJumpInCfg exJumpInFF exJumpInNum (List.finRange 15) exJumpInCode := by
  refine ⟨?_, fun b => ⟨16, ?_⟩, by decide +kernel, by decide +kernel, by decide +kernel, fun h => ?_⟩
  · have h : (match jGather exJumpIn with | .ok r => r.1 == 14 | .error _ => false) = true := by decide +kernel
    cases e : jGather exJumpIn with
    | ok r =>
      rw [e] at h
      obtain ⟨n, st⟩ := r
      have h : n = 14 := by simpa using h
      subst h
      exact ⟨st, rfl⟩
    | error x => rw [e] at h; cases h
  · revert b; decide +kernel
  have hsrc : SrcRun exJumpInCfg exJumpInFF exJumpInSem (fun _ s => s) () 1 ([] ++ [[0, 1, 2, 4]]) (.at 5 []) () :=
    .next .start (.jump (s' := ()) (n := 5)
      (.more (n := 1) rfl rfl (.more (n := 2) rfl rfl (.more (n := 4) rfl rfl (.state rfl rfl))))
      (.state (by rintro ⟨h, _⟩; revert h; decide +kernel)))
  obtain ⟨hw, h1, _⟩ := h Unit exJumpInSem (fun _ s => s) ⟨1, 0, fun _ => 0, ()⟩ (by decide +kernel) 1 _ _ _ hsrc
  have h6 : (hwRun exJumpInCfg exJumpInNum exJumpInFF (callIdsFrom exJumpInCfg 0 (List.finRange 15)) exJumpInCode
      exJumpInSem (fun _ s => s) ⟨1, 0, fun _ => 0, ()⟩ 1).map (fun r => r.1) = some [[0, 1, 2, 4, 7, 9, 13, 14]] := by decide +kernel
  rw [h1] at h6
  simp at h6

end Silice
