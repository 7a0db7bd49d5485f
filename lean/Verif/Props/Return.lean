import Verif.Lemmas.Return
import Verif.Props.Gather

/-!
# C75: `return` in an algorithm

The full claim is `ReturnEnds`. It fails: the index a `return` sets is always overwritten in the same cycle.
-/

set_option autoImplicit false

namespace Silice

/-- A `return` ends the algorithm: after a cycle in which a block that holds a `return` is carried out, the machine has ended. -/
def ReturnEnds {B : Type} [DecidableEq B] (g : Cfg B) (ff : B → B) (num : Num B) (blocks : List B) (holds : B → Bool)
    (entries : List (Entry B)) : Prop :=
  ∀ (σ : Type) (S : Sem B σ) (env : Nat → σ → σ) (h0 : HW σ), num.sid g.first = some h0.idx →
    ∀ (n : Nat) (trs : List (List B)) (tr : List B) (h : HW σ),
      hwRun g num ff (callIdsFrom g 0 blocks) (entriesWithReturns holds entries) S env h0 n = some (trs ++ [tr], h) →
      (∃ b ∈ tr, holds b = true) → h.idx = 0

/-- C75 fails for all programs: whatever instructions of the program are a `return`, the hardware does what it does without the assignments
written for `return`, which is what the program says with `return` taken as an instruction without effect. -/
theorem C75_counterexample_no_effect (u : AlgUnit) (last : Nat) (st : PSt) (ff : Cfg (Fin (last + 1)) → Fin (last + 1) → Fin (last + 1))
    (hff : Skips ff) (h : buildUnit u = some (last, st)) (hok : u.switchOk = true) (isRet : Nat → Bool) :
    ∃ g rs, generateStates (st.cfg last) 0 ff (last + 1) (List.finRange (last + 1)) = some (g, rs) ∧
      ∃ efuel fuel entries, emitStates g rs.num (ff g) efuel fuel = .ok entries ∧
        Faithful g (ff g) rs.num (List.finRange (last + 1)) (entriesWithReturns (fun b => holdsReturn isRet (st.blk b.val).ins) entries) ∧
        ∀ (σ : Type) (S : Sem (Fin (last + 1)) σ) (env : Nat → σ → σ) (h0 : HW σ) (n : Nat),
          hwRun g rs.num (ff g) (callIdsFrom g 0 (List.finRange (last + 1)))
              (entriesWithReturns (fun b => holdsReturn isRet (st.blk b.val).ins) entries) S env h0 n =
            hwRun g rs.num (ff g) (callIdsFrom g 0 (List.finRange (last + 1))) entries S env h0 n := by
  obtain ⟨n0, l, lo, g, rs, h1, U, M, hff0, hff1, P, hlast, hid, ef, fu, es, he, m⟩ := unit_machine u last st ff hff h hok
  have hs := entries_settle m
  refine ⟨g, rs, h1, ef, fu, es, he, ?_, fun σ S env h0 n => hwRun_returns hs _ S env h0 n⟩
  intro σ S env h0 h0i n trs p s hsrc
  rw [hwRun_returns hs]
  exact C21_lockstep _ _ _ _ _ _ _ m σ S env h0 h0i n trs p s hsrc

/-- /repo/tests/return_in_algorithm.si: `while (c0) { if (c1) { return; } i1; }`, instruction 7 being the `return`. -/
def exReturn : AlgUnit where
  globals := []
  locals := []
  main := .loop 0 (.ifThen 1 (.instr 7 .nil) (.instr 1 .nil)) .nil

/-- Its graph. -/
def exReturnCfg : Cfg (Fin 13) :=
  match buildUnit exReturn with
  | some (_, st) => st.cfg 12
  | none => ⟨fun _ => {}, 0, 0, fun _ => []⟩

/-- The blocks that hold the `return`. -/
def exReturnHolds (b : Fin 13) : Bool :=
  match buildUnit exReturn with
  | some (_, st) => holdsReturn (· == 7) (st.blk b.val).ins
  | none => false

/-- Skipping on that graph. -/
def exReturnFF (b : Fin 13) : Fin 13 := if b = 0 ∨ b = 1 ∨ b = 11 then 2 else b

/-- Its numbers. -/
def exReturnNum : Num (Fin 13) :=
  match generateStates exReturnCfg 0 (fun _ => exReturnFF) 13 (List.finRange 13) with
  | some r => r.2.num
  | none => ⟨fun _ => none, fun _ => none⟩

/-- Its code. -/
def exReturnCode : List (Entry (Fin 13)) :=
  match emitStates exReturnCfg exReturnNum exReturnFF 40 80 with
  | .ok es => es
  | .error _ => []

/-- The hypotheses of `C75_counterexample_no_effect` hold. -/
example : (buildUnit exReturn).map (·.1) = some 12 ∧ exReturn.switchOk = true := by
  constructor <;> decide +kernel

/-- With both conditions true: in the second cycle the `return` (block 8) is carried out, then `i1` (block 10), and the machine stays in the loop. -/
def exReturnSem : Sem (Fin 13) Unit := ⟨fun _ s => s, fun _ _ => true, fun _ _ _ => false, fun _ _ => false⟩

/-- C75 fails for that program: the loop goes on after a `return`. -/
theorem C75_counterexample_goes_on :
    (buildUnit exReturn).map (·.1) = some 12 ∧ IsFF exReturnCfg exReturnFF ∧
    (generateStates exReturnCfg 0 (fun _ => exReturnFF) 13 (List.finRange 13)).isSome = true ∧
    (∀ b, ((preventDup exReturnCfg 0 exReturnNum (List.finRange 13)).blk b).isState = (exReturnCfg.blk b).isState) ∧
    exReturnCode.length = 2 ∧
    ¬ ReturnEnds exReturnCfg exReturnFF exReturnNum (List.finRange 13) exReturnHolds exReturnCode := by
  refine ⟨by decide +kernel, fun b => ⟨14, ?_⟩, by decide +kernel, by decide +kernel, by decide +kernel, fun h => ?_⟩
  · revert b; decide +kernel
  have h6 : (hwRun exReturnCfg exReturnNum exReturnFF (callIdsFrom exReturnCfg 0 (List.finRange 13))
      (entriesWithReturns exReturnHolds exReturnCode) exReturnSem (fun _ s => s) ⟨1, 0, fun _ => 0, ()⟩ 2).map (fun r => (r.1, r.2.idx)) =
      some ([[0, 1]] ++ [[2, 3, 5, 6, 8, 9, 10, 11]], 2) := by decide +kernel
  rw [Option.map_eq_some_iff] at h6
  obtain ⟨⟨trs, hw⟩, h7, h8⟩ := h6
  obtain ⟨rfl, h9⟩ : trs = [[0, 1]] ++ [[2, 3, 5, 6, 8, 9, 10, 11]] ∧ hw.idx = 2 := by
    rw [Prod.mk.injEq] at h8; exact h8
  have := h Unit exReturnSem (fun _ s => s) ⟨1, 0, fun _ => 0, ()⟩ (by decide +kernel) 2 _ _ hw h7 ⟨8, by decide, by decide +kernel⟩
  omega

/-! ### Where `return` does end the algorithm -/

/-- C75, partial: in a cycle in which the code carries out no other assignment of the index (as when a switch without default and followed by a
new state matches no case), the machine ends if a `return` is carried out, and stays where it is otherwise. Missing: all other cycles, see
`C75_counterexample_no_effect`. -/
theorem C75_unset_partial {B σ : Type} (holds : B → Bool) (x : Code B) (S : Sem B σ) (s s' : σ) (tr : List B)
    (h : x.run S ⟨[], s, none⟩ = ⟨tr, s', none⟩) :
    (x.withReturns holds).run S ⟨[], s, none⟩ = ⟨tr, s', if tr.any holds then some .halt else none⟩ := by
  obtain ⟨tr1, s1, e1, e2⟩ := unset_returns S holds x [] s none (by rw [h])
  rw [h] at e1
  simp only [List.nil_append, CSt.mk.injEq] at e1
  obtain ⟨rfl, rfl, _⟩ := e1
  simpa using e2

/-- `return; switch (c0) { case 3: { ++: } }` in a state: no case matches. -/
example : ∃ (x : Code Nat) (S : Sem Nat Unit), x.run S ⟨[], (), none⟩ = ⟨[1], (), none⟩ ∧ [1].any (· == 1) = true :=
  ⟨.seq (.body 1) (.case 0 [(some 3, .jump 2)]), ⟨fun _ s => s, fun _ _ => false, fun _ _ _ => false, fun _ _ => false⟩, rfl, rfl⟩

/-- C75: an algorithm without state machine that contains a `return` is refused, and no other is for that reason. -/
theorem C75_stateless (noFsm : Bool) (ins : List PIns) (isRet : Nat → Bool) :
    returnRefused noFsm ins isRet = true ↔ noFsm = true ∧ ∃ i, .plain i ∈ ins ∧ isRet i = true := by
  unfold returnRefused holdsReturn
  rw [Bool.and_eq_true, List.any_eq_true]
  refine and_congr_right fun _ => ⟨?_, ?_⟩
  · rintro ⟨x, hx, h⟩
    cases x with
    | plain i => exact ⟨i, hx, h⟩
    | readback => cases h
  · rintro ⟨i, hi, h⟩
    exact ⟨_, hi, h⟩

example : returnRefused true [.plain 3, .plain 7] (· == 7) = true := by decide

end Silice
