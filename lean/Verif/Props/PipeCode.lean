import Verif.Lemmas.PipeCode
import Verif.Props.Usage

/-!
# C58: splitting code into pipeline stages only delays it
-/

set_option autoImplicit false

namespace Silice

variable {V : Type}

/-- What is written for a pipeline follows the meaning of its source in all cycles: each stage does what its code does from
values that are those left by the previous stage for its item, those of the cycle, or those assigned with `^=` or `v=`; and the
variables end with what their stage assigned, or as they were. -/
theorem C58_stages_keep_meaning_partial (p : PipeCode V) (nfo : PipeNfo) (order : List Nat) (cls : PCell → Store) (K0 : Keys)
    (inp : Nat → PipeCyc V) (r0 : Nat → String → V)
    (hck : checkPipeline p.ios = .ok nfo) (hord : orderPipelineStages p.accs = some order) (hl : p.Listed) (hu : p.Usual cls K0 order)
    (hb : ∀ t x, cls (.var x) = .flipflop → K0 x = false → (inp t).before x = (inp t).held x) :
    ∃ start stop : Nat → Nat → String → V, p.Means (fun t => (inp t).before) start stop ∧
      ∀ t, (∀ s, s < p.n → (p.at (trickleRange nfo) cls K0 order inp r0 t).2 s = ((p.stage s).code.run (start t s)).evs) ∧
        (∀ s x, s < p.n → x ∈ (p.stage s).code.wrNames → ¬ p.Carried x s →
          (p.at (trickleRange nfo) cls K0 order inp r0 t).1 (.var x) = stop t s x) ∧
        (∀ x, (∀ s, s < p.n → x ∈ (p.stage s).code.wrNames → p.Carried x s) →
          (p.at (trickleRange nfo) cls K0 order inp r0 t).1 (.var x) = (inp t).before x) := by
  have hperm := C24_each_stage_once _ order hord
  have hlen : p.accs.length = p.n := by simp [PipeCode.accs, PipeCode.ios]
  rw [hlen] at hperm
  have hn : order.Nodup := hperm.symm.nodup List.nodup_range
  have hmem : ∀ k, k ∈ order ↔ k < p.n := fun k => by rw [hperm.mem_iff, List.mem_range]
  let start : Nat → Nat → String → V := fun t s x => p.startOf (p.regs (trickleRange nfo) cls K0 order inp r0 t) (inp t).before
    (fun y => (p.at (trickleRange nfo) cls K0 order inp r0 t).1 (.var y)) s x
  have hinv : ∀ t, StagesInv p (start t) ((inp t).v cls (p.regs (trickleRange nfo) cls K0 order inp r0 t)) order
      (p.at (trickleRange nfo) cls K0 order inp r0 t).1 (p.at (trickleRange nfo) cls K0 order inp r0 t).2 := by
    intro t
    refine stages_inv hck hl hord hu (hb t) hn (fun k hk => (hmem k).mp hk) order [] _ _ rfl ?_ (fun x => rfl)
    exact ⟨by simp, by simp, fun _ _ => rfl, fun _ _ _ => rfl, by simp⟩
  refine ⟨start, fun t s => ((p.stage s).code.run (start t s)).env, ⟨?_, ?_, ?_, ?_, ?_⟩, fun t => ⟨?_, ?_, ?_⟩⟩
  · intro t s _; rfl
  · intro t s x hs hc
    obtain ⟨a, b, hab, ha, hb'⟩ := (carried_iff hck x s).mp hc
    have hc' : p.Carried x (s - 1 + 1) := by rwa [Nat.sub_add_cancel (by omega)]
    rw [← (hinv t).cap (s - 1) x ((hmem _).mpr (by omega)) hc']
    show p.startOf _ _ _ s x = _
    simp only [PipeCode.startOf, if_pos hc, PipeCode.regs, pipeShift, hab, ha, hb', and_self, if_true]
    rfl
  · intro t s k x hs hk hks hc hx
    rw [← (hinv t).wrote x k ((hmem k).mpr hk) (special_wr hl hk (Or.inl hx)).1 (special_notCarried hck hl hk (Or.inl hx))]
    show p.startOf _ _ _ s x = _
    have : (∃ k, k < p.n ∧ k ≠ s ∧ x ∈ (p.stage k).back) ∨ (∃ k, k < s ∧ x ∈ (p.stage k).fwd) := Or.inl ⟨k, hk, hks, hx⟩
    simp only [PipeCode.startOf, if_neg hc, if_pos this]
  · intro t s k x hs hk hc hx
    have hkn : k < p.n := by omega
    have hsp : (p.stage k).Special x := Or.inr (Or.inl hx)
    rw [← (hinv t).wrote x k ((hmem k).mpr hkn) (special_wr hl hkn hsp).1 (special_notCarried hck hl hkn hsp)]
    show p.startOf _ _ _ s x = _
    have : (∃ k, k < p.n ∧ k ≠ s ∧ x ∈ (p.stage k).back) ∨ (∃ k, k < s ∧ x ∈ (p.stage k).fwd) := Or.inr ⟨k, hk, hx⟩
    simp only [PipeCode.startOf, if_neg hc, if_pos this]
  · intro t s x hs hc h1 h2
    have : ¬ ((∃ k, k < p.n ∧ k ≠ s ∧ x ∈ (p.stage k).back) ∨ (∃ k, k < s ∧ x ∈ (p.stage k).fwd)) := by
      rintro (⟨k, hk, hks, hx⟩ | ⟨k, hk, hx⟩)
      · exact h1 k hk hks hx
      · exact h2 k hk hx
    show p.startOf _ _ _ s x = _
    simp only [PipeCode.startOf, if_neg hc, if_neg this]
  · intro s hs
    exact (hinv t).evs s ((hmem s).mpr hs)
  · intro s x hs hw hc
    exact (hinv t).wrote x s ((hmem s).mpr hs) hw hc
  · intro x hx
    exact (hinv t).kept x fun s hs hw => hx s ((hmem s).mp hs) hw

/-- Without pipeline operators, the item that enters in cycle `t` gets, stage after stage and cycle after cycle, what the code of
the stages does when run one after the other, from the values of cycle `t`. What no earlier stage assigned has to be the same in
the cycle of the stage, or is assigned by the stage before any use. -/
theorem C58_item_as_in_sequence_partial (p : PipeCode V) (nfo : PipeNfo) (order : List Nat) (cls : PCell → Store) (K0 : Keys)
    (inp : Nat → PipeCyc V) (r0 : Nat → String → V)
    (hck : checkPipeline p.ios = .ok nfo) (hord : orderPipelineStages p.accs = some order) (hl : p.Listed)
    (hno : ∀ s x, s < p.n → ¬ (p.stage s).Special x)
    (hshape : ∀ s, s < p.n → (p.stage s).code.Shape ∧ (p.stage s).code.NoExit)
    (hagain : ∀ x i j, i < j → j < p.n → x ∉ p.outs → x ∈ (p.stage i).code.wrNames → x ∈ (p.stage j).code.wrNames → p.Carried x j)
    (hcopies : ∀ s x, s < p.n → p.Carried x s → cls (.copy s x) = .temp →
      ¬ p.Carried x (s + 1) ∧ ∀ m, WrittenBeforeRead x ((p.stage s).code.run m).evs)
    (hout : ∀ x i j, i < j → j < p.n → x ∈ p.outs → x ∈ (p.stage i).code.wrNames → x ∉ (p.stage j).code.rdNames)
    (hb : ∀ t x, cls (.var x) = .flipflop → K0 x = false → (inp t).before x = (inp t).held x) (t : Nat)
    (hsteady : ∀ s x, s < p.n → x ∈ (p.stage s).code.rdNames ∨ x ∈ (p.stage s).code.wrNames →
      (∀ a, a < s → x ∉ (p.stage a).code.wrNames) → (p.stage s).code.Sets x ∨ (inp (t + s)).before x = (inp t).before x) :
    ((p.together p.n).run (inp t).before).evs =
      (List.range p.n).flatMap (fun s => (p.at (trickleRange nfo) cls K0 order inp r0 (t + s)).2 s) ∧
    ∀ s x, s < p.n → x ∈ (p.stage s).code.wrNames → ¬ p.Carried x s →
      (p.at (trickleRange nfo) cls K0 order inp r0 (t + s)).1 (.var x) = ((p.together (s + 1)).run (inp t).before).env x := by
  have hu := usual_of_plain hord hno (fun s hs => (hshape s hs).1) hagain hcopies hout (K0 := K0)
  obtain ⟨start, stop, hm, hh⟩ := C58_stages_keep_meaning_partial p nfo order cls K0 inp r0 hck hord hl hu hb
  have key := item_sequence hck hno hshape hagain hout hm t hsteady
  refine ⟨?_, ?_⟩
  · rw [together_evs p (fun s hs => (hshape s hs).2) _ p.n le_rfl]
    apply List.flatMap_congr
    intro s hs
    rw [List.mem_range] at hs
    rw [(hh (t + s)).1 s hs]
    exact (key s hs).2.1
  · intro s x hs hw hc
    rw [(hh (t + s)).2.1 s x hs hw hc]
    exact (key s hs).2.2 x hw

/-! ### Examples -/

/-- `x = i + 1; -> y = x + k; -> o = x + y;` with `o` an output. -/
def exSplit : PipeCode Nat where
  n := 3
  stage
    | 0 => { code := asg "x" ["i"] fun vs => vs.sum + 1, plain := ["x"] }
    | 1 => { code := asg "y" ["x", "k"] fun vs => vs.sum, plain := ["y"] }
    | _ => { code := asg "o" ["x", "y"] fun vs => vs.sum, plain := ["o"] }
  outs := ["o"]

/-- The example of the documentation: `a = n; u = b + c + d; -> b ^= a; c v= a; d vv= a; -> w = a + b + c + d;`. -/
def exArrows : PipeCode Nat where
  n := 3
  stage
    | 0 => { code := .seq (asg "a" ["n"] fun vs => vs.sum) (asg "u" ["b", "c", "d"] fun vs => vs.sum), plain := ["a", "u"] }
    | 1 => { code := .seq (asg "b" ["a"] fun vs => vs.sum) (.seq (asg "c" ["a"] fun vs => vs.sum) (asg "d" ["a"] fun vs => vs.sum)),
             back := ["b"], fwd := ["c"], after := ["d"] }
    | _ => { code := asg "w" ["a", "b", "c", "d"] fun vs => vs.sum, plain := ["w"] }

/-- What `checkPipeline` finds. -/
def nfoOf (p : PipeCode Nat) : PipeNfo :=
  match checkPipeline p.ios with
  | .ok nfo => nfo
  | .error _ => .empty

/-- All registers. -/
def allRegs : PCell → Store := fun _ => .flipflop

theorem exSplit_ok : checkPipeline exSplit.ios = .ok (nfoOf exSplit) ∧ orderPipelineStages exSplit.accs = some [0, 1, 2] ∧
    trickleRange (nfoOf exSplit) "x" = some (0, 2) ∧ trickleRange (nfoOf exSplit) "y" = some (1, 2) := by
  refine ⟨?_, ?_, ?_, ?_⟩ <;> decide +kernel

theorem exArrows_ok : checkPipeline exArrows.ios = .ok (nfoOf exArrows) ∧ orderPipelineStages exArrows.accs = some [1, 0, 2] ∧
    trickleRange (nfoOf exArrows) "a" = some (0, 2) := by
  refine ⟨?_, ?_, ?_⟩ <;> decide +kernel

theorem three_cases {P : Nat → Prop} (h0 : P 0) (h1 : P 1) (h2 : P 2) : ∀ s, s < 3 → P s
  | 0, _ => h0
  | 1, _ => h1
  | 2, _ => h2

theorem exSplit_listed : exSplit.Listed :=
  three_cases ⟨by simp [exSplit, asg, Stm.wrNames, PStage.Special], by simp [exSplit, PStage.Special]⟩
    ⟨by simp [exSplit, asg, Stm.wrNames, PStage.Special], by simp [exSplit, PStage.Special]⟩
    ⟨by simp [exSplit, asg, Stm.wrNames, PStage.Special], by simp [exSplit, PStage.Special]⟩

theorem exArrows_listed : exArrows.Listed :=
  three_cases ⟨by simp [exArrows, asg, Stm.wrNames, PStage.Special], by simp [exArrows]⟩
    ⟨by simp [exArrows, asg, Stm.wrNames, PStage.Special], by simp [exArrows]⟩
    ⟨by simp [exArrows, asg, Stm.wrNames, PStage.Special], by simp [exArrows]⟩

theorem exArrows_usual : exArrows.Usual allRegs (fun _ => false) [1, 0, 2] := by
  refine ⟨?_, ?_, ?_, ?_, ?_⟩
  · exact three_cases ⟨trivial, trivial, trivial⟩ ⟨trivial, trivial, trivial, trivial, trivial⟩ trivial
  · intro x i j hij hj _ hi' hj'
    exfalso
    revert hij hi'
    revert i
    revert j
    refine three_cases ?_ ?_ ?_
    · intro _ i hij; omega
    · intro hj' i hij hi'
      obtain rfl : i = 0 := by omega
      simp [exArrows, asg, Stm.wrNames] at hi' hj'
      rcases hi' with rfl | rfl <;> simp at hj'
    · intro hj' i hij hi'
      simp [exArrows, asg, Stm.wrNames] at hj'
      subst hj'
      obtain rfl | rfl : i = 0 ∨ i = 1 := by omega
      · simp [exArrows, asg, Stm.wrNames] at hi'
      · simp [exArrows, asg, Stm.wrNames] at hi'
  · intro s x _ _ h; cases h
  · intro k s x hks hs hx _
    have hs' : s < 3 := hs
    obtain rfl : k = 1 := by
      obtain rfl | rfl : k = 0 ∨ k = 1 := by omega
      · simp [exArrows] at hx
      · rfl
    obtain rfl : s = 2 := by omega
    exact ⟨[1, 0], [], rfl, by simp⟩
  · intro k s x _ _ _ _ _ _ _ _ _
    exact Or.inl ⟨rfl, rfl⟩

/-- The hypotheses of the first theorem hold for the example of the documentation. -/
example (inp : Nat → PipeCyc Nat) (r0 : Nat → String → Nat) (h : ∀ t x, (inp t).before x = (inp t).held x) :
    ∃ start stop : Nat → Nat → String → Nat, exArrows.Means (fun t => (inp t).before) start stop ∧
      ∀ t s, s < 3 → (exArrows.at (trickleRange (nfoOf exArrows)) allRegs (fun _ => false) [1, 0, 2] inp r0 t).2 s =
        ((exArrows.stage s).code.run (start t s)).evs := by
  obtain ⟨start, stop, h1, h2⟩ := C58_stages_keep_meaning_partial exArrows _ _ allRegs (fun _ => false) inp r0 exArrows_ok.1 exArrows_ok.2.1 exArrows_listed
    exArrows_usual fun t x _ _ => h t x
  exact ⟨start, stop, h1, fun t => (h2 t).1⟩

/-- The item that enters in cycle `t` gives `o = x + (x + k)` two cycles later, whatever the other items, if `k` keeps its value. -/
example (inp : Nat → PipeCyc Nat) (r0 : Nat → String → Nat) (h : ∀ t x, (inp t).before x = (inp t).held x) (t : Nat)
    (hk : (inp (t + 1)).before "k" = (inp t).before "k") :
    (exSplit.at (trickleRange (nfoOf exSplit)) allRegs (fun _ => false) [0, 1, 2] inp r0 (t + 2)).1 (.var "o") =
      ((inp t).before "i" + 1) + (((inp t).before "i" + 1) + (inp t).before "k") := by
  have hsets : ∀ dst rs f, (asg dst rs f).Sets dst ∨ dst ∈ rs := by
    intro dst rs f
    by_cases hd : dst ∈ rs
    · exact Or.inr hd
    · refine Or.inl fun m => ⟨?_, ⟨_, List.mem_singleton.mpr rfl, by simp⟩⟩
      intro b e a heq hre
      exfalso
      simp only [asg, Stm.run] at heq
      have : e ∈ b ++ e :: a := by simp
      rw [← heq, List.mem_singleton] at this
      subst this
      exact hd hre
  have key := (C58_item_as_in_sequence_partial exSplit _ _ allRegs (fun _ => false) inp r0 exSplit_ok.1 exSplit_ok.2.1 exSplit_listed
    (fun s x hs => by revert s; exact three_cases (by simp [exSplit, PStage.Special]) (by simp [exSplit, PStage.Special]) (by simp [exSplit, PStage.Special]))
    (three_cases ⟨trivial, trivial⟩ ⟨trivial, trivial⟩ ⟨trivial, trivial⟩)
    (fun x i j hij hj _ hi' hj' => by
      exfalso
      have hj2 : j < 3 := hj
      obtain ⟨rfl, rfl⟩ | ⟨rfl, rfl⟩ | ⟨rfl, rfl⟩ : (i = 0 ∧ j = 1) ∨ (i = 0 ∧ j = 2) ∨ (i = 1 ∧ j = 2) := by omega
      all_goals simp [exSplit, asg, Stm.wrNames] at hi' hj'
      all_goals subst hi'; simp at hj')
    (fun s x _ _ h => by cases h)
    (fun x i j hij hj ho hi' => by
      have hj2 : j < 3 := hj
      simp only [exSplit, List.mem_singleton] at ho
      subst ho
      obtain rfl | rfl : i = 0 ∨ i = 1 := by omega
      all_goals simp [exSplit, asg, Stm.wrNames] at hi')
    (fun t x _ _ => h t x) t
    (fun s x hs => by
      revert s
      refine three_cases ?_ ?_ ?_
      · intro _ _; exact Or.inr rfl
      · intro hx hn
        simp [exSplit, asg, Stm.wrNames, Stm.rdNames] at hx
        rcases hx with (rfl | rfl) | rfl
        · exact absurd (hn 0 (by omega)) (by simp [exSplit, asg, Stm.wrNames])
        · exact Or.inr hk
        · exact Or.inl ((hsets ..).resolve_right (by simp))
      · intro hx hn
        simp [exSplit, asg, Stm.wrNames, Stm.rdNames] at hx
        rcases hx with (rfl | rfl) | rfl
        · exact absurd (hn 0 (by omega)) (by simp [exSplit, asg, Stm.wrNames])
        · exact absurd (hn 1 (by omega)) (by simp [exSplit, asg, Stm.wrNames])
        · exact Or.inl ((hsets ..).resolve_right (by simp)))).2 2 "o" (by decide) (by simp [exSplit, asg, Stm.wrNames]) (by
          rintro ⟨ho, -⟩
          exact ho (by simp [exSplit]))
  rw [key]
  simp [PipeCode.together, exSplit, asg, Stm.run, Ins.apply]

/-! ### Where the meaning is not kept -/

/-- `b ^= z; -> z ^= 7; o = b;`. -/
def exBack : PipeCode Nat where
  n := 2
  stage
    | 0 => { code := asg "b" ["z"] fun vs => vs.sum, back := ["b"] }
    | _ => { code := .seq (asg "z" [] fun _ => 7) (asg "o" ["b"] fun vs => vs.sum), back := ["z"], plain := ["o"] }
  outs := ["o"]

/-- Everything holds 0. -/
def zeroCyc : PipeCyc Nat := ⟨fun _ => 0, fun _ => 0, fun _ => 0⟩

/-- A variable assigned with `^=` should be seen by all other stages in the cycle. A later stage that has to be evaluated first
sees the value of the cycle before, and the pipeline is accepted. -/
theorem C58_counterexample_backward :
    checkPipeline exBack.ios = .ok (nfoOf exBack) ∧ orderPipelineStages exBack.accs = some [1, 0] ∧ exBack.Listed ∧
    ¬ ∃ start stop : Nat → Nat → String → Nat, exBack.Means (fun _ => zeroCyc.before) start stop ∧
      ∀ t s, s < exBack.n → (exBack.at (trickleRange (nfoOf exBack)) allRegs (fun _ => false) [1, 0] (fun _ => zeroCyc) (fun _ _ => 0) t).2 s =
        ((exBack.stage s).code.run (start t s)).evs := by
  refine ⟨by decide +kernel, by decide +kernel, ?_, ?_⟩
  · rintro (_ | _ | s) hs
    · exact ⟨by simp [exBack, asg, Stm.wrNames, PStage.Special], by simp [exBack, PStage.Special]⟩
    · exact ⟨by simp [exBack, asg, Stm.wrNames, PStage.Special], by simp [exBack, PStage.Special]⟩
    · have : s + 1 + 1 < 2 := hs
      omega
  · rintro ⟨start, stop, hm, he⟩
    have hnc : ∀ x s, x ∈ ["b", "z"] → ¬ exBack.Carried x s := by
      rintro x s hx ⟨-, ⟨a, -, han, haw, hasp⟩, -⟩
      have han' : a < 2 := han
      obtain rfl | rfl : a = 0 ∨ a = 1 := by omega
      · simp [exBack, asg, Stm.wrNames, PStage.Special] at haw hasp
        exact hasp haw
      · simp [exBack, asg, Stm.wrNames, PStage.Special] at haw hasp
        rcases haw with rfl | rfl
        · exact hasp rfl
        · simp at hx
    have h1 : start 0 0 "z" = stop 0 1 "z" := hm.back 0 0 1 "z" (by decide) (by decide) (by decide) (hnc _ _ (by simp)) (by simp [exBack])
    have h2 : start 0 1 "b" = stop 0 0 "b" := hm.back 0 1 0 "b" (by decide) (by decide) (by decide) (hnc _ _ (by simp)) (by simp [exBack])
    rw [hm.code 0 1 (by decide)] at h1
    rw [hm.code 0 0 (by decide)] at h2
    have h3 : start 0 0 "z" = 7 := by rw [h1]; simp [exBack, asg, Stm.run, Ins.apply]
    have h4 : start 0 1 "b" = 7 := by rw [h2]; simp [exBack, asg, Stm.run, Ins.apply, h3]
    have h5 := congrArg (List.map Ev.vals) (he 0 1 (by decide))
    have h6 : (((exBack.stage 1).code.run (start 0 1)).evs).map Ev.vals = [[], [7]] := by
      simp [exBack, asg, Stm.run, Ins.apply, h4]
    rw [h6] at h5
    exact absurd h5 (by decide +kernel)

/-- `d vv= a; -> o = d;`. -/
def exAfter : PipeCode Nat where
  n := 2
  stage
    | 0 => { code := asg "d" ["a"] fun vs => vs.sum, after := ["d"] }
    | _ => { code := asg "o" ["d"] fun vs => vs.sum, plain := ["o"] }
  outs := ["o"]

/-- `d = 5;` was done before the pipeline, `a` is 1. -/
def assignedCyc : PipeCyc Nat := ⟨fun x => if x = "a" then 1 else 0, fun x => if x = "a" then 1 else if x = "d" then 5 else 0, fun _ => 0⟩

/-- A variable assigned with `vv=` should be seen by other stages in the next cycle only. If it is also assigned before the
pipeline in the same cycle, later stages see the new value at once. -/
theorem C58_counterexample_assigned_before :
    checkPipeline exAfter.ios = .ok (nfoOf exAfter) ∧ orderPipelineStages exAfter.accs = some [0, 1] ∧ exAfter.Listed ∧
    (∀ x, (fun x => decide (x = "d")) x = false → assignedCyc.before x = assignedCyc.held x) ∧
    ¬ ∃ start stop : Nat → Nat → String → Nat, exAfter.Means (fun _ => assignedCyc.before) start stop ∧
      ∀ t s, s < exAfter.n → (exAfter.at (trickleRange (nfoOf exAfter)) allRegs (fun x => decide (x = "d")) [0, 1] (fun _ => assignedCyc) (fun _ _ => 0) t).2 s =
        ((exAfter.stage s).code.run (start t s)).evs := by
  refine ⟨by decide +kernel, by decide +kernel, ?_, ?_, ?_⟩
  · rintro (_ | _ | s) hs
    · exact ⟨by simp [exAfter, asg, Stm.wrNames, PStage.Special], by simp [exAfter, PStage.Special]⟩
    · exact ⟨by simp [exAfter, asg, Stm.wrNames, PStage.Special], by simp [exAfter, PStage.Special]⟩
    · have : s + 1 + 1 < 2 := hs
      omega
  · intro x hx
    have : x ≠ "d" := by simpa using hx
    simp [assignedCyc, this]
  · rintro ⟨start, stop, hm, he⟩
    have h1 : start 0 1 "d" = 5 := by
      rw [hm.other 0 1 "d" (by decide)]
      · rfl
      · rintro ⟨-, ⟨a, ha, -, haw, hasp⟩, -⟩
        obtain rfl : a = 0 := by omega
        exact hasp (by simp [exAfter, PStage.Special])
      · rintro (_ | _ | k) hk _
        · simp [exAfter]
        · simp [exAfter]
        · have : k + 1 + 1 < 2 := hk
          omega
      · intro k hk
        obtain rfl : k = 0 := by omega
        simp [exAfter]
    have h5 := congrArg (List.map Ev.vals) (he 0 1 (by decide))
    have h6 : (((exAfter.stage 1).code.run (start 0 1)).evs).map Ev.vals = [[5]] := by
      simp [exAfter, asg, Stm.run, h1]
    rw [h6] at h5
    exact absurd h5 (by decide +kernel)

end Silice
