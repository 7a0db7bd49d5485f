import Verif.Lemmas.Regs

/-!
C34: registers and reset, for every history of reset and run. C35: meaning of `done`. C50: calling an algorithm
instance and waiting for it.
-/

set_option autoImplicit false

namespace Silice
variable {V E : Type}

/-! ### C34 -/

/-- Whatever happened before, and whatever the power-up content: at the end of a cycle in which reset is asserted
(or in which a callable algorithm is not run), each variable with a reset-time initialiser holds its initial value;
otherwise, and for all other variables, what was computed in the cycle. -/
theorem C34_update_partial (m : Mod V E) (hm : m.Ok) (hs : List (CoreIn E)) (i : CoreIn E) (q0 q' : Core V)
    (h : coreRun m (hs ++ [i]) q0 = some q') :
    ∃ q, coreRun m hs q0 = some q ∧
      Loaded (i.rst = true ∨ (m.kind.Callable ∧ i.run = false)) m.decls (m.comb i.ext q).2 q'.vars := by
  obtain ⟨q, h1, h2⟩ := coreRun_append m hs i q0 q' h
  exact ⟨q, h1, coreStep_loaded m hm i q q' h2⟩

/-- The updates are defined in every cycle of every history. -/
theorem C34_defined (m : Mod V E) (hm : m.Ok) (hs : List (CoreIn E)) (q0 : Core V) :
    ∃ q, coreRun m hs q0 = some q := by
  induction hs generalizing q0 with
  | nil => exact ⟨q0, rfl⟩
  | cons i is ih =>
    obtain ⟨q1, h1⟩ := coreStep_some m hm i q0
    obtain ⟨q, h2⟩ := ih q1
    exact ⟨q, by simp [coreRun, h1, h2]⟩

/-- A variable initialised at power-up takes the computed value in every cycle, reset or not, run or not. -/
theorem C34_startup_untouched (m : Mod V E) (hm : m.Ok) (hs : List (CoreIn E)) (i : CoreIn E) (q0 q' : Core V)
    (h : coreRun m (hs ++ [i]) q0 = some q') (k : Nat) (v : FFVar V) (hk : m.decls[k]? = some v)
    (hv : v.atStartup = true) :
    ∃ q, coreRun m hs q0 = some q ∧ q'.vars[k]? = (m.comb i.ext q).2[k]? := by
  obtain ⟨q, h1, h2⟩ := C34_update_partial m hm hs i q0 q' h
  refine ⟨q, h1, (h2.2 k v hk).2 ?_⟩
  rintro ⟨⟨hr, _⟩, _⟩
  simp [hv] at hr

/-- Reset stops the main state machine and initialises the variables, from any state. -/
theorem C34_reset_state (m : Mod V E) (hm : m.Ok) (hs : List (CoreIn E)) (i : CoreIn E) (q0 q' : Core V)
    (h : coreRun m (hs ++ [i]) q0 = some q') (hr : i.rst = true) :
    q'.idx = 0 ∧ (m.kind.autorun = true → q'.autorun = false) ∧
    ∀ (k : Nat) (v : FFVar V), m.decls[k]? = some v → v.ResetTime → q'.vars[k]? = some v.initial := by
  obtain ⟨q, h1, h2⟩ := coreRun_append m hs i q0 q' h
  obtain ⟨_, f2, f3⟩ := coreStep_fields m i q q' h2
  refine ⟨by simpa [hr] using f2, fun ha => by simpa [ha, hr] using f3, fun k v hk hv => ?_⟩
  exact ((coreStep_loaded m hm i q q' h2).2 k v hk).1 ⟨hv, Or.inl hr⟩

/-- A callable algorithm that is not run in a cycle (and not reset) is at its first state with its initial values
in the next one, from any state. -/
theorem C34_call_starts_fresh (m : Mod V E) (hm : m.Ok) (hc : m.kind.Callable) (hs : List (CoreIn E))
    (i : CoreIn E) (q0 q' : Core V) (h : coreRun m (hs ++ [i]) q0 = some q') (hr : i.rst = false)
    (hn : i.run = false) :
    q'.idx = m.entry ∧
    ∀ (k : Nat) (v : FFVar V), m.decls[k]? = some v → v.ResetTime → q'.vars[k]? = some v.initial := by
  obtain ⟨q, h1, h2⟩ := coreRun_append m hs i q0 q' h
  obtain ⟨_, f2, _⟩ := coreStep_fields m i q q' h2
  refine ⟨by simpa [hr, hn, nextIdx, hc.1] using f2, fun k v hk hv => ?_⟩
  exact ((coreStep_loaded m hm i q q' h2).2 k v hk).1 ⟨hv, Or.inr ⟨hc, hn⟩⟩

/-- An algorithm on autorun enters its first state by itself: in the second cycle after reset is released, whatever
the run input. In the first one no state is executed, so its registers hold the initial values changed at most by the
code outside of states. After that it follows its own code. -/
theorem C34_autorun_start (m : Mod V E) (hm : m.Ok) (ha : m.kind.autorun = true) (hs : List (CoreIn E))
    (i j k : CoreIn E) (q0 q1 q2 q3 : Core V) (h1 : coreRun m (hs ++ [i]) q0 = some q1) (hi : i.rst = true)
    (h2 : coreStep m j q1 = some q2) (hj : j.rst = false) (h3 : coreStep m k q2 = some q3) (hk : k.rst = false) :
    q1.idx = 0 ∧ q2.idx = m.entry ∧ q2.vars = (m.comb j.ext q1).2 ∧
    q3.idx = (m.comb k.ext q2).1 ∧ q3.vars = (m.comb k.ext q2).2 := by
  obtain ⟨r1, r2, _⟩ := C34_reset_state m hm hs i q0 q1 h1 hi
  obtain ⟨_, f2, f3⟩ := coreStep_fields m j q1 q2 h2
  obtain ⟨_, g2, _⟩ := coreStep_fields m k q2 q3 h3
  have hnc : ¬ m.kind.Callable := fun hc => by simp [hc.1] at ha
  have r2 := r2 ha
  simp only [ha, hj, if_true] at f3
  refine ⟨r1, by simpa [hj, nextIdx, ha, r2] using f2, ?_, by simpa [hk, nextIdx, ha, f3] using g2, ?_⟩
  · refine loaded_plain (coreStep_loaded m hm j q1 q2 h2) ?_ (hm.len _ _)
    rintro (h | h)
    · simp [hj] at h
    · exact hnc h.1
  · refine loaded_plain (coreStep_loaded m hm k q2 q3 h3) ?_ (hm.len _ _)
    rintro (h | h)
    · simp [hk] at h
    · exact hnc h.1

/-- After reset a callable algorithm does not start as long as it is not called: it stays terminated. -/
theorem C34_idle_until_called (m : Mod V E) (hm : m.Ok) (hc : m.kind.Callable) (hs : List (CoreIn E))
    (q0 q2 : Core V) (h0 : q0.idx = 0) (hr : ∀ i ∈ hs, i.run = true) (h : coreRun m hs q0 = some q2) :
    q2.idx = 0 := by
  induction hs generalizing q0 with
  | nil =>
    injection h with h
    rw [← h]
    exact h0
  | cons i is ih =>
    simp only [coreRun, Option.bind_eq_bind, Option.bind_eq_some_iff] at h
    obtain ⟨q, h1, h2⟩ := h
    refine ih q ?_ (fun j hj => hr j (by simp [hj])) h2
    obtain ⟨_, f2, _⟩ := coreStep_fields m i q0 q h1
    rw [f2, nextIdx, hr i (by simp), hc.1]
    cases i.rst <;> simp [hm.stays _ _ h0]

/-- Resets in the middle of a pipeline's work: after any history, from any power-up content, the stages behave since
the last reset as a pipeline started empty. -/
theorem C34_pipeline_reset (p : Pipe) (inp : Nat → PipeIn V) (rst : Nat → Bool) (q0 : PipeSt V) (t0 t : Nat)
    (hr : rst t0 = true) (hq : ∀ u, t0 < u → u ≤ t0 + t → rst u = false) :
    pipeHist p inp rst q0 (t0 + 1 + t) =
      pipeRun p (fun u => inp (t0 + 1 + u)) (pipeHist p inp rst q0 (t0 + 1)).reg t := by
  induction t with
  | zero => simp [pipeHist, pipeEdge, hr, pipeRun, PipeSt.start]
  | succ t ih =>
    rw [show t0 + 1 + (t + 1) = (t0 + 1 + t) + 1 by omega, pipeHist, pipeEdge,
      ih (fun u h1 h2 => hq u h1 (by omega)), hq (t0 + 1 + t) (by omega) (by omega)]
    rfl

/-! ### C35 -/

/-- `done` is high exactly when the main state machine is in its termination state (and, on autorun, reset was not
asserted in the cycle before), every stage of every pipeline is idle and no item is held between two stages. -/
theorem C35_done (m : Mod V E) (hs : List (CoreIn E)) (i : CoreIn E) (q0 q : Core V)
    (h : coreRun m (hs ++ [i]) q0 = some q) (pipes : List (Pipe × PipeSt V)) :
    doneOut m.kind q pipes = true ↔
      q.idx = 0 ∧ (m.kind.autorun = true → i.rst = false) ∧
      ∀ x ∈ pipes, (∀ s, s < x.1.n → x.2.idx s = 0) ∧ ∀ s, s + 1 < x.1.n → x.2.full s = false := by
  obtain ⟨r, _, h2⟩ := coreRun_append m hs i q0 q h
  obtain ⟨_, _, f3⟩ := coreStep_fields m i r q h2
  rw [doneOut_iff]
  refine and_congr Iff.rfl (and_congr (imp_congr_right fun ha => ?_) (forall_congr' fun x => ?_))
  · simp [f3, ha]
  · refine imp_congr_right fun _ => ?_
    rw [donePipe_iff]
    exact and_congr Iff.rfl (forall_congr' fun s =>
      ⟨fun hh hn => hh (by omega) hn, fun hh _ hn => hh hn⟩)

/-- With pipelines at work since the last reset, `done` means that every item that entered a pipeline has gone
through its last stage: for each pipeline the first stage has started exactly as many times as the last stage
finished. And conversely `done` is high as soon as this holds and the main state machine is terminated. -/
theorem C35_done_drained (m : Mod V E) (hs : List (CoreIn E)) (i : CoreIn E) (q0 q : Core V)
    (h : coreRun m (hs ++ [i]) q0 = some q) (t : Nat) (ps : List (Pipe × (Nat → PipeIn V) × (Nat → V)))
    (hg : ∀ x ∈ ps, 0 < x.1.n ∧ GoodStages x.1 x.2.1 ∧ KeepsEnabled x.1 x.2.1 x.2.2 ∧
      ∀ u, (x.2.1 u).disable = false) :
    doneOut m.kind q (ps.map fun x => (x.1, pipeRun x.1 x.2.1 x.2.2 t)) = true ↔
      q.idx = 0 ∧ (m.kind.autorun = true → i.rst = false) ∧
      ∀ x ∈ ps, finishes x.1 x.2.1 x.2.2 (x.1.n - 1) t = starts x.1 x.2.1 x.2.2 0 t := by
  rw [C35_done m hs i q0 q h]
  refine and_congr Iff.rfl (and_congr Iff.rfl ?_)
  simp only [List.mem_map, forall_exists_index, and_imp, forall_apply_eq_imp_iff₂]
  refine forall_congr' fun x => imp_congr_right fun hx => ?_
  obtain ⟨h0, h1, h2, h3⟩ := hg x hx
  rw [(drained x.1 x.2.1 x.2.2 h1 h2 h3 t (x.1.n - 1) (by omega)).2]
  constructor
  · exact fun ⟨a, b⟩ => ⟨fun s hs => a s (by omega), fun s hs => b s (by omega)⟩
  · exact fun ⟨a, b⟩ => ⟨fun s hs => a s (by omega), fun s hs => b s (by omega)⟩

/-- Once done, an algorithm without pipelines stays done until reset, or until called again. -/
theorem C35_stays_done (m : Mod V E) (hm : m.Ok) (q q' : Core V) (i : CoreIn E)
    (hd : doneOut m.kind q [] = true) (h : coreStep m i q = some q') (hr : i.rst = false)
    (hc : m.kind.Callable → i.run = true) : doneOut m.kind q' [] = true := by
  rw [doneOut_iff] at hd ⊢
  obtain ⟨_, f2, f3⟩ := coreStep_fields m i q q' h
  refine ⟨?_, fun ha => by simp [f3, ha, hr], by simp⟩
  rw [f2, hr, nextIdx]
  cases ha : m.kind.autorun with
  | true => simp [hd.2.1 ha, hm.stays _ _ hd.1]
  | false => simp [hc ⟨ha, hm.fsm⟩, hm.stays _ _ hd.1]

/-! ### C50 -/

/-- Calling an instance and waiting for it, whatever the instance was doing before: it is restarted from its first
state with its initial values, works by itself from there, and the caller goes on to the state after the wait in the
cycle that follows the one where the callee is found terminated, not before and not later. -/
theorem C50_call_and_join (m : Mod V E) (hm : m.Ok) (hc : m.kind.Callable) (ext : Nat → E) (q0 : Core V) :
    ∃ q1, callRun m ext q0 1 = some (.waiting, q1) ∧ q1.idx = m.entry ∧
      (∀ (k : Nat) (v : FFVar V), m.decls[k]? = some v → v.ResetTime → q1.vars[k]? = some v.initial) ∧
      ∀ t, ∃ c, callRun m ext q0 (t + 1) = some (c, m.alone (fun u => ext (u + 1)) q1 t) ∧
        ((c = .waiting ∧ ∀ u, u < t → (m.alone (fun u => ext (u + 1)) q1 u).idx ≠ 0) ∨
         (c = .next ∧ ∃ u, u < t ∧ (m.alone (fun u => ext (u + 1)) q1 u).idx = 0)) := by
  obtain ⟨q1, h1⟩ := coreStep_some m hm ⟨false, false, ext 0⟩ q0
  have hr1 : coreRun m ([] ++ [⟨false, false, ext 0⟩]) q0 = some q1 := by simp [coreRun, h1]
  obtain ⟨e1, e2⟩ := C34_call_starts_fresh m hm hc [] _ q0 q1 hr1 rfl rfl
  have h1' : callRun m ext q0 1 = some (.waiting, q1) := by
    simp [callRun, callerRun, h1, callerStep]
  refine ⟨q1, h1', e1, e2, fun t => ?_⟩
  induction t with
  | zero => exact ⟨.waiting, by simpa [Mod.alone] using h1', Or.inl ⟨rfl, fun u hu => by omega⟩⟩
  | succ t ih =>
    obtain ⟨c, hcr, hcase⟩ := ih
    set qt := m.alone (fun u => ext (u + 1)) q1 t with hqt
    have hrun : callerRun c = true := by
      rcases hcase with h | h <;> simp [h.1, callerRun]
    obtain ⟨q2, h2⟩ := coreStep_some m hm ⟨false, callerRun c, ext (t + 1)⟩ qt
    have hq2 : q2 = m.alone (fun u => ext (u + 1)) q1 (t + 1) := by
      obtain ⟨_, f2, f3⟩ := coreStep_fields m _ qt q2 h2
      have hv := loaded_plain (coreStep_loaded m hm _ qt q2 h2)
        (by rintro (h | h)
            · simp at h
            · simp [hrun] at h) (hm.len _ _)
      simp only [Mod.alone, ← hqt]
      cases q2 with
      | mk a b d =>
        simp only at f2 f3 hv
        simp [f2, f3, hv, nextIdx, hc.1, hrun]
    refine ⟨callerStep (doneOut m.kind qt []) c, ?_, ?_⟩
    · rw [callRun, hcr]
      simp [h2, hq2]
    · have hdone : doneOut m.kind qt [] = true ↔ qt.idx = 0 := by simp [doneOut_iff, hc.1]
      rcases hcase with ⟨rfl, hcase⟩ | ⟨rfl, u, hu, hcase⟩
      · by_cases hz : qt.idx = 0
        · exact Or.inr ⟨by simp [callerStep, hdone.mpr hz], t, by omega, hz⟩
        · refine Or.inl ⟨by simp [callerStep, hdone, hz], fun u hu => ?_⟩
          by_cases hut : u = t
          · rw [hut]; exact hz
          · exact hcase u (by omega)
      · exact Or.inr ⟨rfl, u, by omega, hcase⟩

/-! ### Witnesses -/

/-- A callable counter: state 1 adds the input to the accumulator and goes to state 2, which ends. Variable 0 is
initialised by reset to 5, variable 1 at power-up only, variable 2 is a table of two. -/
def exMod (auto : Bool) : Mod Nat Nat where
  kind := ⟨auto, false⟩
  entry := 1
  decls := [⟨false, false, 0, [5]⟩, ⟨true, false, 0, [6]⟩, ⟨false, false, 2, [7, 8]⟩]
  comb := fun e q =>
    let v (k : Nat) : List Nat := q.vars[k]?.elim [0] id
    if q.idx = 1 then (2, [(v 0).map (· + e), [e], [e, e]])
    else if q.idx = 2 then (0, [v 0, v 1, v 2])
    else (q.idx, [v 0, v 1, v 2])

theorem exMod_ok (auto : Bool) : (exMod auto).Ok := by
  refine ⟨rfl, by simp [exMod], ?_, ?_, ?_⟩
  · intro v hv _
    simp only [exMod, List.mem_cons, List.not_mem_nil, or_false] at hv
    rcases hv with rfl | rfl | rfl <;> simp [FFVar.Initialised]
  · intro e q
    simp only [exMod]
    split_ifs <;> rfl
  · intro e q h
    simp [exMod, h]

example : (exMod false).kind.Callable := ⟨rfl, rfl⟩

/-- Reset, call with input 3, two cycles of work: the accumulator is at 5 + 3 and the algorithm is done. -/
example : ((coreRun (exMod false) [⟨true, true, 0⟩, ⟨false, false, 0⟩, ⟨false, true, 3⟩, ⟨false, true, 0⟩]
    ⟨9, false, [[1], [1], [1, 1]]⟩).map fun q => (q.idx, q.vars, doneOut (exMod false).kind q [])) =
    some (0, [[8], [3], [3, 3]], true) := by decide +kernel

/-- On autorun the same machine starts by itself two cycles after reset. -/
example : ((coreRun (exMod true) [⟨true, true, 0⟩, ⟨false, true, 0⟩, ⟨false, true, 3⟩]
    ⟨9, false, [[1], [1], [1, 1]]⟩).map fun q => (q.idx, q.vars, doneOut (exMod true).kind q [])) =
    some (2, [[8], [3], [3, 3]], false) := by decide +kernel

/-- The caller waits while the callee works and goes on afterwards. -/
example : (List.range 5).map (fun t => (callRun (exMod false) (fun t => t) ⟨2, false, [[1], [1], [1, 1]]⟩ t).map
    (·.1)) = [some .calling, some .waiting, some .waiting, some .waiting, some .next] := by decide +kernel

/-- A pipeline of two stages, each of one state. -/
def exDrainPipe : Pipe := { n := 2, entry := fun _ => 1, last := fun _ => 1, first := 0 }

/-- One item is triggered in cycle 0, is in stage 0 in cycle 1 and in stage 1 in cycle 2. -/
def exDrainIn (t : Nat) : PipeIn Nat :=
  { active := decide (t = 0), stall := fun _ => false, disable := false, next := fun _ q => q + 1
    work := fun _ v => v, val := t }

/-- The hypotheses of `C35_done_drained` hold for it. -/
example : 0 < exDrainPipe.n ∧ GoodStages exDrainPipe exDrainIn ∧ KeepsEnabled exDrainPipe exDrainIn (fun _ => 0) ∧
    ∀ u, (exDrainIn u).disable = false := by
  refine ⟨by simp [exDrainPipe], ⟨fun s _ => by simp [exDrainPipe], fun s _ => by simp [exDrainPipe], ?_⟩,
    fun t ht => by simp [exDrainIn] at ht, fun _ => rfl⟩
  intro t s q _ h0 _
  simp only [exDrainIn, exDrainPipe]
  omega

/-- A terminated algorithm is not done while the item is in the pipeline. -/
example : (List.range 5).map (fun t => doneOut ⟨false, false⟩ (⟨0, false, []⟩ : Core Nat)
    [(exDrainPipe, pipeRun exDrainPipe exDrainIn (fun _ => 0) t)]) = [true, false, false, true, true] := by
  decide +kernel

/-- Tables: with fewer initial values than entries (which `C09` shows can be declared) the update written for reset
reads past the end of the list of values. -/
theorem C34_counterexample_short_table :
    ffUpdate ⟨true, false⟩ (⟨false, false, 3, [1, 2]⟩ : FFVar Nat) true true [0, 0, 0] = none := by decide +kernel

end Silice
