import Verif.Lemmas.Checks

/-! C71: formal checks check what they state. -/

set_option autoImplicit false

namespace Silice
variable {X V E : Type}

/-- C71. For every algorithm that is not empty, every numbering of its states and every execution: each check on the past or
on stability is written once, as an assertion or an assumption as in the source, and what is written holds in all cycles
exactly when what the check states holds.
Partial: states are not one-hot encoded, and the check stands directly in a state of the machine and is not the first thing in
the algorithm (otherwise it is not tested, see below). -/
theorem C71_stated_partial (autorun : Bool) (always : List (ChkKind X)) (evs : List (ChkEv X)) (hbody : HasBody evs)
    (hlab : LabelsDistinct evs) (sid : Nat → Option Nat) (hsid : Numbers evs sid) (f : FsmNfo) (hf : f.oneHot = false)
    (xs : List (ChkText X)) (h : chkTexts autorun (chkGather always evs) sid = some xs)
    (w : ChkWave X V) (st : Nat → Option Nat) (hw : ∀ t, w.idx t < 2 ^ 31) (hst : InStates f sid w.idx st) :
    List.Forall₂ (fun c x => x.Of c.kind ∧ (c.Direct sid →
        ((∀ early t, x.holdsAt { w with early := early } t) ↔ c.Holds evs (!autorun) w st)))
      (srcOrder (srcChecks always evs)) xs := by
  refine texts_forall autorun always evs sid hbody xs h _ ?_ ?_
  · intro c _ tg n x hk hx
    refine ⟨?_, fun hd => past_text f hf always evs sid hsid hlab w st hw hst _ tg n c hk hd x hx⟩
    obtain ⟨b, _, rfl⟩ := pastText_target always evs sid _ tg n _ x hx
    rw [hk]; rfl
  · intro c _ a e hk
    refine ⟨?_, fun hd => stable_text f hf evs sid hsid w st hw hst _ a e c hk hd⟩
    rw [hk]; exact ⟨rfl, rfl⟩

/-- C71 (finding). The other checks are accepted and never tested: those of always blocks, those that come first in an
algorithm, those in conditionals and loops, those in states that are skipped because they have no instruction. -/
theorem C71_counterexample_never_tested (autorun : Bool) (always : List (ChkKind X)) (evs : List (ChkEv X)) (hbody : HasBody evs)
    (sid : Nat → Option Nat) (hsid : Numbers evs sid)
    (xs : List (ChkText X)) (h : chkTexts autorun (chkGather always evs) sid = some xs) :
    List.Forall₂ (fun c x => ¬ c.Direct sid → ∀ (w : ChkWave X V), (∀ t, w.idx t < 2 ^ 31) → ∀ t, x.holdsAt w t)
      (srcOrder (srcChecks always evs)) xs := by
  refine texts_forall autorun always evs sid hbody xs h _ ?_ ?_
  · intro c hc tg n x hk hx hd w hw t
    obtain ⟨b, _, rfl⟩ := pastText_target always evs sid _ tg n _ x hx
    exact Or.inl (cond_false evs always sid hsid w hw _ c hc hd t)
  · intro c hc a e hk hd w hw t
    exact Or.inl (cond_false evs always sid hsid w hw _ c hc hd t)

/-- An algorithm with three states after the first block (labels that are jumped to), and checks in them:
`x = 0; init: x = 1; #assertstable(7); work: if (..) { #assertstable(8); x = 2; } final: x = 3; #wasin(init, 2);`, and a check in an
always block and one at the start. -/
def exChkEvs : List (ChkEv Nat) :=
  [.check (.stable false 5), .instr, .block none (some "init"), .instr, .check (.stable false 7), .block none (some "work"), .instr,
    .block (some 2) none, .check (.stable false 8), .instr, .block none (some "final"), .instr, .check (.past "init" 2)]

def exChkAlways : List (ChkKind Nat) := [.stable true 6]

def exChkSid (b : Nat) : Option Nat := if b = 0 then some 1 else if b = 1 then some 2 else if b = 2 then some 3 else
  if b = 4 then some 4 else none

theorem exChk_numbers : Numbers exChkEvs exChkSid := by
  intro b k h
  unfold exChkSid at h
  split at h
  · injection h with h; subst h; exact ⟨by decide, Or.inl ‹_›⟩
  · split at h
    · injection h with h; subst h; exact ⟨by decide, Or.inr ⟨0, some "init", by omega, by decide⟩⟩
    · split at h
      · injection h with h; subst h; exact ⟨by decide, Or.inr ⟨1, some "work", by omega, by decide⟩⟩
      · split at h
        · injection h with h; subst h; exact ⟨by decide, Or.inr ⟨3, some "final", by omega, by decide⟩⟩
        · cases h

theorem exChk_labels : LabelsDistinct exChkEvs := by
  have key : ∀ l b, Labelled exChkEvs l b → (l = "init" ∧ b = 1) ∨ (l = "work" ∧ b = 2) ∨ (l = "final" ∧ b = 4) := by
    rintro l b ⟨b', rfl, h⟩
    have hb : blocksOf exChkEvs = [(none, some "init"), (none, some "work"), (some 2, none), (none, some "final")] := by decide
    rw [hb] at h
    rcases b' with _ | _ | _ | _ | b'
    · simp at h; exact Or.inl ⟨h.symm, rfl⟩
    · simp at h; exact Or.inr (Or.inl ⟨h.symm, rfl⟩)
    · simp at h
    · simp at h; exact Or.inr (Or.inr ⟨h.symm, rfl⟩)
    · simp at h
  intro l b b' h h'
  rcases key l b h with ⟨h1, h2⟩ | ⟨h1, h2⟩ | ⟨h1, h2⟩ <;> rcases key l b' h' with ⟨h3, h4⟩ | ⟨h3, h4⟩ | ⟨h3, h4⟩ <;>
    first | (rw [h1] at h3; exact absurd h3 (by decide)) | (rw [h2, h4])

/-- What is written for it: the check on the past compares with the number of `init`; the checks of the always block and at the
start have the condition `0`, the one in the conditional compares the index with -1. -/
example : chkTexts false (chkGather exChkAlways exChkEvs) exChkSid = some
    [.past (some 4) true 2 2, .stable true none true 6, .stable false none true 5, .stable false (some 2) true 7,
     .stable false (some (-1)) true 8] := by decide +kernel

/-- The theorem applies to it, for every execution. -/
example (w : ChkWave Nat V) (st : Nat → Option Nat) (hw : ∀ t, w.idx t < 2 ^ 31) (hst : InStates ⟨5, false⟩ exChkSid w.idx st) :
    List.Forall₂ (fun (c : SrcChk Nat) (x : ChkText Nat) => x.Of c.kind ∧ (c.Direct exChkSid →
        ((∀ early t, x.holdsAt { w with early := early } t) ↔ c.Holds exChkEvs true w st)))
      (srcOrder (srcChecks exChkAlways exChkEvs)) [.past (some 4) true 2 2, .stable true none true 6, .stable false none true 5,
        .stable false (some 2) true 7, .stable false (some (-1)) true 8] :=
  C71_stated_partial false exChkAlways exChkEvs ⟨.instr, by decide, by simp⟩ exChk_labels exChkSid exChk_numbers ⟨5, false⟩ rfl _
    (by decide +kernel) w st hw hst

/-- An execution that goes through its states in turn. -/
example : InStates ⟨5, false⟩ exChkSid (fun t => if t < 3 then t + 1 else if t = 3 then 4 else 0)
    (fun t => if t = 3 then some 4 else if t < 3 then some t else none) := by
  intro t b
  simp only [exChkSid, toFSMState]
  constructor
  · intro h
    split at h
    · rename_i ht; injection h with h; subst h; subst ht; exact ⟨4, by decide, by decide⟩
    · split at h
      · rename_i h1 h2
        injection h with h
        subst h
        have : t = 0 ∨ t = 1 ∨ t = 2 := by omega
        rcases this with rfl | rfl | rfl
        · exact ⟨1, by decide, by decide⟩
        · exact ⟨2, by decide, by decide⟩
        · exact ⟨3, by decide, by decide⟩
      · cases h
  · rintro ⟨k, h1, h2⟩
    simp only [Bool.not_false, if_true, Option.some.injEq] at h2
    repeat' (split at h1)
    all_goals first | (injection h1 with h1) | cases h1
    all_goals repeat' (split at h2)
    all_goals repeat' split
    all_goals first | omega | (congr 1; omega)

/-- The check in its second state and the one in its last are among those of the theorem, the three others are not. -/
example : (srcOrder (srcChecks exChkAlways exChkEvs)).map (fun c => (c.started, c.place == some c.block, (exChkSid c.block).isSome)) =
    [(true, true, true), (false, false, true), (false, true, true), (true, true, true), (true, false, false)] := by decide

/-- `x = 0; second: x = 1; #assertstable(e);` in an algorithm with one-hot states. -/
def exHotEvs : List (ChkEv Nat) := [.instr, .block none (some "second"), .instr, .check (.stable false 0)]

/-- An execution that stays in the second state (number 2, index 4), where the expression changes in every cycle. -/
def exHotWave : ChkWave Nat Nat := ⟨fun t => t == 0, fun _ => true, fun _ => 4, fun _ t => t, fun _ _ => 0⟩

/-- C71 (finding). With one-hot states the check compares the index with the number of the state: the check of the second state
is not tested in that state (it is in the first, whose index is 2). -/
theorem C71_counterexample_one_hot :
    chkTexts true (chkGather [] exHotEvs) (fun b => if b < 2 then some (b + 1) else none) = some [.stable false (some 2) false 0] ∧
    InStates ⟨3, true⟩ (fun b => if b < 2 then some (b + 1) else none) exHotWave.idx (fun _ => some 1) ∧
    (∀ t, (ChkText.stable false (some 2) false 0).holdsAt exHotWave t) ∧
    (∃ c ∈ srcChecks [] exHotEvs, c.Direct (fun b => if b < 2 then some (b + 1) else none) ∧
      ¬ c.Holds exHotEvs false exHotWave (fun _ => some 1)) := by
  refine ⟨by decide +kernel, ?_, ?_, ?_⟩
  · intro t b
    constructor
    · intro h
      injection h with h
      subst h
      exact ⟨2, by decide, by rfl⟩
    · rintro ⟨k, h1, h2⟩
      simp only at h1
      split at h1
      · injection h1 with h1
        have : b = 0 ∨ b = 1 := by omega
        rcases this with rfl | rfl
        · subst h1; simp [toFSMState, exHotWave] at h2
        · rfl
      · cases h1
  · intro t
    left
    rintro ⟨h, _⟩
    exact absurd h (by simp [exHotWave, chkLit])
  · refine ⟨⟨.stable false 0, some 1, 1, true⟩, by simp [srcChecks, exHotEvs, srcChecksFrom], ⟨rfl, rfl, by decide⟩, ?_⟩
    intro h
    have := h 1 (by omega) rfl (by simp) (by intro b hb; exact hb)
    simp [exHotWave] at this

/-- C71. `#stableinput(x)` assumes that the input `x` is stable. Partial: not for inouts and members of groups. -/
theorem C71_stableinput_partial (p : ChkIos) (x : String) (hx : x ∈ p.inputs) (port : String → Nat → V) (withRun : Bool)
    (rst run : Nat → Bool) :
    ∃ y, stableInput p (.one x) = some y ∧
      ((∀ t, ∃ P, stableInputAt p port withRun rst run y t = some P ∧ P) ↔
        InputStable port withRun rst run (ChkSel.one x).name) := by
  refine ⟨x, by simp [stableInput, hx], ?_⟩
  have hp : stableInputText x ∈ p.ports := by
    simp only [ChkIos.ports, List.mem_append, List.mem_map]
    exact Or.inl ⟨x, hx, rfl⟩
  constructor
  · intro h t ht hr hrun
    obtain ⟨P, h1, h2⟩ := h t
    simp only [stableInputAt, hp, if_true, Option.some.injEq] at h1
    subst h1
    rcases h2 with h2 | h2
    · exact absurd ⟨hr, hrun, by omega⟩ h2
    · exact h2
  · intro h t
    refine ⟨_, if_pos hp, ?_⟩
    by_contra hn
    push Not at hn
    obtain ⟨⟨hr, hrun, ht⟩, hne⟩ := hn
    exact hne (h t (by omega) hr hrun)

example : ∃ p : ChkIos, "x" ∈ p.inputs := ⟨⟨["x", "y"], ["z"], []⟩, by decide⟩

/-- C71. Only inputs and inouts are accepted. -/
theorem C71_stableinput_refused (p : ChkIos) (s : ChkSel) (h1 : s.name ∉ p.inputs) (h2 : s.name ∉ p.inouts) :
    stableInput p s = none := by
  cases s with
  | one x => simp only [ChkSel.name] at h1 h2; simp [stableInput, h1, h2]
  | member g m =>
    simp only [ChkSel.name] at h1 h2
    simp only [stableInput]
    split
    · rfl
    · split
      · rfl
      · simp [h1, h2]

example : stableInput ⟨["x", "g_a"], ["z"], [("g", ["a", "b"])]⟩ (.member "g" "b") = none ∧
    stableInput ⟨["x", "g_a"], ["z"], [("g", ["a", "b"])]⟩ (.one "y") = none := by decide +kernel

/-- C71 (finding). A member of a group is accepted, and what is written reads `in_` followed by the name of the group, which is
no port; an inout is accepted, and what is written reads `in_x` where the port is `inout_x`. -/
theorem C71_counterexample_stableinput (port : String → Nat → V) (withRun : Bool) (rst run : Nat → Bool) (t : Nat) :
    (let p : ChkIos := ⟨["x", "g_a"], ["z"], [("g", ["a", "b"])]⟩
     stableInput p (.member "g" "a") = some "g" ∧ stableInputAt p port withRun rst run "g" t = none ∧
     stableInput p (.one "z") = some "z" ∧ stableInputAt p port withRun rst run "z" t = none) := by
  refine ⟨by decide +kernel, ?_, by decide +kernel, ?_⟩
  · unfold stableInputAt; rw [if_neg (by decide +kernel)]
  · unfold stableInputAt; rw [if_neg (by decide +kernel)]

/-- C71. `#assert`, `#assume` and `#restrict`, executed at a cycle, state that the expression is not zero, but in the first cycle and in
reset. Partial: the reset is the one of the module, and the module has one. -/
theorem C71_immediate_partial (k : ImmKind) (hk : k ≠ .cover) (rst e : Nat → Bool) (t : Nat) :
    immAt k "reset" true rst e t = some true ↔ (t ≠ 0 → rst t = false → e t = true) := by
  have : immGuard k "reset" = some "reset" := by cases k <;> first | rfl | exact absurd rfl hk
  unfold immAt
  rw [this]
  by_cases ht : t = 0 <;> cases hr : rst t <;> simp [ht]

example : immAt .asrt "reset" true (fun t => t == 0) (fun t => t != 3) 3 = some false ∧
    immAt .asrt "reset" true (fun t => t == 0) (fun t => t != 3) 2 = some true := by decide +kernel

/-- C71. A cover is reached exactly when its expression is not zero. -/
theorem C71_cover (r : String) (port : Bool) (rst e : Nat → Bool) (t : Nat) :
    immAt .cover r port rst e t = some true ↔ e t = true := by
  simp [immAt, immGuard]

/-- C71 (finding). In a unit with a reset of its own, or in which nothing needs a reset, the name in the check is not declared. -/
theorem C71_counterexample_immediate_reset (k : ImmKind) (hk : k ≠ .cover) (rst e : Nat → Bool) (t : Nat) :
    immAt k "rst" true rst e t = none ∧ immAt k "reset" false rst e t = none := by
  cases k <;> first | exact absurd rfl hk | simp [immAt, immGuard]

/-- C71. For a callable algorithm, formal verification considers exactly the histories that start with a reset and in which the
algorithm is called only when it is not working. -/
theorem C71_admitted (m : Mod V E) (hm : m.Ok) (hc : m.kind.Callable) (is : List (CoreIn E)) (q : Core V) :
    chkAdmitted m 0 is q = true ↔ (∀ i ∈ is.head?, i.rst = true) ∧
      ∀ pre i post, is = pre ++ i :: post → pre ≠ [] → i.run = false → ∃ q', coreRun m pre q = some q' ∧ q'.idx = 0 := by
  have hn : m.kind.notCallable = false := (callable_iff m.kind).2 hc
  cases is with
  | nil => simp [chkAdmitted]
  | cons i is =>
    obtain ⟨q1, hq1⟩ := coreStep_some m hm i q
    simp only [chkAdmitted, chkAssumed, hq1, if_true, hm.fsm, hn, Bool.not_false, decide_true, Bool.true_or, Bool.and_true,
      Bool.and_eq_true, admitted_later m hm hc is (0 + 1) q1 (by omega), List.head?_cons, Option.mem_def, Option.some.injEq,
      forall_eq']
    refine and_congr_right fun _ => ⟨?_, ?_⟩
    · intro h pre j post he hp hj
      cases pre with
      | nil => exact absurd rfl hp
      | cons k pre =>
        simp only [List.cons_append, List.cons.injEq] at he
        obtain ⟨q', h1, h2⟩ := h pre j post he.2 hj
        refine ⟨q', ?_, h2⟩
        rw [← he.1]
        simp [coreRun, hq1, h1]
    · intro h pre j post he hj
      obtain ⟨q', h1, h2⟩ := h (i :: pre) j post (by simp [he]) (by simp) hj
      refine ⟨q', ?_, h2⟩
      simpa [coreRun, hq1] using h1

/-- An algorithm of two states; a history where it is called when it has ended, and one where it is called again too early. -/
def exChkMod : Mod Nat Nat := ⟨⟨false, false⟩, 1, [], fun _ q => (if q.idx = 1 then 2 else 0, [])⟩

example : exChkMod.Ok ∧ exChkMod.kind.Callable :=
  ⟨⟨rfl, by decide, by simp [exChkMod], by simp [exChkMod], by intro e q h; simp [exChkMod, h]⟩, rfl, rfl⟩

example :
    chkAdmitted exChkMod 0 [⟨true, true, 0⟩, ⟨false, false, 0⟩, ⟨false, true, 0⟩, ⟨false, true, 0⟩, ⟨false, false, 0⟩] ⟨7, false, []⟩ = true ∧
    chkAdmitted exChkMod 0 [⟨true, true, 0⟩, ⟨false, false, 0⟩, ⟨false, true, 0⟩, ⟨false, false, 0⟩] ⟨7, false, []⟩ = false := by
  decide +kernel

/-- C71 (finding). For an algorithm with a state machine that starts on its own, no history of more than one cycle meets the
assumptions that are written (`done` is required in all cycles after the first, and is 0 after a reset): whatever is asserted,
verification succeeds. -/
theorem C71_counterexample_autorun (m : Mod V E) (hf : m.kind.noFsm = false) (ha : m.kind.autorun = true) (i j : CoreIn E)
    (is : List (CoreIn E)) (q : Core V) : chkAdmitted m 0 (i :: j :: is) q = false := by
  by_contra hn
  have h := Bool.eq_true_of_not_eq_false hn
  simp only [chkAdmitted, chkAssumed, hf, ha, AlgKind.notCallable, Bool.and_eq_true, if_true] at h
  obtain ⟨⟨hr, _⟩, h⟩ := h
  split at h
  · cases h
  · rename_i q1 hq1
    have h3 := (coreStep_fields m i q q1 hq1).2.2
    simp [doneOut, ha, h3, hr] at h

end Silice
