import Verif.Lemmas.FsmStates
import Verif.Spec.FsmMachine
import Mathlib.Data.Finset.Lattice.Fold

/-!
C20: the case statement of a state machine has exactly one entry per state that is visited, and every state
index that is assigned has an entry.

`renumber` gives the numbers (`GoodNumbers`, proved in C18), `emitStates` is the worklist that writes the
entries, `ff` is what `fastForward` answers.
-/

set_option autoImplicit false

namespace Silice
variable {B : Type} [DecidableEq B]

/-- C20: no two entries have the same index or are for the same block; each entry is for a reached state,
under the number of that state (never 0, the termination index). -/
theorem C20_entries_distinct (g : Cfg B) (fsm : Nat) (ff : B → B) (num : Num B) (maxState efuel fuel : Nat)
    (entries : List (Entry B)) (hnum : GoodNumbers g fsm ff num maxState)
    (h : emitStates g num ff efuel fuel = .ok entries) :
    (entries.map (·.index)).Nodup ∧ (entries.map (·.block)).Nodup ∧
    ∀ e ∈ entries, num.sid e.block = some e.index ∧ 1 ≤ e.index ∧ e.index < maxState ∧
      Reached g ff e.block ∧ (g.blk e.block).isState = true := by
  have inv := emitStates_inv h
  have hidx : ∀ e ∈ entries, num.sid e.block = some e.index := inv.index
  refine ⟨?_, inv.nodup, ?_⟩
  · have : ∀ l : List (Entry B), (∀ e ∈ l, num.sid e.block = some e.index) → (l.map (·.block)).Nodup →
        (l.map (·.index)).Nodup := by
      intro l
      induction l with
      | nil => intros; exact List.nodup_nil
      | cons a l ih =>
        intro hs hn
        rw [List.map_cons, List.nodup_cons] at hn ⊢
        refine ⟨?_, ih (fun e he => hs e (List.mem_cons_of_mem _ he)) hn.2⟩
        intro hm
        obtain ⟨e, he, heq⟩ := List.mem_map.mp hm
        have h1 := hs e (List.mem_cons_of_mem _ he)
        have h2 := hs a List.mem_cons_self
        rw [heq] at h1
        exact hn.1 (List.mem_map.mpr ⟨e, he, hnum.distinct _ _ _ h1 h2⟩)
    exact this entries hidx inv.nodup
  · intro e he
    have h1 := hidx e he
    have h2 := (hnum.consecutive e.index).mp ⟨_, h1⟩
    have h3 := (hnum.states e.block).mp ⟨_, h1⟩
    exact ⟨h1, h2.1, h2.2, h3.1, h3.2.1⟩

/-- The code of an entry behaves as the source-level cycle of its block, for any meaning of instructions
and conditions (single-cycle form of C21). -/
theorem entry_cycle {σ : Type} {g : Cfg B} {fsm : Nat} {ff : B → B} {num : Num B} {maxState efuel fuel : Nat}
    {entries : List (Entry B)} (hw : WellFormed g fsm ff num) (hnum : GoodNumbers g fsm ff num maxState)
    (h : emitStates g num ff efuel fuel = .ok entries) (S : Sem B σ) (e : Entry B) (he : e ∈ entries) (s : σ) :
    ∃ tr s' o, Cycle g S e.block s tr s' o ∧ e.code.run S ⟨[], s, none⟩ = ⟨tr, s', some o⟩ := by
  have inv := emitStates_inv h
  have h3 := (hnum.states e.block).mp ⟨_, inv.index e he⟩
  obtain ⟨f0, code, hc, hgood⟩ := emit_good g num S none _ true (hw.region e.block h3.1 h3.2.1)
  have hmono := hc (max f0 efuel) (le_max_left _ _)
  have hcode : e.code = code := by
    have h1 := inv.code e he
    have h2 := emitFrom_mono g num efuel (max f0 efuel) none e.block e.code h1 (le_max_right _ _)
    rw [h2] at hmono
    exact Option.some.inj hmono
  rw [hcode]
  obtain ⟨tr, s', o, h5, h6⟩ := hgood s [] none
  exact ⟨tr, s', o, h5, by simpa using h6⟩

/-- C20: every state index that executing an entry assigns to the state register is the termination index or
has an entry, and so have the indices at which a call it makes will later return. -/
theorem C20_targets_have_entries {σ : Type} (g : Cfg B) (fsm : Nat) (ff : B → B) (num : Num B)
    (maxState efuel fuel : Nat) (entries : List (Entry B)) (hw : WellFormed g fsm ff num)
    (hnum : GoodNumbers g fsm ff num maxState)
    (h : emitStates g num ff efuel fuel = .ok entries) (S : Sem B σ) (s : σ) (e : Entry B) (he : e ∈ entries)
    (n : B) (hn : (e.code.run S ⟨[], s, none⟩).ctl = some (.jump n) ∨
      (∃ c r, (e.code.run S ⟨[], s, none⟩).ctl = some (.call c n r)) ∨
      (∃ c t, (e.code.run S ⟨[], s, none⟩).ctl = some (.call c t n))) :
    ∃ k, stateIndex g num ff n = some k ∧ (k = 0 ∨ ∃ e' ∈ entries, e'.index = k ∧ e'.block = ff n) := by
  have inv := emitStates_inv h
  obtain ⟨tr, s', o, hcyc, hrun⟩ := entry_cycle hw hnum h S e he s
  have hb := ((hnum.states e.block).mp ⟨_, inv.index e he⟩).1
  have hfrom := hcyc.from hb
  have hctl := run_ctl S e.code.pushes e.code ⟨[], s, none⟩ (fun x hx => hx) trivial
  rw [hrun] at hn hctl
  have key : n ∈ e.code.pushes ∧ (g.blk n).isState = true := by
    rcases hn with hn | ⟨c, r, hn⟩ | ⟨c, t, hn⟩
    · simp only [Option.some.injEq] at hn; subst hn
      exact ⟨hctl, hfrom.1⟩
    · simp only [Option.some.injEq] at hn; subst hn
      exact ⟨hctl.1, (hw.calls _ _ _ hfrom.2.1 hfrom.1).1⟩
    · simp only [Option.some.injEq] at hn; subst hn
      exact ⟨hctl.2, (hw.calls _ _ _ hfrom.2.1 hfrom.1).2.1⟩
  have ht := inv.targets e he n key.1 key.2
  simp only [List.not_mem_nil, or_false] at ht
  obtain ⟨e', he', hbe⟩ := List.mem_map.mp ht
  by_cases hl : (g.blk (ff n)).empty = true ∧ ff n = g.last
  · exact ⟨0, by rw [stateIndex, if_pos hl], .inl rfl⟩
  · refine ⟨e'.index, ?_, .inr ⟨e', he', rfl, hbe⟩⟩
    rw [stateIndex, if_neg hl, ← hbe]
    exact inv.index e' he'

/-- C20: every state that an execution can visit has exactly one entry. -/
theorem C20_exactly_one_entry (g : Cfg B) (fsm : Nat) (ff : B → B) (num : Num B)
    (maxState efuel fuel : Nat) (entries : List (Entry B)) (hw : WellFormed g fsm ff num)
    (hnum : GoodNumbers g fsm ff num maxState)
    (h : emitStates g num ff efuel fuel = .ok entries) (b : B) (hb : Visited g ff b) :
    ∃! e, e ∈ entries ∧ e.block = b := by
  have inv := emitStates_inv h
  have hmem : b ∈ entries.map (·.block) := by
    have step : ∀ (b n : B) (σ : Type) (S : Sem B σ) (s s' : σ) (tr : List B) (o : Out B),
        b ∈ entries.map (·.block) → Cycle g S b s tr s' o →
        (o = .jump n ∨ (∃ c r, o = .call c n r) ∨ (∃ c t, o = .call c t n)) →
        ff n ∈ entries.map (·.block) := by
      intro b n σ S s s' tr o hm hc ho
      obtain ⟨e, he, rfl⟩ := List.mem_map.mp hm
      obtain ⟨tr', s'', o', hcyc, hrun⟩ := entry_cycle hw hnum h S e he s
      obtain ⟨rfl, rfl, rfl⟩ := hc.det hcyc
      have hr := ((hnum.states e.block).mp ⟨_, inv.index e he⟩).1
      have hfrom := hcyc.from hr
      have hctl := run_ctl S e.code.pushes e.code ⟨[], s, none⟩ (fun x hx => hx) trivial
      rw [hrun] at hctl
      have key : n ∈ e.code.pushes ∧ (g.blk n).isState = true := by
        rcases ho with rfl | ⟨c, r, rfl⟩ | ⟨c, t, rfl⟩
        · exact ⟨hctl, hfrom.1⟩
        · exact ⟨hctl.1, (hw.calls _ _ _ hfrom.2.1 hfrom.1).1⟩
        · exact ⟨hctl.2, (hw.calls _ _ _ hfrom.2.1 hfrom.1).2.1⟩
      have ht := inv.targets e he n key.1 key.2
      simpa using ht
    induction hb with
    | first =>
      have := inv.first
      simpa using this
    | jump _ hc ih => exact step _ _ _ _ _ _ _ _ ih hc (.inl rfl)
    | callee _ hc ih => exact step _ _ _ _ _ _ _ _ ih hc (.inr (.inl ⟨_, _, rfl⟩))
    | back _ hc ih => exact step _ _ _ _ _ _ _ _ ih hc (.inr (.inr ⟨_, _, rfl⟩))
  obtain ⟨e, he, rfl⟩ := List.mem_map.mp hmem
  refine ⟨e, ⟨he, rfl⟩, ?_⟩
  rintro e' ⟨he', heq⟩
  exact List.inj_on_of_nodup_map inv.nodup he' he heq

/-- C20: on a finite well-formed graph the emission succeeds (no failed assertion). -/
theorem C20_emission_succeeds [Fintype B] (g : Cfg B) (fsm : Nat) (ff : B → B) (num : Num B) (maxState : Nat)
    (hff : IsFF g ff) (hw : WellFormed g fsm ff num) (hnum : GoodNumbers g fsm ff num maxState) :
    ∃ efuel fuel entries, emitStates g num ff efuel fuel = .ok entries := by
  let S : Sem B Unit := ⟨fun _ s => s, fun _ _ => true, fun _ _ _ => true, fun _ _ => true⟩
  have hex : ∀ b, ∃ f0, Reached g ff b → (g.blk b).isState = true → ∀ f ≥ f0, ∃ code,
      emitFrom g num f none b = some code := by
    intro b
    by_cases hb : Reached g ff b ∧ (g.blk b).isState = true
    · obtain ⟨f0, code, hc, _⟩ := emit_good g num S none _ true (hw.region b hb.1 hb.2)
      exact ⟨f0, fun _ _ f hf => ⟨code, hc f hf⟩⟩
    · exact ⟨0, fun h1 h2 => absurd ⟨h1, h2⟩ hb⟩
  choose f0 hf0 using hex
  let efuel := (Finset.univ : Finset B).sup f0
  obtain ⟨fuel, out, ho⟩ := statesLoop_total g num ff efuel
    (fun b => Reached g ff b ∧ (g.blk b).isState = true)
    (fun b hb => (hnum.states b).mpr ⟨hb.1, hb.2, hw.single b hb.1⟩)
    (fun b hb => by
      obtain ⟨code, hc⟩ := hf0 b hb.1 hb.2 efuel (Finset.le_sup (Finset.mem_univ b))
      refine ⟨code, hc, fun x hx hs => ?_⟩
      exact ⟨emit_reached g num ff (fun b t r hr ha _ => (hw.calls b t r hr ha).2.2) efuel none b code hb.1 hc
        x hx hs, (C19_stays_on_states g ff hff x hs).1⟩)
    _ _ [g.first] [] (by simp) rfl rfl (by
      intro b hb
      rw [List.mem_singleton] at hb
      rw [hb]
      exact ⟨.first, hw.entry⟩)
  exact ⟨efuel, fuel, out, ho⟩

/-- Non-vacuity: the program of `exCalls` (an if, nested subroutine calls) meets the hypotheses; it has eight
case entries, for the states 0, 6, 4, 9, 7, 5, 10, 8. -/
example : IsFF exCalls id ∧ WellFormed exCalls 0 id exCallsNum.num ∧
    GoodNumbers exCalls 0 id exCallsNum.num exCallsNum.maxState ∧
    emitStates exCalls exCallsNum.num id 10 20 = .ok exCallsEntries ∧ exCallsEntries.length = 8 :=
  ⟨exCalls_isFF, exCalls_wellFormed, exCalls_numbers, exCalls_emit, by decide +kernel⟩

/-- Where an if/else reached in the state machine makes the code after it a state of its own: when one of its
branches can be followed to its end and takes more than a cycle (so that its end is in another state than its
start), or when neither branch can be followed to its end. -/
def SplitsAfter (num : Num B) (ifStateless : Bool) (ifTrail : B) (elseStateless : Bool) (elseTrail : B) : Prop :=
  (num.pid ifTrail ≠ none ∧ ifStateless = false) ∨ (num.pid elseTrail ≠ none ∧ elseStateless = false) ∨
    (num.pid ifTrail = none ∧ num.pid elseTrail = none)

/-- C20: a block becomes a state because of if/else blocks exactly when it comes after one that splits, and nothing
else of the graph changes. -/
theorem C20_code_after_if (g : Cfg B) (fsm : Nat) (num : Num B) (blocks : List B) (a : B) :
    (((preventDup g fsm num blocks).blk a).isState = true ↔
      (g.blk a).isState = true ∨ ∃ b ∈ blocks, (g.blk b).fsm = fsm ∧
        ((g.blk b).isState = true → num.sid b ≠ none) ∧ num.pid b ≠ none ∧
        ∃ c i isl it e esl et, (g.blk b).act = .ifElse c i isl it e esl et a ∧ SplitsAfter num isl it esl et) ∧
    ((preventDup g fsm num blocks).blk a).act = (g.blk a).act ∧
    ((preventDup g fsm num blocks).blk a).empty = (g.blk a).empty ∧
    ((preventDup g fsm num blocks).blk a).noSkip = (g.blk a).noSkip ∧
    ((preventDup g fsm num blocks).blk a).fsm = (g.blk a).fsm := by
  refine ⟨?_, rfl, rfl, rfl, rfl⟩
  simp only [preventDup, Bool.or_eq_true, List.any_eq_true]
  refine or_congr Iff.rfl (exists_congr fun b => and_congr Iff.rfl ?_)
  cases hact : (g.blk b).act with
  | ifElse c i isl it e esl et a' =>
    simp only [promoteAfter, Bool.and_eq_true, decide_eq_true_eq, Bool.not_eq_true', Bool.or_eq_false_iff,
      Bool.and_eq_false_iff, Bool.or_eq_true, Option.isNone_iff_eq_none, Act.ifElse.injEq,
      Option.isNone_eq_false_iff, Option.isSome_iff_ne_none]
    constructor
    · rintro ⟨⟨h1, h2, h3⟩, rfl, h4⟩
      refine ⟨h1, fun hh => ?_, h3, c, i, isl, it, e, esl, et, ⟨rfl, rfl, rfl, rfl, rfl, rfl, rfl, rfl⟩, ?_⟩
      · rcases h2 with h | h
        · simp [h] at hh
        · exact h
      · simp only [SplitsAfter, ← or_assoc]
        exact h4
    · rintro ⟨h1, h2, h3, _, _, _, _, _, _, _, ⟨rfl, rfl, rfl, rfl, rfl, rfl, rfl, rfl⟩, h4⟩
      refine ⟨⟨h1, ?_, h3⟩, rfl, ?_⟩
      · by_cases hs : (g.blk b).isState = true
        · exact Or.inr (h2 hs)
        · exact Or.inl (by simpa using hs)
      · simp only [SplitsAfter, ← or_assoc] at h4
        exact h4
  | _ => simp

/-- An if (block 0) with a branch of several states (blocks 1 and 2) and an empty other branch (3): the code after
it (4) becomes a state. -/
def exIfAfter : Cfg (Fin 5) where
  blk
    | 0 => ⟨true, false, false, 0, none, .ifElse 0 1 false 2 3 true 3 4⟩
    | 1 => ⟨false, false, false, 0, none, .goto 2⟩
    | 2 => ⟨true, false, false, 0, none, .goto 4⟩
    | 3 => ⟨false, false, true, 0, none, .goto 4⟩
    | 4 => ⟨false, false, false, 0, none, .stop⟩
  first := 0
  last := 4
  returns _ := []

example : (renumber exIfAfter 0 id 9).map
    (fun st => ((preventDup exIfAfter 0 st.num [0, 1, 2, 3, 4]).blk 4).isState) = some true := by decide +kernel

end Silice
