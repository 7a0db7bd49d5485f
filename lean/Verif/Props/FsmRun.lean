import Verif.Lemmas.FsmHw

/-!
C21: the generated state machine follows the source-level control flow, cycle by cycle, for any number of
cycles, any meaning of instructions and conditions, and any interference of the rest of the design with the
data between cycles.

C22: subroutine returns go back to the call they belong to.

`hwRun` is the generated hardware (registers, `case` statement); `SrcRun` is the source program, which keeps
a stack of return points.
-/

set_option autoImplicit false

namespace Silice
variable {B : Type} [DecidableEq B]

/-- The hardware started in the entry state executes, in each cycle, the blocks the source executes, holds
the data the source holds, and is in the state the source is in (index 0 when finished). `blocks` is the
list of all blocks, from which the call ids are made. -/
def Faithful (g : Cfg B) (ff : B → B) (num : Num B) (blocks : List B) (entries : List (Entry B)) : Prop :=
  ∀ (σ : Type) (S : Sem B σ) (env : Nat → σ → σ) (h0 : HW σ), num.sid g.first = some h0.idx →
    ∀ (n : Nat) (trs : List (List B)) (p : Pos B) (s : σ), SrcRun g ff S env h0.data n trs p s →
      ∃ h, hwRun g num ff (callIdsFrom g 0 blocks) entries S env h0 n = some (trs, h) ∧ h.data = s ∧
        (p = .halted → h.idx = 0) ∧ (∀ b st, p = .at b st → num.sid b = some h.idx ∧ 1 ≤ h.idx)

/-- C21, one cycle: the code of each case entry executes the blocks of the source-level cycle in order,
produces the same data, and ends with the same control decision. -/
theorem C21_one_cycle {σ : Type} (g : Cfg B) (fsm : Nat) (ff : B → B) (num : Num B)
    (maxState efuel fuel : Nat) (entries : List (Entry B)) (hw : WellFormed g fsm ff num)
    (hnum : GoodNumbers g fsm ff num maxState) (h : emitStates g num ff efuel fuel = .ok entries)
    (S : Sem B σ) (e : Entry B) (he : e ∈ entries) (s s' : σ) (tr : List B) (o : Out B) :
    Cycle g S e.block s tr s' o ↔ e.code.run S ⟨[], s, none⟩ = ⟨tr, s', some o⟩ := by
  obtain ⟨tr1, s1, o1, hc, hr⟩ := entry_cycle hw hnum h S e he s
  constructor
  · intro h'
    obtain ⟨rfl, rfl, rfl⟩ := hc.det h'
    exact hr
  · intro h'
    rw [hr] at h'
    cases h'
    exact hc

/-- C21: lockstep for any number of cycles. -/
theorem C21_lockstep (g : Cfg B) (fsm : Nat) (ff : B → B) (num : Num B) (maxState : Nat) (blocks : List B)
    (entries : List (Entry B)) (m : Machine g fsm ff num maxState blocks entries) :
    Faithful g ff num blocks entries := by
  intro σ S env h0 h0i n trs p s hsrc
  obtain ⟨trs', p', s', h, h1, h2, h3⟩ := sim_run m S env h0 h0i n
  obtain ⟨rfl, rfl, rfl⟩ := hsrc.det h1
  refine ⟨h, h2, ?_, ?_, ?_⟩
  · cases p with
    | halted => exact h3.2
    | «at» b st => exact h3.1
  · rintro rfl; exact h3.1
  · rintro b st rfl
    obtain ⟨_, ⟨e, he, rfl, hi⟩, _⟩ := h3
    obtain ⟨ef, fu, hst⟩ := m.states
    have := (C20_entries_distinct g fsm ff num maxState ef fu entries m.numbers hst).2.2 e he
    rw [hi] at this
    exact ⟨this.1, this.2.1⟩

/-- C21: neither side gets stuck. The hardware never holds an index without case entry, and every cycle of
the hardware is a cycle of the source. -/
theorem C21_never_undefined {σ : Type} (g : Cfg B) (fsm : Nat) (ff : B → B) (num : Num B) (maxState : Nat)
    (blocks : List B) (entries : List (Entry B)) (m : Machine g fsm ff num maxState blocks entries)
    (S : Sem B σ) (env : Nat → σ → σ) (h0 : HW σ) (h0i : num.sid g.first = some h0.idx) (n : Nat) :
    ∃ trs h p, hwRun g num ff (callIdsFrom g 0 blocks) entries S env h0 n = some (trs, h) ∧
      SrcRun g ff S env h0.data n trs p h.data := by
  obtain ⟨trs, p, s, h, h1, h2, h3⟩ := sim_run m S env h0 h0i n
  have : h.data = s := by
    cases p with
    | halted => exact h3.2
    | «at» b st => exact h3.1
  subst this
  exact ⟨trs, h, p, h2, h1⟩

/-- C21: what the compiler produces for a finite well-formed graph is faithful: the numbering succeeds with
entry index 1, the emission succeeds, and the result follows the source. -/
theorem C21_compiled [Fintype B] (g : Cfg B) (fsm : Nat) (ff : B → B) (blocks : List B)
    (hff : IsFF g ff) (hentry : OwnState g fsm g.first) (hall : ∀ b, b ∈ blocks)
    (hret : ∀ k, g.returns k = returnStates g (callIdsFrom g 0 blocks) k)
    (hsub : SubsWellFormed g ff) (hrec : NoRecursion g)
    (hw : ∀ st, renumber g fsm ff (Fintype.card B) = some st → WellFormed g fsm ff st.num) :
    ∃ st, renumber g fsm ff (Fintype.card B) = some st ∧ st.num.sid g.first = some 1 ∧
      ∃ efuel fuel entries, emitStates g st.num ff efuel fuel = .ok entries ∧
        Faithful g ff st.num blocks entries := by
  obtain ⟨st, hst⟩ := C18_terminates g fsm ff hentry
  have hn := C18_numbering g fsm ff _ st hentry hst
  obtain ⟨ef, fu, es, he⟩ := C20_emission_succeeds g fsm ff st.num st.maxState hff (hw st hst) hn
  exact ⟨st, hst, C18_entry_is_one g fsm ff _ st hentry hst, ef, fu, es, he,
    C21_lockstep g fsm ff st.num st.maxState blocks es
      ⟨hw st hst, hsub, hrec, hn, ⟨ef, fu, he⟩, hall, hret⟩⟩

/-- C22: whenever the source returns from a subroutine, the hardware goes to the return point `r` of the call
that is in progress, whatever the nesting depth (`st` are the outer return points); and it still has the
outer calls right, since it goes on to follow the source (C21). -/
theorem C22_return_goes_back {σ : Type} (g : Cfg B) (fsm : Nat) (ff : B → B) (num : Num B) (maxState : Nat)
    (blocks : List B) (entries : List (Entry B)) (m : Machine g fsm ff num maxState blocks entries)
    (S : Sem B σ) (env : Nat → σ → σ) (h0 : HW σ) (h0i : num.sid g.first = some h0.idx) (n : Nat)
    (trs : List (List B)) (b r c : B) (st : List B) (k : Nat) (s s' : σ) (tr : List B)
    (hsrc : SrcRun g ff S env h0.data n trs (.at b (r :: st)) s)
    (hret : Cycle g S b s tr s' (.ret c k)) :
    ∃ h, hwRun g num ff (callIdsFrom g 0 blocks) entries S env h0 (n + 1) = some (trs ++ [tr], h) ∧
      stateIndex g num ff r = some h.idx := by
  obtain ⟨trs', p', s1, h, h1, h2, h3⟩ := sim_run m S env h0 h0i (n + 1)
  cases h1 with
  | next hs hc =>
    obtain ⟨rfl, rfl, rfl⟩ := hsrc.det hs
    cases hc with
    | jump hc' _ => have := (hret.det hc').2.2; cases this
    | halt hc' => have := (hret.det hc').2.2; cases this
    | call hc' _ => have := (hret.det hc').2.2; cases this
    | ret hc' hl =>
      obtain ⟨rfl, rfl, _⟩ := hret.det hc'
      refine ⟨h, h2, ?_⟩
      cases hl with
      | done a1 a2 a3 => rw [stateIndex, if_pos ⟨a1, a3⟩, h3.1]
      | state hn =>
        obtain ⟨_, ⟨e, he, hb, hi⟩, _⟩ := h3
        obtain ⟨ef, fu, hst⟩ := m.states
        have hsid := ((C20_entries_distinct g fsm ff num maxState ef fu entries m.numbers hst).2.2 e he).1
        have hne : ¬ ((g.blk (ff r)).empty = true ∧ ff r = g.last) := by
          rintro ⟨a, b⟩
          exact hn ⟨a, by rw [b]; exact m.wf.lastEnds (b ▸ a), b⟩
        rw [stateIndex, if_neg hne, ← hb, hsid, hi]

/-- C22: a return always has a call to go back to, at any point of any execution. -/
theorem C22_return_has_call {σ : Type} (g : Cfg B) (fsm : Nat) (ff : B → B) (num : Num B) (maxState : Nat)
    (blocks : List B) (entries : List (Entry B)) (m : Machine g fsm ff num maxState blocks entries)
    (S : Sem B σ) (env : Nat → σ → σ) (s0 : σ) (n : Nat) (trs : List (List B)) (b c : B) (st : List B)
    (k : Nat) (s s' : σ) (tr : List B) (hsrc : SrcRun g ff S env s0 n trs (.at b st) s)
    (hret : Cycle g S b s tr s' (.ret c k)) : st ≠ [] := by
  rintro rfl
  obtain ⟨ef, fu, hst⟩ := m.states
  obtain ⟨i, hi⟩ := (m.numbers.states g.first).mpr ⟨.first, m.wf.entry, m.wf.single _ .first⟩
  obtain ⟨trs', p', s1, h, h1, h2, h3⟩ := sim_run m S env ⟨i, 0, fun _ => 0, s0⟩ hi n
  obtain ⟨rfl, rfl, rfl⟩ := hsrc.det h1
  obtain ⟨_, ⟨e, he, rfl, _⟩, cs, hfr⟩ := h3
  have hreach := ((C20_entries_distinct g fsm ff num maxState ef fu entries m.numbers hst).2.2 e he).2.2.2.1
  obtain ⟨hact, hrc, hsub⟩ := hret.from (ff := ff) hreach
  rw [← hsub m.subs, m.subs.ret c k hrc hact] at hfr
  cases hfr

/-- Non-vacuity: a program with an if and nested subroutine calls (see `exCalls`) meets all hypotheses, and
its hardware executes the calls in the right order. -/
example : Machine exCalls 0 id exCallsNum.num exCallsNum.maxState (List.finRange 11) exCallsEntries :=
  exCalls_machine

example : (hwRun exCalls exCallsNum.num id (callIdsFrom exCalls 0 (List.finRange 11)) exCallsEntries
      (⟨fun _ s => s + 1, fun _ s => s % 2 = 0, fun _ _ _ => true, fun _ _ => true⟩ : Sem (Fin 11) Nat)
      (fun _ s => s) ⟨1, 0, fun _ => 0, 0⟩ 12).map (fun r => (r.1, r.2.idx)) =
    some ([[0, 2, 3], [6], [9], [10], [7], [9], [10], [8], [4], [9], [10], []], 0) := by
  decide +kernel

end Silice
