import Verif.Lemmas.FsmNumber

/-!
C18: state numbering. `renumber` is the whole of `renumberStates`; `ff` is what `fastForward` answers.
-/

set_option autoImplicit false

namespace Silice
variable {B : Type} [DecidableEq B]

/-- What C18 asks of the numbers of the blocks of state machine `fsm`, `maxState - 1` being the number of
states. -/
structure GoodNumbers (g : Cfg B) (fsm : Nat) (ff : B → B) (num : Num B) (maxState : Nat) : Prop where
  /-- the blocks with an index are exactly the reached states of the machine -/
  states : ∀ b, (∃ k, num.sid b = some k) ↔ Reached g ff b ∧ OwnState g fsm b
  /-- two states never share an index -/
  distinct : ∀ b b' k, num.sid b = some k → num.sid b' = some k → b = b'
  /-- the indices are 1, 2, ..., maxState-1 without holes; 0 is left for termination -/
  consecutive : ∀ k, (∃ b, num.sid b = some k) ↔ 1 ≤ k ∧ k < maxState
  /-- a state belongs to itself -/
  own : ∀ b k, num.sid b = some k → num.pid b = some k
  /-- any other reached block of the machine belongs to a state it is executed in -/
  within : ∀ b, Reached g ff b → (g.blk b).fsm = fsm → ¬ OwnState g fsm b →
    ∃ s k, num.sid s = some k ∧ num.pid b = some k ∧ ExecutedIn g fsm ff s b
  /-- blocks that are not reached get nothing -/
  unreached : ∀ b, ¬ Reached g ff b → num.sid b = none ∧ num.pid b = none

/-- C18: whenever the numbering finishes, the numbers are good. -/
theorem C18_numbering (g : Cfg B) (fsm : Nat) (ff : B → B) (fuel : Nat) (st : RenSt B)
    (hfirst : OwnState g fsm g.first) (h : renumber g fsm ff fuel = some st) :
    GoodNumbers g fsm ff st.num st.maxState := by
  obtain ⟨inv, hq⟩ := renLoop_inv g fsm ff fuel _ _ (renInit_inv g fsm ff hfirst) h
  have hv := visited_iff g fsm ff st inv hq
  refine ⟨?_, inv.inj, ?_, ?_, ?_, ?_⟩
  · intro b
    constructor
    · rintro ⟨k, hk⟩
      have := inv.sidOf b k hk
      exact ⟨(hv b).mp this.1, this.2.2.1⟩
    · rintro ⟨hr, ho⟩
      exact inv.sidAll b ((hv b).mpr hr) (by simp [hq]) ho
  · intro k
    constructor
    · rintro ⟨b, hk⟩
      have := inv.sidOf b k hk
      exact ⟨this.2.2.2.1, this.2.2.2.2.1⟩
    · rintro ⟨h1, h2⟩
      exact inv.surj k h1 h2
  · intro b k hk
    exact (inv.sidOf b k hk).2.2.2.2.2
  · intro b hr hf hn
    exact inv.pidIn b ((hv b).mpr hr) hf hn
  · intro b hr
    have hb : b ∉ st.visited := fun hb => hr ((hv b).mp hb)
    refine ⟨?_, inv.pidOut b hb⟩
    cases hs : st.num.sid b with
    | none => rfl
    | some k => exact absurd (inv.sidOf b k hs).1 hb

/-- C18: the numbering always finishes, after at most as many iterations as there are blocks. -/
theorem C18_terminates [Fintype B] (g : Cfg B) (fsm : Nat) (ff : B → B)
    (hfirst : OwnState g fsm g.first) :
    ∃ st, renumber g fsm ff (Fintype.card B) = some st :=
  renLoop_total g fsm ff _ _ (renInit_inv g fsm ff hfirst) (by simp [renInit])

/-- C18: two runs of the numbering that finish give the same numbers, so the numbers depend only on the
graph. -/
theorem C18_deterministic (g : Cfg B) (fsm : Nat) (ff : B → B) (f1 f2 : Nat) (a b : RenSt B)
    (h1 : renumber g fsm ff f1 = some a) (h2 : renumber g fsm ff f2 = some b) : a = b := by
  unfold renumber at h1 h2
  generalize renInit g = st at h1 h2
  induction f1 generalizing f2 st with
  | zero =>
    unfold renLoop at h1
    split_ifs at h1 with hq
    cases f2 with
    | zero => simp [renLoop, hq] at h2; cases h1; exact h2
    | succ n => simp [renLoop, hq] at h2; cases h1; exact h2
  | succ n ih =>
    unfold renLoop at h1
    split_ifs at h1 with hq
    · cases h1
      cases f2 with
      | zero => simp [renLoop, hq] at h2; exact h2
      | succ m => simp [renLoop, hq] at h2; exact h2
    · cases f2 with
      | zero => simp [renLoop, hq] at h2
      | succ m =>
        simp [renLoop, hq] at h2
        exact ih m _ h1 h2

/-- C18: the entry block gets index 1. -/
theorem C18_entry_is_one (g : Cfg B) (fsm : Nat) (ff : B → B) (fuel : Nat) (st : RenSt B)
    (hfirst : OwnState g fsm g.first) (h : renumber g fsm ff fuel = some st) :
    st.num.sid g.first = some 1 := by
  have keepC : ∀ (p : Option Nat) (cs : List B) (st : RenSt B),
      (renChildren g fsm ff p cs st).num.sid = st.num.sid := by
    intro p cs
    induction cs with
    | nil => intro st; rfl
    | cons c cs ih =>
      intro st
      unfold renChildren
      simp only
      split_ifs <;> rw [ih]
  have keep : ∀ st : RenSt B, RenInv g fsm ff none st → st.num.sid g.first = some 1 →
      (renStep g fsm ff st).num.sid g.first = some 1 := by
    intro st inv hs
    unfold renStep
    cases hqq : st.queue with
    | nil => exact hs
    | cons r q =>
      obtain ⟨b, p⟩ := r
      simp only
      split_ifs
      · rw [keepC]
        show upd st.num.sid b _ g.first = _
        have := (inv.sidOf _ _ hs).2.1
        rw [hqq] at this
        simp only [List.map_cons, List.mem_cons, not_or] at this
        simp [upd, this.1, hs]
      · rw [keepC]; exact hs
  have keepL : ∀ (n : Nat) (st st' : RenSt B), RenInv g fsm ff none st →
      st.num.sid g.first = some 1 → renLoop g fsm ff n st = some st' →
      st'.num.sid g.first = some 1 := by
    intro n
    induction n with
    | zero =>
      intro st st' _ hs he
      unfold renLoop at he
      split_ifs at he
      cases he; exact hs
    | succ n ih =>
      intro st st' inv hs he
      unfold renLoop at he
      split_ifs at he with hq
      · cases he; exact hs
      · exact ih _ _ (renStep_inv g fsm ff st inv hq).1 (keep st inv hs) he
  have hi := renInit_inv g fsm ff hfirst
  have hq0 : (renInit g).queue ≠ [] := by simp [renInit]
  unfold renumber at h
  cases fuel with
  | zero => simp [renLoop, hq0] at h
  | succ n =>
    simp only [renLoop, hq0, if_false] at h
    refine keepL n _ _ (renStep_inv g fsm ff _ hi hq0).1 ?_ h
    show (renStep g fsm ff (renInit g)).num.sid g.first = some 1
    have ho : (g.blk g.first).isState = true ∧ (g.blk g.first).fsm = fsm := hfirst
    simp only [renStep, renInit, ho, and_self, if_true]
    rw [keepC]
    simp [upd]

/-- Non-vacuity: an algorithm with a step, an if, a loop and an unreachable block; five blocks are
reached, two are states besides the entry. -/
def exNumber : Cfg (Fin 6) where
  blk := fun
    | 0 => { isState := true, act := .goto 1 }
    | 1 => { act := .ifElse 0 2 true 2 3 false 3 4 }
    | 2 => { act := .goto 4 }
    | 3 => { isState := true, act := .loop 1 3 4 }
    | 4 => { isState := true, noSkip := true }
    | 5 => { isState := true }
  first := 0
  last := 4
  returns := fun _ => []

example : OwnState exNumber 0 exNumber.first := ⟨rfl, rfl⟩

example : (renumber exNumber 0 id 6).map
    (fun st => ((List.finRange 6).map st.num.sid, (List.finRange 6).map st.num.pid, st.maxState)) =
    some ([some 1, none, none, some 2, some 3, none], [some 1, some 1, some 1, some 2, some 3, none],
      4) := by
  decide +kernel

end Silice
