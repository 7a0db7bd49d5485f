import Verif.Lemmas.GatherWF
import Verif.Props.FsmCounter

/-!
C20, C21, C22 for programs: whatever the statements of an algorithm and of its subroutines, the graph of blocks made from them, with the states the
compiler adds, is one for which the generated state machine follows the source.
-/

set_option autoImplicit false

namespace Silice

/-- `ff g` is what skipping empty blocks gives on graph `g`, wherever skipping ends. -/
def Skips {B : Type} [DecidableEq B] (ff : Cfg B → B → B) : Prop := ∀ g f b r, fastForward g f b = some r → ff g b = r

theorem isFF_of_acc {B : Type} [DecidableEq B] {ff : Cfg B → B → B} (hff : Skips ff) {g : Cfg B}
    (hacc : ∀ b, Acc (fun n b => EmptyEdge g b n) b) : IsFF g (ff g) := by
  intro b
  have : ∃ f r, fastForward g f b = some r := by
    unfold fastForward
    by_cases hn : (g.blk b).noSkip = true
    · exact ⟨0, b, by simp [hn]⟩
    · obtain ⟨f, r, h⟩ := ffLoop_total g (g.blk b).fsm b (hacc b) b
      exact ⟨f, r, by simp [hn, h]⟩
  obtain ⟨f, r, h⟩ := this
  exact ⟨f, by rw [h, hff g f b r h]⟩

/-- Adding states changes nothing else. -/
theorem preventDup_more {B : Type} [DecidableEq B] (g : Cfg B) (fsm : Nat) (num : Num B) (blocks : List B) :
    MoreStates g (preventDup g fsm num blocks) := by
  refine ⟨rfl, rfl, fun b => rfl, fun b h => ?_⟩
  exact (C20_code_after_if g fsm num blocks b).1.mpr (.inl h)

/-- With one state machine, the blocks that belong to a state are the reached ones. -/
theorem GoodNumbers.pid_iff {B : Type} [DecidableEq B] {g : Cfg B} {ff : B → B} {num : Num B} {m fsm : Nat} (h : GoodNumbers g fsm ff num m)
    (hf : ∀ b, (g.blk b).fsm = fsm) (b : B) : num.pid b ≠ none ↔ Reached g ff b := by
  constructor
  · intro hp
    by_contra hr
    exact hp (h.unreached b hr).2
  · intro hr
    by_cases ho : OwnState g fsm b
    · obtain ⟨k, hk⟩ := (h.states b).mpr ⟨hr, ho⟩
      rw [h.own b k hk]; simp
    · obtain ⟨s, k, _, hk, _⟩ := h.within b hr (hf b) ho
      rw [hk]; simp

section
variable {u : AlgUnit} {st : PSt} {last n0 l lo : Nat} (U : UnitFrag u st.blk st.tops last n0 l lo)
include U

theorem unit_promoted {g : Cfg (Fin (last + 1))} {ff ff0 : Fin (last + 1) → Fin (last + 1)} {num0 num : Num (Fin (last + 1))} {m0 m : Nat}
    (hg : g = preventDup (st.cfg last) 0 num0 (List.finRange (last + 1)))
    (hff0 : IsFF (st.cfg last) ff0) (hff : IsFF g ff)
    (h0 : GoodNumbers (st.cfg last) 0 ff0 num0 m0) (h1 : GoodNumbers g 0 ff num m) :
    Promoted st.blk (Fin.ofNat (last + 1)) (last + 1) g (st.cfg last) ff ff0 num := by
  have M : MoreStates (st.cfg last) g := hg ▸ preventDup_more _ _ _ _
  have f0 : ∀ b, ((st.cfg last).blk b).fsm = 0 := fun _ => rfl
  have f1 : ∀ b, (g.blk b).fsm = 0 := fun b => by rw [M.blk]; rfl
  have O : Over st.blk (Fin.ofNat (last + 1)) (last + 1) (st.cfg last) := cfg_over
  have p0 := h0.pid_iff f0
  have p1 := h1.pid_iff f1
  have flag : ∀ n, n < last + 1 → ((st.cfg last).blk (Fin.ofNat (last + 1) n)).isState = (st.blk n).isState :=
    fun n hn => by rw [cfg_blk n hn]
  refine ⟨⟨O.inj, fun n hn => by rw [M.act]; exact O.act n hn, fun n hn h => M.more _ (O.state n hn h)⟩, O, flag,
    fun b => by rw [Option.isSome_iff_ne_none]; exact p1 b, fun b hb => M.reached hff0 hff f0 (cfg_acc U) hb, fun n hn h => ?_, ?_⟩
  · rw [hg] at h
    rcases (C20_code_after_if _ _ _ _ _).1.mp h with h | ⟨b, _, _, _, hb, c, i, isl, it, e, esl, et, ha, hs⟩
    · exact .inl (by rw [← flag n hn]; exact h)
    · right
      obtain ⟨x, hx, rfl⟩ := fin_name b
      rw [O.act x (by omega)] at ha
      cases hact : (st.blk x).act with
      | ifElse q i' u' it' e' v' et' a' =>
        rw [hact] at ha
        have hk := (U.flow hx).1
        rw [hact] at hk
        have ha' : a' ≤ last := (hk a' (by simp [kids])).1
        simp only [Act.map, Act.ifElse.injEq] at ha
        obtain ⟨rfl, rfl, rfl, rfl, rfl, rfl, rfl, hn'⟩ := ha
        have : a' = n := O.inj a' n (by omega) hn hn'
        subst this
        refine ⟨x, q, i', u', it', e', v', et', by omega, (p0 _).mp hb, hact, ?_⟩
        rcases hs with ⟨h1, h2⟩ | ⟨h1, h2⟩ | ⟨h1, h2⟩
        · exact .inl ⟨(p0 _).mp h1, h2⟩
        · exact .inr (.inl ⟨(p0 _).mp h1, h2⟩)
        · exact .inr (.inr ⟨fun h => (p0 _).mpr h h1, fun h => (p0 _).mpr h h2⟩)
      | _ => rw [hact] at ha; cases ha
  · intro x q i u' it e v et n hx hr hact hn
    have hno : ¬ SplitsAfter num0 u' (Fin.ofNat (last + 1) it) v (Fin.ofNat (last + 1) et) := by
      intro hs
      have : (g.blk (Fin.ofNat (last + 1) n)).isState = true := by
        rw [hg]
        refine (C20_code_after_if _ _ _ _ _).1.mpr (.inr ⟨Fin.ofNat (last + 1) x, List.mem_finRange _, rfl, fun h => ?_, (p0 _).mpr hr, ?_⟩)
        · obtain ⟨k, hk⟩ := (h0.states _).mpr ⟨hr, h, rfl⟩
          rw [hk]; simp
        · exact ⟨q, _, u', _, _, v, _, O.ifElse hx hact, hs⟩
      rw [hn] at this
      cases this
    unfold SplitsAfter at hno
    have q1 := p0 (Fin.ofNat (last + 1) it)
    have q2 := p0 (Fin.ofNat (last + 1) et)
    cases u' <;> cases v <;> tauto

end

/-- What is made of a program: the graph, its states, their numbers and the code. -/
theorem unit_machine (u : AlgUnit) (last : Nat) (st : PSt) (ff : Cfg (Fin (last + 1)) → Fin (last + 1) → Fin (last + 1)) (hff : Skips ff)
    (h : buildUnit u = some (last, st)) (hok : u.switchOk = true) :
    ∃ n0 l lo g rs, generateStates (st.cfg last) 0 ff (last + 1) (List.finRange (last + 1)) = some (g, rs) ∧
      UnitFrag u st.blk st.tops last n0 l lo ∧ MoreStates (st.cfg last) g ∧ IsFF (st.cfg last) (ff (st.cfg last)) ∧ IsFF g (ff g) ∧
      Promoted st.blk (Fin.ofNat (last + 1)) (last + 1) g (st.cfg last) (ff g) (ff (st.cfg last)) rs.num ∧
      g.last = (st.cfg last).last ∧ rs.num.sid g.first = some 1 ∧
      ∃ efuel fuel entries, emitStates g rs.num (ff g) efuel fuel = .ok entries ∧
        Machine g 0 (ff g) rs.num rs.maxState (List.finRange (last + 1)) entries := by
  obtain ⟨n0, l, lo, U⟩ := unit_frag h
  have hacc := cfg_acc U
  have hff0 := isFF_of_acc hff hacc
  have hentry : OwnState (st.cfg last) 0 (st.cfg last).first :=
    ⟨cfg_over.state 0 (by omega) (by rw [U.first]), rfl⟩
  obtain ⟨st0, hst0⟩ := C18_terminates (st.cfg last) 0 (ff (st.cfg last)) hentry
  rw [Fintype.card_fin] at hst0
  have G0 := C18_numbering _ _ _ _ _ hentry hst0
  obtain ⟨g, hg⟩ : ∃ g, g = preventDup (st.cfg last) 0 st0.num (List.finRange (last + 1)) := ⟨_, rfl⟩
  have M : MoreStates (st.cfg last) g := hg ▸ preventDup_more _ _ _ _
  have hacc' : ∀ b, Acc (fun n b => EmptyEdge g b n) b := by
    have : (fun n b => EmptyEdge g b n) = fun n b => EmptyEdge (st.cfg last) b n := by
      funext n b; exact propext (M.emptyEdge b n)
    rw [this]; exact hacc
  have hff1 := isFF_of_acc hff hacc'
  have hlast : g.last = (st.cfg last).last := by rw [hg]; rfl
  have hentry' : OwnState g 0 g.first := ⟨by rw [M.first]; exact M.more _ hentry.1, by rw [M.blk]; rfl⟩
  obtain ⟨hs, hn⟩ := unit_subs U M hff1
  have hret : ∀ k, g.returns k = returnStates g (callIdsFrom g 0 (List.finRange (last + 1))) k := by
    intro k
    rw [M.returns, cfg_ids, callIdsFrom_congr (fun b => (M.act b).symm),
      returnStates_congr (fun b => (M.act b).symm) (fun b => by rw [M.blk b])]
  obtain ⟨rs, hrs⟩ := C18_terminates g 0 (ff g) hentry'
  have G1 := C18_numbering _ _ _ _ _ hentry' hrs
  have P := unit_promoted U hg hff0 hff1 G0 G1
  have hw := unit_wellFormed U hok M hlast hff1 P
  obtain ⟨ef, fu, es, he⟩ := C20_emission_succeeds g 0 (ff g) rs.num rs.maxState hff1 hw G1
  have h1 := C18_entry_is_one g 0 (ff g) _ rs hentry' hrs
  rw [Fintype.card_fin] at hrs
  refine ⟨n0, l, lo, g, rs, ?_, U, M, hff0, hff1, P, hlast, h1, ef, fu, es, he, ⟨hw, hs, hn, G1, ⟨ef, fu, he⟩, List.mem_finRange, hret⟩⟩
  unfold generateStates
  rw [hst0, Option.bind_some, ← hg]
  by_cases hc : (List.finRange (last + 1)).any (fun b => (g.blk b).isState != ((st.cfg last).blk b).isState) = true
  · simp only [hc, if_true, hrs, Option.map_some]
  · simp only [hc]
    have e : g = st.cfg last := by
      have hb : g.blk = (st.cfg last).blk := by
        funext b
        rw [M.blk b]
        have : (g.blk b).isState = ((st.cfg last).blk b).isState := by
          by_contra hne
          exact hc (List.any_eq_true.mpr ⟨b, List.mem_finRange b, by simpa using hne⟩)
        rw [this]
      have hfi := M.first
      have hre := M.returns
      cases g
      cases hcfg : st.cfg last
      simp_all
    rw [e] at hrs
    rw [hst0] at hrs
    cases hrs
    rfl

/-- C20, C21, C22: for every program (algorithm and subroutines) that is gathered, provided switches that do not fit in a cycle or are directly
followed by `return` have a default: skipping empty blocks ends, the states are generated, the entry has index 1, the code is emitted, and the
hardware follows the source cycle by cycle, whatever instructions and conditions mean, for any number of cycles. -/
theorem C21_programs (u : AlgUnit) (last : Nat) (st : PSt) (ff : Cfg (Fin (last + 1)) → Fin (last + 1) → Fin (last + 1)) (hff : Skips ff)
    (h : buildUnit u = some (last, st)) (hok : u.switchOk = true) :
    ∃ g rs, generateStates (st.cfg last) 0 ff (last + 1) (List.finRange (last + 1)) = some (g, rs) ∧
      MoreStates (st.cfg last) g ∧ IsFF g (ff g) ∧ rs.num.sid g.first = some 1 ∧
      GoodNumbers g 0 (ff g) rs.num rs.maxState ∧
      ∃ efuel fuel entries, emitStates g rs.num (ff g) efuel fuel = .ok entries ∧
        Faithful g (ff g) rs.num (List.finRange (last + 1)) entries := by
  obtain ⟨n0, l, lo, g, rs, h1, U, M, hff0, hff1, P, hlast, hid, ef, fu, es, he, m⟩ := unit_machine u last st ff hff h hok
  exact ⟨g, rs, h1, M, hff1, hid, m.numbers, ef, fu, es, he, C21_lockstep _ _ _ _ _ _ _ m⟩

/-- Loop with `break` in a conditional, steps, a switch with cases of several cycles, subroutines calling each other, a wait:
```
subroutine f() { i1; if (c0) { return; } ++: i2; }
subroutine g() { while (c1) { () <- f <- (); switch (c2) { case 3: { i3; ++: } default: { i4; } } } }
i5; while (c3) { if (c4) { i6; break; } else { ++: i7; } () <- g <- (); } (o) <- inst; i8;
``` -/
def exStructured : AlgUnit where
  globals := [.instr 1 (.ifThen 0 (.ret .nil) (.step (.instr 2 .nil)))]
  locals := [.loop 1 (.call 0 0 0 false (.switch 2 [(some 3, .instr 3 (.step .nil)), (none, .instr 4 .nil)] .nil)) .nil]
  main := .instr 5 (.loop 3 (.ifElse 4 (.instr 6 (.brk .nil)) (.step (.instr 7 .nil)) (.call 1 0 0 true .nil))
    (.join 0 0 true (.instr 8 .nil)))

example : (∃ last st, buildUnit exStructured = some (last, st)) ∧ exStructured.switchOk = true := by
  refine ⟨?_, by decide +kernel⟩
  have h : (buildUnit exStructured).isSome = true := by decide +kernel
  obtain ⟨⟨last, st⟩, h⟩ := Option.isSome_iff_exists.mp h
  exact ⟨last, st, h⟩

/-- Skipping is a function. -/
example {B : Type} [DecidableEq B] : ∃ ff : Cfg B → B → B, Skips ff := by
  classical
  refine ⟨fun g b => if h : ∃ r f, fastForward g f b = some r then h.choose else b, fun g f b r h => ?_⟩
  have hx : ∃ r f, fastForward g f b = some r := ⟨r, f, h⟩
  simp only [dif_pos hx]
  obtain ⟨f', h'⟩ := hx.choose_spec
  exact C19_fuel_irrelevant g f' f b _ _ h' h

/-! ### A switch directly followed by `return` -/

/-- ```
subroutine f() { switch (x) { case 0: { i1; } } return; }
() <- f <- (); i2;
```
All cases fit in a cycle, but the block of `return` is made a state. -/
def exSwitchRet : AlgUnit where
  globals := []
  locals := [.switch 0 [(some 0, .instr 1 .nil)] (.ret .nil)]
  main := .call 0 0 0 false (.instr 2 .nil)

/-- Its graph. -/
def exSwitchRetCfg : Cfg (Fin 10) :=
  match buildUnit exSwitchRet with
  | some (_, st) => st.cfg 9
  | none => ⟨fun _ => {}, 0, 0, fun _ => []⟩

/-- No label matches. -/
def noLabel10 : Sem (Fin 10) Unit := ⟨fun _ s => s, fun _ _ => false, fun _ _ _ => false, fun _ _ => false⟩

/-- Skipping on that graph. -/
def exSwitchRetFF (b : Fin 10) : Fin 10 := if b = 6 then 3 else b

/-- Its numbers. -/
def exSwitchRetNum : Num (Fin 10) :=
  match generateStates exSwitchRetCfg 0 (fun _ => exSwitchRetFF) 10 (List.finRange 10) with
  | some r => r.2.num
  | none => ⟨fun _ => none, fun _ => none⟩

/-- Its code. -/
def exSwitchRetCode : List (Entry (Fin 10)) :=
  match emitStates exSwitchRetCfg exSwitchRetNum exSwitchRetFF 11 22 with
  | .ok es => es
  | .error _ => []

/-- C21 fails: when no label matches, no index is assigned and the machine stays in the state of the switch; the subroutine never returns. -/
theorem C21_counterexample_switch_return :
    (buildUnit exSwitchRet).map (·.1) = some 9 ∧ IsFF exSwitchRetCfg exSwitchRetFF ∧
    (generateStates exSwitchRetCfg 0 (fun _ => exSwitchRetFF) 10 (List.finRange 10)).isSome = true ∧
    (∀ b, ((preventDup exSwitchRetCfg 0 exSwitchRetNum (List.finRange 10)).blk b).isState = (exSwitchRetCfg.blk b).isState) ∧
    exSwitchRetCode.length = 4 ∧
    ¬ Faithful exSwitchRetCfg exSwitchRetFF exSwitchRetNum (List.finRange 10) exSwitchRetCode := by
  refine ⟨by decide +kernel, fun b => ⟨11, ?_⟩, by decide +kernel, by decide +kernel, by decide +kernel, fun h => ?_⟩
  · revert b; decide +kernel
  have hsrc : SrcRun exSwitchRetCfg exSwitchRetFF noLabel10 (fun _ s => s) () 2 (([] ++ [[0, 1]]) ++ [[2]]) (.at 3 [8]) () :=
    .next (p := .at 2 [8]) (.next .start (.call (s' := ()) (c := 1) (t := 2) (r := 8) (.more (n := 1) rfl rfl (.out rfl))
        (.state (by rintro ⟨_, h, _⟩; cases h))))
      (.jump (s' := ()) (n := 3) (.state rfl rfl) (.state (by rintro ⟨_, h, _⟩; cases h)))
  obtain ⟨hw, h1, _, _, h4⟩ := h Unit noLabel10 (fun _ s => s) ⟨1, 0, fun _ => 0, ()⟩ (by decide +kernel) 2 _ _ _ hsrc
  have h5 := (h4 3 [8] rfl).1
  have h6 : (hwRun exSwitchRetCfg exSwitchRetNum exSwitchRetFF (callIdsFrom exSwitchRetCfg 0 (List.finRange 10)) exSwitchRetCode
      noLabel10 (fun _ s => s) ⟨1, 0, fun _ => 0, ()⟩ 2).map (fun r => r.2.idx) = some 2 := by decide +kernel
  rw [h1] at h6
  have h7 : exSwitchRetNum.sid 3 ≠ some 2 := by decide +kernel
  simp only [Option.map_some, Option.some.injEq] at h6
  rw [h6] at h5
  exact h7 h5

end Silice
