import Verif.Spec.Fsm
import Mathlib.Data.Fintype.Card

/-! Invariant of the state numbering worklist. -/

set_option autoImplicit false

namespace Silice
variable {B : Type} [DecidableEq B]

/-- Invariant of the main loop of `renumberStates`; the children of block `ex` may still have to be added. -/
structure RenInv (g : Cfg B) (fsm : Nat) (ff : B → B) (ex : Option B) (st : RenSt B) : Prop where
  nodupV : st.visited.Nodup
  reach : ∀ b ∈ st.visited, Reached g ff b
  firstV : g.first ∈ st.visited
  qsub : ∀ r ∈ st.queue, r.1 ∈ st.visited
  qnodup : (st.queue.map (·.1)).Nodup
  exOut : ∀ b, ex = some b → b ∈ st.visited ∧ b ∉ st.queue.map (·.1)
  closed : ∀ b ∈ st.visited, b ∉ st.queue.map (·.1) → ex ≠ some b →
    ∀ c ∈ g.children b, arrive g ff c ∈ st.visited
  sidOf : ∀ b k, st.num.sid b = some k → b ∈ st.visited ∧ b ∉ st.queue.map (·.1) ∧
    OwnState g fsm b ∧ 1 ≤ k ∧ k < st.maxState ∧ st.num.pid b = some k
  sidAll : ∀ b ∈ st.visited, b ∉ st.queue.map (·.1) → OwnState g fsm b → ∃ k, st.num.sid b = some k
  inj : ∀ b b' k, st.num.sid b = some k → st.num.sid b' = some k → b = b'
  surj : ∀ k, 1 ≤ k → k < st.maxState → ∃ b, st.num.sid b = some k
  pidOut : ∀ b, b ∉ st.visited → st.num.pid b = none
  pidIn : ∀ b ∈ st.visited, (g.blk b).fsm = fsm → ¬ OwnState g fsm b →
    ∃ s k, st.num.sid s = some k ∧ st.num.pid b = some k ∧ ExecutedIn g fsm ff s b
  qpar : ∀ b p, (b, p) ∈ st.queue → ¬ OwnState g fsm b →
    ∃ s k, p = some k ∧ st.num.sid s = some k ∧ ExecutedIn g fsm ff s b
  maxPos : 1 ≤ st.maxState

omit [DecidableEq B] in
theorem renInit_inv (g : Cfg B) (fsm : Nat) (ff : B → B) (h : OwnState g fsm g.first) :
    RenInv g fsm ff none (renInit g) where
  nodupV := by simp [renInit]
  reach := by
    intro b hb
    simp [renInit] at hb
    subst hb
    exact Reached.first
  firstV := by simp [renInit]
  qsub := by
    intro r hr
    simp [renInit] at hr
    subst hr
    simp [renInit]
  qnodup := by simp [renInit]
  exOut := by simp
  closed := by
    intro b hb hq
    simp [renInit] at hb hq
    exact absurd hb hq
  sidOf := by simp [renInit]
  sidAll := by
    intro b hb hq
    simp [renInit] at hb hq
    exact absurd hb hq
  inj := by simp [renInit]
  surj := by
    intro k h1 h2
    simp [renInit] at h2
    omega
  pidOut := by simp [renInit]
  pidIn := by
    intro b hb _ hn
    simp [renInit] at hb
    subst hb
    exact absurd h hn
  qpar := by
    intro b p hb hn
    simp [renInit] at hb
    rw [hb.1] at hn
    exact absurd h hn
  maxPos := by simp [renInit]

/-- Adding the children of the current block `b` (whose parent record is `par`). -/
theorem renChildren_inv (g : Cfg B) (fsm : Nat) (ff : B → B) (b : B) (s : B) (k : Nat)
    (cs : List B) :
    ∀ st : RenSt B, RenInv g fsm ff (some b) st → st.num.sid s = some k →
      ExecutedIn g fsm ff s b → (∀ c ∈ cs, c ∈ g.children b) →
      RenInv g fsm ff (some b) (renChildren g fsm ff (some k) cs st) ∧
      (∀ c ∈ cs, arrive g ff c ∈ (renChildren g fsm ff (some k) cs st).visited) ∧
      (∀ c ∈ st.visited, c ∈ (renChildren g fsm ff (some k) cs st).visited) ∧
      (renChildren g fsm ff (some k) cs st).maxState = st.maxState ∧
      (renChildren g fsm ff (some k) cs st).visited.length + st.queue.length =
        st.visited.length + (renChildren g fsm ff (some k) cs st).queue.length := by
  induction cs with
  | nil => intro st h _ _ _; exact ⟨h, by simp, by simp [renChildren], rfl, by simp [renChildren]⟩
  | cons c cs ih =>
    intro st h hs hex hcs
    have hcs' : ∀ x ∈ cs, x ∈ g.children b := fun x hx => hcs x (List.mem_cons_of_mem _ hx)
    have hc : c ∈ g.children b := hcs c (List.mem_cons_self ..)
    have harr : (if (g.blk c).isState then ff c else c) = arrive g ff c := rfl
    unfold renChildren
    simp only [harr]
    by_cases hv : arrive g ff c ∈ st.visited
    · rw [if_pos hv]
      obtain ⟨h1, h2, h3, h4, h5⟩ := ih st h hs hex hcs'
      refine ⟨h1, ?_, h3, h4, h5⟩
      intro x hx
      rcases List.mem_cons.mp hx with rfl | hx
      · exact h3 _ hv
      · exact h2 x hx
    · rw [if_neg hv]
      set d := arrive g ff c with hd
      have hb := h.exOut b rfl
      have hdb : d ≠ b := by intro e; rw [e] at hv; exact hv hb.1
      have hdq : d ∉ st.queue.map (·.1) := by
        intro hq
        obtain ⟨r, hr, hr'⟩ := List.mem_map.mp hq
        have := h.qsub r hr
        rw [hr'] at this
        exact hv this
      have hsidd : st.num.sid d = none := by
        cases hh : st.num.sid d with
        | none => rfl
        | some k' => exact absurd (h.sidOf d k' hh).1 hv
      have hpid : ∀ x, x ≠ d →
          (if (g.blk d).fsm = fsm then upd st.num.pid d (some k) else st.num.pid) x = st.num.pid x := by
        intro x hx
        split_ifs
        · simp [upd, hx]
        · rfl
      have key : RenInv g fsm ff (some b)
          { st with
            num := { st.num with
              pid := if (g.blk d).fsm = fsm then upd st.num.pid d (some k) else st.num.pid }
            queue := st.queue ++ [(d, some k)]
            visited := d :: st.visited } := by
        refine ⟨?_, ?_, ?_, ?_, ?_, ?_, ?_, ?_, ?_, ?_, ?_, ?_, ?_, ?_, ?_⟩
        · exact List.nodup_cons.mpr ⟨hv, h.nodupV⟩
        · intro x hx
          rcases List.mem_cons.mp hx with rfl | hx
          · exact Reached.child (h.reach b hb.1) hc
          · exact h.reach x hx
        · exact List.mem_cons_of_mem _ h.firstV
        · intro r hr
          rcases List.mem_append.mp hr with hr | hr
          · exact List.mem_cons_of_mem _ (h.qsub r hr)
          · simp at hr
            subst hr
            exact List.mem_cons_self ..
        · show ((st.queue ++ [(d, some k)]).map (·.1)).Nodup
          rw [List.map_append]
          refine List.nodup_append.mpr ⟨h.qnodup, by simp, ?_⟩
          intro x hx y hy
          simp at hy
          subst hy
          intro e
          subst e
          exact hdq hx
        · intro x hx
          cases hx
          refine ⟨List.mem_cons_of_mem _ hb.1, ?_⟩
          simp only [List.map_append, List.map_cons, List.map_nil, List.mem_append,
            List.mem_singleton, not_or]
          exact ⟨hb.2, fun e => hdb e.symm⟩
        · intro x hx hq hne y hy
          simp only [List.map_append, List.map_cons, List.map_nil, List.mem_append,
            List.mem_singleton, not_or] at hq
          rcases List.mem_cons.mp hx with rfl | hx
          · exact absurd rfl hq.2
          · exact List.mem_cons_of_mem _ (h.closed x hx hq.1 hne y hy)
        · intro x j hx
          obtain ⟨a1, a2, a3, a4, a5, a6⟩ := h.sidOf x j hx
          have hxd : x ≠ d := by intro e; rw [e] at a1; exact hv a1
          refine ⟨List.mem_cons_of_mem _ a1, ?_, a3, a4, a5, ?_⟩
          · simp only [List.map_append, List.map_cons, List.map_nil, List.mem_append,
              List.mem_singleton, not_or]
            exact ⟨a2, hxd⟩
          · show (if (g.blk d).fsm = fsm then upd st.num.pid d (some k) else st.num.pid) x = _
            rw [hpid x hxd]; exact a6
        · intro x hx hq ho
          simp only [List.map_append, List.map_cons, List.map_nil, List.mem_append,
            List.mem_singleton, not_or] at hq
          rcases List.mem_cons.mp hx with rfl | hx
          · exact absurd rfl hq.2
          · exact h.sidAll x hx hq.1 ho
        · exact h.inj
        · exact h.surj
        · intro x hx
          simp only [List.mem_cons, not_or] at hx
          show (if (g.blk d).fsm = fsm then upd st.num.pid d (some k) else st.num.pid) x = _
          rw [hpid x hx.1]
          exact h.pidOut x hx.2
        · intro x hx hf hn
          rcases List.mem_cons.mp hx with rfl | hx
          · refine ⟨s, k, hs, ?_, ExecutedIn.next hex hc hn⟩
            show (if (g.blk d).fsm = fsm then upd st.num.pid d (some k) else st.num.pid) d = _
            rw [if_pos hf]
            simp [upd]
          · obtain ⟨s', k', e1, e2, e3⟩ := h.pidIn x hx hf hn
            refine ⟨s', k', e1, ?_, e3⟩
            have hxd : x ≠ d := by intro e; rw [e] at hx; exact hv hx
            show (if (g.blk d).fsm = fsm then upd st.num.pid d (some k) else st.num.pid) x = _
            rw [hpid x hxd]
            exact e2
        · intro x p hx hn
          rcases List.mem_append.mp hx with hx | hx
          · exact h.qpar x p hx hn
          · simp at hx
            obtain ⟨rfl, rfl⟩ := hx
            exact ⟨s, k, rfl, hs, ExecutedIn.next hex hc hn⟩
        · exact h.maxPos
      obtain ⟨h1, h2, h3, h4, h5⟩ := ih _ key hs hex hcs'
      refine ⟨h1, ?_, ?_, h4, ?_⟩
      · intro x hx
        rcases List.mem_cons.mp hx with rfl | hx
        · exact h3 _ (List.mem_cons_self ..)
        · exact h2 x hx
      · intro x hx
        exact h3 x (List.mem_cons_of_mem _ hx)
      · simp only [List.length_append, List.length_cons, List.length_nil] at h5 ⊢
        omega

theorem renStep_inv (g : Cfg B) (fsm : Nat) (ff : B → B) (st : RenSt B)
    (h : RenInv g fsm ff none st) (hq : st.queue ≠ []) :
    RenInv g fsm ff none (renStep g fsm ff st) ∧
    (renStep g fsm ff st).visited.length + st.queue.length =
      st.visited.length + (renStep g fsm ff st).queue.length + 1 := by
  unfold renStep
  cases hqq : st.queue with
  | nil => exact absurd hqq hq
  | cons r q =>
    obtain ⟨b, p⟩ := r
    simp only
    have hnd := h.qnodup
    rw [hqq] at hnd
    simp only [List.map_cons, List.nodup_cons] at hnd
    have hbv : b ∈ st.visited := h.qsub (b, p) (by rw [hqq]; exact List.mem_cons_self ..)
    have hbsid : st.num.sid b = none := by
      cases hh : st.num.sid b with
      | none => rfl
      | some k' =>
        have := (h.sidOf b k' hh).2.1
        rw [hqq] at this
        simp at this
    -- closing lemma: once children are in, the exception can be dropped
    have drop : ∀ st' : RenSt B, RenInv g fsm ff (some b) st' →
        (∀ c ∈ g.children b, arrive g ff c ∈ st'.visited) → RenInv g fsm ff none st' := by
      intro st' h' hc
      exact { h' with
        exOut := by simp
        closed := by
          intro x hx hxq _ c hcc
          by_cases e : x = b
          · subst e; exact hc c hcc
          · exact h'.closed x hx hxq (by simpa using fun e' => e e'.symm) c hcc }
    by_cases ho : (g.blk b).isState = true ∧ (g.blk b).fsm = fsm
    · rw [if_pos ho]
      set st1 : RenSt B := { st with
          num := ⟨upd st.num.sid b (some st.maxState), upd st.num.pid b (some st.maxState)⟩
          maxState := st.maxState + 1
          queue := q } with hst1
      have hsub : ∀ x j, st.num.sid x = some j → x ≠ b := by
        intro x j hx e
        rw [e, hbsid] at hx
        cases hx
      have i1 : RenInv g fsm ff (some b) st1 := by
        refine ⟨h.nodupV, h.reach, h.firstV, ?_, hnd.2, ?_, ?_, ?_, ?_, ?_, ?_, ?_, ?_, ?_, ?_⟩
        · intro r hr
          exact h.qsub r (by rw [hqq]; exact List.mem_cons_of_mem _ hr)
        · intro x hx
          cases hx
          exact ⟨hbv, hnd.1⟩
        · intro x hx hxq hne c hc
          refine h.closed x hx ?_ (by simp) c hc
          rw [hqq]
          simp only [List.map_cons, List.mem_cons, not_or]
          exact ⟨fun e => hne (by rw [e]), hxq⟩
        · intro x j hx
          have hx' : upd st.num.sid b (some st.maxState) x = some j := hx
          by_cases e : x = b
          · subst e
            simp [upd] at hx'
            subst hx'
            refine ⟨hbv, hnd.1, ho, h.maxPos, by simp [hst1], by simp [hst1, upd]⟩
          · simp [upd, e] at hx'
            obtain ⟨a1, a2, a3, a4, a5, a6⟩ := h.sidOf x j hx'
            rw [hqq] at a2
            simp only [List.map_cons, List.mem_cons, not_or] at a2
            refine ⟨a1, a2.2, a3, a4, ?_, ?_⟩
            · show j < st.maxState + 1
              omega
            · show upd st.num.pid b _ x = _
              simp [upd, e, a6]
        · intro x hx hxq hox
          show ∃ k, upd st.num.sid b (some st.maxState) x = some k
          by_cases e : x = b
          · exact ⟨_, by simp [upd, e]; rfl⟩
          · simp only [upd, e, if_false]
            refine h.sidAll x hx ?_ hox
            rw [hqq]
            simp only [List.map_cons, List.mem_cons, not_or]
            exact ⟨e, hxq⟩
        · intro x y j hx hy
          have hx' : upd st.num.sid b (some st.maxState) x = some j := hx
          have hy' : upd st.num.sid b (some st.maxState) y = some j := hy
          by_cases e : x = b <;> by_cases e' : y = b
          · rw [e, e']
          · simp [upd, e, e'] at hx' hy'
            have := (h.sidOf y j hy').2.2.2.2.1
            omega
          · simp [upd, e, e'] at hx' hy'
            have := (h.sidOf x j hx').2.2.2.2.1
            omega
          · simp [upd, e, e'] at hx' hy'
            exact h.inj x y j hx' hy'
        · intro j h1 h2
          have h2' : j < st.maxState + 1 := h2
          by_cases e : j = st.maxState
          · exact ⟨b, by simp [hst1, upd, e]⟩
          · obtain ⟨x, hx⟩ := h.surj j h1 (by omega)
            refine ⟨x, ?_⟩
            show upd st.num.sid b _ x = _
            simp [upd, hsub x j hx, hx]
        · intro x hx
          show upd st.num.pid b _ x = none
          have e : x ≠ b := by intro e; rw [e] at hx; exact hx hbv
          simp [upd, e, h.pidOut x hx]
        · intro x hx hf hn
          have e : x ≠ b := by intro e; rw [e] at hn; exact hn ho
          obtain ⟨s, k, e1, e2, e3⟩ := h.pidIn x hx hf hn
          refine ⟨s, k, ?_, ?_, e3⟩
          · show upd st.num.sid b _ s = _
            simp [upd, hsub s k e1, e1]
          · show upd st.num.pid b _ x = _
            simp [upd, e, e2]
        · intro x p' hx hn
          obtain ⟨s, k, e1, e2, e3⟩ := h.qpar x p' (by rw [hqq]; exact List.mem_cons_of_mem _ hx) hn
          refine ⟨s, k, e1, ?_, e3⟩
          show upd st.num.sid b _ s = _
          simp [upd, hsub s k e2, e2]
        · show 1 ≤ st.maxState + 1
          omega
      obtain ⟨j1, j2, _, _, j5⟩ := renChildren_inv g fsm ff b b st.maxState (g.children b) st1 i1
        (by simp [hst1, upd]) (ExecutedIn.self ho) (fun c hc => hc)
      refine ⟨drop _ j1 j2, ?_⟩
      simp only [hst1] at j5 ⊢
      simp only [List.length_cons]
      omega
    · rw [if_neg ho]
      obtain ⟨s, k, e1, e2, e3⟩ := h.qpar b p (by rw [hqq]; exact List.mem_cons_self ..) ho
      subst e1
      set st1 : RenSt B := { st with queue := q } with hst1
      have i1 : RenInv g fsm ff (some b) st1 := by
        refine ⟨h.nodupV, h.reach, h.firstV, ?_, hnd.2, ?_, ?_, ?_, ?_, h.inj, h.surj, h.pidOut,
          h.pidIn, ?_, h.maxPos⟩
        · intro r hr
          exact h.qsub r (by rw [hqq]; exact List.mem_cons_of_mem _ hr)
        · intro x hx
          cases hx
          exact ⟨hbv, hnd.1⟩
        · intro x hx hxq hne c hc
          refine h.closed x hx ?_ (by simp) c hc
          rw [hqq]
          simp only [List.map_cons, List.mem_cons, not_or]
          exact ⟨fun e => hne (by rw [e]), hxq⟩
        · intro x j hx
          obtain ⟨a1, a2, a3, a4, a5, a6⟩ := h.sidOf x j hx
          rw [hqq] at a2
          simp only [List.map_cons, List.mem_cons, not_or] at a2
          exact ⟨a1, a2.2, a3, a4, a5, a6⟩
        · intro x hx hxq hox
          by_cases e : x = b
          · rw [e] at hox; exact absurd hox ho
          · refine h.sidAll x hx ?_ hox
            rw [hqq]
            simp only [List.map_cons, List.mem_cons, not_or]
            exact ⟨e, hxq⟩
        · intro x p' hx hn
          exact h.qpar x p' (by rw [hqq]; exact List.mem_cons_of_mem _ hx) hn
      obtain ⟨j1, j2, _, _, j5⟩ := renChildren_inv g fsm ff b s k (g.children b) st1 i1 e2 e3
        (fun c hc => hc)
      refine ⟨drop _ j1 j2, ?_⟩
      simp only [hst1] at j5 ⊢
      simp only [List.length_cons]
      omega

theorem renLoop_inv (g : Cfg B) (fsm : Nat) (ff : B → B) (fuel : Nat) :
    ∀ st st' : RenSt B, RenInv g fsm ff none st → renLoop g fsm ff fuel st = some st' →
      RenInv g fsm ff none st' ∧ st'.queue = [] := by
  induction fuel with
  | zero =>
    intro st st' h he
    unfold renLoop at he
    split_ifs at he with hq
    cases he
    exact ⟨h, hq⟩
  | succ n ih =>
    intro st st' h he
    unfold renLoop at he
    split_ifs at he with hq
    · cases he
      exact ⟨h, hq⟩
    · exact ih _ _ (renStep_inv g fsm ff st h hq).1 he

/-- Each iteration consumes one queued block, and a block is queued at most once. -/
theorem renLoop_total [Fintype B] (g : Cfg B) (fsm : Nat) (ff : B → B) (fuel : Nat) :
    ∀ st : RenSt B, RenInv g fsm ff none st →
      Fintype.card B + st.queue.length ≤ fuel + st.visited.length →
      ∃ st', renLoop g fsm ff fuel st = some st' := by
  induction fuel with
  | zero =>
    intro st h hf
    have := h.nodupV.length_le_card
    have hq : st.queue = [] := List.length_eq_zero_iff.mp (by omega)
    exact ⟨st, by simp [renLoop, hq]⟩
  | succ n ih =>
    intro st h hf
    by_cases hq : st.queue = []
    · exact ⟨st, by simp [renLoop, hq]⟩
    · obtain ⟨h1, h2⟩ := renStep_inv g fsm ff st h hq
      obtain ⟨st', hst'⟩ := ih _ h1 (by omega)
      exact ⟨st', by simp [renLoop, hq, hst']⟩

omit [DecidableEq B] in
/-- At the end exactly the reached blocks have been visited. -/
theorem visited_iff (g : Cfg B) (fsm : Nat) (ff : B → B) (st : RenSt B)
    (h : RenInv g fsm ff none st) (hq : st.queue = []) (b : B) :
    b ∈ st.visited ↔ Reached g ff b := by
  constructor
  · exact h.reach b
  · intro hr
    induction hr with
    | first => exact h.firstV
    | child _ hc ih => exact h.closed _ ih (by simp [hq]) (by simp) _ hc

end Silice
