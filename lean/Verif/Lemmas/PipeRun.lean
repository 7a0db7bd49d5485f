import Verif.Spec.PipeRun

set_option autoImplicit false

namespace Silice
variable {V : Type}

/-- Start of stage `s` in closed form, `nextStarts` telling whether the stage after it starts. -/
def startCond (p : Pipe) (i : PipeIn V) (q : PipeSt V) (nextStarts : Bool) (s : Nat) : Bool :=
  (decide (q.idx s = p.last s) || decide (q.idx s = 0)) &&
  (if s = 0 then i.active else codeFull p i q (s - 1) && !stalls p i q (s - 1)) &&
  (decide (s + 1 = p.n) || !(codeFull p i q s && !nextStarts)) && !stalls p i q s

/-- Partially executed triggers: stages `≥ k` done. -/
structure TrigInv (p : Pipe) (i : PipeIn V) (q : PipeSt V) (k : Nat) (d : Trig) : Prop where
  lowIdx : ∀ s, s < k → d.idx s = codeIdx p i q s
  lowFull : ∀ s, s + 1 < k → d.full s = codeFull p i q s
  lowStarted : ∀ s, s < k → d.started s = false
  out : ∀ s, p.n ≤ s → d.started s = false
  hiIdx : ∀ s, k ≤ s → s < p.n → d.idx s = if d.started s then p.entry s else codeIdx p i q s
  hiFull : ∀ s, k ≤ s + 1 → s + 1 ≤ p.n → d.full s = (codeFull p i q s && !d.started (s + 1))
  hiStarted : ∀ s, k ≤ s → s < p.n → d.started s = startCond p i q (d.started (s + 1)) s

theorem trigger_inv (p : Pipe) (i : PipeIn V) (q : PipeSt V) (k : Nat) (d : Trig) (hk : k < p.n)
    (h : TrigInv p i q (k + 1) d) : TrigInv p i q k (trigger p i q d k) := by
  have hsrc : (if k = 0 then i.active else d.full (k - 1) && !stalls p i q (k - 1)) =
      (if k = 0 then i.active else codeFull p i q (k - 1) && !stalls p i q (k - 1)) := by
    by_cases hk0 : k = 0
    · simp [hk0]
    · rw [if_neg hk0, if_neg hk0, h.lowFull (k - 1) (by omega)]
  have hroom : d.full k = (codeFull p i q k && !d.started (k + 1)) := by
    exact h.hiFull k (by omega) (by omega)
  unfold trigger
  simp only [hsrc]
  have hc : ((decide (q.idx k = p.last k) || decide (q.idx k = 0)) &&
      (if k = 0 then i.active else codeFull p i q (k - 1) && !stalls p i q (k - 1)) &&
      (decide (k + 1 = p.n) || !d.full k) && !stalls p i q k) = startCond p i q (d.started (k + 1)) k := by
    unfold startCond; rw [hroom]
  rw [hc]
  by_cases hst : startCond p i q (d.started (k + 1)) k = true
  · rw [if_pos hst]
    refine ⟨?_, ?_, ?_, ?_, ?_, ?_, ?_⟩
    · intro s hs
      simp only [set1]
      rw [if_neg (by omega)]
      exact h.lowIdx s (by omega)
    · intro s hs
      have : k ≠ 0 := by omega
      simp only [if_neg this, set1]
      rw [if_neg (by omega)]
      exact h.lowFull s (by omega)
    · intro s hs
      simp only [set1]
      rw [if_neg (by omega)]
      exact h.lowStarted s (by omega)
    · intro s hs
      simp only [set1]
      rw [if_neg (by omega)]
      exact h.out s hs
    · intro s hs hn
      simp only [set1]
      by_cases e : s = k
      · simp [e]
      · simp [e, h.hiIdx s (by omega) hn]
    · intro s hs hn
      simp only [set1]
      by_cases e : s + 1 = k
      · have : k ≠ 0 := by omega
        have hs' : s = k - 1 := by omega
        rw [if_neg this, ← hs']
        simp [e, set1]
      · rw [if_neg e]
        by_cases hk0 : k = 0
        · rw [if_pos hk0]; exact h.hiFull s (by omega) hn
        · have hne : s ≠ k - 1 := by omega
          simp [hk0, set1, hne, h.hiFull s (by omega) hn]
    · intro s hs hn
      simp only [set1]
      rw [if_neg (show ¬ s + 1 = k by omega)]
      by_cases e : s = k
      · rw [if_pos e, e, hst]
      · rw [if_neg e]; exact h.hiStarted s (by omega) hn
  · rw [if_neg hst]
    have hf : d.started k = false := h.lowStarted k (by omega)
    refine ⟨fun s hs => h.lowIdx s (by omega), fun s hs => h.lowFull s (by omega),
      fun s hs => h.lowStarted s (by omega), h.out, ?_, ?_, ?_⟩
    · intro s hs hn
      by_cases e : s = k
      · subst e; rw [hf]; simp [h.lowIdx s (by omega)]
      · exact h.hiIdx s (by omega) hn
    · intro s hs hn
      by_cases e : s + 1 = k
      · rw [e, hf]; simp [h.lowFull s (by omega)]
      · exact h.hiFull s (by omega) hn
    · intro s hs hn
      by_cases e : s = k
      · subst e; rw [hf]; simpa using hst
      · exact h.hiStarted s (by omega) hn

theorem triggers_inv (p : Pipe) (i : PipeIn V) (q : PipeSt V) : ∀ (k : Nat) (d : Trig), k ≤ p.n →
    TrigInv p i q k d → TrigInv p i q 0 (triggers p i q k d) := by
  intro k
  induction k with
  | zero => intro d _ h; exact h
  | succ k ih => intro d hk h; exact ih _ (by omega) (trigger_inv p i q k d (by omega) h)

theorem pipeComb_inv (p : Pipe) (i : PipeIn V) (q : PipeSt V) : TrigInv p i q 0 (pipeComb p i q) := by
  refine triggers_inv p i q p.n _ (Nat.le_refl _) ?_
  refine ⟨fun _ _ => rfl, fun _ _ => rfl, fun _ _ => rfl, fun _ _ => rfl, ?_, ?_, ?_⟩
  · intro s h1 h2; omega
  · intro s _ _; simp
  · intro s h1 h2; omega

/-- Per cycle facts about one stage. -/
theorem startCond_true {p : Pipe} {i : PipeIn V} {q : PipeSt V} {b : Bool} {s : Nat}
    (h : startCond p i q b s = true) :
    (q.idx s = p.last s ∨ q.idx s = 0) ∧
    (s ≠ 0 → codeFull p i q (s - 1) = true ∧ stalls p i q (s - 1) = false) ∧
    (s + 1 ≠ p.n → codeFull p i q s = true → b = true) ∧ stalls p i q s = false := by
  unfold startCond at h
  simp only [Bool.and_eq_true, Bool.or_eq_true, decide_eq_true_eq, Bool.not_eq_true',
    Bool.and_eq_false_iff] at h
  obtain ⟨⟨⟨h1, h2⟩, h3⟩, h4⟩ := h
  refine ⟨h1, ?_, ?_, h4⟩
  · intro h0
    rw [if_neg h0] at h2
    simpa using h2
  · intro hn hf
    rcases h3 with h3 | h3 | h3
    · exact absurd h3 hn
    · rw [hf] at h3; cases h3
    · cases b
      · cases h3
      · rfl

/-- A stage that is not started goes to its entry state never without stalling. -/
theorem codeIdx_ne_entry {p : Pipe} {i : PipeIn V} {q : PipeSt V} {s : Nat} (hs : s ≠ 0)
    (he : p.entry s ≠ 0)
    (hn : ∀ x, x ≠ 0 → x ≠ p.last s → i.next s x ≠ 0 ∧ i.next s x ≠ p.entry s) (hst : stalls p i q s = false) :
    codeIdx p i q s ≠ p.entry s := by
  unfold codeIdx
  by_cases h0 : q.idx s = 0
  · rw [if_pos h0]; exact he.symm
  · rw [if_neg h0]
    by_cases hl : q.idx s = p.last s
    · rw [if_pos hl, hst]; simpa using he.symm
    · rw [if_neg hl]
      have : executes i q s = true := by simp [executes, h0, hs]
      rw [if_pos this]
      exact (hn _ h0 hl).2

/-- The copy of a stage is loaded from the previous stage exactly when the stage is started. -/
theorem reg_step {p : Pipe} {i : PipeIn V} {q : PipeSt V} {s : Nat} (hs : p.first < s) (hn : s < p.n)
    (he : p.entry s ≠ 0)
    (hnx : ∀ x, x ≠ 0 → x ≠ p.last s → i.next s x ≠ 0 ∧ i.next s x ≠ p.entry s) :
    (pipeStep p i q).reg s =
      if (pipeComb p i q).started s then dReg p i q (s - 1) else dReg p i q s := by
  have hI := pipeComb_inv p i q
  have hidx := hI.hiIdx s (by omega) hn
  have hst := hI.hiStarted s (by omega) hn
  simp only [pipeStep]
  by_cases hsd : (pipeComb p i q).started s = true
  · rw [if_pos hsd, if_pos]
    rw [hidx, if_pos hsd]
    rw [hsd] at hst
    exact ⟨hs, rfl, (startCond_true hst.symm).2.2.2⟩
  · rw [if_neg hsd, if_neg]
    rintro ⟨_, h1, h2⟩
    rw [hidx, if_neg hsd] at h1
    exact codeIdx_ne_entry (by omega) he hnx h2 h1

/-- Possible situations of a stage in a cycle. -/
theorem stage_cases (p : Pipe) (i : PipeIn V) (q : PipeSt V) (s : Nat) (hl : p.last s ≠ 0) :
    (q.idx s = 0 ∧ executes i q s = false ∧ stalls p i q s = false ∧ codeFull p i q s = q.full s ∧
      codeIdx p i q s = 0) ∨
    (q.idx s = p.last s ∧ executes i q s = true ∧ stalls p i q s = true ∧ i.stall s = true ∧
      codeFull p i q s = true ∧ codeIdx p i q s = p.last s) ∨
    (q.idx s = p.last s ∧ executes i q s = true ∧ stalls p i q s = false ∧ i.stall s = false ∧
      codeFull p i q s = true ∧ codeIdx p i q s = 0) ∨
    (q.idx s = p.last s ∧ executes i q s = false ∧ s = 0 ∧ i.disable = true ∧ stalls p i q s = false ∧
      codeFull p i q s = q.full s ∧ codeIdx p i q s = 0) ∨
    (q.idx s ≠ 0 ∧ q.idx s ≠ p.last s ∧ stalls p i q s = false ∧ codeFull p i q s = q.full s ∧
      codeIdx p i q s = if executes i q s then i.next s (q.idx s) else q.idx s) := by
  by_cases h0 : q.idx s = 0
  · left
    have hx : executes i q s = false := by simp [executes, h0]
    simp [h0, hx, stalls, codeFull, codeIdx]
  by_cases hlast : q.idx s = p.last s
  · cases hx : executes i q s with
    | false =>
      have : s = 0 ∧ i.disable = true := by simpa [executes, h0] using hx
      right; right; right; left
      simp only [stalls, codeFull, codeIdx, hx, hlast, if_neg hl]
      simpa using this
    | true =>
      cases hst : i.stall s with
      | true => right; left; simp [stalls, codeFull, codeIdx, hx, hlast, hst, hl]
      | false => right; right; left; simp [stalls, codeFull, codeIdx, hx, hlast, hst, hl]
  · right; right; right; right
    simp [stalls, codeFull, codeIdx, h0, hlast]

/-- Between stage `s` and the next one: what stage `s` finished is what the next stage started with, except for at
most one item which waits. -/
structure Between (p : Pipe) (inp : Nat → PipeIn V) (reg : Nat → V) (s t : Nat) : Prop where
  idle : (pipeRun p inp reg t).full s = true →
    (pipeRun p inp reg t).idx s = 0 ∨ (pipeRun p inp reg t).idx s = p.last s
  vals : p.first ≤ s → results p inp reg s t = loads p inp reg (s + 1) t ++
    if (pipeRun p inp reg t).full s = true ∧ (pipeRun p inp reg t).idx s = 0
    then [(pipeRun p inp reg t).reg s] else []
  count : finishes p inp reg s t = starts p inp reg (s + 1) t +
    if (pipeRun p inp reg t).full s = true ∧ (pipeRun p inp reg t).idx s = 0 then 1 else 0

theorem between (p : Pipe) (inp : Nat → PipeIn V) (reg : Nat → V) (hg : GoodStages p inp)
    (hk : KeepsEnabled p inp reg) (s : Nat) (hs : s + 1 < p.n) :
    ∀ t, Between p inp reg s t := by
  intro t
  induction t with
  | zero => exact ⟨by simp [pipeRun, PipeSt.start], by simp [results, loads, pipeRun, PipeSt.start],
      by simp [finishes, starts, pipeRun, PipeSt.start]⟩
  | succ t ih =>
    obtain ⟨ihi, ihv, ihc⟩ := ih
    have hdis := hk t
    have hI := pipeComb_inv p (inp t) (pipeRun p inp reg t)
    have hreg1 : p.first ≤ s → (pipeStep p (inp t) (pipeRun p inp reg t)).reg (s + 1) =
        if (pipeComb p (inp t) (pipeRun p inp reg t)).started (s + 1) then
          dReg p (inp t) (pipeRun p inp reg t) s else dReg p (inp t) (pipeRun p inp reg t) (s + 1) := by
      intro hf
      have := reg_step (p := p) (i := inp t) (q := pipeRun p inp reg t) (s := s + 1) (by omega) hs
        (hg.entry _ hs) (fun x => hg.next t (s + 1) x hs)
      simpa using this
    have hreg0 : (pipeComb p (inp t) (pipeRun p inp reg t)).started s = false → p.first ≤ s →
        (pipeStep p (inp t) (pipeRun p inp reg t)).reg s = dReg p (inp t) (pipeRun p inp reg t) s := by
      intro h hf
      by_cases e : p.first = s
      · simp [pipeStep, e]
      · rw [reg_step (by omega) (by omega) (hg.entry _ (by omega)) (fun x => hg.next t s x (by omega)), h]
        simp
    have hs1 := hI.hiStarted (s + 1) (by omega) hs
    have hs0 := hI.hiStarted s (by omega) (by omega)
    have hidx := hI.hiIdx s (by omega) (by omega)
    have hfull := hI.hiFull s (by omega) (by omega)
    have hent := hg.entry s (by omega)
    have hlast := hg.last s (by omega)
    have hnx := hg.next t s
    have cs := stage_cases p (inp t) (pipeRun p inp reg t) s hlast
    have eidx : (pipeRun p inp reg (t + 1)).idx s = (pipeComb p (inp t) (pipeRun p inp reg t)).idx s := rfl
    have efull : (pipeRun p inp reg (t + 1)).full s = (pipeComb p (inp t) (pipeRun p inp reg t)).full s := rfl
    have ereg : (pipeRun p inp reg (t + 1)).reg = (pipeStep p (inp t) (pipeRun p inp reg t)).reg := rfl
    have eres : results p inp reg s (t + 1) = results p inp reg s t ++
      if finishesIn p inp reg s t then [dReg p (inp t) (pipeRun p inp reg t) s] else [] := rfl
    have eload : p.first ≤ s → loads p inp reg (s + 1) (t + 1) = loads p inp reg (s + 1) t ++
      if (pipeComb p (inp t) (pipeRun p inp reg t)).started (s + 1) then
        [dReg p (inp t) (pipeRun p inp reg t) s] else [] := by
      intro hf
      simp only [loads, startsIn, ereg, hreg1 hf]
      split <;> rfl
    have efin : finishes p inp reg s (t + 1) = finishes p inp reg s t +
      if finishesIn p inp reg s t then 1 else 0 := rfl
    have esta : starts p inp reg (s + 1) (t + 1) = starts p inp reg (s + 1) t +
      if (pipeComb p (inp t) (pipeRun p inp reg t)).started (s + 1) then 1 else 0 := rfl
    have hfin : finishesIn p inp reg s t = (executes (inp t) (pipeRun p inp reg t) s &&
      decide ((pipeRun p inp reg t).idx s = p.last s) && !(inp t).stall s) := rfl
    -- facts on the starts
    have hst1 : (pipeComb p (inp t) (pipeRun p inp reg t)).started (s + 1) = true →
        codeFull p (inp t) (pipeRun p inp reg t) s = true ∧
        stalls p (inp t) (pipeRun p inp reg t) s = false := by
      intro h
      rw [h] at hs1
      have := (startCond_true hs1.symm).2.1 (by omega)
      simpa using this
    have hst0 : (pipeComb p (inp t) (pipeRun p inp reg t)).started s = true →
        codeFull p (inp t) (pipeRun p inp reg t) s = true →
        (pipeComb p (inp t) (pipeRun p inp reg t)).started (s + 1) = true := by
      intro h hf
      rw [h] at hs0
      exact (startCond_true hs0.symm).2.2.1 (by omega) hf
    have hst0i : (pipeComb p (inp t) (pipeRun p inp reg t)).started s = true →
        ((pipeRun p inp reg t).idx s = p.last s ∨ (pipeRun p inp reg t).idx s = 0) := by
      intro h
      rw [h] at hs0
      exact (startCond_true hs0.symm).1
    refine ⟨?_, ?_, ?_⟩
    · rw [eidx, efull, hfull, hidx]
      intro h
      rw [Bool.and_eq_true, Bool.not_eq_true'] at h
      have hns : (pipeComb p (inp t) (pipeRun p inp reg t)).started s = false := by
        cases hb : (pipeComb p (inp t) (pipeRun p inp reg t)).started s with
        | false => rfl
        | true => have := hst0 hb h.1; rw [h.2] at this; cases this
      rw [hns]
      simp only [Bool.false_eq_true, if_false]
      rcases cs with c | c | c | c | c
      · left; exact c.2.2.2.2
      · right; exact c.2.2.2.2.2
      · left; exact c.2.2.2.2.2
      · left; exact c.2.2.2.2.2.2
      · exfalso
        rw [c.2.2.2.1] at h
        rcases ihi h.1 with h' | h'
        · exact c.1 h'
        · exact c.2.1 h'
    · intro hf
      rw [eres, ihv hf, eload hf, eidx, efull, hfull, hidx, ereg, hfin]
      cases hb1 : (pipeComb p (inp t) (pipeRun p inp reg t)).started (s + 1) with
      | true =>
        obtain ⟨hcf, hns⟩ := hst1 hb1
        rcases cs with c | c | c | c | c
        · have : dReg p (inp t) (pipeRun p inp reg t) s = (pipeRun p inp reg t).reg s := by
            simp [dReg, c.1, c.2.1, hlast.symm]
          rw [c.2.2.2.1] at hcf
          simp [c.1, c.2.1, hcf, this]
        · rw [c.2.2.1] at hns; cases hns
        · simp [c.1, c.2.1, c.2.2.2.1, hlast]
        · have hx := hdis c.2.2.2.1 (by rw [← c.2.2.1]; exact c.1)
          rw [c.2.2.2.2.2.1, c.2.2.1, hx] at hcf; cases hcf
        · exfalso
          rw [c.2.2.2.1] at hcf
          rcases ihi hcf with h' | h'
          · exact c.1 h'
          · exact c.2.1 h'
      | false =>
        cases hcf : codeFull p (inp t) (pipeRun p inp reg t) s with
        | true =>
          have hns : (pipeComb p (inp t) (pipeRun p inp reg t)).started s = false := by
            cases hb : (pipeComb p (inp t) (pipeRun p inp reg t)).started s with
            | false => rfl
            | true => have := hst0 hb hcf; rw [hb1] at this; cases this
          rw [hreg0 hns hf, hns]
          rcases cs with c | c | c | c | c
          · have : dReg p (inp t) (pipeRun p inp reg t) s = (pipeRun p inp reg t).reg s := by
              simp [dReg, c.1, c.2.1, hlast.symm]
            rw [c.2.2.2.1] at hcf
            simp [c.1, c.2.1, c.2.2.2.2, hcf, this]
          · simp [c.1, c.2.1, c.2.2.2.1, c.2.2.2.2.2, hlast]
          · simp [c.1, c.2.1, c.2.2.2.1, c.2.2.2.2.2, hlast]
          · have hx := hdis c.2.2.2.1 (by rw [← c.2.2.1]; exact c.1)
            rw [c.2.2.2.2.2.1, c.2.2.1, hx] at hcf; cases hcf
          · exfalso
            rw [c.2.2.2.1] at hcf
            rcases ihi hcf with h' | h'
            · exact c.1 h'
            · exact c.2.1 h'
        | false =>
          rcases cs with c | c | c | c | c
          · rw [c.2.2.2.1] at hcf
            simp [c.2.1, hcf]
          · rw [c.2.2.2.2.1] at hcf; cases hcf
          · rw [c.2.2.2.2.1] at hcf; cases hcf
          · simp [c.1, c.2.1, hlast]
          · simp [c.1, c.2.1]
    · rw [efin, ihc, esta, eidx, efull, hfull, hidx, hfin]
      cases hb1 : (pipeComb p (inp t) (pipeRun p inp reg t)).started (s + 1) with
      | true =>
        obtain ⟨hcf, hns⟩ := hst1 hb1
        rcases cs with c | c | c | c | c
        · rw [c.2.2.2.1] at hcf
          simp [c.1, c.2.1, hcf]
        · rw [c.2.2.1] at hns; cases hns
        · simp [c.1, c.2.1, c.2.2.2.1, hlast]
        · have hx := hdis c.2.2.2.1 (by rw [← c.2.2.1]; exact c.1)
          rw [c.2.2.2.2.2.1, c.2.2.1, hx] at hcf; cases hcf
        · exfalso
          rw [c.2.2.2.1] at hcf
          rcases ihi hcf with h' | h'
          · exact c.1 h'
          · exact c.2.1 h'
      | false =>
        cases hcf : codeFull p (inp t) (pipeRun p inp reg t) s with
        | true =>
          have hns : (pipeComb p (inp t) (pipeRun p inp reg t)).started s = false := by
            cases hb : (pipeComb p (inp t) (pipeRun p inp reg t)).started s with
            | false => rfl
            | true => have := hst0 hb hcf; rw [hb1] at this; cases this
          rw [hns]
          rcases cs with c | c | c | c | c
          · rw [c.2.2.2.1] at hcf
            simp [c.1, c.2.1, c.2.2.2.2, hcf]
          · simp [c.1, c.2.1, c.2.2.2.1, c.2.2.2.2.2, hlast]
          · simp [c.1, c.2.1, c.2.2.2.1, c.2.2.2.2.2, hlast]
          · have hx := hdis c.2.2.2.1 (by rw [← c.2.2.1]; exact c.1)
            rw [c.2.2.2.2.2.1, c.2.2.1, hx] at hcf; cases hcf
          · exfalso
            rw [c.2.2.2.1] at hcf
            rcases ihi hcf with h' | h'
            · exact c.1 h'
            · exact c.2.1 h'
        | false =>
          rcases cs with c | c | c | c | c
          · rw [c.2.2.2.1] at hcf
            simp [c.2.1, hcf]
          · rw [c.2.2.2.2.1] at hcf; cases hcf
          · rw [c.2.2.2.2.1] at hcf; cases hcf
          · simp [c.1, c.2.1, hlast]
          · simp [c.1, c.2.1]

/-- Inside a stage: an item that starts is worked on until it finishes, one at a time. -/
theorem inside (p : Pipe) (inp : Nat → PipeIn V) (reg : Nat → V) (hg : GoodStages p inp)
    (s : Nat) (hs : s < p.n) (hd : s = 0 → ∀ t, (inp t).disable = false) :
    ∀ t, starts p inp reg s t = finishes p inp reg s t +
      if (pipeRun p inp reg t).idx s = 0 then 0 else 1 := by
  intro t
  induction t with
  | zero => simp [starts, finishes, pipeRun, PipeSt.start]
  | succ t ih =>
    have hI := pipeComb_inv p (inp t) (pipeRun p inp reg t)
    have hs0 := hI.hiStarted s (by omega) hs
    have hidx := hI.hiIdx s (by omega) hs
    have hent := hg.entry s hs
    have hlast := hg.last s hs
    have hnx := hg.next t s
    have cs := stage_cases p (inp t) (pipeRun p inp reg t) s hlast
    have eidx : (pipeRun p inp reg (t + 1)).idx s = (pipeComb p (inp t) (pipeRun p inp reg t)).idx s := rfl
    have efin : finishes p inp reg s (t + 1) = finishes p inp reg s t +
      if finishesIn p inp reg s t then 1 else 0 := rfl
    have esta : starts p inp reg s (t + 1) = starts p inp reg s t +
      if (pipeComb p (inp t) (pipeRun p inp reg t)).started s then 1 else 0 := rfl
    have hfin : finishesIn p inp reg s t = (executes (inp t) (pipeRun p inp reg t) s &&
      decide ((pipeRun p inp reg t).idx s = p.last s) && !(inp t).stall s) := rfl
    rw [efin, esta, eidx, hidx, hfin, ih]
    cases hb : (pipeComb p (inp t) (pipeRun p inp reg t)).started s with
    | true =>
      rw [hb] at hs0
      obtain ⟨h1, -, -, h4⟩ := startCond_true hs0.symm
      rcases cs with c | c | c | c | c
      · simp [c.1, c.2.1, hent]
      · rw [c.2.2.1] at h4; cases h4
      · simp [c.1, c.2.1, c.2.2.2.1, hlast, hent]
      · have := hd c.2.2.1 t; rw [c.2.2.2.1] at this; cases this
      · rcases h1 with h1 | h1
        · exact absurd h1 c.2.1
        · exact absurd h1 c.1
    | false =>
      rcases cs with c | c | c | c | c
      · simp [c.1, c.2.1, c.2.2.2.2]
      · simp [c.1, c.2.1, c.2.2.2.1, c.2.2.2.2.2, hlast]
      · simp [c.1, c.2.1, c.2.2.2.1, c.2.2.2.2.2, hlast]
      · have := hd c.2.2.1 t; rw [c.2.2.2.1] at this; cases this
      · have hn := (hnx _ hs c.1 c.2.1).1
        have : codeIdx p (inp t) (pipeRun p inp reg t) s ≠ 0 := by
          rw [c.2.2.2.2]
          split
          · exact hn
          · exact c.1
        simp [c.1, c.2.1, this]

/-- The item in a stage keeps whatever the stage's code does not change (`g`). -/
theorem inside_vals {K : Type} (g : V → K) (p : Pipe) (inp : Nat → PipeIn V) (reg : Nat → V)
    (hg : GoodStages p inp) (s : Nat) (hf : p.first < s) (hs : s < p.n)
    (hw : ∀ t v, g ((inp t).work s v) = g v) :
    ∀ t, (loads p inp reg s t).map g = (results p inp reg s t).map g ++
      if (pipeRun p inp reg t).idx s = 0 then [] else [g ((pipeRun p inp reg t).reg s)] := by
  intro t
  induction t with
  | zero => simp [loads, results, pipeRun, PipeSt.start]
  | succ t ih =>
    have hI := pipeComb_inv p (inp t) (pipeRun p inp reg t)
    have hs0 := hI.hiStarted s (by omega) hs
    have hidx := hI.hiIdx s (by omega) hs
    have hent := hg.entry s hs
    have hlast := hg.last s hs
    have hnx := hg.next t s
    have cs := stage_cases p (inp t) (pipeRun p inp reg t) s hlast
    have hreg := reg_step (p := p) (i := inp t) (q := pipeRun p inp reg t) hf hs hent
      (fun x => hg.next t s x hs)
    have eidx : (pipeRun p inp reg (t + 1)).idx s = (pipeComb p (inp t) (pipeRun p inp reg t)).idx s := rfl
    have ereg : (pipeRun p inp reg (t + 1)).reg s = (pipeStep p (inp t) (pipeRun p inp reg t)).reg s := rfl
    have eres : results p inp reg s (t + 1) = results p inp reg s t ++
      if finishesIn p inp reg s t then [dReg p (inp t) (pipeRun p inp reg t) s] else [] := rfl
    have eload : loads p inp reg s (t + 1) = loads p inp reg s t ++
      if (pipeComb p (inp t) (pipeRun p inp reg t)).started s then
        [(pipeStep p (inp t) (pipeRun p inp reg t)).reg s] else [] := rfl
    have hfin : finishesIn p inp reg s t = (executes (inp t) (pipeRun p inp reg t) s &&
      decide ((pipeRun p inp reg t).idx s = p.last s) && !(inp t).stall s) := rfl
    have hd : g (dReg p (inp t) (pipeRun p inp reg t) s) = g ((pipeRun p inp reg t).reg s) := by
      unfold dReg
      rw [if_neg (by omega)]
      split
      · exact hw t _
      · rfl
    rw [eres, eload, eidx, hidx, ereg, hreg, hfin, List.map_append, List.map_append, ih]
    cases hb : (pipeComb p (inp t) (pipeRun p inp reg t)).started s with
    | true =>
      rw [hb] at hs0
      obtain ⟨h1, -, -, h4⟩ := startCond_true hs0.symm
      rcases cs with c | c | c | c | c
      · simp [c.1, c.2.1, hent]
      · rw [c.2.2.1] at h4; cases h4
      · simp [c.1, c.2.1, c.2.2.2.1, hlast, hent, hd]
      · omega
      · rcases h1 with h1 | h1
        · exact absurd h1 c.2.1
        · exact absurd h1 c.1
    | false =>
      rcases cs with c | c | c | c | c
      · simp [c.1, c.2.1, c.2.2.2.2]
      · simp [c.1, c.2.1, c.2.2.2.1, c.2.2.2.2.2, hlast, hd]
      · simp [c.1, c.2.1, c.2.2.2.1, c.2.2.2.2.2, hlast, hd]
      · omega
      · have hn := (hnx _ hs c.1 c.2.1).1
        have : codeIdx p (inp t) (pipeRun p inp reg t) s ≠ 0 := by
          rw [c.2.2.2.2]
          split
          · exact hn
          · exact c.1
        simp [c.1, c.2.1, this, hd]

end Silice
