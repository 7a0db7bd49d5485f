import Verif.Spec.Padded
import Verif.Lemmas.Started

/-! # Lemmas about the last state of a pipeline stage -/

set_option autoImplicit false

namespace Silice

mutual
theorem back_oneCycle : ∀ (b : StCode), b.pipes = [] → (b.back = false ↔ b.oneCycle = true)
  | .fin, _ => by simp [StCode.back, StCode.oneCycle]
  | .leave _, _ => by simp [StCode.back, StCode.oneCycle]
  | .stmt k, h => by
    simp only [StCode.back, StCode.oneCycle]
    exact back_oneCycle k h
  | .pipe p k, h => by simp [StCode.pipes] at h
  | .ite c t e k, h => by
    simp only [StCode.pipes, List.append_eq_nil_iff] at h
    simp only [StCode.back, StCode.oneCycle, Bool.or_eq_false_iff, Bool.and_eq_true, back_oneCycle t h.1,
      back_oneCycle e h.2.1, back_oneCycle k h.2.2]
  | .switch s cs k, h => by
    simp only [StCode.pipes, List.append_eq_nil_iff] at h
    simp only [StCode.back, StCode.oneCycle, Bool.or_eq_false_iff, Bool.and_eq_true, cases_back_oneCycle cs h.1,
      back_oneCycle k h.2]
theorem cases_back_oneCycle : ∀ (cs : StCases), cs.pipes = [] → (cs.back = false ↔ cs.oneCycle = true)
  | .nil, _ => by simp [StCases.back, StCases.oneCycle]
  | .cons x b cs, h => by
    simp only [StCases.pipes, List.append_eq_nil_iff] at h
    simp only [StCases.back, StCases.oneCycle, Bool.or_eq_false_iff, Bool.and_eq_true, back_oneCycle b h.1,
      cases_back_oneCycle cs h.2]
end

theorem afterFirst_ite : ∀ {b k : StCode}, b.afterFirst = some k → ∃ c t e,
    b = .ite c t e k ∨ b = .stmt (.ite c t e k)
  | .fin, k, h => by simp [StCode.afterFirst] at h
  | .leave _, k, h => by simp [StCode.afterFirst] at h
  | .pipe _ _, k, h => by simp [StCode.afterFirst] at h
  | .switch _ _ _, k, h => by simp [StCode.afterFirst] at h
  | .ite c t e k', k, h => by
    simp only [StCode.afterFirst, Option.some.injEq] at h
    exact ⟨c, t, e, .inl (by rw [h])⟩
  | .stmt (.ite c t e k'), k, h => by
    simp only [StCode.afterFirst, Option.some.injEq] at h
    exact ⟨c, t, e, .inr (by rw [h])⟩
  | .stmt .fin, k, h => by simp [StCode.afterFirst] at h
  | .stmt (.leave _), k, h => by simp [StCode.afterFirst] at h
  | .stmt (.stmt _), k, h => by simp [StCode.afterFirst] at h
  | .stmt (.pipe _ _), k, h => by simp [StCode.afterFirst] at h
  | .stmt (.switch _ _ _), k, h => by simp [StCode.afterFirst] at h

theorem afterFirst_tailOf {b k : StCode} (h : b.afterFirst = some k) : b.tailOf = some k := by
  obtain ⟨c, t, e, rfl | rfl⟩ := afterFirst_ite h <;> rfl

theorem ite_suffix (c : Nat) (t e k : StCode) (v : TestVals) (h : ((StCode.ite c t e k).flow v).2 = true) :
    (k.flow v).2 = true ∧ (k.flow v).1 <:+ ((StCode.ite c t e k).flow v).1 := by
  simp only [StCode.flow] at h ⊢
  split_ifs at h ⊢ <;> simp_all

theorem pad_suffix {s s' : StState} (h : s.pad = some s') (v : TestVals) (hd : s.done v = true) :
    s'.done v = true ∧ s'.reached v <:+ s.reached v := by
  cases s with
  | code b =>
    simp only [StState.pad] at h
    by_cases hb : b.back = true
    · rw [if_pos hb] at h
      simp only [Option.map_eq_some_iff] at h
      obtain ⟨k, hk, rfl⟩ := h
      obtain ⟨c, t, e, rfl | rfl⟩ := afterFirst_ite hk
      · exact ite_suffix c t e k v hd
      · simp only [StState.done, StState.reached, StCode.flow.eq_def (v := v) (.stmt _)] at hd ⊢
        exact ite_suffix c t e k v hd
    · rw [if_neg hb] at h
      cases h
      exact ⟨hd, List.suffix_refl _⟩
  | loop c body after split =>
    simp only [StState.pad, Option.some.injEq] at h
    subst h
    simp only [StState.done] at hd
    by_cases hv : v c ≠ 0
    · simp [hv] at hd
    · have hv0 : v c = 0 := by simpa using hv
      cases split
      · simp only [hv0, ne_eq, not_true_eq_false, if_false, Bool.not_false, Bool.true_and] at hd
        exact ⟨hd, by simp [StState.reached, hv0]⟩
      · simp [hv0] at hd

theorem pad_done {s s' : StState} (hp : s.pipes = []) (hr : ∀ k, s.rest = some k → k.oneCycle = true)
    (h : s.pad = some s') (v : TestVals) : s'.done v = true := by
  cases s with
  | code b =>
    simp only [StState.pad] at h
    simp only [StState.pipes] at hp
    by_cases hb : b.back = true
    · have hc : b.oneCycle = false := by
        by_contra hc
        have := (back_oneCycle b hp).2 (by simpa using hc)
        rw [this] at hb
        exact absurd hb (by decide)
      rw [if_pos hb] at h
      simp only [Option.map_eq_some_iff] at h
      obtain ⟨k, hk, rfl⟩ := h
      exact oneCycle_flow k v (hr k (by simp [StState.rest, hc, afterFirst_tailOf hk]))
    · rw [if_neg hb] at h
      cases h
      exact oneCycle_flow b v ((back_oneCycle b hp).1 (by simpa using hb))
  | loop c body after split =>
    simp only [StState.pad, Option.some.injEq] at h
    subst h
    exact oneCycle_flow after v (hr after rfl)

end Silice
