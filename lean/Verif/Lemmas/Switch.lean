import Verif.Spec.Switch
import Mathlib.Data.List.Nodup
import Mathlib.Data.List.Perm.Subperm

set_option autoImplicit false

namespace Silice

theorem find_default {β : Type} : ∀ (cases : List (Option CaseVal × β)),
    (∃ b, (none, b) ∈ cases ∧ ((writeSwitch cases).find? (fun it => it.1.isNone)).map Prod.snd = some b) ∨
    ((∀ b, (none, b) ∉ cases) ∧ ((writeSwitch cases).find? (fun it => it.1.isNone)).map Prod.snd = none)
  | [] => .inr ⟨fun b h => (by cases h), rfl⟩
  | (none, b) :: cs => .inl ⟨b, List.mem_cons_self, by simp [writeSwitch]⟩
  | (some v, b) :: cs => by
    have e : ((writeSwitch ((some v, b) :: cs)).find? (fun it => it.1.isNone)) = ((writeSwitch cs).find? (fun it => it.1.isNone)) := by simp [writeSwitch]
    rcases find_default cs with ⟨b', h1, h2⟩ | ⟨h1, h2⟩
    · exact .inl ⟨b', List.mem_cons_of_mem _ h1, by rw [e, h2]⟩
    · refine .inr ⟨?_, by rw [e, h2]⟩
      intro b' h
      rcases List.mem_cons.mp h with h | h
      · cases h
      · exact h1 b' h

theorem find_case {β : Type} (is : CaseVal → Prop) (p : CaseLit → Bool) : ∀ (cases : List (Option CaseVal × β)),
    (∀ v b, (some v, b) ∈ cases → (p (gatherCase v) = true ↔ is v)) →
    (∃ pre v b post, cases = pre ++ (some v, b) :: post ∧ is v ∧ (∀ v' b', (some v', b') ∈ pre → ¬ is v') ∧
      (writeSwitch cases).find? (fun it => match it.1 with | some l => p l | none => false) = some (some (gatherCase v), b)) ∨
    ((∀ v b, (some v, b) ∈ cases → ¬ is v) ∧ (writeSwitch cases).find? (fun it => match it.1 with | some l => p l | none => false) = none)
  | [], _ => .inr ⟨fun v b h => (by cases h), rfl⟩
  | (none, b) :: cs, h => by
    have e : (writeSwitch ((none, b) :: cs)).find? (fun it => match it.1 with | some l => p l | none => false) =
        (writeSwitch cs).find? (fun it => match it.1 with | some l => p l | none => false) := by simp [writeSwitch]
    rcases find_case is p cs (fun v b' hv => h v b' (List.mem_cons_of_mem _ hv)) with ⟨pre, v, b', post, h1, h2, h3, h4⟩ | ⟨h1, h2⟩
    · refine .inl ⟨(none, b) :: pre, v, b', post, by rw [h1]; rfl, h2, ?_, by rw [e, h4]⟩
      intro v' b'' hv
      rcases List.mem_cons.mp hv with hv | hv
      · cases hv
      · exact h3 v' b'' hv
    · refine .inr ⟨?_, by rw [e, h2]⟩
      intro v b' hv
      rcases List.mem_cons.mp hv with hv | hv
      · cases hv
      · exact h1 v b' hv
  | (some v, b) :: cs, h => by
    have hv := h v b List.mem_cons_self
    by_cases hp : p (gatherCase v) = true
    · exact .inl ⟨[], v, b, cs, rfl, hv.mp hp, fun _ _ hh => (by cases hh), by simp [writeSwitch, hp]⟩
    · have hn : ¬ is v := fun hi => hp (hv.mpr hi)
      have e : (writeSwitch ((some v, b) :: cs)).find? (fun it => match it.1 with | some l => p l | none => false) =
          (writeSwitch cs).find? (fun it => match it.1 with | some l => p l | none => false) := by simp [writeSwitch, hp]
      rcases find_case is p cs (fun v b' hv => h v b' (List.mem_cons_of_mem _ hv)) with ⟨pre, v', b', post, h1, h2, h3, h4⟩ | ⟨h1, h2⟩
      · refine .inl ⟨(some v, b) :: pre, v', b', post, by rw [h1]; rfl, h2, ?_, by rw [e, h4]⟩
        intro v'' b'' hm
        rcases List.mem_cons.mp hm with hm | hm
        · cases hm; exact hn
        · exact h3 v'' b'' hm
      · refine .inr ⟨?_, by rw [e, h2]⟩
        intro v'' b'' hm
        rcases List.mem_cons.mp hm with hm | hm
        · cases hm; exact hn
        · exact h1 v'' b'' hm

/-- Width and sign that the comparisons of a case statement use. -/
def cmpWidth {β : Type} (e : CaseExpr) (items : List (Option CaseLit × β)) : Nat := (labelsOf items).foldl (fun m l => max m l.width) e.width
/-- Sign of the comparisons. -/
def cmpSign {β : Type} (e : CaseExpr) (items : List (Option CaseLit × β)) : Bool := e.isSigned && (labelsOf items).all CaseLit.isSigned

theorem vcase_chosen {β : Type} (is : CaseVal → Prop) (e : CaseExpr) (cases : List (Option CaseVal × β))
    (h : ∀ v b, (some v, b) ∈ cases → (e.eval (cmpWidth e (writeSwitch cases)) (cmpSign e (writeSwitch cases)) =
      (gatherCase v).eval (cmpWidth e (writeSwitch cases)) (cmpSign e (writeSwitch cases)) ↔ is v)) : Chosen is cases (vcase e (writeSwitch cases)) := by
  have h' : ∀ v b, (some v, b) ∈ cases → ((e.eval (cmpWidth e (writeSwitch cases)) (cmpSign e (writeSwitch cases)) ==
      (gatherCase v).eval (cmpWidth e (writeSwitch cases)) (cmpSign e (writeSwitch cases))) = true ↔ is v) := by
    intro v b hv; rw [beq_iff_eq]; exact h v b hv
  have key := find_case is (fun l => e.eval (cmpWidth e (writeSwitch cases)) (cmpSign e (writeSwitch cases)) ==
      l.eval (cmpWidth e (writeSwitch cases)) (cmpSign e (writeSwitch cases))) cases h'
  have ev : vcase e (writeSwitch cases) =
      match (writeSwitch cases).find? (fun it => match it.1 with
        | some l => e.eval (cmpWidth e (writeSwitch cases)) (cmpSign e (writeSwitch cases)) == l.eval (cmpWidth e (writeSwitch cases)) (cmpSign e (writeSwitch cases))
        | none => false) with
      | some it => some it.2
      | none => ((writeSwitch cases).find? (fun it => it.1.isNone)).map Prod.snd := rfl
  rw [ev]
  rcases key with ⟨pre, v, b, post, h1, h2, h3, h4⟩ | ⟨h1, h2⟩
  · rw [h4]; exact .inl ⟨pre, v, b, post, h1, h2, h3, rfl⟩
  · rw [h2]
    refine .inr ⟨h1, ?_⟩
    rcases find_default cases with ⟨b, g1, g2⟩ | ⟨g1, g2⟩
    · exact .inl ⟨b, g1, g2⟩
    · exact .inr ⟨g1, g2⟩

theorem label_mem {β : Type} {cases : List (Option CaseVal × β)} {l : CaseLit} : l ∈ labelsOf (writeSwitch cases) ↔ ∃ v b, (some v, b) ∈ cases ∧ l = gatherCase v := by
  unfold labelsOf writeSwitch
  rw [List.mem_filterMap]
  constructor
  · rintro ⟨it, hi, he⟩
    obtain ⟨⟨o, b⟩, hc, rfl⟩ := List.mem_map.mp hi
    cases o with
    | none => cases he
    | some v => simp only [Option.map_some, Option.some.injEq] at he; exact ⟨v, b, hc, he.symm⟩
  · rintro ⟨v, b, hc, rfl⟩
    exact ⟨(some (gatherCase v), b), List.mem_map.mpr ⟨_, hc, rfl⟩, rfl⟩

theorem foldl_max_le : ∀ (ls : List CaseLit) (m : Nat), m ≤ ls.foldl (fun m l => max m l.width) m ∧ ∀ l ∈ ls, l.width ≤ ls.foldl (fun m l => max m l.width) m
  | [], m => ⟨Nat.le_refl _, fun _ h => (by cases h)⟩
  | l :: ls, m => by
    rw [List.foldl_cons]
    obtain ⟨h1, h2⟩ := foldl_max_le ls (max m l.width)
    refine ⟨Nat.le_trans (Nat.le_max_left _ _) h1, ?_⟩
    intro l' hl
    rcases List.mem_cons.mp hl with rfl | hl
    · exact Nat.le_trans (Nat.le_max_right _ _) h1
    · exact h2 l' hl

theorem foldl_max_eq (w : Nat) : ∀ (ls : List CaseLit) (m : Nat), (∀ l ∈ ls, l.width = w) → ls ≠ [] → ls.foldl (fun m l => max m l.width) m = max m w
  | [], _, _, h => absurd rfl h
  | [l], m, h, _ => by simp [h l List.mem_cons_self]
  | l :: l' :: ls, m, h, _ => by
    rw [List.foldl_cons, foldl_max_eq w (l' :: ls) _ (fun x hx => h x (List.mem_cons_of_mem _ hx)) (by simp), h l List.mem_cons_self]
    omega

theorem cmpWidth_ge {β : Type} (e : CaseExpr) {cases : List (Option CaseVal × β)} {v : CaseVal} {b : β} (h : (some v, b) ∈ cases) :
    (gatherCase v).width ≤ cmpWidth e (writeSwitch cases) ∧ e.width ≤ cmpWidth e (writeSwitch cases) :=
  ⟨(foldl_max_le _ _).2 _ (label_mem.mpr ⟨v, b, h, rfl⟩), (foldl_max_le _ _).1⟩

theorem fits_index {v : CaseVal} (h : v.Fits) : (gatherCase v).index = v.int := by
  cases v with
  | plain neg n => obtain ⟨rfl, _⟩ := h; rfl
  | sized neg w n =>
    obtain ⟨rfl, h⟩ := h
    simp [gatherCase, CaseLit.index, CaseLit.eval, CaseVal.int, Nat.mod_eq_of_lt h]
  | field ms => rfl

theorem fits_bitSet {v : CaseVal} (h : v.Fits) {w k : Nat} (hv : v.int < w) : bitSet w (2 ^ k) (gatherCase v) = true ↔ v.int = k := by
  unfold bitSet
  rw [fits_index h]
  have h0 : 0 ≤ v.int := by
    cases v with
    | plain neg n => obtain ⟨rfl, _⟩ := h; simp [CaseVal.int]
    | sized neg w n => obtain ⟨rfl, _⟩ := h; simp [CaseVal.int]
    | field ms => simp [CaseVal.int]
  obtain ⟨n, hn⟩ := Int.eq_ofNat_of_zero_le h0
  rw [hn] at hv ⊢
  have h1 : (0 : Int) ≤ (n : Int) := Int.natCast_nonneg n
  have h2 : (n : Int) < (w : Int) := hv
  simp only [h1, h2, decide_true, Bool.true_and, Int.toNat_natCast, Nat.testBit_two_pow, decide_eq_true_eq, Nat.cast_inj]
  exact eq_comm

theorem bitSet_zero (w : Nat) (l : CaseLit) : bitSet w 0 l = false := by simp [bitSet]

theorem oneHotSim_eq {β : Type} (w x : Nat) (items : List (Option CaseLit × β)) :
    oneHotSim w x items = match items.find? (fun it => match it.1 with | some l => bitSet w x l | none => false) with
      | some it => some it.2
      | none => (items.find? (fun it => it.1.isNone)).map Prod.snd := by
  have e : items.find? (fun it => match it.1 with | some l => bitSet w x l | none => false) =
      (items.filter (fun it => match it.1 with | some l => bitSet w x l | none => false)).head? := by rw [List.head?_filter]
  rw [e]
  unfold oneHotSim oneHotSet
  cases List.filter (fun it : Option CaseLit × β => match it.1 with | some l => bitSet w x l | none => false) items <;> rfl

theorem oneHotSim_chosen {β : Type} (is : CaseVal → Prop) (w x : Nat) (cases : List (Option CaseVal × β))
    (h : ∀ v b, (some v, b) ∈ cases → (bitSet w x (gatherCase v) = true ↔ is v)) : Chosen is cases (oneHotSim w x (writeSwitch cases)) := by
  rw [oneHotSim_eq]
  rcases find_case is (bitSet w x) cases h with ⟨pre, v, b, post, h1, h2, h3, h4⟩ | ⟨h1, h2⟩
  · rw [h4]; exact .inl ⟨pre, v, b, post, h1, h2, h3, rfl⟩
  · rw [h2]
    refine .inr ⟨h1, ?_⟩
    rcases find_default cases with ⟨b, g1, g2⟩ | ⟨g1, g2⟩
    · exact .inl ⟨b, g1, g2⟩
    · exact .inr ⟨g1, g2⟩

/-- At most one bit of cases is set when their numbers differ. -/
theorem oneHotSet_le {β : Type} {w k : Nat} : ∀ (cases : List (Option CaseVal × β)), (∀ v b, (some v, b) ∈ cases → v.Fits ∧ v.int < w) → (caseInts cases).Nodup →
    (oneHotSet w (2 ^ k) (writeSwitch cases)).length ≤ 1 ∧ ((k : Int) ∉ caseInts cases → oneHotSet w (2 ^ k) (writeSwitch cases) = [])
  | [], _, _ => by simp [oneHotSet, writeSwitch]
  | (none, b) :: cs, h, hn => by
    have ih := oneHotSet_le (k := k) cs (fun v b' hv => h v b' (List.mem_cons_of_mem _ hv)) (by simpa [caseInts] using hn)
    have e : oneHotSet w (2 ^ k) (writeSwitch ((none, b) :: cs)) = oneHotSet w (2 ^ k) (writeSwitch cs) := by simp [oneHotSet, writeSwitch]
    rw [e]
    exact ⟨ih.1, fun hh => ih.2 (by simpa [caseInts] using hh)⟩
  | (some v, b) :: cs, h, hn => by
    have e0 : caseInts ((some v, b) :: cs) = v.int :: caseInts cs := rfl
    rw [e0, List.nodup_cons] at hn
    have ih := oneHotSet_le (k := k) cs (fun v b' hv => h v b' (List.mem_cons_of_mem _ hv)) hn.2
    have hv := h v b List.mem_cons_self
    have hb := fits_bitSet (k := k) hv.1 hv.2
    have e : oneHotSet w (2 ^ k) (writeSwitch ((some v, b) :: cs)) =
        if bitSet w (2 ^ k) (gatherCase v) = true then (some (gatherCase v), b) :: oneHotSet w (2 ^ k) (writeSwitch cs) else oneHotSet w (2 ^ k) (writeSwitch cs) := by
      simp only [oneHotSet, writeSwitch, List.map_cons, Option.map_some, List.filter_cons]
    rw [e, e0]
    by_cases hi : v.int = k
    · rw [if_pos (hb.mpr hi)]
      have : oneHotSet w (2 ^ k) (writeSwitch cs) = [] := ih.2 (by rw [← hi]; exact hn.1)
      rw [this]
      refine ⟨by simp, fun hh => absurd ?_ hh⟩
      rw [hi]; exact List.mem_cons_self
    · rw [if_neg (fun hh => hi (hb.mp hh))]
      exact ⟨ih.1, fun hh => ih.2 (fun hm => hh (List.mem_cons_of_mem _ hm))⟩

theorem fits_nonneg {v : CaseVal} (h : v.Fits) : 0 ≤ v.int := by
  cases v with
  | plain neg n => obtain ⟨rfl, _⟩ := h; simp [CaseVal.int]
  | sized neg w n => obtain ⟨rfl, _⟩ := h; simp [CaseVal.int]
  | field ms => simp [CaseVal.int]

theorem caseInts_mem {β : Type} {cases : List (Option CaseVal × β)} {i : Int} : i ∈ caseInts cases ↔ ∃ v b, (some v, b) ∈ cases ∧ v.int = i := by
  unfold caseInts
  rw [List.mem_filterMap]
  constructor
  · rintro ⟨⟨o, b⟩, hc, he⟩
    cases o with
    | none => cases he
    | some v => exact ⟨v, b, hc, by simpa using he⟩
  · rintro ⟨v, b, hc, rfl⟩
    exact ⟨_, hc, rfl⟩

theorem caseInts_length {β : Type} : ∀ {cases : List (Option CaseVal × β)}, (∀ b, (none, b) ∉ cases) → (caseInts cases).length = cases.length
  | [], _ => rfl
  | (none, b) :: _, h => absurd List.mem_cons_self (h b)
  | (some v, b) :: cs, h => by
    show (caseInts cs).length + 1 = cs.length + 1
    rw [caseInts_length fun b hb => h b (List.mem_cons_of_mem _ hb)]

/-- As many distinct bits as there are bits: all of them. -/
theorem caseInts_full {β : Type} {w : Nat} {cases : List (Option CaseVal × β)} (h : ∀ v b, (some v, b) ∈ cases → v.Fits ∧ v.int < w) (hn : (caseInts cases).Nodup)
    (hl : (caseInts cases).length = w) {k : Nat} (hk : k < w) : (k : Int) ∈ caseInts cases := by
  have hsub : caseInts cases ⊆ (List.range w).map (fun n : Nat => (n : Int)) := by
    intro i hi
    obtain ⟨v, b, hv, rfl⟩ := caseInts_mem.mp hi
    obtain ⟨hf, hlt⟩ := h v b hv
    obtain ⟨n, hn⟩ := Int.eq_ofNat_of_zero_le (fits_nonneg hf)
    refine List.mem_map.mpr ⟨n, ?_, hn.symm⟩
    rw [List.mem_range]; omega
  have hp := (List.subperm_of_subset hn hsub).perm_of_length_le (by simp [hl])
  exact hp.symm.subset (List.mem_map.mpr ⟨k, List.mem_range.mpr hk, rfl⟩)

end Silice
