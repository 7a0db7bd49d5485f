import Verif.Spec.FormalModes
import Mathlib.Data.List.Perm.Subperm

/-!
# C43: modes of formal verification
-/

set_option autoImplicit false

namespace Silice

theorem gatherModes_known {mods : List (List String)} {l : List String} (h : gatherModes mods = some l) :
    ∀ m ∈ l, m = "bmc" ∨ m = "tind" ∨ m = "cover" := by
  unfold gatherModes at h
  split_ifs at h with h1 h2
  · injection h with h
    subst h
    simp
  · injection h with h
    subst h
    intro m hm
    have := List.all_eq_true.mp h1 m hm
    simp only [Bool.or_eq_true, beq_iff_eq] at this
    tauto

theorem dropRepeats_nodup {l : List String} (h : l.Nodup) : dropRepeats l = l := by
  induction l with
  | nil => rfl
  | cons a l ih =>
    cases l with
    | nil => rfl
    | cons b l =>
      have hab : a ≠ b := by
        intro hab
        subst hab
        simp at h
      rw [dropRepeats, if_neg hab, ih (List.nodup_cons.mp h).2]

theorem uniqueLeaves_nodup {l l' : List String} (h : l.Nodup) : UniqueLeaves l l' ↔ l' = l := by
  unfold UniqueLeaves
  rw [dropRepeats_nodup h]
  constructor
  · rintro ⟨tail, rfl, hl⟩
    have : tail.length = 0 := by simpa using hl
    rw [List.length_eq_zero_iff] at this
    simp [this]
  · rintro rfl
    exact ⟨[], by simp, rfl⟩

theorem sortDefined_nodup {l : List String} (h : l.Nodup) (hk : ∀ m ∈ l, m = "bmc" ∨ m = "tind" ∨ m = "cover") :
    SortDefined l := by
  refine ⟨?_, ?_, ?_⟩
  · intro i j a b hij ha hb ⟨h1, h2⟩
    have hne : a ≠ b := by
      rintro rfl
      obtain ⟨hi, rfl⟩ := List.getElem?_eq_some_iff.mp ha
      obtain ⟨hj, hh⟩ := List.getElem?_eq_some_iff.mp hb
      exact hij ((List.getElem_inj h).mp hh.symm)
    have ka := hk a (List.mem_of_getElem? ha)
    have kb := hk b (List.mem_of_getElem? hb)
    rcases ka with rfl | rfl | rfl <;> rcases kb with rfl | rfl | rfl <;> simp_all [modeLess]
  · intro a ha b hb c hc hab hbc hac h1 h2
    rcases hk a ha with rfl | rfl | rfl <;> rcases hk b hb with rfl | rfl | rfl <;> simp_all [modeLess]
  · intro a ha b hb c hc hab hbc hac h1 h2 h3 h4
    rcases hk a ha with rfl | rfl | rfl <;> rcases hk b hb with rfl | rfl | rfl <;> simp_all [modeLess]

theorem modesToRun_perm {l : List String} (h : l.Nodup) (hk : ∀ m ∈ l, m = "bmc" ∨ m = "tind" ∨ m = "cover") :
    (modesToRun l).Perm l := by
  have hn : (modesToRun l).Nodup := List.Pairwise.filter _ (by decide +kernel)
  have h1 := List.Nodup.subperm hn (l₂ := l) (by
    intro m hm
    have := (List.mem_filter.mp hm).2
    simpa using this)
  have h2 := List.Nodup.subperm h (l₂ := modesToRun l) (by
    intro m hm
    refine List.mem_filter.mpr ⟨?_, by simpa using hm⟩
    rcases hk m hm with rfl | rfl | rfl <;> simp)
  exact h1.antisymm h2

/-- Two orderings of the same distinct modes, none less than an earlier one, are the same. -/
theorem sortLeaves_unique {r r' : List String} (hp : r.Perm r') (hn : r.Nodup)
    (hk : ∀ m ∈ r, m = "bmc" ∨ m = "tind" ∨ m = "cover")
    (h : r.Pairwise fun a b => modeLess b a = false) (h' : r'.Pairwise fun a b => modeLess b a = false) : r = r' := by
  induction r generalizing r' with
  | nil => exact (List.Perm.nil_eq hp)
  | cons a r ih =>
    cases r' with
    | nil => exact absurd (List.Perm.length_eq hp) (by simp)
    | cons b r' =>
      have hab : a = b := by
        by_contra hne
        have ha : a ∈ r' := by
          have := hp.subset (List.mem_cons_self .. : a ∈ a :: r)
          rcases List.mem_cons.mp this with h1 | h1
          · exact absurd h1 hne
          · exact h1
        have hb : b ∈ r := by
          have := hp.symm.subset (List.mem_cons_self .. : b ∈ b :: r')
          rcases List.mem_cons.mp this with h1 | h1
          · exact absurd h1.symm hne
          · exact h1
        have h1 := (List.pairwise_cons.mp h).1 b hb
        have h2 := (List.pairwise_cons.mp h').1 a ha
        have k1 := hk a (List.mem_cons_self ..)
        have k2 := hk b (List.mem_cons_of_mem _ hb)
        rcases k1 with rfl | rfl | rfl <;> rcases k2 with rfl | rfl | rfl <;> simp_all [modeLess]
      subst hab
      rw [ih ((List.perm_cons a).mp hp) (List.nodup_cons.mp hn).2 (fun m hm => hk m (List.mem_cons_of_mem _ hm))
        (List.pairwise_cons.mp h).2 (List.pairwise_cons.mp h').2]

/-- C43, partial: when no mode is requested twice, the outcome is always defined, and is each requested mode once in the
order bmc, tind, cover. The full statement is about all requests; see `C43_counterexample_duplicates`. -/
theorem C43_order_partial (mods : List (List String)) (l : List String) (h : gatherModes mods = some l) (hn : l.Nodup)
    (o : Option (List String)) : ModesOutcome l o ↔ o = some (modesToRun l) := by
  have hk := gatherModes_known h
  have hd := sortDefined_nodup hn hk
  have hp := modesToRun_perm hn hk
  have hsort : (modesToRun l).Pairwise fun a b => modeLess b a = false :=
    List.Pairwise.filter _ (by decide +kernel)
  constructor
  · intro ho
    cases ho with
    | @sorted m r h1 _ h3 =>
      rw [uniqueLeaves_nodup hn] at h1
      subst h1
      have hr : r.Nodup := h3.1.nodup_iff.mpr hn
      rw [sortLeaves_unique (h3.1.trans hp.symm) hr (fun x hx => hk x (h3.1.subset hx)) h3.2 hsort]
    | @undef m h1 h2 =>
      rw [uniqueLeaves_nodup hn] at h1
      subst h1
      exact absurd hd h2
  · rintro rfl
    exact .sorted ((uniqueLeaves_nodup hn).mpr rfl) hd ⟨hp, hsort⟩

/-- C43 is false for every request with a mode given twice: whatever is run, it is not each requested mode once. -/
theorem C43_counterexample_duplicates (mods : List (List String)) (l : List String) (_h : gatherModes mods = some l)
    (hn : ¬ l.Nodup) : ¬ ModesOutcome l (some (modesToRun l)) := by
  intro ho
  cases ho with
  | @sorted m r h1 _ h3 =>
    obtain ⟨tail, hm, hlen⟩ := h1
    have hlen' : (modesToRun l).length = l.length := (List.Perm.length_eq h3.1).trans hlen
    have hnd : (modesToRun l).Nodup := List.Pairwise.filter _ (by decide +kernel)
    have hsub := List.Nodup.subperm hnd (l₂ := l) (by
      intro m hm
      have := (List.mem_filter.mp hm).2
      simpa using this)
    have := hsub.perm_of_length_le (le_of_eq hlen'.symm)
    exact hn (this.nodup_iff.mp hnd)

/-- C43: unknown modes are refused, and a unit that requests nothing gets `bmc`. -/
theorem C43_known (mods : List (List String)) :
    (gatherModes mods = none ↔ ∃ ms ∈ mods, ∃ m ∈ ms, m ≠ "bmc" ∧ m ≠ "tind" ∧ m ≠ "cover") ∧
    ((∀ ms ∈ mods, ms = []) → gatherModes mods = some ["bmc"]) := by
  constructor
  · unfold gatherModes
    by_cases h : (mods.flatten.all (fun m => m == "bmc" || m == "tind" || m == "cover")) = true
    · rw [if_pos h]
      simp only [reduceCtorEq, false_iff]
      rintro ⟨ms, h1, m, h2, h3, h4, h5⟩
      have := List.all_eq_true.mp h m (List.mem_flatten.mpr ⟨ms, h1, h2⟩)
      simp [h3, h4, h5] at this
    · rw [if_neg h]
      simp only [true_iff]
      rw [List.all_eq_true] at h
      push Not at h
      obtain ⟨m, hm, hf⟩ := h
      obtain ⟨ms, h1, h2⟩ := List.mem_flatten.mp hm
      simp only [ne_eq, Bool.or_eq_true, beq_iff_eq, not_or] at hf
      exact ⟨ms, h1, m, h2, hf.1.1, hf.1.2, hf.2⟩
  · intro h
    have : mods.flatten = [] := by
      rw [List.flatten_eq_nil_iff]
      exact h
    simp [gatherModes, this]

/-- A request in another order, over two modifiers. -/
example : gatherModes [["cover"], ["tind", "bmc"]] = some ["cover", "tind", "bmc"] ∧
    ["cover", "tind", "bmc"].Nodup ∧ modesToRun ["cover", "tind", "bmc"] = ["bmc", "tind", "cover"] := by
  decide +kernel

/-- `tind` twice. -/
example : gatherModes [["tind"], ["tind"]] = some ["tind", "tind"] ∧ ¬ ["tind", "tind"].Nodup := by decide +kernel

/-- `bmc` given first, second and third: sorting has undefined behaviour whenever the unspecified elements are left as they
were, which is what common implementations do here. -/
theorem C43_counterexample_undefined : ModesOutcome ["bmc", "bmc", "bmc"] none := by
  refine .undef (m := ["bmc", "bmc", "bmc"]) ⟨["bmc", "bmc"], by decide +kernel, rfl⟩ ?_
  intro h
  exact h.1 0 1 "bmc" "bmc" (by simp) rfl rfl (by decide +kernel)

end Silice
