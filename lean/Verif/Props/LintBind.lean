import Verif.Model.LintBind
import Verif.Lemmas.LintCode
import Verif.Spec.LintCode
import Verif.Props.Binding

/-!
# C78: warnings on bindings

Bindings without a warning carry the numbers unchanged.
-/

set_option autoImplicit false

namespace Silice

/-- C78, partial: a port bound to an access (bits, member, table entry) without a warning carries every number
unchanged, in both directions. Missing: ports bound to a name, see the two theorems below. -/
theorem C78_bindings_partial (l r : TypeNfo) (h : lintBind (some l.bt) (some l.width) (.access ⟨some r.bt, r.width⟩) = [])
    (v : Int) : (r.Holds v → storedAs l v = v) ∧ (l.Holds v → storedAs r v = v) := by
  simp only [lintBind, BindRight.rw, BindRight.rtype] at h
  obtain ⟨h1, h2⟩ := List.append_eq_nil_iff.mp h
  have hw : r.width = l.width := by
    by_contra hc
    rw [if_pos hc] at h1; cases h1
  have hb : l.bt = r.bt := by
    by_contra hc
    simp [hc] at h2
  obtain ⟨lb, lw⟩ := l
  obtain ⟨rb, rw'⟩ := r
  simp only at hw hb
  subst hw hb
  exact ⟨fun hv => readBits_bitsOf hv, fun hv => readBits_bitsOf hv⟩

/-- C78, partial: a port bound to a name without a warning carries all bits of every number, in both directions.
Missing: their signedness, which is not compared. -/
theorem C78_binding_names_partial (l r : TypeNfo) (h : lintBind (some l.bt) (some l.width) (.name (some r.width)) = [])
    (v : Int) : bitsOf l.width v = bitsOf r.width v := by
  simp only [lintBind, BindRight.rw, BindRight.rtype] at h
  have hw : r.width = l.width := by
    by_contra hc
    rw [if_pos hc] at h; cases h
  rw [hw]

/-- A width warning on names is right: some number does not pass, in one direction. -/
theorem C78_binding_warning_needed (l r : TypeNfo) (hl : 1 ≤ l.width) (hr : 1 ≤ r.width)
    (h : BindWarn.width ∈ lintBind (some l.bt) (some l.width) (.name (some r.width))) :
    ∃ v, bitsOf l.width v ≠ bitsOf r.width v := by
  have hw : r.width ≠ l.width := by
    intro hc
    simp [lintBind, BindRight.rw, BindRight.rtype, hc] at h
  refine ⟨-1, ?_⟩
  obtain ⟨a, ha⟩ := Int.eq_ofNat_of_zero_le (show 0 ≤ l.width by omega)
  obtain ⟨b, hb⟩ := Int.eq_ofNat_of_zero_le (show 0 ≤ r.width by omega)
  rw [ha, hb] at hw ⊢
  have m1 : ∀ n : Nat, bitsOf (n : Int) (-1) = 2 ^ n - 1 := by
    intro n
    have hp : (0 : Int) < 2 ^ n := by positivity
    simp only [bitsOf, Int.toNat_natCast]
    rw [Int.emod_def]
    have : (-1 : Int) / 2 ^ n = -1 := Int.ediv_eq_neg_one_of_neg_of_le (by omega) (by omega)
    rw [this]; ring
  rw [m1, m1]
  intro hc
  have h2 : (2 : Int) ^ a = 2 ^ b := by omega
  have h3 : (2 : Nat) ^ a = 2 ^ b := by exact_mod_cast h2
  have := Nat.pow_right_injective (le_refl 2) h3
  exact hw (by rw [this])

/-- What a variable holds fits its type. -/
theorem storedAs_holds (l : TypeNfo) (h : 1 ≤ l.width) (v : Int) : l.Holds (storedAs l v) := by
  obtain ⟨b, w⟩ := l
  simp only at h
  obtain ⟨n, hn⟩ : ∃ n : Nat, w.toNat = n + 1 := ⟨w.toNat - 1, by omega⟩
  have hp : (0 : Int) < 2 ^ n := by positivity
  have hs : (2 : Int) ^ (n + 1) = 2 * 2 ^ n := by ring
  have h0 := Int.emod_nonneg v (show (2 : Int) ^ (n + 1) ≠ 0 by omega)
  have h1 := Int.emod_lt_of_pos v (show (0 : Int) < 2 ^ (n + 1) by omega)
  cases b
  · simp only [storedAs, TypeNfo.Holds, readBits, bitsOf, hn, Nat.add_sub_cancel, decide_true, true_and]
    refine ⟨h, ?_⟩
    split <;> constructor <;> omega
  · simp only [storedAs, TypeNfo.Holds, readBits, bitsOf, hn]
    have hd : (decide (BT.uint = BT.int)) = false := by decide
    simp only [hd, Bool.false_eq_true, false_and, if_false]
    exact ⟨by omega, h0, h1⟩

/-- Of two types of the same signedness, the wider holds a number the other does not. -/
theorem wider_holds_more (b : BT) (m n : Int) (h : 1 ≤ m) (hmn : m < n) :
    ∃ v, (⟨b, n⟩ : TypeNfo).Holds v ∧ ¬ (⟨b, m⟩ : TypeNfo).Holds v := by
  obtain ⟨k, hk⟩ : ∃ k : Nat, m.toNat = k + 1 := ⟨m.toNat - 1, by omega⟩
  obtain ⟨j, hj⟩ : ∃ j : Nat, n.toNat = k + 1 + j + 1 := ⟨n.toNat - (k + 2), by omega⟩
  have hp : (0 : Int) < 2 ^ k := by positivity
  have hl : (2 : Int) ^ (k + 1) ≤ 2 ^ (k + 1 + j) := pow_le_pow_right₀ (by omega) (by omega)
  have hs : (2 : Int) ^ (k + 1) = 2 * 2 ^ k := by ring
  have hs2 : (2 : Int) ^ (k + 1 + j + 1) = 2 * 2 ^ (k + 1 + j) := by ring
  cases b
  · refine ⟨2 ^ k, ?_, ?_⟩
    · simp only [TypeNfo.Holds, hj, Nat.add_sub_cancel]
      exact ⟨by omega, by omega, by omega⟩
    · simp only [TypeNfo.Holds, hk, Nat.add_sub_cancel]
      omega
  · refine ⟨2 ^ (k + 1), ?_, ?_⟩
    · simp only [TypeNfo.Holds, hj]
      exact ⟨by omega, by omega, by omega⟩
    · simp only [TypeNfo.Holds, hk]
      omega

/-- Warnings on ports bound to an access are right: some number of one side does not arrive unchanged on the other. -/
theorem C78_binding_access_warning_needed (l r : TypeNfo) (hl : 1 ≤ l.width) (hr : 1 ≤ r.width)
    (h : lintBind (some l.bt) (some l.width) (.access ⟨some r.bt, r.width⟩) ≠ []) :
    ∃ v, (r.Holds v ∧ storedAs l v ≠ v) ∨ (l.Holds v ∧ storedAs r v ≠ v) := by
  have lost : ∀ a b : TypeNfo, 1 ≤ a.width → (∃ v, b.Holds v ∧ ¬ a.Holds v) → ∃ v, b.Holds v ∧ storedAs a v ≠ v :=
    fun a b ha ⟨v, h1, h2⟩ => ⟨v, h1, fun hc => h2 (hc ▸ storedAs_holds a ha v)⟩
  have key : (∃ v, r.Holds v ∧ ¬ l.Holds v) ∨ (∃ v, l.Holds v ∧ ¬ r.Holds v) := by
    obtain ⟨lb, lw⟩ := l
    obtain ⟨rb, rw'⟩ := r
    simp only at hl hr h
    have neg : ∀ a b : Int, 1 ≤ a → ∃ v, (⟨.int, a⟩ : TypeNfo).Holds v ∧ ¬ (⟨.uint, b⟩ : TypeNfo).Holds v := by
      intro a b ha
      have hp : (0 : Int) < 2 ^ (a.toNat - 1) := by positivity
      refine ⟨-1, ?_, ?_⟩ <;> simp only [TypeNfo.Holds] <;> omega
    rcases lt_trichotomy lw rw' with hw | hw | hw
    · cases lb <;> cases rb
      · exact Or.inl (wider_holds_more _ _ _ hl hw)
      · exact Or.inr (neg _ _ hl)
      · exact Or.inl (neg _ _ hr)
      · exact Or.inl (wider_holds_more _ _ _ hl hw)
    · cases lb <;> cases rb
      · exact absurd (by simp [lintBind, BindRight.rw, BindRight.rtype, hw]) h
      · exact Or.inr (neg _ _ hl)
      · exact Or.inl (neg _ _ hr)
      · exact absurd (by simp [lintBind, BindRight.rw, BindRight.rtype, hw]) h
    · cases lb <;> cases rb
      · exact Or.inr (wider_holds_more _ _ _ hr hw)
      · exact Or.inr (neg _ _ hl)
      · exact Or.inl (neg _ _ hr)
      · exact Or.inr (wider_holds_more _ _ _ hr hw)
  rcases key with hk | hk
  · obtain ⟨v, hv⟩ := lost l r hl hk
    exact ⟨v, Or.inl hv⟩
  · obtain ⟨v, hv⟩ := lost r l hr hk
    exact ⟨v, Or.inr hv⟩

example : lintBind (some .uint) (some 8) (.access ⟨some .int, 8⟩) ≠ [] := by decide
example : lintBind (some .uint) (some 8) (.access ⟨some .uint, 8⟩) = [] := by decide
example : lintBind (some .uint) (some 8) (.name (some 8)) = [] := by decide
example : BindWarn.width ∈ lintBind (some .uint) (some 8) (.name (some 4)) := by decide

/-- Finding: binding a port of any width to `clock` or `reset` gives a warning about the widths, also for ports of
one bit, for which nothing is lost. -/
theorem C78_counterexample_binding_clock (t : Option BT) (w : Int) (h : 0 ≤ w) :
    BindWarn.width ∈ lintBind t (some w) .clockOrReset := by
  have : (-1 : Int) ≠ w := by omega
  simp [lintBind, BindRight.rw, BindRight.rtype, this]

/-- Finding: a signed variable may be bound by name to an unsigned port without a warning, -1 arrives as 255. -/
theorem C78_counterexample_binding_sign : lintBind (some .uint) (some 8) (.name (some 8)) = [] ∧
    (⟨.int, 8⟩ : TypeNfo).Holds (-1) ∧ storedAs ⟨.uint, 8⟩ (-1) = 255 := by
  refine ⟨by decide, ?_, by decide⟩
  simp [TypeNfo.Holds]

/-- C78, partial: an instance without warnings on its bindings has all its ports bound to names of the very same
width. Missing: signedness, see C78_counterexample_binding_sign. -/
theorem C78_instance_partial (ptype : String → Option BT) (pwidth widthOf : String → Option Int) (bs : List Binding)
    (hp : ∀ x w, pwidth x = some w → 0 ≤ w) (h : lintBinds ptype pwidth widthOf bs = []) (b : Binding) (hb : b ∈ bs) :
    b.right ≠ "clock" ∧ b.right ≠ "reset" ∧ ∃ w, pwidth b.left = some w ∧ widthOf b.right = some w := by
  have h1 : lintBind (ptype b.left) (pwidth b.left) (bindRightOf widthOf b) = [] := by
    have := List.flatMap_eq_nil_iff.mp h b hb
    exact List.map_eq_nil_iff.mp this
  cases hl : pwidth b.left with
  | none => simp [lintBind, hl] at h1
  | some a =>
    have ha := hp _ _ hl
    rw [hl] at h1
    by_cases hc : b.right = ALG_CLOCK ∨ b.right = ALG_RESET
    · have := C78_counterexample_binding_clock (ptype b.left) a ha
      simp only [bindRightOf, if_pos hc] at h1
      rw [h1] at this; cases this
    · simp only [bindRightOf, if_neg hc] at h1
      cases hr : widthOf b.right with
      | none => simp [lintBind, BindRight.rw, hr] at h1
      | some c =>
        rw [hr] at h1
        have hw : c = a := by
          by_contra hne
          simp [lintBind, BindRight.rw, hne] at h1
        refine ⟨fun e => hc (Or.inl e), fun e => hc (Or.inr e), a, rfl, by rw [hw]⟩

/-- Conversely, warnings on widths name a port that is bound to a name of another width, or to clock or reset. -/
theorem C78_instance_warning_needed (ptype : String → Option BT) (pwidth widthOf : String → Option Int) (bs : List Binding)
    (x : String) (h : (x, BindWarn.width) ∈ lintBinds ptype pwidth widthOf bs) :
    ∃ b ∈ bs, b.left = x ∧ (b.right = "clock" ∨ b.right = "reset" ∨ pwidth x ≠ widthOf b.right) := by
  obtain ⟨b, hb, h1⟩ := List.mem_flatMap.mp h
  obtain ⟨w, hw, he⟩ := List.mem_map.mp h1
  simp only [Prod.mk.injEq] at he
  obtain ⟨rfl, rfl⟩ := he
  refine ⟨b, hb, rfl, ?_⟩
  by_cases hc : b.right = ALG_CLOCK ∨ b.right = ALG_RESET
  · rcases hc with hc | hc
    · exact Or.inl hc
    · exact Or.inr (Or.inl hc)
  · refine Or.inr (Or.inr fun heq => ?_)
    simp only [bindRightOf, if_neg hc, ← heq] at hw
    cases hl : pwidth b.left <;> simp [lintBind, BindRight.rw, BindRight.rtype, hl] at hw

/-- Finding: an instance with an input `clock` that is bound with `<:auto:>` always gets a warning on it. -/
theorem C78_counterexample_autobound_clock (ho : Host) (p : Ports) (bs : List Binding) (ptype : String → Option BT)
    (pwidth widthOf : String → Option Int) (hc : "clock" ∈ p.inputs) (hn : "clock" ∉ bs.map Binding.left)
    (hw : pwidth "clock" = some 1) : ("clock", BindWarn.width) ∈ lintBinds ptype pwidth widthOf (autobind ho p bs) := by
  refine List.mem_flatMap.mpr ⟨⟨"clock", "clock", .left⟩, ?_, ?_⟩
  · exact (C11_autobound_ports ho p bs ⟨"clock", "clock", .left⟩ hn).mpr
      ⟨rfl, Or.inl ⟨rfl, hc, Or.inr (Or.inr (Or.inl rfl))⟩⟩
  · refine List.mem_map.mpr ⟨.width, ?_, rfl⟩
    simp only [bindRightOf, ALG_CLOCK, true_or, if_true, hw]
    exact C78_counterexample_binding_clock _ 1 (by decide)

example : lintBinds (fun _ => some .uint) (fun _ => some 8) (fun _ => some 8) [⟨"a", "v", .left⟩, ⟨"q", "w", .right⟩] = [] := by decide
example : ("a", BindWarn.width) ∈ lintBinds (fun _ => some .uint) (fun _ => some 8) (fun _ => some 4) [⟨"a", "v", .left⟩] := by decide
example : lintBinds (fun _ => some .uint) (fun _ => some 8) (fun _ => none) [⟨"a", "v", .left⟩] = [("a", .cannotCheck)] := by decide

end Silice
