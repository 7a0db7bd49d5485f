import Verif.Lemmas.Switch

/-!
# C66: A switch runs the case whose value the expression has

Blocks of cases are only told apart, by any type of names. `Chosen is cases out`: the first case for which `is` holds is run, otherwise the default, otherwise nothing.
-/

set_option autoImplicit false

namespace Silice

/-- A switch on an unsigned variable compares numbers, however the values of the cases are written. Partial: values with a size are not negative; values without size may be negative
(such cases are never run) when the variable has less than 32 bits. -/
theorem C66_unsigned_partial {β : Type} {x : SwVar} (hx : x.WF) (hs : x.isSigned = false) {cases : List (Option CaseVal × β)}
    (hf : ∀ v b, (some v, b) ∈ cases → v.Fits ∨ (x.width < 32 ∧ v.Plain)) : Chosen (fun v => v.int = x.int) cases (vcase x.expr (writeSwitch cases)) := by
  refine vcase_chosen _ _ _ ?_
  intro v b hv
  have hW := cmpWidth_ge x.expr hv
  generalize hW' : cmpWidth x.expr (writeSwitch cases) = W at *
  have hS : cmpSign x.expr (writeSwitch cases) = false := by simp [cmpSign, SwVar.expr, hs]
  have hxi : x.int = x.bits := by simp [SwVar.int, hs]
  rw [hS, hxi]
  have he : x.expr.eval W false = x.bits := by simp [SwVar.expr, extendTo]
  rw [he]
  rcases hf v b hv with h | ⟨hw, h⟩
  · cases v with
    | plain neg n =>
      obtain ⟨rfl, h⟩ := h
      simp only [gatherCase, CaseLit.eval, extendTo, Nat.mod_eq_of_lt h, CaseVal.int, Bool.false_eq_true, false_and, if_false]
      omega
    | sized neg w n =>
      obtain ⟨rfl, h⟩ := h
      simp only [gatherCase, CaseLit.eval, Nat.mod_eq_of_lt h, CaseVal.int, Bool.false_eq_true, if_false]
      omega
    | field ms =>
      simp only [gatherCase, CaseLit.eval, CaseVal.int]
      omega
  · cases v with
    | sized neg w n => exact absurd h (by simp [CaseVal.Plain])
    | field ms => exact absurd h (by simp [CaseVal.Plain])
    | plain neg n =>
      simp only [CaseVal.Plain] at h
      have hn : n % 2 ^ 32 = n := Nat.mod_eq_of_lt (by omega)
      cases neg with
      | false =>
        simp only [gatherCase, CaseLit.eval, extendTo, hn, CaseVal.int, Bool.false_eq_true, false_and, if_false]
        omega
      | true =>
        have h32 : 32 ≤ W := hW.1
        have hp : 2 ^ 32 ≤ 2 ^ W := Nat.pow_le_pow_right (by decide) h32
        have hb : x.bits < 2 ^ 31 := Nat.lt_of_lt_of_le hx.2 (Nat.pow_le_pow_right (by decide) (by omega))
        have hn' : n % 2 ^ W = n := Nat.mod_eq_of_lt (by omega)
        simp only [gatherCase, CaseLit.eval, extendTo, hn, CaseVal.int, Bool.false_eq_true, false_and, if_false, hn', if_true]
        by_cases h0 : n = 0
        · subst h0
          simp only [Nat.sub_zero, Nat.mod_self]
          omega
        · rw [Nat.mod_eq_of_lt (by omega)]
          omega

/-- A switch on a signed variable compares numbers, when the values of its cases are all numbers without a size. -/
theorem C66_signed_partial {β : Type} {x : SwVar} (hx : x.WF) (hs : x.isSigned = true) {cases : List (Option CaseVal × β)} (hf : ∀ v b, (some v, b) ∈ cases → v.Plain) :
    Chosen (fun v => v.int = x.int) cases (vcase x.expr (writeSwitch cases)) := by
  refine vcase_chosen _ _ _ ?_
  intro v b hv
  have hW := cmpWidth_ge x.expr hv
  have hS : cmpSign x.expr (writeSwitch cases) = true := by
    simp only [cmpSign, SwVar.expr, hs, Bool.true_and, List.all_eq_true]
    intro l hl
    obtain ⟨v', b', hv', rfl⟩ := label_mem.mp hl
    have := hf v' b' hv'
    cases v' with
    | plain neg n => cases neg <;> rfl
    | sized neg w n => exact absurd this (by simp [CaseVal.Plain])
    | field ms => exact absurd this (by simp [CaseVal.Plain])
  rw [hS]
  generalize cmpWidth x.expr (writeSwitch cases) = W at *
  have hv' := hf v b hv
  cases v with
  | sized neg w n => exact absurd hv' (by simp [CaseVal.Plain])
  | field ms => exact absurd hv' (by simp [CaseVal.Plain])
  | plain neg n =>
    simp only [CaseVal.Plain] at hv'
    have h32 : 32 ≤ W := by
      have := hW.1
      cases neg <;> exact this
    have hxw : x.width ≤ W := hW.2
    have hp : 2 ^ 32 ≤ 2 ^ W := Nat.pow_le_pow_right (by decide) h32
    have hpx : 2 ^ x.width ≤ 2 ^ W := Nat.pow_le_pow_right (by decide) hxw
    have hhalf : 2 ^ x.width = 2 * 2 ^ (x.width - 1) := by
      rw [← Nat.pow_succ']; congr 1; have := hx.1; omega
    have hhalfW : 2 ^ W = 2 * 2 ^ (W - 1) := by
      rw [← Nat.pow_succ']; congr 1; omega
    have hle : 2 ^ (x.width - 1) ≤ 2 ^ (W - 1) := Nat.pow_le_pow_right (by decide) (by omega)
    have hle31 : 2 ^ 31 ≤ 2 ^ (W - 1) := Nat.pow_le_pow_right (by decide) (by omega)
    have hb := hx.2
    have hn : n % 2 ^ 32 = n := Nat.mod_eq_of_lt (by omega)
    have hn' : n % 2 ^ W = n := Nat.mod_eq_of_lt (by omega)
    have hlit : ¬ (2 : Nat) ^ (32 - 1) ≤ n := by omega
    have hcast : ((2 ^ x.width : Nat) : Int) = (2 : Int) ^ x.width := by push_cast; rfl
    simp only [SwVar.expr, extendTo, hs, Bool.and_self, true_and, SwVar.int]
    rw [← hcast]
    have hl : CaseLit.eval W true (gatherCase (.plain neg n)) = if neg = true then (2 ^ W - n) % 2 ^ W else n := by
      have hnum : CaseLit.eval W true (.num n) = n := by rw [CaseLit.eval, hn, extendTo, if_neg (fun h => hlit h.2)]
      cases neg with
      | false => exact hnum
      | true => rw [gatherCase, CaseLit.eval, hnum, hn', if_pos rfl]
    rw [hl]
    simp only [CaseVal.int]
    have hneg : n ≠ 0 → (2 ^ W - n) % 2 ^ W = 2 ^ W - n := fun h => Nat.mod_eq_of_lt (by omega)
    generalize (2 : Nat) ^ W = P at *
    generalize (2 : Nat) ^ (W - 1) = P' at *
    generalize (2 : Nat) ^ x.width = Q at *
    generalize (2 : Nat) ^ (x.width - 1) = Q' at *
    cases neg
    · simp only [Bool.false_eq_true, if_false]
      split <;> omega
    · simp only [if_true]
      by_cases h0 : n = 0
      · subst h0
        simp only [Nat.sub_zero, Nat.mod_self]
        split <;> omega
      · rw [hneg h0]
        split <;> omega

/-- A switch on a signed variable compares numbers as well when the values of its cases are all written with a size that is no longer than the variable, and the variable can hold
them. -/
theorem C66_signed_sized_partial {β : Type} {x : SwVar} (hx : x.WF) (hs : x.isSigned = true) {cases : List (Option CaseVal × β)}
    (hf : ∀ v b, (some v, b) ∈ cases → (∃ neg w n, v = .sized neg w n ∧ w ≤ x.width ∧ n < 2 ^ w) ∧ -(2 : Int) ^ (x.width - 1) ≤ v.int ∧ v.int < (2 : Int) ^ (x.width - 1)) :
    Chosen (fun v => v.int = x.int) cases (vcase x.expr (writeSwitch cases)) := by
  refine vcase_chosen _ _ _ ?_
  intro v b hv
  have hlab : ∀ l ∈ labelsOf (writeSwitch cases), l.width ≤ x.width ∧ l.isSigned = false := by
    intro l hl
    obtain ⟨v', b', hv', rfl⟩ := label_mem.mp hl
    obtain ⟨⟨neg, w, n, rfl, h1, _⟩, _⟩ := hf v' b' hv'
    cases neg <;> exact ⟨h1, rfl⟩
  have hW : cmpWidth x.expr (writeSwitch cases) = x.width := by
    have key : ∀ (ls : List CaseLit) (m : Nat), (∀ l ∈ ls, l.width ≤ m) → ls.foldl (fun m l => max m l.width) m = m := by
      intro ls
      induction ls with
      | nil => intro m _; rfl
      | cons l ls ih =>
        intro m h
        have h1 : max m l.width = m := Nat.max_eq_left (h l List.mem_cons_self)
        rw [List.foldl_cons, h1]
        exact ih m fun l' hl => h l' (List.mem_cons_of_mem _ hl)
    exact key _ _ fun l hl => (hlab l hl).1
  have hmem : gatherCase v ∈ labelsOf (writeSwitch cases) := label_mem.mpr ⟨v, b, hv, rfl⟩
  have hS : cmpSign x.expr (writeSwitch cases) = false := by
    unfold cmpSign
    rw [Bool.and_eq_false_iff]
    right
    rw [List.all_eq_false]
    exact ⟨_, hmem, by rw [(hlab _ hmem).2]; decide⟩
  rw [hW, hS]
  obtain ⟨⟨neg, w, n, rfl, h1, h2⟩, h3, h4⟩ := hf v b hv
  have hhalf : 2 ^ x.width = 2 * 2 ^ (x.width - 1) := by
    rw [← Nat.pow_succ']; congr 1; have := hx.1; omega
  have hwle : 2 ^ w ≤ 2 ^ x.width := Nat.pow_le_pow_right (by decide) h1
  have hn : n % 2 ^ x.width = n := Nat.mod_eq_of_lt (by omega)
  have hb := hx.2
  have hcast : ((2 ^ x.width : Nat) : Int) = (2 : Int) ^ x.width := by push_cast; rfl
  have hcast' : ((2 ^ (x.width - 1) : Nat) : Int) = (2 : Int) ^ (x.width - 1) := by push_cast; rfl
  simp only [SwVar.expr, extendTo, hs, Bool.and_false, Bool.false_eq_true, false_and, if_false, SwVar.int, true_and]
  rw [← hcast]
  rw [← hcast'] at h3 h4
  have hl : CaseLit.eval x.width false (gatherCase (.sized neg w n)) = if neg = true then (2 ^ x.width - n) % 2 ^ x.width else n := by
    have hnum : CaseLit.eval x.width false (.sized w n) = n := by rw [CaseLit.eval, Nat.mod_eq_of_lt h2]
    cases neg with
    | false => exact hnum
    | true => rw [gatherCase, CaseLit.eval, hnum, hn, if_pos rfl]
  rw [hl]
  simp only [CaseVal.int] at h3 h4 ⊢
  have hneg : n ≠ 0 → (2 ^ x.width - n) % 2 ^ x.width = 2 ^ x.width - n := fun h => Nat.mod_eq_of_lt (by omega)
  generalize (2 : Nat) ^ x.width = Q at *
  generalize (2 : Nat) ^ (x.width - 1) = Q' at *
  cases neg
  · simp only [Bool.false_eq_true, if_false] at h3 h4 ⊢
    split <;> omega
  · simp only [if_true] at h3 h4 ⊢
    by_cases h0 : n = 0
    · subst h0
      simp only [Nat.sub_zero, Nat.mod_self]
      split <;> omega
    · rw [hneg h0]
      split <;> omega

-- cases `-4'd3` and `4'd2` of a signed variable that holds -3
example : Chosen (fun v => v.int = (⟨4, true, 13⟩ : SwVar).int) [(some (.sized true 4 3), "a"), (some (.sized false 4 2), "b")]
    (vcase (⟨4, true, 13⟩ : SwVar).expr (writeSwitch [(some (.sized true 4 3), "a"), (some (.sized false 4 2), "b")])) := by
  apply C66_signed_sized_partial
  · exact ⟨by decide, by decide⟩
  · rfl
  · intro v b h
    simp only [List.mem_cons, Prod.mk.injEq, Option.some.injEq, List.not_mem_nil, or_false] at h
    rcases h with ⟨rfl, -⟩ | ⟨rfl, -⟩
    · exact ⟨⟨true, 4, 3, rfl, by decide, by decide⟩, by decide, by decide⟩
    · exact ⟨⟨false, 4, 2, rfl, by decide, by decide⟩, by decide, by decide⟩
example : vcase (⟨4, true, 13⟩ : SwVar).expr (writeSwitch [(some (.sized true 4 3), "a"), (some (.sized false 4 2), "b")]) = some "a" := by decide +kernel

/-- A switch on any expression does what comparing it with each value in turn does (`e == v`), when the values of the cases are all written with one size. -/
theorem C66_expression_partial {β : Type} (e : CaseExpr) {cases : List (Option CaseVal × β)} {w : Nat} {sgn : Bool}
    (hf : ∀ v b, (some v, b) ∈ cases → (gatherCase v).width = w ∧ (gatherCase v).isSigned = sgn) : Chosen (fun v => vEquals e (gatherCase v)) cases (vcase e (writeSwitch cases)) := by
  refine vcase_chosen _ _ _ ?_
  intro v b hv
  obtain ⟨h1, h2⟩ := hf v b hv
  have hl : ∀ l ∈ labelsOf (writeSwitch cases), l.width = w ∧ l.isSigned = sgn := by
    intro l hl
    obtain ⟨v', b', hv', rfl⟩ := label_mem.mp hl
    exact hf v' b' hv'
  have hne : labelsOf (writeSwitch cases) ≠ [] := List.ne_nil_of_mem (label_mem.mpr ⟨v, b, hv, rfl⟩)
  have hW : cmpWidth e (writeSwitch cases) = max e.width w := foldl_max_eq w _ _ (fun l h => (hl l h).1) hne
  have hS : cmpSign e (writeSwitch cases) = (e.isSigned && sgn) := by
    unfold cmpSign
    congr 1
    cases sgn with
    | true => rw [List.all_eq_true]; exact fun l h => (hl l h).2
    | false =>
      rw [List.all_eq_false]
      obtain ⟨l, hl'⟩ := List.exists_mem_of_ne_nil _ hne
      exact ⟨l, hl', by simp [(hl l hl').2]⟩
  rw [hW, hS, vEquals, h1, h2]

/-- Where `default` stands among the cases does not matter. -/
theorem C66_default_place {β : Type} (e : CaseExpr) (pre post : List (Option CaseVal × β)) (b : β) (h1 : ∀ b', (none, b') ∉ pre) (h2 : ∀ b', (none, b') ∉ post) :
    vcase e (writeSwitch (pre ++ (none, b) :: post)) = vcase e (writeSwitch (pre ++ post ++ [(none, b)])) := by
  have hl : labelsOf (writeSwitch (pre ++ (none, b) :: post)) = labelsOf (writeSwitch (pre ++ post ++ [(none, b)])) := by
    simp [labelsOf, writeSwitch]
  have hnone : ∀ l : List (Option CaseVal × β), (∀ b', (none, b') ∉ l) → (writeSwitch l).find? (fun it => it.1.isNone) = none := by
    intro l hl
    rw [List.find?_eq_none]
    intro it hit
    obtain ⟨⟨o, b'⟩, hc, rfl⟩ := List.mem_map.mp hit
    cases o with
    | none => exact absurd hc (hl b')
    | some v => simp
  have e1 : writeSwitch (pre ++ (none, b) :: post) = writeSwitch pre ++ (none, b) :: writeSwitch post := by simp [writeSwitch]
  have e2 : writeSwitch (pre ++ post ++ [(none, b)]) = writeSwitch pre ++ (writeSwitch post ++ [(none, b)]) := by simp [writeSwitch]
  have hd : (writeSwitch (pre ++ (none, b) :: post)).find? (fun it => it.1.isNone) = (writeSwitch (pre ++ post ++ [(none, b)])).find? (fun it => it.1.isNone) := by
    rw [e1, e2, List.find?_append, List.find?_append, List.find?_append, hnone pre h1, hnone post h2]
    simp
  unfold vcase
  rw [hl, hd]
  simp only []
  generalize (labelsOf (writeSwitch (pre ++ post ++ [(none, b)]))).foldl (fun m l => max m l.width) e.width = W
  generalize (e.isSigned && (labelsOf (writeSwitch (pre ++ post ++ [(none, b)]))).all CaseLit.isSigned) = S
  congr 1
  rw [e1, e2, List.find?_append, List.find?_append, List.find?_append, List.find?_cons]
  simp

/-- A one-hot switch that is accepted runs the case of the only bit that is set, in simulation and in hardware: the case of this bit or the default, and there is one.
Partial: cases name distinct bits of the variable. -/
theorem C66_onehot_partial {β : Type} {w k : Nat} (hk : k < w) {cases : List (Option CaseVal × β)} (hf : ∀ v b, (some v, b) ∈ cases → v.Fits ∧ v.int < w)
    (hn : (caseInts cases).Nodup) (ha : oneHotAccepted w cases = true) :
    Chosen (fun v => v.int = k) cases (oneHotSim w (2 ^ k) (writeSwitch cases)) ∧ (oneHotSim w (2 ^ k) (writeSwitch cases)).isSome = true ∧
    ∀ out, oneHotMay w (2 ^ k) (writeSwitch cases) out ↔ out = oneHotSim w (2 ^ k) (writeSwitch cases) := by
  have hc := oneHotSim_chosen (fun v => v.int = k) w (2 ^ k) cases fun v b hv => fits_bitSet (hf v b hv).1 (hf v b hv).2
  have hset := oneHotSet_le (k := k) cases hf hn
  have hsome : (oneHotSim w (2 ^ k) (writeSwitch cases)).isSome = true := by
    rcases hc with ⟨_, _, b, _, _, _, _, h⟩ | ⟨h1, h2⟩
    · rw [h]; rfl
    · rcases h2 with ⟨b, _, h⟩ | ⟨h2, _⟩
      · rw [h]; rfl
      · exfalso
        simp only [oneHotAccepted, Bool.or_eq_true, List.any_eq_true, beq_iff_eq] at ha
        rcases ha with ⟨⟨o, b⟩, hm, ho⟩ | hl
        · cases o with
          | none => exact h2 b hm
          | some v => simp at ho
        · obtain ⟨v, b, hv, hi⟩ := caseInts_mem.mp (caseInts_full hf hn ((caseInts_length h2).trans hl) hk)
          exact h1 v b hv hi
  refine ⟨hc, hsome, ?_⟩
  intro out
  unfold oneHotMay
  unfold oneHotSim at hsome ⊢
  generalize oneHotSet w (2 ^ k) (writeSwitch cases) = l at *
  match l, hset.1 with
  | [], _ =>
    simp only at hsome ⊢
    obtain ⟨b, hb⟩ := Option.isSome_iff_exists.mp hsome
    rw [hb]
    exact ⟨fun h => h b rfl, fun h b' e => by cases e; exact h⟩
  | [it], _ => exact Iff.rfl

/-- A one-hot switch runs its default when no bit is set. -/
theorem C66_onehot_zero {β : Type} (w : Nat) {cases : List (Option CaseVal × β)} {b : β} (hb : (none, b) ∈ cases) :
    Chosen (fun _ => False) cases (oneHotSim w 0 (writeSwitch cases)) ∧ ∀ out, oneHotMay w 0 (writeSwitch cases) out ↔ out = oneHotSim w 0 (writeSwitch cases) := by
  refine ⟨oneHotSim_chosen (fun _ => False) w 0 cases fun v b _ => by simp [bitSet_zero], ?_⟩
  have : oneHotSet w 0 (writeSwitch cases) = [] := by
    unfold oneHotSet
    rw [List.filter_eq_nil_iff]
    rintro ⟨o, b⟩ _
    cases o <;> simp [bitSet_zero]
  intro out
  unfold oneHotMay oneHotSim
  rw [this]
  simp only
  rcases find_default cases with ⟨b', _, h⟩ | ⟨h, _⟩
  · rw [h]
    exact ⟨fun hh => hh b' rfl, fun hh b'' e => by cases e; exact hh⟩
  · exact absurd hb (h b)

/-! ### Witnesses -/

-- `switch (x) { case -2: … default: … case 100: … case 7: … }`, x signed
example : (⟨8, true, 254⟩ : SwVar).WF ∧
    vcase (⟨8, true, 254⟩ : SwVar).expr (writeSwitch [(some (.plain true 2), 0), (none, 1), (some (.plain false 100), 2)]) = some 0 ∧
    vcase (⟨8, true, 7⟩ : SwVar).expr (writeSwitch [(some (.plain true 2), 0), (none, 1), (some (.plain false 100), 2)]) = some 1 := by
  refine ⟨⟨by decide, by decide⟩, by decide +kernel, by decide +kernel⟩
example : Chosen (fun v => v.int = -2) [(some (.plain true 2), 0), (none, 1), (some (.plain false 100), 2)] (some 0) :=
  C66_signed_partial (x := ⟨8, true, 254⟩) ⟨by decide, by decide⟩ rfl (by
    intro v b h
    simp only [List.mem_cons, Prod.mk.injEq, Option.some.injEq, List.not_mem_nil, or_false, reduceCtorEq, false_and, false_or] at h
    rcases h with ⟨rfl, _⟩ | ⟨rfl, _⟩ <;> simp [CaseVal.Plain])
example : vcase (⟨8, false, 18⟩ : SwVar).expr (writeSwitch [(some (.plain false 3), 0), (some (.field [(4, 1), (4, 2)]), 1), (some (.sized false 8 18), 2)]) = some 1 := by decide +kernel
-- a one-hot switch on three bits
example : oneHotAccepted 3 [(some (.plain false 2), 0), (some (.sized false 2 0), 1), (some (.plain false 1), 2)] = true ∧
    oneHotSim 3 (2 ^ 1) (writeSwitch [(some (.plain false 2), 0), (some (.sized false 2 0), 1), (some (.plain false 1), 2)]) = some 2 := by decide +kernel
example : (caseInts [(some (CaseVal.plain false 2), 0), (some (.sized false 2 0), 1), (some (.plain false 1), 2)]).Nodup := by decide +kernel

/-! ### What does not hold -/

/-- `switch (x) { case -1: A  case 8d5: B  default: C }` with `x` signed and equal to -1 runs C, although `x == -1` holds; without the second case it runs A: one value that has a size
makes all comparisons unsigned. -/
theorem C66_counterexample_mixed_signs :
    (⟨8, true, 255⟩ : SwVar).int = (CaseVal.plain true 1).int ∧ vEquals (⟨8, true, 255⟩ : SwVar).expr (gatherCase (.plain true 1)) ∧
    vcase (⟨8, true, 255⟩ : SwVar).expr (writeSwitch [(some (.plain true 1), "A"), (some (.sized false 8 5), "B"), (none, "C")]) = some "C" ∧
    vcase (⟨8, true, 255⟩ : SwVar).expr (writeSwitch [(some (.plain true 1), "A"), (none, "C")]) = some "A" := by
  refine ⟨by decide +kernel, ?_, by decide +kernel, by decide +kernel⟩
  unfold vEquals; decide +kernel

/-- The expression `a + b` for variables of eight bits, that hold 255 and 1. -/
def exSum : CaseExpr := ⟨8, false, fun W _ => (255 + 1) % 2 ^ W⟩

/-- `switch (a + b) { case 8d0: A  case 1: B  default: C }`: `a + b == 8d0` holds for 255 and 1, yet C is run, because the second value has 32 bits. -/
theorem C66_counterexample_mixed_sizes :
    vEquals exSum (gatherCase (.sized false 8 0)) ∧
    vcase exSum (writeSwitch [(some (.sized false 8 0), "A"), (some (.plain false 1), "B"), (none, "C")]) = some "C" ∧
    vcase exSum (writeSwitch [(some (.sized false 8 0), "A"), (some (.sized false 8 1), "B"), (none, "C")]) = some "A" := by
  refine ⟨?_, by decide +kernel, by decide +kernel⟩
  unfold vEquals; decide +kernel

/-- An unsigned variable of 32 bits runs the case of a negative number. -/
theorem C66_counterexample_negative :
    (⟨32, false, 2 ^ 32 - 1⟩ : SwVar).int ≠ (CaseVal.plain true 1).int ∧
    vcase (⟨32, false, 2 ^ 32 - 1⟩ : SwVar).expr (writeSwitch [(some (.plain true 1), "A"), (none, "B")]) = some "A" := by decide +kernel

/-- Switches with two defaults, or without any case, are written as they are, and are not Verilog. -/
theorem C66_counterexample_not_verilog : ¬ vcaseLegal (writeSwitch [(none, 0), (some (.plain false 1), 1), (none, 2)]) ∧ ¬ vcaseLegal (writeSwitch ([] : List (Option CaseVal × Nat))) := by
  unfold vcaseLegal
  decide

/-- A one-hot switch whose cases name a bit twice, or a bit outside of the variable, is accepted without default and has no case for one of the bits. -/
theorem C66_counterexample_onehot_missing :
    oneHotAccepted 2 [(some (.plain false 0), 0), (some (.plain false 0), 1)] = true ∧ oneHotSim 2 (2 ^ 1) (writeSwitch [(some (.plain false 0), 0), (some (.plain false 0), 1)]) = none ∧
    oneHotAccepted 2 [(some (.plain false 1), 0), (some (.plain false 2), 1)] = true ∧ oneHotSim 2 (2 ^ 0) (writeSwitch [(some (.plain false 1), 0), (some (.plain false 2), 1)]) = none := by
  decide +kernel

/-- When several bits are set a case is run in simulation although other bits are not zero, even if there is a default; hardware may do anything. -/
theorem C66_counterexample_onehot_several :
    oneHotSim 2 3 (writeSwitch [(some (.plain false 0), 0), (some (.plain false 1), 1), (none, 2)]) = some 0 ∧
    ∀ out, oneHotMay 2 3 (writeSwitch [(some (.plain false 0), 0), (some (.plain false 1), 1), (none, 2)]) out := by
  refine ⟨by decide +kernel, fun out => ?_⟩
  have : oneHotSet 2 3 (writeSwitch [(some (.plain false 0), 0), (some (.plain false 1), 1), (none, 2)]) = [(some (.num 0), 0), (some (.num 1), 1)] := by decide +kernel
  unfold oneHotMay
  rw [this]
  trivial

end Silice
