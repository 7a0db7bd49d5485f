import Verif.Spec.InlineCode
import Verif.Lemmas.Inline
import Verif.Lemmas.Usage

set_option autoImplicit false

namespace Silice

section
variable {V : Type}

/-! ### Combination of stability -/

theorem numStable_ge : ∀ (l : List (Option Bool)) (n : Nat), n ≤ numStable n l ∨ 2 ≤ numStable n l
  | [], n => Or.inl (Nat.le_refl n)
  | none :: l, n => numStable_ge l n
  | some true :: l, n => by
    rcases numStable_ge l (n + 1) with h | h
    · exact Or.inl (by simp only [numStable]; omega)
    · exact Or.inr h
  | some false :: l, n => by
    rcases numStable_ge l 2 with h | h
    · exact Or.inr h
    · exact Or.inr h

theorem numStable_false : ∀ (l : List (Option Bool)) (n : Nat), some false ∈ l → 2 ≤ numStable n l
  | none :: l, n, h => by
    simp only [List.mem_cons, reduceCtorEq, false_or] at h
    exact numStable_false l n h
  | some true :: l, n, h => by
    simp only [List.mem_cons, Option.some.injEq, Bool.false_eq_true, false_or] at h
    exact numStable_false l (n + 1) h
  | some false :: l, n, h => by
    rcases numStable_ge l 2 with h | h <;> exact h

theorem numStable_count : ∀ (l : List (Option Bool)) (n : Nat), some false ∉ l → numStable n l = n + l.countP Option.isSome
  | [], n, _ => rfl
  | none :: l, n, h => by
    simp only [numStable]
    rw [numStable_count l n fun m => h (List.mem_cons_of_mem _ m)]
    simp
  | some false :: l, n, h => by simp at h
  | some true :: l, n, h => by
    simp only [numStable]
    rw [numStable_count l (n + 1) fun m => h (List.mem_cons_of_mem _ m)]
    simp
    omega

theorem combineStable_false {st : Stable} {brs : List Stable} {t : String} (h : st t = some false) : combineStable st brs t = some false := by
  simp only [combineStable, h]

/-- If the combination does not say unstable, no branch does. -/
theorem combineStable_ne {st : Stable} {brs : List Stable} {t : String} (h : combineStable st brs t ≠ some false) :
    ∀ b ∈ brs, b t ≠ some false := by
  intro b hb hf
  apply h
  unfold combineStable
  cases hs : st t with
  | some v =>
    cases v with
    | false => rfl
    | true =>
      simp only [Option.some.injEq]
      rw [List.all_eq_false]
      exact ⟨b, hb, by simp [hf]⟩
  | none =>
    have h1 : (brs.all fun b => (b t).isNone) = false := by
      rw [List.all_eq_false]
      exact ⟨b, hb, by simp [hf]⟩
    have h2 := numStable_false (brs.map fun b => b t) 0 (List.mem_map.mpr ⟨b, hb, hf⟩)
    simp only [h1, Bool.false_eq_true, if_false, Option.some.injEq, decide_eq_false_iff_not]
    omega

/-- A variable unknown before is only stable when one branch knows it. -/
theorem combineStable_one {st : Stable} {brs : List Stable} {t : String} (hst : st t = none)
    (h : combineStable st brs t ≠ some false) : (brs.map fun b => b t).countP Option.isSome ≤ 1 := by
  have hno : some false ∉ brs.map fun b => b t := by
    intro m
    obtain ⟨b, hb, he⟩ := List.mem_map.mp m
    exact combineStable_ne h b hb he
  unfold combineStable at h
  rw [hst] at h
  by_cases h1 : (brs.all fun b => (b t).isNone) = true
  · have : (brs.map fun b => b t).countP Option.isSome = 0 := by
      rw [List.countP_eq_zero]
      intro x hx
      obtain ⟨b, hb, rfl⟩ := List.mem_map.mp hx
      have := List.all_eq_true.mp h1 b hb
      cases hv : b t <;> simp_all
    omega
  · simp only [h1, Bool.false_eq_true, if_false, ne_eq, Option.some.injEq, decide_eq_false_iff_not, not_not] at h
    rw [numStable_count _ 0 hno] at h
    omega

theorem combineStable_isSome {st : Stable} {brs : List Stable} {t : String} :
    (combineStable st brs t).isSome = true ↔ (st t).isSome = true ∨ ∃ b ∈ brs, (b t).isSome = true := by
  unfold combineStable
  cases hs : st t with
  | some v => cases v <;> simp
  | none =>
    simp only [Option.isSome_none, Bool.false_eq_true, false_or]
    by_cases h1 : (brs.all fun b => (b t).isNone) = true
    · rw [if_pos h1]
      simp only [Option.isSome_none, Bool.false_eq_true, false_iff, not_exists, not_and]
      intro b hb
      have := List.all_eq_true.mp h1 b hb
      cases hv : b t <;> simp_all
    · rw [if_neg h1]
      simp only [Option.isSome_some, true_iff]
      have h2 : (brs.all fun b => (b t).isNone) = false := by simpa using h1
      rw [List.all_eq_false] at h2
      obtain ⟨b, hb, hv⟩ := h2
      exact ⟨b, hb, by cases hv' : b t <;> simp_all⟩

theorem stableUpd_isSome_iff {before : List String} {D : Deps} {w o : String} {st : Stable} :
    (stableUpd before D w st o).isSome = true ↔ (st o).isSome = true ∨ o = w := by
  constructor
  · intro h
    by_cases ho : o = w
    · exact Or.inr ho
    · left
      have hm : stableMark before w st o = st o := by
        unfold stableMark
        split_ifs <;> simp [ho]
      unfold stableUpd at h
      rw [hm] at h
      split at h
      · next hc => exact hc.2.2.1
      · exact h
  · exact stableUpd_isSome

/-! ### Merging -/

/-- Dependencies of the branches merged in turn. -/
def mergeAll (D : Deps) (rs : List (Deps × Stable)) : Deps := rs.foldl (fun acc r => Deps.merge r.1 acc) D

theorem mergeAll_keys : ∀ (rs : List (Deps × Stable)) (D : Deps) (x : String),
    x ∈ (mergeAll D rs).keys ↔ x ∈ D.keys ∨ ∃ r ∈ rs, x ∈ r.1.keys
  | [], D, x => by simp [mergeAll]
  | r :: rs, D, x => by
    rw [mergeAll, List.foldl_cons]
    refine (mergeAll_keys rs (Deps.merge r.1 D) x).trans ?_
    simp only [Deps.merge, mem_addNew, List.mem_cons, exists_eq_or_imp, or_assoc]

theorem mergeAll_on : ∀ (rs : List (Deps × Stable)) (D : Deps) (y x : String),
    (mergeAll D rs).on y x = D.on y x ∨ ∃ r ∈ rs, (mergeAll D rs).on y x = r.1.on y x
  | [], D, y, x => Or.inl rfl
  | r :: rs, D, y, x => by
    rw [mergeAll, List.foldl_cons]
    rcases mergeAll_on rs (Deps.merge r.1 D) y x with h | ⟨r', h', h⟩
    · by_cases hy : y ∈ D.keys
      · exact Or.inl (h.trans (by simp [Deps.merge, hy]))
      · exact Or.inr ⟨r, by simp, h.trans (by simp [Deps.merge, hy])⟩
    · exact Or.inr ⟨r', by simp [h'], h⟩

theorem mergeAll_on_old : ∀ (rs : List (Deps × Stable)) (D : Deps) (y x : String), y ∈ D.keys → (mergeAll D rs).on y x = D.on y x
  | [], D, y, x, _ => rfl
  | r :: rs, D, y, x, h => by
    rw [mergeAll, List.foldl_cons]
    refine (mergeAll_on_old rs (Deps.merge r.1 D) y x ?_).trans (by simp [Deps.merge, h])
    simp [Deps.merge, mem_addNew, h]

theorem mergeAll_wf : ∀ (rs : List (Deps × Stable)) (D : Deps), D.Wf → (∀ r ∈ rs, r.1.Wf) → (mergeAll D rs).Wf
  | [], D, h, _ => h
  | r :: rs, D, h, hr => by
    rw [mergeAll, List.foldl_cons]
    exact mergeAll_wf rs _ (merge_wf (hr r (by simp)) h) fun r' h' => hr r' (by simp [h'])

/-! ### First pass -/

/-- What holds of the first pass at a place of the text. `total`: largest number of assignments on a path through all the
code; `n`: on the paths to this place. -/
structure InlPass (total n : String → Nat) (D : Deps) (st : Stable) : Prop where
  wf : D.Wf
  keys : ∀ x, x ∈ D.keys ↔ 1 ≤ n x
  noq : ∀ x, 2 ≤ total x → ∀ y, (D.on y x).bit false = false
  fresh : Fresh D
  known : ∀ x, (st x).isSome = true ↔ x ∈ D.keys

theorem inlPass_asg {total n : String → Nat} {D D' : Deps} {st : Stable} {fuel : Nat} {i : Asg V} (inv : InlPass total n D st)
    (hfirst : ∀ x ∈ i.reads, n x = 0 → total x ≤ 1) (hD : Deps.instr fuel D i.reads [i.target] = some (.ok D')) :
    InlPass total (fun x => n x + (ICode.asg i).times x) D' (stableUpd D.keys D' i.target st) := by
  obtain ⟨hwf, hkeys, hle, hjust, hfix, _⟩ := instr_ok inv.wf hD
  have hk' : ∀ x, x ∈ D'.keys ↔ x ∈ D.keys ∨ x = i.target := fun x => by rw [hkeys, mem_addNew, List.mem_singleton]
  refine ⟨hwf, ?_, ?_, ?_, ?_⟩
  · intro x
    rw [hk', inv.keys]
    simp only [ICode.times]
    split_ifs with h
    · simp [h]
    · have : ¬ x = i.target := fun e => h e.symm
      simp [this]
  · intro x hx y
    cases hb : (D'.on y x).bit false with
    | false => rfl
    | true =>
      obtain ⟨z, _, hz⟩ := hjust.2 y x false hb
      simp only [Deps.assign, List.mem_singleton] at hz
      by_cases hzw : z = i.target
      · rw [if_pos hzw] at hz
        by_cases hxr : x ∈ i.reads
        · rw [if_pos hxr] at hz
          have hxk : x ∉ D.keys := by
            intro m
            simp [Deps.side, m, QD.bit] at hz
          have h0 : n x = 0 := by
            by_contra h0
            exact hxk ((inv.keys x).mpr (by omega))
          have := hfirst x hxr h0
          omega
        · rw [if_neg hxr] at hz
          simp [QD.bit] at hz
      · rw [if_neg hzw, inv.noq x hx z] at hz
        simp at hz
  · intro y x hx
    have hxk : x ∉ D.keys := fun m => hx ((hk' x).mpr (Or.inl m))
    cases hb : (D'.on y x).bit true with
    | false => rfl
    | true =>
      obtain ⟨z, _, hz⟩ := hjust.2 y x true hb
      simp only [Deps.assign, List.mem_singleton] at hz
      by_cases hzw : z = i.target
      · rw [if_pos hzw] at hz
        by_cases hxr : x ∈ i.reads
        · rw [if_pos hxr] at hz
          simp [Deps.side, hxk, QD.bit] at hz
        · rw [if_neg hxr] at hz
          simp [QD.bit] at hz
      · rw [if_neg hzw, inv.fresh z x hxk] at hz
        simp at hz
  · intro x
    rw [stableUpd_isSome_iff, inv.known, hk']

/-- What the branches give. -/
structure BrsPass (total n : String → Nat) (D : Deps) (bs : IBrs V) (rs : List (Deps × Stable)) : Prop where
  ne : rs ≠ []
  each : ∀ r ∈ rs, ∃ k : String → Nat, (∀ x, k x ≤ bs.times x) ∧ InlPass total (fun x => n x + k x) r.1 r.2
  some : ∀ x, 1 ≤ bs.times x → ∃ r ∈ rs, x ∈ r.1.keys ∧ (x ∈ D.keys → r.2 x = some false)
  all : ∀ x, bs.sets x → ∀ r ∈ rs, x ∈ r.1.keys

theorem inlPass_merged {total n : String → Nat} {D : Deps} {st : Stable} {bs : IBrs V} {rs : List (Deps × Stable)}
    (inv : InlPass total n D st) (h : BrsPass total n D bs rs) :
    InlPass total (fun x => n x + bs.times x) (mergeAll D rs) (combineStable st (rs.map Prod.snd)) := by
  have hkeys : ∀ x, x ∈ (mergeAll D rs).keys ↔ x ∈ D.keys ∨ ∃ r ∈ rs, x ∈ r.1.keys := mergeAll_keys rs D
  refine ⟨mergeAll_wf rs D inv.wf fun r hr => (h.each r hr).choose_spec.2.wf, ?_, ?_, ?_, ?_⟩
  · intro x
    rw [hkeys, inv.keys]
    constructor
    · rintro (hx | ⟨r, hr, hx⟩)
      · omega
      · obtain ⟨k, hk, hp⟩ := h.each r hr
        have := (hp.keys x).mp hx
        have := hk x
        omega
    · intro hx
      by_cases h1 : 1 ≤ n x
      · exact Or.inl h1
      · obtain ⟨r, hr, hm, _⟩ := h.some x (by omega)
        exact Or.inr ⟨r, hr, hm⟩
  · intro x hx y
    rcases mergeAll_on rs D y x with e | ⟨r, hr, e⟩
    · rw [e]; exact inv.noq x hx y
    · rw [e]; exact (h.each r hr).choose_spec.2.noq x hx y
  · intro y x hx
    have hx' : ∀ z, ¬ (z ∈ D.keys ∨ ∃ r ∈ rs, z ∈ r.1.keys) → z ∉ D.keys ∧ ∀ r ∈ rs, z ∉ r.1.keys := by
      intro z hz
      exact ⟨fun m => hz (Or.inl m), fun r hr m => hz (Or.inr ⟨r, hr, m⟩)⟩
    obtain ⟨h1, h2⟩ := hx' x fun m => hx ((hkeys x).mpr m)
    rcases mergeAll_on rs D y x with e | ⟨r, hr, e⟩
    · rw [e]; exact inv.fresh y x h1
    · rw [e]; exact (h.each r hr).choose_spec.2.fresh y x (h2 r hr)
  · intro x
    rw [combineStable_isSome, hkeys, inv.known]
    constructor
    · rintro (hx | ⟨b, hb, hx⟩)
      · exact Or.inl hx
      · obtain ⟨r, hr, rfl⟩ := List.mem_map.mp hb
        exact Or.inr ⟨r, hr, ((h.each r hr).choose_spec.2.known x).mp hx⟩
    · rintro (hx | ⟨r, hr, hx⟩)
      · exact Or.inl hx
      · exact Or.inr ⟨r.2, List.mem_map.mpr ⟨r, hr, rfl⟩, ((h.each r hr).choose_spec.2.known x).mpr hx⟩

theorem combineStable_written {total n : String → Nat} {D : Deps} {st : Stable} {bs : IBrs V} {rs : List (Deps × Stable)}
    (h : BrsPass total n D bs rs) {x : String} (hx : x ∈ D.keys) (hw : 1 ≤ bs.times x) :
    combineStable st (rs.map Prod.snd) x = some false := by
  obtain ⟨r, hr, _, hf⟩ := h.some x hw
  by_contra hne
  exact combineStable_ne hne r.2 (List.mem_map.mpr ⟨r, hr, rfl⟩) (hf hx)

mutual
theorem ICode.sets_times {x : String} : ∀ c : ICode V, c.sets x → 1 ≤ c.times x
  | .skip, h => h.elim
  | .asg i, h => by
    simp only [ICode.sets] at h
    simp [ICode.times, h]
  | .seq a b, h => by
    simp only [ICode.times]
    rcases h with h | h
    · have := ICode.sets_times a h; omega
    · have := ICode.sets_times b h; omega
  | .branch _ _ bs, h => IBrs.sets_times bs h

theorem IBrs.sets_times {x : String} : ∀ bs : IBrs V, bs.sets x → 1 ≤ bs.times x
  | .one c, h => ICode.sets_times c h
  | .cons c bs, h => by
    have := ICode.sets_times c h.1
    simp only [IBrs.times]
    omega
end

mutual
theorem stableCode_false {fuel : Nat} {o : String} : ∀ (c : ICode V) (D : Deps) (st : Stable) (r : Deps × Stable), st o = some false →
    stableCode fuel D st c = some (.ok r) → r.2 o = some false
  | .skip, D, st, r, h, e => by
    simp only [stableCode, Option.some.injEq, Except.ok.injEq] at e
    subst e; exact h
  | .asg i, D, st, r, h, e => by
    simp only [stableCode] at e
    split at e
    · simp at e
    · simp at e
    · simp only [Option.some.injEq, Except.ok.injEq] at e
      subst e; exact stableUpd_false h
  | .seq a b, D, st, r, h, e => by
    simp only [stableCode] at e
    split at e
    · simp at e
    · simp at e
    · next D1 st1 h1 => exact stableCode_false b D1 st1 r (stableCode_false a D st _ h h1) e
  | .branch _ _ bs, D, st, r, h, e => by
    simp only [stableCode] at e
    split at e
    · simp at e
    · simp at e
    · simp only [Option.some.injEq, Except.ok.injEq] at e
      subst e; exact combineStable_false h
end

mutual
theorem stableCode_pass {fuel : Nat} {total : String → Nat} : ∀ (c : ICode V) (n : String → Nat) (D : Deps) (st : Stable) (r : Deps × Stable),
    InlPass total n D st → (∀ x, c.readsFirst x n → total x ≤ 1) → stableCode fuel D st c = some (.ok r) →
    InlPass total (fun x => n x + c.times x) r.1 r.2 ∧ ∀ x ∈ D.keys, 1 ≤ c.times x → r.2 x = some false
  | .skip, n, D, st, r, inv, hf, e => by
    simp only [stableCode, Option.some.injEq, Except.ok.injEq] at e
    subst e
    exact ⟨by simpa [ICode.times] using inv, fun x _ h => by simp [ICode.times] at h⟩
  | .asg i, n, D, st, r, inv, hf, e => by
    simp only [stableCode] at e
    split at e
    · simp at e
    · simp at e
    · next D' hD =>
      simp only [Option.some.injEq, Except.ok.injEq] at e
      subst e
      refine ⟨inlPass_asg inv (fun x hx h0 => hf x ⟨hx, h0⟩) hD, ?_⟩
      intro x hx h
      have hxt : i.target = x := by
        by_contra hne
        simp [ICode.times, hne] at h
      subst hxt
      simp [stableUpd, stableMark, hx]
  | .seq a b, n, D, st, r, inv, hf, e => by
    simp only [stableCode] at e
    split at e
    · simp at e
    · simp at e
    · next D1 st1 h1 =>
      obtain ⟨inv1, hw1⟩ := stableCode_pass a n D st (D1, st1) inv (fun x hx => hf x (Or.inl hx)) h1
      obtain ⟨inv2, hw2⟩ := stableCode_pass b _ D1 st1 r inv1 (fun x hx => hf x (Or.inr hx)) e
      refine ⟨by simpa [ICode.times, Nat.add_assoc] using inv2, ?_⟩
      intro x hx h
      simp only [ICode.times] at h
      by_cases ha : 1 ≤ a.times x
      · exact stableCode_false b D1 st1 r (hw1 x hx ha) e
      · refine hw2 x ?_ (by omega)
        rw [inv1.keys]
        have := (inv.keys x).mp hx
        omega
  | .branch _ _ bs, n, D, st, r, inv, hf, e => by
    simp only [stableCode] at e
    split at e
    · simp at e
    · simp at e
    · next rs h1 =>
      simp only [Option.some.injEq, Except.ok.injEq] at e
      subst e
      have hb := stableBrs_pass bs n D st rs inv hf h1
      exact ⟨inlPass_merged inv hb, fun x hx hw => combineStable_written hb hx hw⟩

theorem stableBrs_pass {fuel : Nat} {total : String → Nat} : ∀ (bs : IBrs V) (n : String → Nat) (D : Deps) (st : Stable) (rs : List (Deps × Stable)),
    InlPass total n D st → (∀ x, bs.readsFirst x n → total x ≤ 1) → stableBrs fuel D st bs = some (.ok rs) →
    BrsPass total n D bs rs
  | .one c, n, D, st, rs, inv, hf, e => by
    simp only [stableBrs] at e
    split at e
    · simp at e
    · simp at e
    · next r h1 =>
      simp only [Option.some.injEq, Except.ok.injEq] at e
      subst e
      obtain ⟨inv1, hw1⟩ := stableCode_pass c n D st r inv hf h1
      refine ⟨by simp, ?_, ?_, ?_⟩
      · intro r' hr'
        simp only [List.mem_singleton] at hr'
        subst hr'
        exact ⟨fun x => c.times x, fun x => Nat.le_refl _, inv1⟩
      · intro x hx
        exact ⟨r, by simp, (inv1.keys x).mpr (by simp only [IBrs.times] at hx; omega), fun m => hw1 x m hx⟩
      · intro x hx r' hr'
        simp only [List.mem_singleton] at hr'
        subst hr'
        exact (inv1.keys x).mpr (by have := ICode.sets_times c hx; omega)
  | .cons c bs, n, D, st, rs, inv, hf, e => by
    simp only [stableBrs] at e
    split at e
    · simp at e
    · simp at e
    · next r h1 =>
      split at e
      · simp at e
      · simp at e
      · next rs' h2 =>
        simp only [Option.some.injEq, Except.ok.injEq] at e
        subst e
        obtain ⟨inv1, hw1⟩ := stableCode_pass c n D st r inv (fun x hx => hf x (Or.inl hx)) h1
        have hb := stableBrs_pass bs n D st rs' inv (fun x hx => hf x (Or.inr hx)) h2
        refine ⟨by simp, ?_, ?_, ?_⟩
        · intro r' hr'
          rcases List.mem_cons.mp hr' with rfl | hr'
          · exact ⟨fun x => c.times x, fun x => by simp only [IBrs.times]; omega, inv1⟩
          · obtain ⟨k, hk, hp⟩ := hb.each r' hr'
            exact ⟨k, fun x => by have := hk x; simp only [IBrs.times]; omega, hp⟩
        · intro x hx
          simp only [IBrs.times] at hx
          by_cases hc : 1 ≤ c.times x
          · exact ⟨r, by simp, (inv1.keys x).mpr (by omega), fun m => hw1 x m hc⟩
          · obtain ⟨r', hr', h3⟩ := hb.some x (by omega)
            exact ⟨r', by simp [hr'], h3⟩
        · intro x hx r' hr'
          rcases List.mem_cons.mp hr' with rfl | hr'
          · exact (inv1.keys x).mpr (by have := ICode.sets_times c hx.1; omega)
          · exact hb.all x hx.2 r' hr'
end

/-! ### Second pass and execution -/

/-- The circuit against the source at a place of the text. `done`: the variables known to be assigned. -/
structure InlSame (q : String → V) (inl : String → Bool) (D : Deps) (defs : String → Option ((String → V) → V)) (done : String → Prop)
    (s v : String → V) : Prop where
  cur : ∀ x, inl x = false → v x = s x
  old : ∀ x, x ∉ D.keys → s x = q x
  has : ∀ t, done t → t ∈ D.keys
  mac : ∀ t, done t → inl t = true → ∃ f, defs t = some f ∧ f v = s t ∧
    ∀ v v' : String → V, (∀ x, (D.on t x).bit true = true → inl x = false → v x = v' x) → f v = f v'

theorem InlSame.weaken {q : String → V} {inl : String → Bool} {D : Deps} {defs defs' : String → Option ((String → V) → V)}
    {done done' : String → Prop} {s v : String → V} (h : InlSame q inl D defs done s v) (hd : ∀ t, done' t → done t)
    (he : ∀ t, done' t → inl t = true → defs' t = defs t) : InlSame q inl D defs' done' s v :=
  ⟨h.cur, h.old, fun t ht => h.has t (hd t ht), fun t ht hi => by rw [he t ht hi]; exact h.mac t (hd t ht) hi⟩

theorem sameRead {q : String → V} {inl : String → Bool} {D : Deps} {defs : String → Option ((String → V) → V)} {done : String → Prop}
    {s v : String → V} (inv : InlSame q inl D defs done s v) {keys : List String} (hk : ∀ x, x ∈ keys ↔ x ∈ D.keys)
    {r : String} (hr : inl r = true → done r) : ∃ f, inlRead q inl keys defs r = some f ∧ f v = s r ∧
      ∀ v v' : String → V, (∀ x, (r ∈ D.keys ∧ r = x) ∨ (r ∈ D.keys ∧ (D.on r x).bit true = true) → inl x = false → v x = v' x) → f v = f v' := by
  unfold inlRead
  by_cases hi : inl r = true
  · obtain ⟨f, h1, h2, h3⟩ := inv.mac r (hr hi) hi
    exact ⟨f, by simp [hi, h1], h2, fun v v' hv => h3 v v' fun x hx hxi => hv x (Or.inr ⟨inv.has r (hr hi), hx⟩) hxi⟩
  · have hif : inl r = false := by simpa using hi
    by_cases hrk : r ∈ D.keys
    · exact ⟨fun v => v r, by simp [hif, (hk r).mpr hrk], inv.cur r hif, fun v v' hv => hv r (Or.inl ⟨hrk, rfl⟩) hif⟩
    · have : r ∉ keys := fun m => hrk ((hk r).mp m)
      exact ⟨fun _ => q r, by simp [hif, this], (inv.old r hrk).symm, fun _ _ _ => rfl⟩

theorem sameReads {q : String → V} {inl : String → Bool} {D : Deps} {defs : String → Option ((String → V) → V)} {done : String → Prop}
    {s v : String → V} (inv : InlSame q inl D defs done s v) {keys : List String} (hk : ∀ x, x ∈ keys ↔ x ∈ D.keys) :
    ∀ (rs : List String), (∀ r ∈ rs, inl r = true → done r) → ∃ fs, rs.mapM (inlRead q inl keys defs) = some fs ∧
      (fs.map fun f => f v) = rs.map s ∧
      ∀ v v' : String → V, (∀ x, (∃ r ∈ rs, (r ∈ D.keys ∧ r = x) ∨ (r ∈ D.keys ∧ (D.on r x).bit true = true)) → inl x = false → v x = v' x) →
        (fs.map fun f => f v) = fs.map fun f => f v'
  | [], _ => ⟨[], rfl, rfl, fun _ _ _ => rfl⟩
  | r :: rs, hrs => by
    obtain ⟨f, h1, h2, h3⟩ := sameRead inv hk (hrs r (by simp))
    obtain ⟨fs, h4, h5, h6⟩ := sameReads inv hk rs fun r' hr' => hrs r' (by simp [hr'])
    refine ⟨f :: fs, by simp [List.mapM_cons, h1, h4], by simp [h2, h5], ?_⟩
    intro v v' hv
    rw [List.map_cons, List.map_cons, h6 v v' fun x ⟨r', hr', hx⟩ => hv x ⟨r', by simp [hr'], hx⟩,
      h3 v v' fun x hx => hv x ⟨r, by simp, hx⟩]

theorem same_asg {q : String → V} {inl : String → Bool} {total n : String → Nat} {D D' : Deps} {st : Stable}
    {defs : String → Option ((String → V) → V)} {done : String → Prop} {s v : String → V} {i : Asg V} {fuel : Nat}
    (pass : InlPass total n D st) (inv : InlSame q inl D defs done s v) (htot : ∀ x, n x + (ICode.asg i).times x ≤ total x)
    (hfirst : ∀ x ∈ i.reads, n x = 0 → total x ≤ 1) (hset : ∀ r ∈ i.reads, inl r = true → done r)
    (hD : Deps.instr fuel D i.reads [i.target] = some (.ok D'))
    (hst : ∀ t, inl t = true → stableUpd D.keys D' i.target st t ≠ some false) {keys : List String}
    (hk : ∀ x, x ∈ keys ↔ x ∈ D.keys) :
    ∃ hc keys' defs', inlCode q inl keys defs (.asg i) = some (hc, keys', defs') ∧ (∀ x, x ∈ keys' ↔ x ∈ D'.keys) ∧
      (∀ t, t ≠ i.target → defs' t = defs t) ∧ (runH v hc).1 = [i.reads.map s] ∧
      InlSame q inl D' defs' (fun t => done t ∨ i.target = t) (Function.update s i.target (i.fn (i.reads.map s))) (runH v hc).2 := by
  have pass' := inlPass_asg pass hfirst hD
  obtain ⟨hwf, hkeys, hle, hjust, hfix, _⟩ := instr_ok pass.wf hD
  have hk' : ∀ x, x ∈ D'.keys ↔ x ∈ D.keys ∨ x = i.target := fun x => by rw [hkeys, mem_addNew, List.mem_singleton]
  obtain ⟨fs, hfs, hval, hdep⟩ := sameReads inv hk i.reads hset
  have hgrow : ∀ t x b, t ≠ i.target → (D.on t x).bit b = true → (D'.on t x).bit b = true := by
    intro t x b ht hb
    apply hle
    simpa [Deps.assign, ht] using hb
  have hkk : ∀ x, x ∈ keys ++ [i.target] ↔ x ∈ D'.keys := by
    intro x
    rw [hk', List.mem_append, hk, List.mem_singleton]
  have hold' : ∀ x, x ∉ D'.keys → Function.update s i.target (i.fn (i.reads.map s)) x = q x := by
    intro x hx
    have hne : x ≠ i.target := fun e => hx ((hk' x).mpr (Or.inr e))
    rw [Function.update_of_ne hne]
    exact inv.old x fun m => hx ((hk' x).mpr (Or.inl m))
  have hhas : ∀ t, done t ∨ i.target = t → t ∈ D'.keys := by
    rintro t (ht | ht)
    · exact (hk' t).mpr (Or.inl (inv.has t ht))
    · exact (hk' t).mpr (Or.inr ht.symm)
  by_cases hi : inl i.target = true
  · have hnk : i.target ∉ D.keys := by
      intro m
      refine hst i.target hi ?_
      simp [stableUpd, stableMark, m]
    refine ⟨.act fs none i.fn, keys ++ [i.target], Function.update defs i.target (some fun v => i.fn (fs.map fun f => f v)),
      by simp [inlCode, hfs, hi], hkk, fun t ht => Function.update_of_ne ht .., by simp [runH, hval], ?_⟩
    refine ⟨?_, hold', hhas, ?_⟩
    · intro x hxi
      have hne : x ≠ i.target := fun e => by rw [e, hi] at hxi; cases hxi
      rw [Function.update_of_ne hne]
      exact inv.cur x hxi
    · intro t ht hti
      by_cases hte : t = i.target
      · subst hte
        refine ⟨_, Function.update_self .., by simp [runH, hval], ?_⟩
        intro v v' hv
        congr 1
        apply hdep
        rintro x ⟨r, hr, hx⟩ hxi
        refine hv x ?_ hxi
        rcases hx with ⟨hrk, rfl⟩ | ⟨hrk, hb⟩
        · apply hle
          simp [Deps.assign, hr, Deps.side, hrk, QD.bit]
        · have hrne : r ≠ i.target := fun e => hnk (e ▸ hrk)
          refine fix_trans hfix (b' := true) (hhas _ ht) ((hk' r).mpr (Or.inl hrk)) ?_ (hgrow r x true hrne hb)
          apply hle
          simp [Deps.assign, hr, Deps.side, hrk, QD.bit]
      · obtain ⟨f, h1, h2, h3⟩ := inv.mac t (ht.resolve_right fun e => hte e.symm) hti
        refine ⟨f, by rw [Function.update_of_ne hte, h1], by rw [Function.update_of_ne hte, ← h2]; rfl, ?_⟩
        intro v v' hv
        exact h3 v v' fun x hx => hv x (hgrow t x true hte hx)
  · have hif : inl i.target = false := by simpa using hi
    refine ⟨.act fs (some i.target) i.fn, keys ++ [i.target], defs, by simp [inlCode, hfs, hif], hkk, fun _ _ => rfl,
      by simp [runH, hval], ?_⟩
    refine ⟨?_, hold', hhas, ?_⟩
    · intro x hxi
      simp only [runH]
      by_cases hne : x = i.target
      · subst hne
        simp [hval]
      · simp only [Function.update_of_ne hne]
        exact inv.cur x hxi
    · intro t ht hti
      have hte : t ≠ i.target := fun e => by rw [e, hif] at hti; cases hti
      have htd := ht.resolve_right fun e => hte e.symm
      have htk := inv.has t htd
      obtain ⟨f, h1, h2, h3⟩ := inv.mac t htd hti
      refine ⟨f, h1, ?_, fun v v' hv => h3 v v' fun x hx => hv x (hgrow t x true hte hx)⟩
      rw [Function.update_of_ne hte, ← h2]
      simp only [runH]
      apply h3
      intro x hx _
      by_cases hxe : x = i.target
      · exfalso
        subst hxe
        have hxk : i.target ∈ D.keys := by
          by_contra hn
          rw [pass.fresh t i.target hn] at hx
          cases hx
        have hcount : 2 ≤ total i.target := by
          have h1 := (pass.keys _).mp hxk
          have h2 := htot i.target
          simp only [ICode.times, if_true] at h2
          omega
        have hq0 := pass'.noq _ hcount t
        have hd1 := hgrow t _ true hte hx
        have hs0 := (pass.known t).mpr htk
        refine hst t hti ?_
        have hhere : (D'.on t i.target).here = true := (QD.here_iff _).mpr ⟨true, hd1⟩
        have hqf : (D'.on t i.target).q = false := by simpa [QD.bit] using hq0
        have hs1 : (stableMark D.keys i.target st t).isSome = true := stableMark_isSome (Or.inl hs0)
        simp only [stableUpd]
        rw [if_pos ⟨(hk' t).mpr (Or.inl htk), hhere, hs1, hqf⟩]
      · exact Function.update_of_ne hxe ..

mutual
theorem code_same {q : String → V} {inl : String → Bool} {total : String → Nat} {fuel : Nat} :
    ∀ (c : ICode V) (n : String → Nat) (D : Deps) (st : Stable) (r : Deps × Stable) (keys : List String)
      (defs : String → Option ((String → V) → V)) (done : String → Prop) (s v : String → V),
      InlPass total n D st → InlSame q inl D defs done s v → (∀ x, n x + c.times x ≤ total x) →
      (∀ x, c.readsFirst x n → total x ≤ 1) → c.ReadsSet inl done → stableCode fuel D st c = some (.ok r) →
      (∀ t, inl t = true → r.2 t ≠ some false) → (∀ x, x ∈ keys ↔ x ∈ D.keys) →
      ∃ hc keys' defs', inlCode q inl keys defs c = some (hc, keys', defs') ∧ (∀ x, x ∈ keys' ↔ x ∈ r.1.keys) ∧
        (∀ t, c.times t = 0 → defs' t = defs t) ∧ (runH v hc).1 = (srcCode s c).1 ∧
        InlSame q inl r.1 defs' (fun t => done t ∨ c.sets t) (srcCode s c).2 (runH v hc).2
  | .skip, n, D, st, r, keys, defs, done, s, v, pass, inv, htot, hfirst, hset, e, hst, hk => by
    simp only [stableCode, Option.some.injEq, Except.ok.injEq] at e
    subst e
    exact ⟨.skip, keys, defs, rfl, hk, fun _ _ => rfl, rfl,
      inv.weaken (fun t ht => ht.resolve_right fun h => h.elim) fun _ _ _ => rfl⟩
  | .asg i, n, D, st, r, keys, defs, done, s, v, pass, inv, htot, hfirst, hset, e, hst, hk => by
    simp only [stableCode] at e
    split at e
    · simp at e
    · simp at e
    · next D' hD =>
      simp only [Option.some.injEq, Except.ok.injEq] at e
      subst e
      obtain ⟨hc, keys', defs', h1, h2, h3, h4, h5⟩ :=
        same_asg pass inv htot (fun x hx h0 => hfirst x ⟨hx, h0⟩) hset hD hst hk
      refine ⟨hc, keys', defs', h1, h2, ?_, h4, h5⟩
      intro t ht
      apply h3
      intro he
      subst he
      simp [ICode.times] at ht
  | .seq a b, n, D, st, r, keys, defs, done, s, v, pass, inv, htot, hfirst, hset, e, hst, hk => by
    simp only [stableCode] at e
    split at e
    · simp at e
    · simp at e
    · next D1 st1 h1 =>
      have pass1 := (stableCode_pass a n D st (D1, st1) pass (fun x hx => hfirst x (Or.inl hx)) h1).1
      have hst1 : ∀ t, inl t = true → st1 t ≠ some false := fun t ht hf => hst t ht (stableCode_false b D1 st1 r hf e)
      obtain ⟨ha, keys1, defs1, a1, a2, a3, a4, a5⟩ := code_same a n D st (D1, st1) keys defs done s v pass inv
        (fun x => by have := htot x; simp only [ICode.times] at this; omega) (fun x hx => hfirst x (Or.inl hx)) hset.1 h1 hst1 hk
      obtain ⟨hb, keys2, defs2, b1, b2, b3, b4, b5⟩ := code_same b _ D1 st1 r keys1 defs1 _ _ _ pass1 a5
        (fun x => by have := htot x; simp only [ICode.times] at this; omega) (fun x hx => hfirst x (Or.inr hx)) hset.2 e hst a2
      refine ⟨.seq ha hb, keys2, defs2, by simp [inlCode, a1, b1], b2, ?_, by simp only [runH, srcCode]; rw [a4, b4], ?_⟩
      · intro t ht
        simp only [ICode.times] at ht
        rw [b3 t (by omega), a3 t (by omega)]
      · simp only [runH, srcCode]
        exact b5.weaken (fun t ht => by
          rcases ht with ht | ht | ht
          · exact Or.inl (Or.inl ht)
          · exact Or.inl (Or.inr ht)
          · exact Or.inr ht) fun _ _ _ => rfl
  | .branch reads pick bs, n, D, st, r, keys, defs, done, s, v, pass, inv, htot, hfirst, hset, e, hst, hk => by
    simp only [stableCode] at e
    split at e
    · simp at e
    · simp at e
    · next rs h1 =>
      simp only [Option.some.injEq, Except.ok.injEq] at e
      subst e
      have hb := stableBrs_pass bs n D st rs pass hfirst h1
      have pass' := inlPass_merged pass hb
      obtain ⟨fs, hfs, hval, _⟩ := sameReads inv hk reads hset.1
      have hst' : ∀ t, inl t = true → ∀ r ∈ rs, r.2 t ≠ some false := fun t ht r hr =>
        combineStable_ne (hst t ht) r.2 (List.mem_map.mpr ⟨r, hr, rfl⟩)
      have hcount : ∀ t, inl t = true → t ∉ D.keys → rs.countP (fun r => decide (t ∈ r.1.keys)) ≤ 1 := by
        intro t ht htk
        have hnone : st t = none := by
          cases h : st t with
          | none => rfl
          | some b => exact absurd ((pass.known t).mp (by simp [h])) htk
        have h2 := combineStable_one (brs := rs.map Prod.snd) hnone (hst t ht)
        rw [List.map_map, List.countP_map] at h2
        refine Nat.le_trans (List.countP_mono_left ?_) h2
        intro r hr hx
        exact ((hb.each r hr).choose_spec.2.known t).mpr (of_decide_eq_true hx)
      have hone : ∀ t, inl t = true → t ∉ D.keys → bs.sets t → rs.length = 1 := by
        intro t ht htk hs
        have h2 := hcount t ht htk
        rw [List.countP_eq_length.mpr fun r hr => decide_eq_true (hb.all t hs r hr)] at h2
        have := List.length_pos_iff.mpr hb.ne
        omega
      have hnew : ∀ t, inl t = true → t ∈ D.keys → bs.times t = 0 := by
        intro t ht htk
        by_contra h0
        exact hst t ht (combineStable_written hb htk (by omega))
      obtain ⟨hbs, keys', defs', b1, b2, b3, b4⟩ := brs_same bs n D st rs keys defs done s v pass inv htot hfirst hset.2 h1 hst' hcount hk
      obtain ⟨r, hr, b5, b6⟩ := b4 (pick (reads.map s))
      refine ⟨.branch fs pick hbs, keys ++ keys', defs', by simp [inlCode, hfs, b1], ?_, b3, ?_, ?_⟩
      · intro x
        show _ ↔ x ∈ (mergeAll D rs).keys
        rw [List.mem_append, mergeAll_keys, hk, b2]
      · simp only [runH, srcCode]
        rw [hval, b5]
      · simp only [runH, srcCode]
        rw [hval]
        refine ⟨b6.cur, ?_, ?_, ?_⟩
        · intro x hx
          exact b6.old x fun m => hx ((mergeAll_keys rs D x).mpr (Or.inr ⟨r, hr, m⟩))
        · rintro t ht
          exact (mergeAll_keys rs D t).mpr (Or.inr ⟨r, hr, b6.has t ht⟩)
        · intro t ht hti
          obtain ⟨f, c1, c2, c3⟩ := b6.mac t ht hti
          by_cases htk : t ∈ D.keys
          · -- assigned before: the macro is the one known before the conditional
            refine ⟨f, c1, c2, ?_⟩
            have hd : done t := by
              rcases ht with h | h
              · exact h
              · have := IBrs.sets_times bs h
                rw [hnew t hti htk] at this
                omega
            obtain ⟨f0, d1, d2, d3⟩ := inv.mac t hd hti
            have hff : f = f0 := by
              rw [b3 t (hnew t hti htk), d1] at c1
              exact (Option.some.inj c1).symm
            subst hff
            intro v v' hv
            refine d3 v v' fun x hx => hv x ?_
            show ((mergeAll D rs).on t x).bit true = true
            rw [mergeAll_on_old rs D t x htk]
            exact hx
          · have hs : bs.sets t := ht.resolve_left fun h => htk (inv.has t h)
            obtain ⟨r0, hr0⟩ := List.length_eq_one_iff.mp (hone t hti htk hs)
            subst hr0
            simp only [List.mem_singleton] at hr
            subst hr
            refine ⟨f, c1, c2, fun v v' hv => c3 v v' fun x hx => hv x ?_⟩
            simpa [Deps.merge, htk] using hx

theorem brs_same {q : String → V} {inl : String → Bool} {total : String → Nat} {fuel : Nat} :
    ∀ (bs : IBrs V) (n : String → Nat) (D : Deps) (st : Stable) (rs : List (Deps × Stable)) (keys : List String)
      (defs : String → Option ((String → V) → V)) (done : String → Prop) (s v : String → V),
      InlPass total n D st → InlSame q inl D defs done s v → (∀ x, n x + bs.times x ≤ total x) →
      (∀ x, bs.readsFirst x n → total x ≤ 1) → bs.ReadsSet inl done → stableBrs fuel D st bs = some (.ok rs) →
      (∀ t, inl t = true → ∀ r ∈ rs, r.2 t ≠ some false) →
      (∀ t, inl t = true → t ∉ D.keys → rs.countP (fun r => decide (t ∈ r.1.keys)) ≤ 1) → (∀ x, x ∈ keys ↔ x ∈ D.keys) →
      ∃ hbs keys' defs', inlBrs q inl keys defs bs = some (hbs, keys', defs') ∧ (∀ x, x ∈ keys' ↔ ∃ r ∈ rs, x ∈ r.1.keys) ∧
        (∀ t, bs.times t = 0 → defs' t = defs t) ∧
        ∀ m, ∃ r ∈ rs, (runHBrs v m hbs).1 = (srcBrs s m bs).1 ∧
          InlSame q inl r.1 defs' (fun t => done t ∨ bs.sets t) (srcBrs s m bs).2 (runHBrs v m hbs).2
  | .one c, n, D, st, rs, keys, defs, done, s, v, pass, inv, htot, hfirst, hset, e, hst, hone, hk => by
    simp only [stableBrs] at e
    split at e
    · simp at e
    · simp at e
    · next r h1 =>
      simp only [Option.some.injEq, Except.ok.injEq] at e
      subst e
      obtain ⟨hc, keys', defs', a1, a2, a3, a4, a5⟩ := code_same c n D st r keys defs done s v pass inv htot hfirst hset h1
        (fun t ht => hst t ht r (by simp)) hk
      refine ⟨.one hc, keys', defs', by simp [inlBrs, a1], by simpa using a2, a3, fun m => ⟨r, by simp, a4, a5⟩⟩
  | .cons c bs, n, D, st, rs, keys, defs, done, s, v, pass, inv, htot, hfirst, hset, e, hst, hone, hk => by
    simp only [stableBrs] at e
    split at e
    · simp at e
    · simp at e
    · next r h1 =>
      split at e
      · simp at e
      · simp at e
      · next rs' h2 =>
        simp only [Option.some.injEq, Except.ok.injEq] at e
        subst e
        have htc : ∀ x, n x + c.times x ≤ total x := fun x => by have := htot x; simp only [IBrs.times] at this; omega
        have htb : ∀ x, n x + bs.times x ≤ total x := fun x => by have := htot x; simp only [IBrs.times] at this; omega
        obtain ⟨pass1, hw1⟩ := stableCode_pass c n D st r pass (fun x hx => hfirst x (Or.inl hx)) h1
        have hb := stableBrs_pass bs n D st rs' pass (fun x hx => hfirst x (Or.inr hx)) h2
        obtain ⟨hc, keys1, defs1, a1, a2, a3, a4, a5⟩ := code_same c n D st r keys defs done s v pass inv htc
          (fun x hx => hfirst x (Or.inl hx)) hset.1 h1 (fun t ht => hst t ht r (by simp)) hk
        -- the macros known before the conditional are not defined again
        have hkeep1 : ∀ t, done t → inl t = true → defs1 t = defs t := by
          intro t ht hti
          apply a3
          by_contra h0
          exact hst t hti r (by simp) (hw1 t (inv.has t ht) (by omega))
        have hkeep2 : ∀ t, done t → inl t = true → bs.times t = 0 := by
          intro t ht hti
          by_contra h0
          obtain ⟨r', hr', _, hf⟩ := hb.some t (by omega)
          exact hst t hti r' (by simp [hr']) (hf (inv.has t ht))
        have hno : ∀ t, inl t = true → ¬ (c.sets t ∧ bs.sets t) := by
          intro t hti hs
          have hc1 := ICode.sets_times c hs.1
          by_cases htk : t ∈ D.keys
          · exact hst t hti r (by simp) (hw1 t htk hc1)
          · have h3 := hone t hti htk
            have hrk : t ∈ r.1.keys := (pass1.keys t).mpr (by omega)
            rw [List.countP_cons, List.countP_eq_length.mpr fun r hr => decide_eq_true (hb.all t hs.2 r hr)] at h3
            have := List.length_pos_iff.mpr hb.ne
            simp only [hrk, decide_true, if_true] at h3
            omega
        obtain ⟨hbs, keys2, defs2, b1, b2, b3, b4⟩ := brs_same bs n D st rs' keys defs1 done s v pass
          (inv.weaken (fun _ ht => ht) hkeep1) htb (fun x hx => hfirst x (Or.inr hx)) hset.2 h2
          (fun t ht r' hr' => hst t ht r' (by simp [hr']))
          (fun t hti htk => by
            have h3 := hone t hti htk
            rw [List.countP_cons] at h3
            omega) hk
        refine ⟨.cons hc hbs, keys1 ++ keys2, defs2, by simp [inlBrs, a1, b1], ?_, ?_, ?_⟩
        · intro x
          rw [List.mem_append, a2, b2]
          simp
        · intro t ht
          simp only [IBrs.times] at ht
          rw [b3 t (by omega), a3 t (by omega)]
        · intro m
          simp only [runHBrs, srcBrs]
          by_cases hm : m = 0
          · rw [if_pos hm, if_pos hm]
            refine ⟨r, by simp, a4, a5.weaken ?_ ?_⟩
            · rintro t (ht | ht)
              · exact Or.inl ht
              · exact Or.inr ht.1
            · rintro t (ht | ht) hti
              · exact b3 t (hkeep2 t ht hti)
              · exact absurd ht (hno t hti)
          · rw [if_neg hm, if_neg hm]
            obtain ⟨r', hr', b5, b6⟩ := b4 (m - 1)
            refine ⟨r', by simp [hr'], b5, b6.weaken ?_ fun _ _ _ => rfl⟩
            rintro t (ht | ht)
            · exact Or.inl ht
            · exact Or.inr ht.2
end

/-! ### Variables whose previous value is not used -/

mutual
theorem ICode.readsSet_of_each {inl : String → Bool} : ∀ (c : ICode V) (done : String → Prop),
    (∀ x, inl x = true → c.ReadsSet (fun y => decide (y = x)) done) → c.ReadsSet inl done
  | .skip, _, _ => trivial
  | .asg i, done, h => fun r hr hi => h r hi r hr (by simp)
  | .seq a b, done, h => ⟨a.readsSet_of_each done fun x hx => (h x hx).1, b.readsSet_of_each _ fun x hx => (h x hx).2⟩
  | .branch reads _ bs, done, h =>
    ⟨fun r hr hi => (h r hi).1 r hr (by simp), bs.readsSet_of_each done fun x hx => (h x hx).2⟩

theorem IBrs.readsSet_of_each {inl : String → Bool} : ∀ (bs : IBrs V) (done : String → Prop),
    (∀ x, inl x = true → bs.ReadsSet (fun y => decide (y = x)) done) → bs.ReadsSet inl done
  | .one c, done, h => c.readsSet_of_each done h
  | .cons c bs, done, h => ⟨c.readsSet_of_each done fun x hx => (h x hx).1, bs.readsSet_of_each done fun x hx => (h x hx).2⟩
end

mutual
theorem ICode.readsSet_of_use {cls : String → Store} {x : String} (hc : cls x = .flipflop) (c : ICode V) (K : Keys) (U : Usage)
    (h : UseOk (K x) (U x)) (hq : (c.toStm.use cls K U x).q = false) (done : String → Prop)
    (hw : K x = true → (U x).latch = false → done x) :
    c.ReadsSet (fun y => decide (y = x)) done ∧
      (c.toStm.keys K x = true → (c.toStm.use cls K U x).latch = false → done x ∨ c.sets x) := by
  match c with
  | .skip => exact ⟨trivial, fun hk hl => Or.inl (hw hk hl)⟩
  | .asg i =>
    simp only [ICode.toStm] at hq ⊢
    have m1 := readsUse_mono (cls := cls) (rs := i.reads) (K := K) (U := U) (x := x)
    have m2 := writesUse_mono (i := i.toIns) (U := readsUse cls i.reads K U) (x := x)
    obtain ⟨hq1, _⟩ := m2.1 hq
    refine ⟨?_, ?_⟩
    · intro r hr hx
      have hrx : r = x := of_decide_eq_true hx
      subst hrx
      obtain ⟨hk, hl⟩ := readsUse_read hc hr hq1
      exact hw hk hl
    · intro hk hl
      have hl' : (U x).latch = false := by rw [← m1.2.2.1, ← m2.2.2.1]; exact hl
      have hk' : insKeys i.toIns K x = true := hk
      simp only [insKeys, Asg.toIns, Bool.or_eq_true, decide_eq_true_eq, List.mem_singleton, List.not_mem_nil, or_false] at hk'
      rcases hk' with hk' | hk'
      · exact Or.inl (hw hk' hl')
      · exact Or.inr hk'.symm
  | .seq a b =>
    simp only [ICode.toStm] at hq ⊢
    have ha := a.toStm.stepOk hc K U h
    have hb := b.toStm.stepOk hc (a.toStm.keys K) (a.toStm.use cls K U) ha.ok
    obtain ⟨ca, wa⟩ := a.readsSet_of_use hc K U h (hb.q hq) done hw
    obtain ⟨cb, wb⟩ := b.readsSet_of_use hc (a.toStm.keys K) (a.toStm.use cls K U) ha.ok hq (fun y => done y ∨ a.sets y) wa
    exact ⟨⟨ca, cb⟩, fun hk hl => or_assoc.mp (wb hk hl)⟩
  | .branch rs pick bs =>
    simp only [ICode.toStm] at hq ⊢
    have m1 := readsUse_mono (cls := cls) (rs := rs) (K := K) (U := U) (x := x)
    have h1 := readsUse_ok (rs := rs) hc h
    have hp := bs.toBrs.stepOk hc K _ h1
    have e1 : ∀ sel other, (Stm.branch rs sel bs.toBrs false other).use cls K U x =
        combine1 (readsUse cls rs K U x) ((bs.toBrs.pairs cls x K (readsUse cls rs K U)).map (·.2)) := by
      intro sel other
      rw [Brs.pairs_snd]; simp [Stm.use]
    have e2 : ∀ sel other, (Stm.branch rs sel bs.toBrs false other).keys K x =
        (K x || (bs.toBrs.pairs cls x K (readsUse cls rs K U)).any (·.1)) := by
      intro sel other
      rw [Brs.pairs_fst]; rfl
    rw [e1] at hq
    rw [e1, e2]
    obtain ⟨hq1, hqall⟩ := combine1_q hq
    have key := combine1_all h1 (fun p h => (hp p h).ok) (fun p h => (hp p h).noLatch) (fun p h => (hp p h).d) hq
    have hw1 : K x = true → (readsUse cls rs K U x).latch = false → done x := by
      intro hk hl; rw [m1.2.2.1] at hl; exact hw hk hl
    obtain ⟨cb, wb⟩ := bs.readsSet_of_use hc K (readsUse cls rs K U) h1
      (fun p hp => hqall _ (List.mem_map.mpr ⟨p, hp, rfl⟩)) done hw1
    refine ⟨⟨?_, cb⟩, fun hk hl => wb (key hl hk)⟩
    intro r hr hx
    have hrx : r = x := of_decide_eq_true hx
    subst hrx
    obtain ⟨hk, hl⟩ := readsUse_read hc hr hq1
    exact hw hk hl

theorem IBrs.readsSet_of_use {cls : String → Store} {x : String} (hc : cls x = .flipflop) (bs : IBrs V) (K : Keys) (U : Usage)
    (h : UseOk (K x) (U x)) (hq : ∀ p ∈ bs.toBrs.pairs cls x K U, p.2.q = false) (done : String → Prop)
    (hw : K x = true → (U x).latch = false → done x) :
    bs.ReadsSet (fun y => decide (y = x)) done ∧
      ((∀ p ∈ bs.toBrs.pairs cls x K U, p.1 = true ∧ p.2.latch = false) → done x ∨ bs.sets x) := by
  match bs with
  | .one c =>
    simp only [IBrs.toBrs, Brs.pairs, List.mem_singleton, forall_eq] at hq ⊢
    obtain ⟨c1, w1⟩ := c.readsSet_of_use hc K U h hq done hw
    exact ⟨c1, fun hk => w1 hk.1 hk.2⟩
  | .cons c bs =>
    simp only [IBrs.toBrs, Brs.pairs, List.mem_cons, forall_eq_or_imp] at hq ⊢
    obtain ⟨c1, w1⟩ := c.readsSet_of_use hc K U h hq.1 done hw
    obtain ⟨c2, w2⟩ := bs.readsSet_of_use hc K U h hq.2 done hw
    refine ⟨⟨c1, c2⟩, fun hk => ?_⟩
    rcases w1 hk.1.1 hk.1.2 with h1 | h1
    · exact Or.inl h1
    · rcases w2 hk.2 with h2 | h2
      · exact Or.inl h2
      · exact Or.inr ⟨h1, h2⟩
end

end

end Silice
