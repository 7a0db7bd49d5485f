import Verif.Spec.SameAs
import Mathlib.Data.List.Perm.Subperm

/-!
Lemmas about `sameas` resolution.
-/

set_option autoImplicit false

namespace Silice

theorem findSameAs_mem {e : TypeEnv} {k : DeclKind} {x y : String} (h : findSameAs e k x = some y) :
    (x, k, some y) ∈ e.decls := by
  unfold findSameAs at h
  cases hf : e.decls.find? (fun d => decide (d.1 = x ∧ d.2.1 = k)) with
  | none => rw [hf] at h; cases h
  | some d =>
    rw [hf] at h
    have h1 := List.find?_some hf
    have h2 := List.mem_of_find?_eq_some hf
    obtain ⟨a, b, c⟩ := d
    simp only [decide_eq_true_eq] at h1 h
    obtain ⟨rfl, rfl⟩ := h1
    rw [h] at h2
    exact h2

theorem unique_eq {e : TypeEnv} (hu : e.Unique) {x : String} {a b : DeclKind × Option String}
    (ha : (x, a) ∈ e.decls) (hb : (x, b) ∈ e.decls) : a = b := by
  have : ∀ l : List (String × DeclKind × Option String), (l.map (·.1)).Nodup → (x, a) ∈ l → (x, b) ∈ l → a = b := by
    intro l
    induction l with
    | nil => intro _ h; simp at h
    | cons d ds ih =>
      intro hn h1 h2
      simp only [List.map_cons, List.nodup_cons] at hn
      rcases List.mem_cons.mp h1 with h1 | h1 <;> rcases List.mem_cons.mp h2 with h2 | h2
      · exact (Prod.mk.inj (h1.trans h2.symm)).2
      · exact absurd (List.mem_map.mpr ⟨_, h2, by rw [← h1]⟩) hn.1
      · exact absurd (List.mem_map.mpr ⟨_, h1, by rw [← h2]⟩) hn.1
      · exact ih hn.2 h1 h2
  exact this e.decls hu ha hb

theorem findSameAs_of_mem {e : TypeEnv} (hu : e.Unique) {k : DeclKind} {x y : String}
    (h : (x, k, some y) ∈ e.decls) : findSameAs e k x = some y := by
  unfold findSameAs
  cases hf : e.decls.find? (fun d => decide (d.1 = x ∧ d.2.1 = k)) with
  | none =>
    have := List.find?_eq_none.mp hf _ h
    simp at this
  | some d =>
    have h1 := List.find?_some hf
    have h2 := List.mem_of_find?_eq_some hf
    obtain ⟨a, b, c⟩ := d
    simp only [decide_eq_true_eq] at h1
    obtain ⟨rfl, rfl⟩ := h1
    have := unique_eq hu h h2
    simp only [Prod.mk.injEq, true_and] at this
    exact this.symm

/-- One turn of the loop on a name that refers to another. -/
theorem sameAsRoot_step {e : TypeEnv} {tr : String → String} (hu : e.Unique) (hp : e.PlainInouts)
    (fuel : Nat) {x y : String} (ht : tr x = x) (h : e.RefersTo x y) :
    sameAsRoot tr e (fuel + 1) x = sameAsRoot tr e fuel y := by
  obtain ⟨k, hk⟩ := h
  have hother : ∀ k' z, findSameAs e k' x = some z → k' = k ∧ z = y := by
    intro k' z hz
    have := unique_eq hu (findSameAs_mem hz) hk
    simp only [Prod.mk.injEq, Option.some.injEq] at this
    exact this
  have hself := findSameAs_of_mem hu hk
  rw [sameAsRoot, ht]
  cases k with
  | var => simp [hself]
  | input =>
    have h1 : findSameAs e .var x = none := by
      cases hc : findSameAs e .var x with
      | none => rfl
      | some z => exact absurd (hother _ _ hc).1 (by simp)
    simp [h1, hself]
  | output =>
    have h1 : findSameAs e .var x = none := by
      cases hc : findSameAs e .var x with
      | none => rfl
      | some z => exact absurd (hother _ _ hc).1 (by simp)
    have h2 : findSameAs e .input x = none := by
      cases hc : findSameAs e .input x with
      | none => rfl
      | some z => exact absurd (hother _ _ hc).1 (by simp)
    simp [h1, h2, hself]
  | inout => exact absurd hk (hp x y)

/-- One turn of the loop on a name that refers to no other. -/
theorem sameAsRoot_stop {e : TypeEnv} {tr : String → String} (fuel : Nat) {x : String} (ht : tr x = x)
    (h : ∀ y, ¬ e.RefersTo x y) : sameAsRoot tr e (fuel + 1) x = some x := by
  have hn : ∀ k, findSameAs e k x = none := by
    intro k
    cases hc : findSameAs e k x with
    | none => rfl
    | some z => exact absurd ⟨k, findSameAs_mem hc⟩ (h z)
  simp [sameAsRoot, ht, hn]

theorem chainEnd_fixed {e : TypeEnv} {x r : String} (h : e.ChainEnd x r) : ∀ y, ¬ e.RefersTo r y := by
  induction h with
  | here h => exact h
  | step _ _ ih => exact ih

theorem refersTo_unique {e : TypeEnv} (hu : e.Unique) {x y z : String} (h1 : e.RefersTo x y) (h2 : e.RefersTo x z) :
    y = z := by
  obtain ⟨k, h1⟩ := h1
  obtain ⟨k', h2⟩ := h2
  have := unique_eq hu h1 h2
  simp only [Prod.mk.injEq, Option.some.injEq] at this
  exact this.2

theorem sameAsRoot_chain {e : TypeEnv} {tr : String → String} (hu : e.Unique) (hp : e.PlainInouts)
    (hc : NoCapture tr e) {x r : String} (hx : tr x = x) (h : e.ChainEnd x r) :
    ∃ n, ∀ fuel, n ≤ fuel → sameAsRoot tr e fuel x = some r := by
  induction h with
  | here h => exact ⟨1, fun fuel hf => by
      obtain ⟨f, rfl⟩ : ∃ f, fuel = f + 1 := ⟨fuel - 1, by omega⟩
      exact sameAsRoot_stop f hx h⟩
  | @step x y r h1 _ ih =>
    obtain ⟨n, hn⟩ := ih (hc y (Or.inr ⟨x, h1⟩))
    refine ⟨n + 1, fun fuel hf => ?_⟩
    obtain ⟨f, rfl⟩ : ∃ f, fuel = f + 1 := ⟨fuel - 1, by omega⟩
    rw [sameAsRoot_step hu hp f hx h1]
    exact hn f (by omega)

theorem sameAsRoot_sound {e : TypeEnv} {tr : String → String} (hu : e.Unique) (hp : e.PlainInouts)
    (hc : NoCapture tr e) (fuel : Nat) : ∀ {x r : String}, tr x = x → sameAsRoot tr e fuel x = some r →
      e.ChainEnd x r := by
  induction fuel with
  | zero => intro x r _ h; simp [sameAsRoot] at h
  | succ f ih =>
    intro x r hx h
    by_cases hr : ∃ y, e.RefersTo x y
    · obtain ⟨y, hy⟩ := hr
      rw [sameAsRoot_step hu hp f hx hy] at h
      exact .step hy (ih (hc y (Or.inr ⟨x, hy⟩)) h)
    · push Not at hr
      rw [sameAsRoot_stop f hx hr] at h
      injection h with h
      subst h
      exact .here hr

/-- What a history of declarations keeps: names declared once, references go to declared names with a type of their own,
and inouts are groups. -/
structure SameInv (e : TypeEnv) : Prop where
  unique : e.Unique
  root : ∀ x y, e.RefersTo x y → ∃ k, (y, k, none) ∈ e.decls
  inouts : ∀ x t, (x, DeclKind.inout, t) ∈ e.decls → x ∈ e.groups

/-- With the invariant, chains have at most one link. -/
theorem SameInv.end' {e : TypeEnv} (hi : SameInv e) {x y : String} (h : e.RefersTo x y) : ∀ z, ¬ e.RefersTo y z := by
  intro z ⟨k', hz⟩
  obtain ⟨k, hk⟩ := hi.root x y h
  have := unique_eq hi.unique hk hz
  simp at this

/-- Resolution of a declared name that is not a group: itself or the name it refers to, in at most two turns. -/
theorem SameInv.resolve {e : TypeEnv} (hi : SameInv e) {tr : String → String} (hc : NoCapture tr e) {x : String}
    (hx : x ∈ e.decls.map (·.1)) (hg : x ∉ e.groups) (fuel : Nat) (hf : 2 ≤ fuel) :
    ∃ r, sameAsRoot tr e fuel x = some r ∧ e.ChainEnd x r ∧ ∃ k, (r, k, none) ∈ e.decls := by
  have hxt := hc x (Or.inl hx)
  obtain ⟨⟨x', k, t⟩, hd, rfl⟩ := List.mem_map.mp hx
  simp only at hg hxt
  have hki : k ≠ .inout := fun hk => hg (hi.inouts x' t (hk ▸ hd))
  obtain ⟨f, rfl⟩ : ∃ f, fuel = f + 2 := ⟨fuel - 2, by omega⟩
  cases t with
  | none =>
    have hno : ∀ y, ¬ e.RefersTo x' y := by
      intro y ⟨k', h'⟩
      have := unique_eq hi.unique hd h'
      simp at this
    exact ⟨x', sameAsRoot_stop (f + 1) hxt hno, .here hno, k, hd⟩
  | some y =>
    have hr : e.RefersTo x' y := ⟨k, hd⟩
    have hyt := hc y (Or.inr ⟨x', hr⟩)
    obtain ⟨ky, hky⟩ := hi.root x' y hr
    refine ⟨y, ?_, .step hr (.here (hi.end' hr)), ky, hky⟩
    have hself := findSameAs_of_mem hi.unique hd
    have hother : ∀ k' z, findSameAs e k' x' = some z → k' = k := by
      intro k' z hz
      have := unique_eq hi.unique (findSameAs_mem hz) hd
      simp only [Prod.mk.injEq] at this
      exact this.1
    have hnone : ∀ k', k' ≠ k → findSameAs e k' x' = none := by
      intro k' hk'
      cases hcs : findSameAs e k' x' with
      | none => rfl
      | some z => exact absurd (hother _ _ hcs) hk'
    have hstep : sameAsRoot tr e (f + 2) x' = sameAsRoot tr e (f + 1) y := by
      rw [sameAsRoot, hxt]
      cases k with
      | var => simp [hself]
      | input => simp [hself, hnone .var (by simp)]
      | output => simp [hself, hnone .var (by simp), hnone .input (by simp)]
      | inout => exact absurd rfl hki
    rw [hstep]
    exact sameAsRoot_stop f hyt (hi.end' hr)

theorem declareType_inv {fuel : Nat} (hf : 2 ≤ fuel) {e e' : TypeEnv} {d : TDecl} (hi : SameInv e)
    (hc : NoCapture (blockRewrite d.rules) e) (h : declareType fuel e d = .ok e') : SameInv e' := by
  unfold declareType at h
  by_cases hr1 : d.name ∈ e.decls.map (·.1)
  · rw [if_pos hr1] at h; cases h
  · rw [if_neg hr1] at h
    have hadd : ∀ t, (∀ y, t = some y → ∃ k, (y, k, none) ∈ e.decls) →
        SameInv ⟨(d.name, d.kind, t) :: e.decls, if d.kind = .inout then d.name :: e.groups else e.groups⟩ := by
      intro t ht
      refine ⟨?_, ?_, ?_⟩
      · simp only [TypeEnv.Unique, List.map_cons, List.nodup_cons]
        exact ⟨hr1, hi.unique⟩
      · rintro x y ⟨k, hk⟩
        have hy : ∃ k, (y, k, none) ∈ e.decls := by
          rcases List.mem_cons.mp hk with hk | hk
          · simp only [Prod.mk.injEq] at hk
            exact ht y hk.2.2.symm
          · exact hi.root x y ⟨k, hk⟩
        obtain ⟨k', h1⟩ := hy
        exact ⟨k', List.mem_cons_of_mem _ h1⟩
      · intro x t' hx
        rcases List.mem_cons.mp hx with hx | hx
        · simp only [Prod.mk.injEq] at hx
          rw [if_pos hx.2.1.symm]
          simp [hx.1]
        · have := hi.inouts x t' hx
          split_ifs
          · exact List.mem_cons_of_mem _ this
          · exact this
    cases hty : d.type with
    | direct =>
      simp only [hty] at h
      injection h with h
      rw [← h]
      exact hadd none (by simp)
    | sameas base =>
      simp only [hty] at h
      by_cases hg : blockRewrite d.rules base ∈ e.groups
      · rw [if_pos hg] at h
        injection h with h
        rw [← h]
        exact ⟨hi.unique, hi.root, fun x t hx => List.mem_cons_of_mem _ (hi.inouts x t hx)⟩
      · rw [if_neg hg] at h
        by_cases hb : blockRewrite d.rules base ∈ e.decls.map (·.1)
        · rw [if_neg (not_not.mpr hb)] at h
          obtain ⟨r, h1, _, h3⟩ := hi.resolve hc hb hg fuel hf
          rw [h1] at h
          injection h with h
          rw [← h]
          exact hadd (some r) (fun y hy => by
            injection hy with hy
            rw [← hy]
            exact h3)
        · rw [if_pos hb] at h
          simp at h

/-- A walk along references that has not ended: the names met are distinct and declared. -/
theorem acyclic_ends {e : TypeEnv} (ha : e.Acyclic) : ∀ (n : Nat) (seen : List String) (x : String),
    seen.Nodup → (∀ s ∈ seen, s ∈ e.decls.map (·.1) ∧ Relation.TransGen e.RefersTo s x) →
    e.decls.length < seen.length + n → ∃ r, e.ChainEnd x r := by
  intro n
  induction n with
  | zero =>
    intro seen x hn hs hl
    have := (List.Nodup.subperm hn (fun s h => (hs s h).1)).length_le
    simp at this
    omega
  | succ n ih =>
    intro seen x hn hs hl
    by_cases hr : ∃ y, e.RefersTo x y
    · obtain ⟨y, hy⟩ := hr
      have hx : x ∉ seen := fun hm => ha x (hs x hm).2
      have hdecl : x ∈ e.decls.map (·.1) := by
        obtain ⟨k, hk⟩ := hy
        exact List.mem_map.mpr ⟨_, hk, rfl⟩
      obtain ⟨r, hr⟩ := ih (x :: seen) y (List.nodup_cons.mpr ⟨hx, hn⟩) (by
        intro s hsm
        rcases List.mem_cons.mp hsm with rfl | hsm
        · exact ⟨hdecl, .single hy⟩
        · exact ⟨(hs s hsm).1, (hs s hsm).2.tail hy⟩) (by simp; omega)
      exact ⟨r, .step hy hr⟩
    · push Not at hr
      exact ⟨x, .here hr⟩

/-- Same, with the number of turns needed. -/
theorem acyclic_fuel {e : TypeEnv} {tr : String → String} (hu : e.Unique) (hp : e.PlainInouts) (hc : NoCapture tr e)
    (ha : e.Acyclic) : ∀ (n : Nat) (seen : List String) (x : String), tr x = x →
    seen.Nodup → (∀ s ∈ seen, s ∈ e.decls.map (·.1) ∧ Relation.TransGen e.RefersTo s x) →
    e.decls.length < seen.length + n → ∃ r, sameAsRoot tr e n x = some r := by
  intro n
  induction n with
  | zero =>
    intro seen x _ hn hs hl
    have := (List.Nodup.subperm hn (fun s h => (hs s h).1)).length_le
    simp at this
    omega
  | succ n ih =>
    intro seen x hx hn hs hl
    by_cases hr : ∃ y, e.RefersTo x y
    · obtain ⟨y, hy⟩ := hr
      rw [sameAsRoot_step hu hp n hx hy]
      have hxs : x ∉ seen := fun hm => ha x (hs x hm).2
      have hdecl : x ∈ e.decls.map (·.1) := by
        obtain ⟨k, hk⟩ := hy
        exact List.mem_map.mpr ⟨_, hk, rfl⟩
      exact ih (x :: seen) y (hc y (Or.inr ⟨x, hy⟩)) (List.nodup_cons.mpr ⟨hxs, hn⟩) (by
        intro s hsm
        rcases List.mem_cons.mp hsm with rfl | hsm
        · exact ⟨hdecl, .single hy⟩
        · exact ⟨(hs s hsm).1, (hs s hsm).2.tail hy⟩) (by simp; omega)
    · push Not at hr
      exact ⟨x, sameAsRoot_stop n hx hr⟩

/-- Names declared after a declaration. -/
theorem declareType_names {fuel : Nat} {e e' : TypeEnv} {d : TDecl} (h : declareType fuel e d = .ok e') :
    ∀ x ∈ e'.decls.map (·.1), x = d.name ∨ x ∈ e.decls.map (·.1) := by
  unfold declareType at h
  by_cases hr1 : d.name ∈ e.decls.map (·.1)
  · rw [if_pos hr1] at h; cases h
  · rw [if_neg hr1] at h
    cases hty : d.type with
    | direct =>
      simp only [hty] at h
      injection h with h
      intro x hx
      rw [← h] at hx
      simpa using hx
    | sameas base =>
      simp only [hty] at h
      by_cases hg : blockRewrite d.rules base ∈ e.groups
      · rw [if_pos hg] at h
        injection h with h
        intro x hx
        rw [← h] at hx
        exact Or.inr hx
      · rw [if_neg hg] at h
        by_cases hb : blockRewrite d.rules base ∈ e.decls.map (·.1)
        · rw [if_neg (not_not.mpr hb)] at h
          cases hs : sameAsRoot (blockRewrite d.rules) e fuel (blockRewrite d.rules base) with
          | none => rw [hs] at h; cases h
          | some r =>
            rw [hs] at h
            injection h with h
            intro x hx
            rw [← h] at hx
            simpa using hx
        · rw [if_pos hb] at h
          cases h

theorem noCapture_of_rules {e : TypeEnv} (hi : SameInv e) {rules : List (String × String)}
    (h : ∀ r ∈ rules, r.1 ≠ r.2 → r.1 ∉ e.decls.map (·.1)) : NoCapture (blockRewrite rules) e := by
  intro x hx
  have hx' : x ∈ e.decls.map (·.1) := by
    rcases hx with hx | ⟨y, hy⟩
    · exact hx
    · obtain ⟨k, hk⟩ := hi.root y x hy
      exact List.mem_map.mpr ⟨_, hk, rfl⟩
  unfold blockRewrite
  cases hf : rules.find? (fun r => decide (r.1 = x)) with
  | none => rfl
  | some r =>
    have h1 := List.find?_some hf
    have h2 := List.mem_of_find?_eq_some hf
    simp only [decide_eq_true_eq] at h1
    by_contra hne
    exact h r h2 (fun heq => hne (heq.symm.trans h1)) (h1 ▸ hx')

/-- Declarations made so far stay as they are. -/
theorem declareType_keeps {fuel : Nat} {e e' : TypeEnv} {d : TDecl} (h : declareType fuel e d = .ok e') :
    ∀ t ∈ e.decls, t ∈ e'.decls := by
  unfold declareType at h
  by_cases hr1 : d.name ∈ e.decls.map (·.1)
  · rw [if_pos hr1] at h; cases h
  · rw [if_neg hr1] at h
    cases hty : d.type with
    | direct =>
      simp only [hty] at h
      injection h with h
      intro t ht
      rw [← h]
      exact List.mem_cons_of_mem _ ht
    | sameas base =>
      simp only [hty] at h
      by_cases hg : blockRewrite d.rules base ∈ e.groups
      · rw [if_pos hg] at h
        injection h with h
        intro t ht
        rw [← h]
        exact ht
      · rw [if_neg hg] at h
        by_cases hb : blockRewrite d.rules base ∈ e.decls.map (·.1)
        · rw [if_neg (not_not.mpr hb)] at h
          cases hs : sameAsRoot (blockRewrite d.rules) e fuel (blockRewrite d.rules base) with
          | none => rw [hs] at h; cases h
          | some r =>
            rw [hs] at h
            injection h with h
            intro t ht
            rw [← h]
            exact List.mem_cons_of_mem _ ht
        · rw [if_pos hb] at h
          cases h

theorem declareTypes_keeps {fuel : Nat} (ds : List TDecl) : ∀ {e e' : TypeEnv}, declareTypes fuel e ds = .ok e' →
    ∀ t ∈ e.decls, t ∈ e'.decls := by
  induction ds with
  | nil => intro e e' h t ht; simp only [declareTypes] at h; injection h with h; exact h ▸ ht
  | cons d ds ih =>
    intro e e' h t ht
    simp only [declareTypes] at h
    cases hd : declareType fuel e d with
    | error x => rw [hd] at h; cases h
    | ok e1 =>
      rw [hd] at h
      exact ih h t (declareType_keeps hd t ht)

theorem declareTypes_inv {fuel : Nat} (hf : 2 ≤ fuel) (all : List TDecl) (hs : NoShadow all) (ds : List TDecl) :
    ∀ {e e' : TypeEnv}, (∀ d ∈ ds, d ∈ all) → SameInv e → (∀ x ∈ e.decls.map (·.1), x ∈ all.map (·.name)) →
      declareTypes fuel e ds = .ok e' → SameInv e' := by
  induction ds with
  | nil => intro e e' _ hi _ h; simp only [declareTypes] at h; injection h with h; exact h ▸ hi
  | cons d ds ih =>
    intro e e' hsub hi hn h
    simp only [declareTypes] at h
    cases hd : declareType fuel e d with
    | error x => rw [hd] at h; cases h
    | ok e1 =>
      rw [hd] at h
      have hdm := hsub d (List.mem_cons_self ..)
      have hc := noCapture_of_rules hi (fun r hr hne hm => hs d hdm r hr hne (hn _ hm))
      refine ih (fun d' h' => hsub d' (List.mem_cons_of_mem _ h')) (declareType_inv hf hi hc hd) ?_ h
      intro x hx
      rcases declareType_names hd x hx with rfl | hx
      · exact List.mem_map.mpr ⟨d, hdm, rfl⟩
      · exact hn x hx

/-- The loop always ends. -/
theorem declareTypes_ends {fuel : Nat} (hf : 2 ≤ fuel) (all : List TDecl) (hs : NoShadow all) (ds : List TDecl) :
    ∀ {e : TypeEnv}, (∀ d ∈ ds, d ∈ all) → SameInv e → (∀ x ∈ e.decls.map (·.1), x ∈ all.map (·.name)) →
      declareTypes fuel e ds ≠ .error .loops := by
  induction ds with
  | nil => intro e _ _ _; simp [declareTypes]
  | cons d ds ih =>
    intro e hsub hi hn
    have hdm := hsub d (List.mem_cons_self ..)
    have hc := noCapture_of_rules hi (fun r hr hne hm => hs d hdm r hr hne (hn _ hm))
    simp only [declareTypes]
    cases hd : declareType fuel e d with
    | ok e1 =>
      refine ih (fun d' h' => hsub d' (List.mem_cons_of_mem _ h')) (declareType_inv hf hi hc hd) ?_
      intro x hx
      rcases declareType_names hd x hx with rfl | hx
      · exact List.mem_map.mpr ⟨d, hdm, rfl⟩
      · exact hn x hx
    | error err =>
      intro heq
      injection heq with heq
      subst heq
      unfold declareType at hd
      by_cases hr1 : d.name ∈ e.decls.map (·.1)
      · rw [if_pos hr1] at hd; cases hd
      · rw [if_neg hr1] at hd
        cases hty : d.type with
        | direct => simp only [hty] at hd; cases hd
        | sameas base =>
          simp only [hty] at hd
          by_cases hg : blockRewrite d.rules base ∈ e.groups
          · rw [if_pos hg] at hd; cases hd
          · rw [if_neg hg] at hd
            by_cases hb : blockRewrite d.rules base ∈ e.decls.map (·.1)
            · rw [if_neg (not_not.mpr hb)] at hd
              obtain ⟨r, h1, _⟩ := hi.resolve hc hb hg fuel hf
              rw [h1] at hd
              cases hd
            · rw [if_pos hb] at hd; cases hd

/-- What the tables say is what the source says. -/
structure SrcInv (ds : List TDecl) (e : TypeEnv) : Prop where
  plain : ∀ x k, (x, k, none) ∈ e.decls → ∃ d ∈ ds, d.name = x ∧ d.kind = k ∧ d.type = .direct
  refer : ∀ x k r, (x, k, some r) ∈ e.decls → SrcEnd ds x r

theorem declareType_src {fuel : Nat} (hf : 2 ≤ fuel) {all : List TDecl} {e e' : TypeEnv} {d : TDecl} (hd : d ∈ all)
    (hi : SameInv e) (hv : SrcInv all e) (hc : NoCapture (blockRewrite d.rules) e)
    (h : declareType fuel e d = .ok e') :
    SrcInv all e' ∧ (d.name ∈ e'.groups ∨ (d.type = .direct ∧ (d.name, d.kind, none) ∈ e'.decls) ∨
      ∃ base r, d.type = .sameas base ∧ (d.name, d.kind, some r) ∈ e'.decls) := by
  unfold declareType at h
  by_cases hr1 : d.name ∈ e.decls.map (·.1)
  · rw [if_pos hr1] at h; cases h
  · rw [if_neg hr1] at h
    cases hty : d.type with
    | direct =>
      simp only [hty] at h
      injection h with h
      rw [← h]
      refine ⟨⟨?_, ?_⟩, Or.inr (Or.inl ⟨rfl, List.mem_cons_self ..⟩)⟩
      · intro x k hx
        rcases List.mem_cons.mp hx with hx | hx
        · simp only [Prod.mk.injEq] at hx
          exact ⟨d, hd, hx.1.symm, hx.2.1.symm, hty⟩
        · exact hv.plain x k hx
      · intro x k r hx
        rcases List.mem_cons.mp hx with hx | hx
        · simp at hx
        · exact hv.refer x k r hx
    | sameas base =>
      simp only [hty] at h
      by_cases hg : blockRewrite d.rules base ∈ e.groups
      · rw [if_pos hg] at h
        injection h with h
        rw [← h]
        exact ⟨⟨hv.plain, hv.refer⟩, Or.inl (List.mem_cons_self ..)⟩
      · rw [if_neg hg] at h
        by_cases hb : blockRewrite d.rules base ∈ e.decls.map (·.1)
        · rw [if_neg (not_not.mpr hb)] at h
          obtain ⟨r, h1, h2, h3⟩ := hi.resolve hc hb hg fuel hf
          rw [h1] at h
          injection h with h
          rw [← h]
          refine ⟨⟨?_, ?_⟩, Or.inr (Or.inr ⟨base, r, rfl, List.mem_cons_self ..⟩)⟩
          · intro x k hx
            rcases List.mem_cons.mp hx with hx | hx
            · simp at hx
            · exact hv.plain x k hx
          · intro x k r' hx
            rcases List.mem_cons.mp hx with hx | hx
            · simp only [Prod.mk.injEq, Option.some.injEq] at hx
              obtain ⟨rfl, _, rfl⟩ := hx
              refine .step ⟨d, hd, rfl, base, hty, rfl⟩ ?_
              generalize blockRewrite d.rules base = b at h2
              cases h2 with
              | here hno =>
                obtain ⟨k, hk⟩ := h3
                obtain ⟨d', hd', hn, _, ht⟩ := hv.plain _ k hk
                exact .here ⟨d', hd', hn, ht⟩
              | step hr hend =>
                have hend' := hi.end' hr
                cases hend with
                | here _ =>
                  obtain ⟨k, hk⟩ := hr
                  exact hv.refer _ k _ hk
                | step hr2 _ => exact absurd hr2 (hend' _)
            · exact hv.refer x k r' hx
        · rw [if_pos hb] at h
          cases h

theorem declareType_groups {fuel : Nat} {e e' : TypeEnv} {d : TDecl} (h : declareType fuel e d = .ok e') :
    ∀ t ∈ e.groups, t ∈ e'.groups := by
  have hif : ∀ t ∈ e.groups, t ∈ (if d.kind = .inout then d.name :: e.groups else e.groups) := by
    intro t ht
    split_ifs
    · exact List.mem_cons_of_mem _ ht
    · exact ht
  unfold declareType at h
  by_cases hr1 : d.name ∈ e.decls.map (·.1)
  · rw [if_pos hr1] at h; cases h
  · rw [if_neg hr1] at h
    cases hty : d.type with
    | direct =>
      simp only [hty] at h
      injection h with h
      rw [← h]; exact hif
    | sameas base =>
      simp only [hty] at h
      by_cases hg : blockRewrite d.rules base ∈ e.groups
      · rw [if_pos hg] at h
        injection h with h
        rw [← h]
        exact fun t ht => List.mem_cons_of_mem _ ht
      · rw [if_neg hg] at h
        by_cases hb : blockRewrite d.rules base ∈ e.decls.map (·.1)
        · rw [if_neg (not_not.mpr hb)] at h
          cases hs : sameAsRoot (blockRewrite d.rules) e fuel (blockRewrite d.rules base) with
          | none => rw [hs] at h; cases h
          | some r =>
            rw [hs] at h
            injection h with h
            rw [← h]; exact hif
        · rw [if_pos hb] at h
          cases h

theorem declareTypes_groups {fuel : Nat} (ds : List TDecl) : ∀ {e e' : TypeEnv}, declareTypes fuel e ds = .ok e' →
    ∀ t ∈ e.groups, t ∈ e'.groups := by
  induction ds with
  | nil => intro e e' h t ht; simp only [declareTypes] at h; injection h with h; exact h ▸ ht
  | cons d ds ih =>
    intro e e' h t ht
    simp only [declareTypes] at h
    cases hd : declareType fuel e d with
    | error x => rw [hd] at h; cases h
    | ok e1 =>
      rw [hd] at h
      exact ih h t (declareType_groups hd t ht)

theorem declareTypes_src {fuel : Nat} (hf : 2 ≤ fuel) (all : List TDecl) (hs : NoShadow all) (ds : List TDecl) :
    ∀ {e e' : TypeEnv}, (∀ d ∈ ds, d ∈ all) → SameInv e → SrcInv all e →
      (∀ x ∈ e.decls.map (·.1), x ∈ all.map (·.name)) → declareTypes fuel e ds = .ok e' →
      SrcInv all e' ∧ ∀ d ∈ ds, d.name ∈ e'.groups ∨ (d.type = .direct ∧ (d.name, d.kind, none) ∈ e'.decls) ∨
        ∃ base r, d.type = .sameas base ∧ (d.name, d.kind, some r) ∈ e'.decls := by
  induction ds with
  | nil => intro e e' _ _ hv _ h; simp only [declareTypes] at h; injection h with h; exact ⟨h ▸ hv, by simp⟩
  | cons d ds ih =>
    intro e e' hsub hi hv hn h
    simp only [declareTypes] at h
    cases hd : declareType fuel e d with
    | error x => rw [hd] at h; cases h
    | ok e1 =>
      rw [hd] at h
      have hdm := hsub d (List.mem_cons_self ..)
      have hc := noCapture_of_rules hi (fun r hr hne hm => hs d hdm r hr hne (hn _ hm))
      obtain ⟨hv1, hent⟩ := declareType_src hf hdm hi hv hc hd
      obtain ⟨h1, h2⟩ := ih (fun d' h' => hsub d' (List.mem_cons_of_mem _ h')) (declareType_inv hf hi hc hd) hv1 (by
        intro x hx
        rcases declareType_names hd x hx with rfl | hx
        · exact List.mem_map.mpr ⟨d, hdm, rfl⟩
        · exact hn x hx) h
      refine ⟨h1, fun d' hd' => ?_⟩
      rcases List.mem_cons.mp hd' with rfl | hd'
      · rcases hent with hg | ⟨ht, hm⟩ | ⟨b, r, ht, hm⟩
        · exact Or.inl (declareTypes_groups ds h _ hg)
        · exact Or.inr (Or.inl ⟨ht, declareTypes_keeps ds h _ hm⟩)
        · exact Or.inr (Or.inr ⟨b, r, ht, declareTypes_keeps ds h _ hm⟩)
      · exact h2 d' hd'

end Silice
