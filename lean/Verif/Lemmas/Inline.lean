import Verif.Spec.Inline
import Verif.Lemmas.Deps

set_option autoImplicit false

namespace Silice

section
variable {V : Type}

theorem stableMark_false {before : List String} {w o : String} {st : Stable} (h : st o = some false) :
    stableMark before w st o = some false := by
  unfold stableMark
  by_cases ho : o = w
  · subst ho
    split_ifs <;> simp_all
  · split_ifs <;> simp [ho, h]

theorem stableUpd_false {before : List String} {D : Deps} {w o : String} {st : Stable} (h : st o = some false) :
    stableUpd before D w st o = some false := by
  unfold stableUpd
  rw [stableMark_false h]
  simp

theorem stableRun_false {fuel : Nat} : ∀ (is : List (Asg V)) (D : Deps) (st st' : Stable) (o : String), st o = some false →
    stableRun fuel D st is = some (.ok st') → st' o = some false
  | [], D, st, st', o, h, e => by
    simp only [stableRun, Option.some.injEq, Except.ok.injEq] at e
    exact e ▸ h
  | i :: is, D, st, st', o, h, e => by
    simp only [stableRun] at e
    cases hi : Deps.instr fuel D i.reads [i.target] with
    | none => rw [hi] at e; simp at e
    | some r =>
      cases r with
      | error w => rw [hi] at e; simp at e
      | ok D1 =>
        rw [hi] at e
        exact stableRun_false is D1 _ st' o (stableUpd_false h) e

theorem stableMark_isSome {before : List String} {w o : String} {st : Stable} (h : (st o).isSome = true ∨ o = w) :
    (stableMark before w st o).isSome = true := by
  unfold stableMark
  by_cases ho : o = w
  · subst ho
    split_ifs with h1 h2
    · simp
    · simp
    · exact Option.isSome_iff_ne_none.mpr h2
  · have hs := h.resolve_right ho
    split_ifs <;> simpa [ho] using hs

theorem stableUpd_isSome {before : List String} {D : Deps} {w o : String} {st : Stable} (h : (st o).isSome = true ∨ o = w) :
    (stableUpd before D w st o).isSome = true := by
  unfold stableUpd
  split
  · rfl
  · exact stableMark_isSome h

/-- Invariant of the second pass against the source. -/
structure InlInv (q : String → V) (inl : String → Bool) (all done : List (Asg V)) (D : Deps) (st : Stable) (s : String → V)
    (h : InlSt V) : Prop where
  wf : D.Wf
  keys : ∀ x, x ∈ D.keys ↔ x ∈ done.map Asg.target
  cur : ∀ x ∈ D.keys, inl x = false → h.v x = s x
  old : ∀ x, x ∉ D.keys → s x = q x
  mac : ∀ t ∈ D.keys, inl t = true → ∃ f, h.defs t = some f ∧ f h.v = s t ∧
    ∀ v v' : String → V, (∀ x, (D.on t x).bit true = true → inl x = false → v x = v' x) → f v = f v'
  noq : ∀ x, 2 ≤ (all.map Asg.target).count x → ∀ y, (D.on y x).bit false = false
  fresh : Fresh D
  some : ∀ t ∈ D.keys, (st t).isSome = true

theorem inlRead_ok {q : String → V} {inl : String → Bool} {all done : List (Asg V)} {D : Deps} {st : Stable} {s : String → V}
    {h : InlSt V} (inv : InlInv q inl all done D st s h) {keys : List String} (hk : ∀ x, x ∈ keys ↔ x ∈ D.keys)
    {r : String} (hr : inl r = true → r ∈ D.keys) : ∃ f, inlRead q inl keys h.defs r = some f ∧ f h.v = s r ∧
      ∀ v v' : String → V, (∀ x, (r ∈ D.keys ∧ r = x) ∨ (r ∈ D.keys ∧ (D.on r x).bit true = true) → inl x = false → v x = v' x) → f v = f v' := by
  unfold inlRead
  by_cases hi : inl r = true
  · obtain ⟨f, h1, h2, h3⟩ := inv.mac r (hr hi) hi
    exact ⟨f, by simp [hi, h1], h2, fun v v' hv => h3 v v' fun x hx hxi => hv x (Or.inr ⟨hr hi, hx⟩) hxi⟩
  · have hif : inl r = false := by simpa using hi
    by_cases hrk : r ∈ D.keys
    · exact ⟨fun v => v r, by simp [hif, (hk r).mpr hrk], inv.cur r hrk hif, fun v v' hv => hv r (Or.inl ⟨hrk, rfl⟩) hif⟩
    · have : r ∉ keys := fun m => hrk ((hk r).mp m)
      exact ⟨fun _ => q r, by simp [hif, this], (inv.old r hrk).symm, fun _ _ _ => rfl⟩

theorem inlReads_ok {q : String → V} {inl : String → Bool} {all done : List (Asg V)} {D : Deps} {st : Stable} {s : String → V}
    {h : InlSt V} (inv : InlInv q inl all done D st s h) {keys : List String} (hk : ∀ x, x ∈ keys ↔ x ∈ D.keys) :
    ∀ (rs : List String), (∀ r ∈ rs, inl r = true → r ∈ D.keys) → ∃ fs, rs.mapM (inlRead q inl keys h.defs) = some fs ∧
      (fs.map fun f => f h.v) = rs.map s ∧
      ∀ v v' : String → V, (∀ x, (∃ r ∈ rs, (r ∈ D.keys ∧ r = x) ∨ (r ∈ D.keys ∧ (D.on r x).bit true = true)) → inl x = false → v x = v' x) →
        (fs.map fun f => f v) = fs.map fun f => f v'
  | [], _ => ⟨[], rfl, rfl, fun _ _ _ => rfl⟩
  | r :: rs, hrs => by
    obtain ⟨f, h1, h2, h3⟩ := inlRead_ok inv hk (hrs r (by simp))
    obtain ⟨fs, h4, h5, h6⟩ := inlReads_ok inv hk rs fun r' hr' => hrs r' (by simp [hr'])
    refine ⟨f :: fs, by simp [List.mapM_cons, h1, h4], by simp [h2, h5], ?_⟩
    intro v v' hv
    rw [List.map_cons, List.map_cons, h6 v v' fun x ⟨r', hr', hx⟩ => hv x ⟨r', by simp [hr'], hx⟩,
      h3 v v' fun x hx => hv x ⟨r, by simp, hx⟩]

theorem inlInv_step {q : String → V} {inl : String → Bool} {all done rest : List (Asg V)} {D D' : Deps} {st : Stable} {s : String → V}
    {h : InlSt V} {i : Asg V} {fuel : Nat} (inv : InlInv q inl all done D st s h) (hall : all = done ++ i :: rest)
    (honce : ReadFirstOnce all) (hfirst : AssignedFirst inl all)
    (hD : Deps.instr fuel D i.reads [i.target] = some (.ok D'))
    (hst : ∀ t, inl t = true → stableUpd D.keys D' i.target st t ≠ some false) {keys : List String}
    (hk : ∀ x, x ∈ keys ↔ x ∈ D.keys) :
    ∃ h', inlStep q inl keys h i = some (i.reads.map s, h') ∧
      InlInv q inl all (done ++ [i]) D' (stableUpd D.keys D' i.target st) (Function.update s i.target (i.fn (i.reads.map s))) h' := by
  obtain ⟨hwf, hkeys, hle, hjust, hfix, _⟩ := instr_ok inv.wf hD
  have hk' : ∀ x, x ∈ D'.keys ↔ x ∈ D.keys ∨ x = i.target := fun x => by rw [hkeys, mem_addNew, List.mem_singleton]
  obtain ⟨fs, hfs, hval, hdep⟩ := inlReads_ok inv hk i.reads fun r hr hi => (inv.keys r).mpr (hfirst done i rest r hall hr hi)
  -- entries of other variables only grow
  have hgrow : ∀ t x b, t ≠ i.target → (D.on t x).bit b = true → (D'.on t x).bit b = true := by
    intro t x b ht hb
    apply hle
    simpa [Deps.assign, ht] using hb
  have hnoq' : ∀ x, 2 ≤ (all.map Asg.target).count x → ∀ y, (D'.on y x).bit false = false := by
    intro x hx y
    cases hb : (D'.on y x).bit false with
    | false => rfl
    | true =>
      obtain ⟨z, _, hz⟩ := hjust.2 y x false hb
      simp only [Deps.assign, List.mem_singleton] at hz
      by_cases hzw : z = i.target
      · rw [if_pos hzw] at hz
        by_cases hxr : x ∈ i.reads
        · rw [if_pos hxr] at hz
          have hxk : x ∉ D.keys := by
            intro m
            simp [Deps.side, m, QD.bit] at hz
          have := honce done i rest x hall hxr (fun m => hxk ((inv.keys x).mpr m))
          omega
        · rw [if_neg hxr] at hz
          simp [QD.bit] at hz
      · rw [if_neg hzw, inv.noq x hx z] at hz
        simp at hz
  have hfresh' : Fresh D' := by
    intro y x hx
    have hxk : x ∉ D.keys := fun m => hx ((hk' x).mpr (Or.inl m))
    cases hb : (D'.on y x).bit true with
    | false => rfl
    | true =>
      obtain ⟨z, _, hz⟩ := hjust.2 y x true hb
      simp only [Deps.assign, List.mem_singleton] at hz
      by_cases hzw : z = i.target
      · rw [if_pos hzw] at hz
        by_cases hxr : x ∈ i.reads
        · rw [if_pos hxr] at hz
          simp [Deps.side, hxk, QD.bit] at hz
        · rw [if_neg hxr] at hz
          simp [QD.bit] at hz
      · rw [if_neg hzw, inv.fresh z x hxk] at hz
        simp at hz
  have hsome' : ∀ t ∈ D'.keys, (stableUpd D.keys D' i.target st t).isSome = true := by
    intro t ht
    apply stableUpd_isSome
    rcases (hk' t).mp ht with m | e
    · exact Or.inl (inv.some t m)
    · exact Or.inr e
  have hkdone : ∀ x, x ∈ D'.keys ↔ x ∈ (done ++ [i]).map Asg.target := by
    intro x
    rw [hk', inv.keys]
    simp
  have hold' : ∀ x, x ∉ D'.keys → Function.update s i.target (i.fn (i.reads.map s)) x = q x := by
    intro x hx
    have hne : x ≠ i.target := fun e => hx ((hk' x).mpr (Or.inr e))
    rw [Function.update_of_ne hne]
    exact inv.old x fun m => hx ((hk' x).mpr (Or.inl m))
  by_cases hi : inl i.target = true
  · -- the variable becomes a macro: it was not written before
    have hnk : i.target ∉ D.keys := by
      intro m
      refine hst i.target hi ?_
      simp [stableUpd, stableMark, m]
    refine ⟨{ h with defs := Function.update h.defs i.target (some fun v => i.fn (fs.map fun f => f v)) }, ?_, ?_⟩
    · simp [inlStep, hfs, hi, hval]
    · refine ⟨hwf, hkdone, ?_, hold', ?_, hnoq', hfresh', hsome'⟩
      · intro x hx hxi
        have hne : x ≠ i.target := fun e => by rw [e, hi] at hxi; cases hxi
        rw [Function.update_of_ne hne]
        exact inv.cur x (((hk' x).mp hx).resolve_right hne) hxi
      · intro t ht hti
        by_cases hte : t = i.target
        · subst hte
          refine ⟨_, Function.update_self .., by simp [hval], ?_⟩
          intro v v' hv
          congr 1
          apply hdep
          rintro x ⟨r, hr, hx⟩ hxi
          refine hv x ?_ hxi
          rcases hx with ⟨hrk, rfl⟩ | ⟨hrk, hb⟩
          · apply hle
            simp [Deps.assign, hr, Deps.side, hrk, QD.bit]
          · have hrne : r ≠ i.target := fun e => hnk (e ▸ hrk)
            refine fix_trans hfix (b' := true) ht ((hk' r).mpr (Or.inl hrk)) ?_ (hgrow r x true hrne hb)
            apply hle
            simp [Deps.assign, hr, Deps.side, hrk, QD.bit]
        · obtain ⟨f, h1, h2, h3⟩ := inv.mac t (((hk' t).mp ht).resolve_right hte) hti
          refine ⟨f, by simp [Function.update_of_ne hte, h1], by simp [Function.update_of_ne hte, h2], ?_⟩
          intro v v' hv
          exact h3 v v' fun x hx => hv x (hgrow t x true hte hx)
  · have hif : inl i.target = false := by simpa using hi
    refine ⟨{ h with v := Function.update h.v i.target (i.fn (fs.map fun f => f h.v)) }, ?_, ?_⟩
    · simp [inlStep, hfs, hif, hval]
    · refine ⟨hwf, hkdone, ?_, hold', ?_, hnoq', hfresh', hsome'⟩
      · intro x hx hxi
        by_cases hne : x = i.target
        · subst hne
          simp [hval]
        · simp only [Function.update_of_ne hne]
          exact inv.cur x (((hk' x).mp hx).resolve_right hne) hxi
      · intro t ht hti
        have hte : t ≠ i.target := fun e => by rw [e, hif] at hti; cases hti
        have htk := ((hk' t).mp ht).resolve_right hte
        obtain ⟨f, h1, h2, h3⟩ := inv.mac t htk hti
        refine ⟨f, h1, ?_, fun v v' hv => h3 v v' fun x hx => hv x (hgrow t x true hte hx)⟩
        rw [Function.update_of_ne hte, ← h2]
        apply h3
        intro x hx _
        by_cases hxe : x = i.target
        · exfalso
          subst hxe
          -- the variable was written before and is not read from the register
          have hxk : i.target ∈ D.keys := by
            by_contra hn
            rw [inv.fresh t i.target hn] at hx
            cases hx
          have hcount : 2 ≤ (all.map Asg.target).count i.target := by
            rw [hall, List.map_append, List.count_append, List.map_cons, List.count_cons_self]
            have := List.count_pos_iff.mpr ((inv.keys _).mp hxk)
            omega
          have hq0 := hnoq' _ hcount t
          have hd1 := hgrow t _ true hte hx
          have hs0 := inv.some t htk
          refine hst t hti ?_
          have hhere : (D'.on t i.target).here = true := (QD.here_iff _).mpr ⟨true, hd1⟩
          have hqf : (D'.on t i.target).q = false := by simpa [QD.bit] using hq0
          have hs1 : (stableMark D.keys i.target st t).isSome = true := stableMark_isSome (Or.inl hs0)
          simp only [stableUpd]
          rw [if_pos ⟨ht, hhere, hs1, hqf⟩]
        · exact Function.update_of_ne hxe ..

theorem inlRun_ok {q : String → V} {inl : String → Bool} {all : List (Asg V)} {fuel : Nat} (honce : ReadFirstOnce all)
    (hfirst : AssignedFirst inl all) {st' : Stable} (hinl : ∀ t, inl t = true → st' t = some true) :
    ∀ (rest done : List (Asg V)) (D : Deps) (st : Stable) (s : String → V) (h : InlSt V) (keys : List String),
      all = done ++ rest → InlInv q inl all done D st s h → (∀ x, x ∈ keys ↔ x ∈ D.keys) →
      stableRun fuel D st rest = some (.ok st') →
      ∃ h', inlRun q inl keys h rest = some ((srcRun s rest).1, h') ∧
        ∀ x ∈ all.map Asg.target, inl x = false → h'.v x = (srcRun s rest).2 x
  | [], done, D, st, s, h, keys, he, inv, hk, e => by
    refine ⟨h, rfl, ?_⟩
    intro x hx hxi
    rw [he, List.append_nil] at hx
    exact inv.cur x ((inv.keys x).mpr hx) hxi
  | i :: rest, done, D, st, s, h, keys, he, inv, hk, e => by
    simp only [stableRun] at e
    cases hD : Deps.instr fuel D i.reads [i.target] with
    | none => rw [hD] at e; simp at e
    | some r =>
      cases r with
      | error w => rw [hD] at e; simp at e
      | ok D' =>
        rw [hD] at e
        have hst : ∀ t, inl t = true → stableUpd D.keys D' i.target st t ≠ some false := by
          intro t ht hf
          have := stableRun_false rest D' _ st' t hf e
          rw [hinl t ht] at this
          cases this
        obtain ⟨h1, hs, inv'⟩ := inlInv_step inv he honce hfirst hD hst hk
        have hk1 : ∀ x, x ∈ keys ++ [i.target] ↔ x ∈ D'.keys := by
          intro x
          rw [inv'.keys, List.mem_append, hk, inv.keys]
          simp
        obtain ⟨h2, hr, hfin⟩ := inlRun_ok honce hfirst hinl rest (done ++ [i]) D' _ _ h1 _ (by simp [he]) inv' hk1 e
        exact ⟨h2, by simp [inlRun, hs, hr, srcRun], hfin⟩

end

end Silice
