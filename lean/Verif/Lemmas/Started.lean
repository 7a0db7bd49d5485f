import Verif.Spec.Started

/-! # Lemmas about the pipelines that start in a cycle -/

set_option autoImplicit false

namespace Silice

mutual
theorem starting_sub : ∀ (b : StCode) (r : List Nat) (p : Nat), p ∈ b.starting r → p ∈ b.pipes ∨ p ∈ r
  | .fin, r, p, h => .inr h
  | .leave _, r, p, h => by simp [StCode.starting] at h
  | .stmt k, r, p, h => starting_sub k r p h
  | .pipe q k, r, p, h => by
    simp only [StCode.starting, List.mem_singleton] at h
    left; simp [StCode.pipes, h]
  | .ite c t e k, r, p, h => by
    have hk := starting_sub k r p
    simp only [StCode.starting, List.mem_append] at h
    simp only [StCode.pipes, List.mem_append]
    rcases h with h | h | h
    · rcases starting_sub t _ p h with h | h
      · tauto
      · have := hk h; tauto
    · rcases starting_sub e _ p h with h | h
      · tauto
      · have := hk h; tauto
    · have := hk h; tauto
  | .switch s cs k, r, p, h => by
    have hk := starting_sub k r p
    simp only [StCode.starting, List.mem_append] at h
    simp only [StCode.pipes, List.mem_append]
    rcases h with h | h
    · rcases cases_starting_sub cs _ p h with h | h
      · tauto
      · have := hk h; tauto
    · have := hk h; tauto
theorem cases_starting_sub : ∀ (cs : StCases) (r : List Nat) (p : Nat), p ∈ cs.starting r → p ∈ cs.pipes ∨ p ∈ r
  | .nil, r, p, h => by simp [StCases.starting] at h
  | .cons x b cs, r, p, h => by
    simp only [StCases.starting, List.mem_append] at h
    simp only [StCases.pipes, List.mem_append]
    rcases h with h | h
    · have := starting_sub b r p h; tauto
    · have := cases_starting_sub cs r p h; tauto
end

mutual
theorem pipes_starting : ∀ (b : StCode) (h : Bool) (r : List Nat) (p : Nat), b.single h = true →
    p ∈ b.pipes → p ∈ b.starting r
  | .fin, h, r, p, _, hp => by simp [StCode.pipes] at hp
  | .leave _, h, r, p, _, hp => by simp [StCode.pipes] at hp
  | .stmt k, h, r, p, hs, hp => pipes_starting k h r p hs hp
  | .pipe q k, h, r, p, hs, hp => by
    simp only [StCode.single, Bool.and_eq_true, List.isEmpty_iff] at hs
    simp only [StCode.pipes, hs.1] at hp
    simpa [StCode.starting] using hp
  | .ite c t e k, h, r, p, hs, hp => by
    simp only [StCode.single, Bool.and_eq_true] at hs
    simp only [StCode.pipes, List.mem_append] at hp
    simp only [StCode.starting, List.mem_append]
    rcases hp with hp | hp | hp
    · exact .inl (pipes_starting t _ _ p hs.1.1 hp)
    · exact .inr (.inl (pipes_starting e _ _ p hs.1.2 hp))
    · exact .inr (.inr (pipes_starting k _ _ p hs.2 hp))
  | .switch s cs k, h, r, p, hs, hp => by
    simp only [StCode.single, Bool.and_eq_true] at hs
    simp only [StCode.pipes, List.mem_append] at hp
    simp only [StCode.starting, List.mem_append]
    rcases hp with hp | hp
    · exact .inl (cases_pipes_starting cs _ _ p hs.1 hp)
    · exact .inr (pipes_starting k _ _ p hs.2 hp)
theorem cases_pipes_starting : ∀ (cs : StCases) (h : Bool) (r : List Nat) (p : Nat), cs.single h = true →
    p ∈ cs.pipes → p ∈ cs.starting r
  | .nil, h, r, p, _, hp => by simp [StCases.pipes] at hp
  | .cons x b cs, h, r, p, hs, hp => by
    simp only [StCases.single, Bool.and_eq_true] at hs
    simp only [StCases.pipes, List.mem_append] at hp
    simp only [StCases.starting, List.mem_append]
    rcases hp with hp | hp
    · exact .inl (pipes_starting b _ _ p hs.1 hp)
    · exact .inr (cases_pipes_starting cs _ _ p hs.2 hp)
end

theorem starting_through : ∀ (b : StCode) (r : List Nat) (p : Nat), b.single true = true → b.within = true →
    p ∈ r → p ∈ b.starting r
  | .fin, r, p, _, _, h => h
  | .leave _, r, p, _, he, h => by simp [StCode.within] at he
  | .stmt k, r, p, hs, he, h => starting_through k r p hs he h
  | .pipe q k, r, p, hs, he, h => by
    simp only [StCode.within] at he
    simp [StCode.single, he] at hs
  | .ite c t e k, r, p, hs, he, h => by
    simp only [StCode.single, Bool.and_eq_true] at hs
    simp only [StCode.starting, List.mem_append]
    exact .inr (.inr (starting_through k r p hs.2 he h))
  | .switch s cs k, r, p, hs, he, h => by
    simp only [StCode.single, Bool.and_eq_true] at hs
    simp only [StCode.starting, List.mem_append]
    exact .inr (starting_through k r p hs.2 he h)

theorem oneCycle_within : ∀ (b : StCode), b.oneCycle = true → b.within = true
  | .fin, _ => rfl
  | .leave _, h => by simp [StCode.oneCycle] at h
  | .stmt k, h => oneCycle_within k h
  | .pipe _ k, h => oneCycle_within k h
  | .ite _ t e k, h => by
    simp only [StCode.oneCycle, Bool.and_eq_true] at h
    exact oneCycle_within k h.2
  | .switch _ cs k, h => by
    simp only [StCode.oneCycle, Bool.and_eq_true] at h
    exact oneCycle_within k h.2

theorem starting_dead : ∀ (b : StCode) (r : List Nat), b.ends = false → b.starting r = b.starting []
  | .fin, r, he => by simp [StCode.ends] at he
  | .leave _, r, he => rfl
  | .stmt k, r, he => starting_dead k r he
  | .pipe q k, r, he => rfl
  | .ite c t e k, r, he => by
    simp only [StCode.starting, starting_dead k r he]
  | .switch s cs k, r, he => by
    simp only [StCode.starting, starting_dead k r he]

theorem disable_other {ps : List Nat} {p : Nat} (f : PipeFlags) (h : p ∉ ps) : disablePipes ps f p = f p := by
  simp [disablePipes, h]

theorem disable_mem {ps : List Nat} {p : Nat} (f : PipeFlags) (h : p ∈ ps) : disablePipes ps f p = true := by
  simp [disablePipes, h]

mutual
theorem write_other : ∀ (b : StCode) (rc : Bool) (r : List Nat) (v : TestVals) (f : PipeFlags) (p : Nat),
    p ∉ b.pipes → p ∉ r → b.write rc r v f p = f p
  | .fin, rc, r, v, f, p, _, _ => by simp [StCode.write]
  | .leave _, rc, r, v, f, p, _, _ => by simp [StCode.write]
  | .stmt k, rc, r, v, f, p, h, hr => by
    rw [StCode.write]; exact write_other k rc r v f p h hr
  | .pipe q k, rc, r, v, f, p, h, hr => by
    simp only [StCode.pipes, List.mem_cons, not_or] at h
    rw [StCode.write, write_other k rc r v _ p h.2 hr]
    split
    · simp [enablePipe, h.1]
    · rfl
  | .ite c t e k, rc, r, v, f, p, h, hr => by
    simp only [StCode.pipes, List.mem_append, not_or] at h
    have hr' : p ∉ k.starting r := fun hh => by rcases starting_sub k r p hh with hh | hh <;> tauto
    have ht : p ∉ t.starting (k.starting r) := fun hh => by
      rcases starting_sub t _ p hh with hh | hh <;> tauto
    have he : p ∉ e.starting (k.starting r) := fun hh => by
      rcases starting_sub e _ p hh with hh | hh <;> tauto
    have h1 := write_other t true (k.starting r) v f p h.1 hr'
    have h2 := write_other e true (k.starting r) v f p h.2.1 hr'
    have hk := fun g => write_other k rc r v g p h.2.2 hr
    simp only [StCode.write]
    split_ifs <;> simp only [hk, disable_other _ ht, disable_other _ he, h1, h2]
  | .switch s cs k, rc, r, v, f, p, h, hr => by
    simp only [StCode.pipes, List.mem_append, not_or] at h
    have hr' : p ∉ k.starting r := fun hh => by rcases starting_sub k r p hh with hh | hh <;> tauto
    have hc : p ∉ cs.starting (k.starting r) ++ k.starting r := fun hh => by
      rcases List.mem_append.1 hh with hh | hh
      · rcases cases_starting_sub cs _ p hh with hh | hh <;> tauto
      · tauto
    simp only [StCode.write]
    rw [write_other k rc r v _ p h.2 hr]
    split
    · rw [writeAt_other cs _ _ v _ p h.1 hr', disable_other _ hc]
    · rw [writeDefault_other cs _ v _ p h.1 hr', disable_other _ hc]
theorem writeAt_other : ∀ (cs : StCases) (n : Nat) (r : List Nat) (v : TestVals) (f : PipeFlags) (p : Nat),
    p ∉ cs.pipes → p ∉ r → cs.writeAt n r v f p = f p
  | .nil, n, r, v, f, p, _, _ => by simp [StCases.writeAt]
  | .cons x b cs, n, r, v, f, p, h, hr => by
    simp only [StCases.pipes, List.mem_append, not_or] at h
    simp only [StCases.writeAt]
    split
    · exact write_other b _ r v f p h.1 hr
    · exact writeAt_other cs n r v f p h.2 hr
theorem writeDefault_other : ∀ (cs : StCases) (r : List Nat) (v : TestVals) (f : PipeFlags) (p : Nat),
    p ∉ cs.pipes → p ∉ r → cs.writeDefault r v f p = f p
  | .nil, r, v, f, p, _, _ => by simp [StCases.writeDefault]
  | .cons x b cs, r, v, f, p, h, hr => by
    simp only [StCases.pipes, List.mem_append, not_or] at h
    simp only [StCases.writeDefault]
    split
    · exact write_other b _ r v f p h.1 hr
    · exact writeDefault_other cs r v f p h.2 hr
end

mutual
theorem oneCycle_flow : ∀ (b : StCode) (v : TestVals), b.oneCycle = true → (b.flow v).2 = true
  | .fin, v, _ => rfl
  | .leave _, v, h => by simp [StCode.oneCycle] at h
  | .stmt k, v, h => by rw [StCode.flow]; exact oneCycle_flow k v h
  | .pipe q k, v, h => by rw [StCode.flow]; exact oneCycle_flow k v h
  | .ite c t e k, v, h => by
    simp only [StCode.oneCycle, Bool.and_eq_true] at h
    have h1 := oneCycle_flow t v h.1.1
    have h2 := oneCycle_flow e v h.1.2
    have h3 := oneCycle_flow k v h.2
    simp only [StCode.flow]
    split_ifs <;> simp_all
  | .switch s cs k, v, h => by
    simp only [StCode.oneCycle, Bool.and_eq_true] at h
    have h1 := oneCycle_flowAt cs (v s) v h.1
    have h2 := oneCycle_flowDefault cs v h.1
    have h3 := oneCycle_flow k v h.2
    simp only [StCode.flow]
    split_ifs <;> simp_all
theorem oneCycle_flowAt : ∀ (cs : StCases) (n : Nat) (v : TestVals), cs.oneCycle = true → (cs.flowAt n v).2 = true
  | .nil, n, v, _ => rfl
  | .cons x b cs, n, v, h => by
    simp only [StCases.oneCycle, Bool.and_eq_true] at h
    simp only [StCases.flowAt]
    split
    · exact oneCycle_flow b v h.1
    · exact oneCycle_flowAt cs n v h.2
theorem oneCycle_flowDefault : ∀ (cs : StCases) (v : TestVals), cs.oneCycle = true → (cs.flowDefault v).2 = true
  | .nil, v, _ => rfl
  | .cons x b cs, v, h => by
    simp only [StCases.oneCycle, Bool.and_eq_true] at h
    simp only [StCases.flowDefault]
    split
    · exact oneCycle_flow b v h.1
    · exact oneCycle_flowDefault cs v h.2
end

theorem dead_flow : ∀ (b : StCode) (v : TestVals), b.ends = false → (b.flow v).2 = false
  | .fin, v, h => by simp [StCode.ends] at h
  | .leave _, v, _ => rfl
  | .stmt k, v, h => by rw [StCode.flow]; exact dead_flow k v h
  | .pipe q k, v, h => by rw [StCode.flow]; exact dead_flow k v h
  | .ite c t e k, v, h => by
    have hk := dead_flow k v h
    simp only [StCode.flow]
    split_ifs <;> simp_all
  | .switch s cs k, v, h => by
    have hk := dead_flow k v h
    simp only [StCode.flow]
    split_ifs <;> simp_all

mutual
theorem flow_sub : ∀ (b : StCode) (v : TestVals) (p : Nat), p ∈ (b.flow v).1 → p ∈ b.pipes
  | .fin, v, p, h => by simp [StCode.flow] at h
  | .leave _, v, p, h => by simp [StCode.flow] at h
  | .stmt k, v, p, h => by rw [StCode.flow] at h; exact flow_sub k v p h
  | .pipe q k, v, p, h => by
    simp only [StCode.flow, List.mem_cons] at h
    simp only [StCode.pipes, List.mem_cons]
    have := flow_sub k v p
    tauto
  | .ite c t e k, v, p, h => by
    have h1 := flow_sub t v p
    have h2 := flow_sub e v p
    have h3 := flow_sub k v p
    simp only [StCode.pipes, List.mem_append]
    simp only [StCode.flow] at h
    split_ifs at h <;> (try simp only [List.mem_append] at h) <;> tauto
  | .switch s cs k, v, p, h => by
    have h1 := flowAt_sub cs (v s) v p
    have h2 := flowDefault_sub cs v p
    have h3 := flow_sub k v p
    simp only [StCode.pipes, List.mem_append]
    simp only [StCode.flow] at h
    split_ifs at h <;> (try simp only [List.mem_append] at h) <;> tauto
theorem flowAt_sub : ∀ (cs : StCases) (n : Nat) (v : TestVals) (p : Nat), p ∈ (cs.flowAt n v).1 → p ∈ cs.pipes
  | .nil, n, v, p, h => by simp [StCases.flowAt] at h
  | .cons x b cs, n, v, p, h => by
    simp only [StCases.pipes, List.mem_append]
    simp only [StCases.flowAt] at h
    split at h
    · exact .inl (flow_sub b v p h)
    · exact .inr (flowAt_sub cs n v p h)
theorem flowDefault_sub : ∀ (cs : StCases) (v : TestVals) (p : Nat), p ∈ (cs.flowDefault v).1 → p ∈ cs.pipes
  | .nil, v, p, h => by simp [StCases.flowDefault] at h
  | .cons x b cs, v, p, h => by
    simp only [StCases.pipes, List.mem_append]
    simp only [StCases.flowDefault] at h
    split at h
    · exact .inl (flow_sub b v p h)
    · exact .inr (flowDefault_sub cs v p h)
end

theorem straight_write : ∀ (b : StCode) (rc : Bool) (r : List Nat) (v : TestVals) (f : PipeFlags),
    b.straight = true → b.write rc r v f = f
  | .fin, _, _, _, _, _ => by simp [StCode.write]
  | .leave _, _, _, _, _, h => by simp [StCode.straight] at h
  | .stmt k, rc, r, v, f, h => by rw [StCode.write]; exact straight_write k rc r v f h
  | .pipe _ _, _, _, _, _, h => by simp [StCode.straight] at h
  | .ite _ _ _ _, _, _, _, _, h => by simp [StCode.straight] at h
  | .switch _ _ _, _, _, _, _, h => by simp [StCode.straight] at h

theorem mem_not_empty {l : List Nat} {p : Nat} (h : p ∈ l) : l.isEmpty = false := by
  cases l with
  | nil => simp at h
  | cons a l => rfl

mutual
theorem write_flow : ∀ (b : StCode) (rc h : Bool) (r : List Nat) (v : TestVals) (f : PipeFlags),
    b.clean = true → b.single h = true → b.pipes.Nodup → (∀ p ∈ b.pipes, p ∉ r) →
    (rc = true ∨ (b.first = true ∧ ∀ p ∈ b.pipes, f p = false)) →
    ∀ p ∈ b.pipes, b.write rc r v f p = false ↔ p ∈ (b.flow v).1
  | .fin, _, _, _, _, _, _, _, _, _, _, p, hp => by simp [StCode.pipes] at hp
  | .leave _, _, _, _, _, _, _, _, _, _, _, p, hp => by simp [StCode.pipes] at hp
  | .stmt k, rc, h, r, v, f, hc, hs, hn, hr, hf, p, hp => by
    rw [StCode.write, StCode.flow]
    exact write_flow k rc h r v f hc hs hn hr hf p hp
  | .pipe q k, rc, h, r, v, f, hc, hs, hn, hr, hf, p, hp => by
    simp only [StCode.single, Bool.and_eq_true, List.isEmpty_iff] at hs
    have hpq : p = q := by simpa [StCode.pipes, hs.1] using hp
    subst hpq
    have hk : p ∉ k.pipes := by simp [hs.1]
    rw [StCode.write, write_other k rc r v _ p hk (hr p hp)]
    simp only [StCode.flow, List.mem_cons, true_or, iff_true]
    rcases hf with hf | hf
    · simp [hf, enablePipe]
    · cases rc
      · simpa using hf.2 p hp
      · simp [enablePipe]
  | .ite c t e k, rc, h, r, v, f, hc, hs, hn, hr, hf, p, hp => by
    simp only [StCode.clean, Bool.and_eq_true] at hc
    obtain ⟨⟨⟨hct, hce⟩, hck⟩, hcl⟩ := hc
    simp only [StCode.single, Bool.and_eq_true] at hs
    obtain ⟨⟨hst, hse⟩, hsk⟩ := hs
    simp only [StCode.pipes, List.nodup_append, List.mem_append] at hn
    obtain ⟨hnt, ⟨hne, hnk, hdek⟩, hdt⟩ := hn
    simp only [StCode.pipes, List.mem_append] at hr hp
    have hrt : ∀ p ∈ t.pipes, p ∉ k.starting r := fun p hp hh => by
      rcases starting_sub k r p hh with hh | hh
      · exact hdt p hp p (.inr hh) rfl
      · exact hr p (.inl hp) hh
    have hre : ∀ p ∈ e.pipes, p ∉ k.starting r := fun p hp hh => by
      rcases starting_sub k r p hh with hh | hh
      · exact hdek p hp p hh rfl
      · exact hr p (.inr (.inl hp)) hh
    have iht := write_flow t true _ (k.starting r) v f hct hst hnt hrt (.inl rfl)
    have ihe := write_flow e true _ (k.starting r) v f hce hse hne hre (.inl rfl)
    have ihk := fun g => write_flow k rc h r v g hck hsk hnk (fun p hp => hr p (.inr (.inr hp)))
    rcases hp with hp | hp | hp
    · have hpk : p ∉ k.pipes := fun hh => hdt p hp p (.inr hh) rfl
      have hpe : p ∉ e.pipes := fun hh => hdt p hp p (.inl hh) rfl
      have hes : p ∉ e.starting (k.starting r) := fun hh => by
        rcases starting_sub e _ p hh with hh | hh
        · exact hpe hh
        · exact hrt p hp hh
      have hts : p ∈ t.starting (k.starting r) := pipes_starting t _ _ p hst hp
      have hko := fun g => write_other k rc r v g p hpk (hr p (.inl hp))
      have hfk : p ∉ (k.flow v).1 := fun hh => hpk (flow_sub k v p hh)
      have hfe : p ∉ (e.flow v).1 := fun hh => hpe (flow_sub e v p hh)
      have i := iht p hp
      simp only [StCode.write, StCode.flow]
      by_cases hv : v c ≠ 0
      · simp only [ne_eq, hv, not_false_eq_true, if_true]
        split_ifs <;> simp [hko, disable_other _ hes, i, hfk]
      · have hv0 : v c = 0 := by simpa using hv
        simp only [hv0, ne_eq, not_true_eq_false, if_false]
        split_ifs <;> simp [hko, disable_mem _ hts, hfk, hfe]
    · have hpk : p ∉ k.pipes := fun hh => hdek p hp p hh rfl
      have hpt : p ∉ t.pipes := fun hh => hdt p hh p (.inl hp) rfl
      have hts : p ∉ t.starting (k.starting r) := fun hh => by
        rcases starting_sub t _ p hh with hh | hh
        · exact hpt hh
        · exact hre p hp hh
      have hes : p ∈ e.starting (k.starting r) := pipes_starting e _ _ p hse hp
      have hko := fun g => write_other k rc r v g p hpk (hr p (.inr (.inl hp)))
      have hfk : p ∉ (k.flow v).1 := fun hh => hpk (flow_sub k v p hh)
      have hft : p ∉ (t.flow v).1 := fun hh => hpt (flow_sub t v p hh)
      have i := ihe p hp
      simp only [StCode.write, StCode.flow]
      by_cases hv : v c ≠ 0
      · simp only [ne_eq, hv, not_false_eq_true, if_true]
        split_ifs <;> simp [hko, disable_mem _ hes, hfk, hft]
      · have hv0 : v c = 0 := by simpa using hv
        simp only [hv0, ne_eq, not_true_eq_false, if_false]
        split_ifs <;> simp [hko, disable_other _ hts, i, hfk]
    · have hks : k.isState = false := by
        cases k <;> simp [StCode.pipes, StCode.isState] at hp ⊢
      have hke := mem_not_empty hp
      have hpt : p ∉ t.pipes := fun hh => hdt p hh p (.inr hp) rfl
      have hpe : p ∉ e.pipes := fun hh => hdek p hh p hp rfl
      have hft : p ∉ (t.flow v).1 := fun hh => hpt (flow_sub t v p hh)
      have hfe : p ∉ (e.flow v).1 := fun hh => hpe (flow_sub e v p hh)
      have hkr : p ∈ k.starting r := pipes_starting k _ _ p hsk hp
      simp only [hke, Bool.not_false, Bool.true_or] at hst hse
      simp only [hks, Bool.false_or, Bool.and_eq_true, Bool.or_eq_true, Bool.not_eq_true'] at hcl
      simp only [StCode.first, hke, Bool.false_or, hks, Bool.not_false, Bool.true_and, Bool.and_eq_true,
        Bool.or_eq_true, Bool.not_eq_true', StCode.pipes, List.mem_append] at hf
      cases hte : t.ends <;> cases hee : e.ends
      · simp [hte, hee] at hcl
      · -- only the else branch comes to its end
        have hof : (e.flow v).2 = true := oneCycle_flow e v (by simpa [hee] using hcl.1.2)
        have htf : (t.flow v).2 = false := dead_flow t v hte
        have hes : p ∈ e.starting (k.starting r) := starting_through e _ p hse (oneCycle_within e (by simpa [hee] using hcl.1.2)) hkr
        simp only [StCode.write, StCode.flow, hte, hee, hks]
        by_cases hv : v c ≠ 0
        · simp [hv, htf, hft, disable_mem _ hes]
        · have hv0 : v c = 0 := by simpa using hv
          have i := ihk (disablePipes (t.starting (k.starting r)) (e.write true (k.starting r) v f)) (by
            rcases hf with hf | ⟨⟨hf1, hf2⟩, hf3⟩
            · exact .inl hf
            · refine .inr ⟨hf1, fun q hq => ?_⟩
              have hes : e.straight = true := by
                rcases hf2 with hf2 | hf2
                · rw [hee] at hf2; exact absurd hf2.2 (by simp)
                · exact hf2.1
              rw [straight_write e _ _ _ _ hes, disable_other]
              · exact hf3 q (.inr (.inr hq))
              · rw [starting_dead t _ hte]
                intro hh
                rcases starting_sub t _ q hh with hh | hh
                · exact hdt q hh q (.inr hq) rfl
                · simp at hh) p hp
          simp [hv0, hof, hfe, i]
      · -- only the if branch comes to its end
        have hof : (t.flow v).2 = true := oneCycle_flow t v (by simpa [hte] using hcl.1.1)
        have htf : (e.flow v).2 = false := dead_flow e v hee
        have hts : p ∈ t.starting (k.starting r) := starting_through t _ p hst (oneCycle_within t (by simpa [hte] using hcl.1.1)) hkr
        simp only [StCode.write, StCode.flow, hte, hee, hks]
        by_cases hv : v c ≠ 0
        · have i := ihk (disablePipes (e.starting (k.starting r)) (t.write true (k.starting r) v f)) (by
            rcases hf with hf | ⟨⟨hf1, hf2⟩, hf3⟩
            · exact .inl hf
            · refine .inr ⟨hf1, fun q hq => ?_⟩
              have hts : t.straight = true := by
                rcases hf2 with hf2 | hf2
                · exact hf2.1
                · rw [hte] at hf2; exact absurd hf2.2 (by simp)
              rw [straight_write t _ _ _ _ hts, disable_other]
              · exact hf3 q (.inr (.inr hq))
              · rw [starting_dead e _ hee]
                intro hh
                rcases starting_sub e _ q hh with hh | hh
                · exact hdek q hh q hq rfl
                · simp at hh) p hp
          simp [hv, hof, hft, i]
        · have hv0 : v c = 0 := by simpa using hv
          simp [hv0, htf, hfe, disable_mem _ hts]
      · -- both do
        have hot : (t.flow v).2 = true := oneCycle_flow t v (by simpa [hte] using hcl.1.1)
        have hoe : (e.flow v).2 = true := oneCycle_flow e v (by simpa [hee] using hcl.1.2)
        have hrc : rc = true := by
          rcases hf with hf | ⟨⟨_, hf2⟩, _⟩
          · exact hf
          · rcases hf2 with hf2 | hf2
            · rw [hee] at hf2; exact absurd hf2.2 (by simp)
            · rw [hte] at hf2; exact absurd hf2.2 (by simp)
        have i := fun g => ihk g (.inl hrc) p hp
        simp only [StCode.write, StCode.flow, hte, hee]
        by_cases hv : v c ≠ 0
        · simp [hv, hot, hft, i]
        · have hv0 : v c = 0 := by simpa using hv
          simp [hv0, hoe, hfe, i]
  | .switch s cs k, rc, h, r, v, f, hc, hs, hn, hr, hf, p, hp => by
    simp only [StCode.clean, Bool.and_eq_true] at hc
    obtain ⟨⟨hcc, hck⟩, hcl⟩ := hc
    simp only [StCode.single, Bool.and_eq_true] at hs
    simp only [StCode.pipes, List.nodup_append] at hn
    obtain ⟨hnc, hnk, hd⟩ := hn
    simp only [StCode.pipes, List.mem_append] at hr hp
    have hrc : ∀ p ∈ cs.pipes, p ∉ k.starting r := fun p hp hh => by
      rcases starting_sub k r p hh with hh | hh
      · exact hd p hp p hh rfl
      · exact hr p (.inl hp) hh
    rcases hp with hp | hp
    · have hpk : p ∉ k.pipes := fun hh => hd p hp p hh rfl
      have hfk : p ∉ (k.flow v).1 := fun hh => hpk (flow_sub k v p hh)
      have hg : ∀ p ∈ cs.pipes, disablePipes (cs.starting (k.starting r) ++ k.starting r) f p = true :=
        fun p hp => disable_mem _ (List.mem_append.2 (.inl (cases_pipes_starting cs _ _ p hs.1 hp)))
      simp only [StCode.write, StCode.flow]
      rw [write_other k rc r v _ p hpk (hr p (.inl hp))]
      by_cases hv : cs.has (v s) = true
      · have i := writeAt_flow cs (v s) _ _ v _ hcc hs.1 hnc hrc hg p hp
        simp only [hv, if_true]
        split_ifs <;> simp [i, hfk]
      · have i := writeDefault_flow cs _ _ v _ hcc hs.1 hnc hrc hg p hp
        simp only [hv]
        split_ifs <;> simp_all
    · have hks : k.isState = false := by
        cases k <;> simp [StCode.pipes, StCode.isState] at hp ⊢
      have hke := mem_not_empty hp
      have hpc : p ∉ cs.pipes := fun hh => hd p hh p hp rfl
      have hrt : rc = true := by
        rcases hf with hf | hf
        · exact hf
        · have := hf.1
          rw [StCode.first, hke] at this
          exact absurd this (by simp)
      have hoc : cs.oneCycle = true := by simpa [hks] using hcl
      have h1 := oneCycle_flowAt cs (v s) v hoc
      have h2 := oneCycle_flowDefault cs v hoc
      have hfa : p ∉ (cs.flowAt (v s) v).1 := fun hh => hpc (flowAt_sub cs _ v p hh)
      have hfd : p ∉ (cs.flowDefault v).1 := fun hh => hpc (flowDefault_sub cs v p hh)
      simp only [StCode.write, StCode.flow]
      rw [write_flow k rc h r v _ hck hs.2 hnk (fun p hp => hr p (.inr hp)) (.inl hrt) p hp]
      split_ifs <;> simp_all
theorem writeAt_flow : ∀ (cs : StCases) (n : Nat) (h : Bool) (r : List Nat) (v : TestVals) (f : PipeFlags),
    cs.clean = true → cs.single h = true → cs.pipes.Nodup → (∀ p ∈ cs.pipes, p ∉ r) →
    (∀ p ∈ cs.pipes, f p = true) →
    ∀ p ∈ cs.pipes, cs.writeAt n r v f p = false ↔ p ∈ (cs.flowAt n v).1
  | .nil, _, _, _, _, _, _, _, _, _, _, p, hp => by simp [StCases.pipes] at hp
  | .cons x b cs, n, h, r, v, f, hc, hs, hn, hr, hf, p, hp => by
    simp only [StCases.clean, Bool.and_eq_true] at hc
    simp only [StCases.single, Bool.and_eq_true] at hs
    simp only [StCases.pipes, List.nodup_append] at hn
    have hpp := hp
    simp only [StCases.pipes, List.mem_append] at hp hr hf
    simp only [StCases.writeAt, StCases.flowAt]
    split
    · rcases hp with hp | hp
      · exact write_flow b true h r v f hc.1 hs.1 hn.1 (fun p hp => hr p (.inl hp)) (.inl rfl) p hp
      · have hpb : p ∉ b.pipes := fun hh => hn.2.2 p hh p hp rfl
        rw [write_other b _ _ _ _ _ hpb (hr p (.inr hp)), hf p (.inr hp)]
        simp only [Bool.true_eq_false, false_iff]
        exact fun hh => hpb (flow_sub b v p hh)
    · rcases hp with hp | hp
      · have hpc : p ∉ cs.pipes := fun hh => hn.2.2 p hp p hh rfl
        rw [writeAt_other cs _ _ _ _ _ hpc (hr p (.inl hp)), hf p (.inl hp)]
        simp only [Bool.true_eq_false, false_iff]
        exact fun hh => hpc (flowAt_sub cs n v p hh)
      · exact writeAt_flow cs n h r v f hc.2 hs.2 hn.2.1 (fun p hp => hr p (.inr hp))
          (fun p hp => hf p (.inr hp)) p hp
theorem writeDefault_flow : ∀ (cs : StCases) (h : Bool) (r : List Nat) (v : TestVals) (f : PipeFlags),
    cs.clean = true → cs.single h = true → cs.pipes.Nodup → (∀ p ∈ cs.pipes, p ∉ r) →
    (∀ p ∈ cs.pipes, f p = true) →
    ∀ p ∈ cs.pipes, cs.writeDefault r v f p = false ↔ p ∈ (cs.flowDefault v).1
  | .nil, _, _, _, _, _, _, _, _, _, p, hp => by simp [StCases.pipes] at hp
  | .cons x b cs, h, r, v, f, hc, hs, hn, hr, hf, p, hp => by
    simp only [StCases.clean, Bool.and_eq_true] at hc
    simp only [StCases.single, Bool.and_eq_true] at hs
    simp only [StCases.pipes, List.nodup_append] at hn
    simp only [StCases.pipes, List.mem_append] at hp hr hf
    simp only [StCases.writeDefault, StCases.flowDefault]
    split
    · rcases hp with hp | hp
      · exact write_flow b true h r v f hc.1 hs.1 hn.1 (fun p hp => hr p (.inl hp)) (.inl rfl) p hp
      · have hpb : p ∉ b.pipes := fun hh => hn.2.2 p hh p hp rfl
        rw [write_other b _ _ _ _ _ hpb (hr p (.inr hp)), hf p (.inr hp)]
        simp only [Bool.true_eq_false, false_iff]
        exact fun hh => hpb (flow_sub b v p hh)
    · rcases hp with hp | hp
      · have hpc : p ∉ cs.pipes := fun hh => hn.2.2 p hp p hh rfl
        rw [writeDefault_other cs _ _ _ _ hpc (hr p (.inl hp)), hf p (.inl hp)]
        simp only [Bool.true_eq_false, false_iff]
        exact fun hh => hpc (flowDefault_sub cs v p hh)
      · exact writeDefault_flow cs h r v f hc.2 hs.2 hn.2.1 (fun p hp => hr p (.inr hp))
          (fun p hp => hf p (.inr hp)) p hp
end

end Silice
