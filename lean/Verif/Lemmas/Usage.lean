import Verif.Spec.Usage

/-! # Lemmas for the usage of flip-flops -/

set_option autoImplicit false

namespace Silice

/-! ### One variable -/

/-- What holds between the names assigned and the bits of a variable whose Q side is not used. -/
def UseOk (k : Bool) (u : FFUse) : Prop :=
  u.q = false → u.d = k ∧ (u.noLatch = true → u.d = true ∧ u.latch = false)

theorem UseOk.clear {k : Bool} {u : FFUse} (h : UseOk k u) : UseOk k u.clearNoLatch := by
  intro hq
  exact ⟨(h hq).1, by simp [FFUse.clearNoLatch]⟩

theorem combine1_q {b : FFUse} {brs : List FFUse} (h : (combine1 b brs).q = false) :
    b.q = false ∧ ∀ u ∈ brs, u.q = false := by
  simp only [combine1, Bool.or_eq_false_iff] at h
  refine ⟨h.1.1, ?_⟩
  intro u hu
  have := h.1.2
  rw [List.any_eq_false] at this
  simpa using this u hu

theorem combine1_ok {kb : Bool} {b : FFUse} {brs : List (Bool × FFUse)} (hb : UseOk kb b) (hne : brs ≠ [])
    (hbr : ∀ p ∈ brs, UseOk p.1 p.2) :
    UseOk (kb || brs.any (·.1)) (combine1 b (brs.map (·.2))) := by
  intro hq
  obtain ⟨hbq, hall⟩ := combine1_q hq
  have hd : ∀ p ∈ brs, p.2.d = p.1 := fun p hp =>
    (hbr p hp (hall _ (List.mem_map.mpr ⟨p, hp, rfl⟩))).1
  refine ⟨?_, ?_⟩
  · simp only [combine1, (hb hbq).1]
    congr 1
    rw [List.any_map]
    apply Bool.eq_iff_iff.mpr
    simp only [List.any_eq_true, Function.comp]
    constructor
    · rintro ⟨p, hp, h⟩; exact ⟨p, hp, by rw [← hd p hp]; exact h⟩
    · rintro ⟨p, hp, h⟩; exact ⟨p, hp, by rw [hd p hp]; exact h⟩
  · intro hn
    have hn' : (!(brs.map (·.2)).isEmpty && (brs.map (·.2)).all FFUse.exactlyD) = true := hn
    rw [Bool.and_eq_true] at hn'
    refine ⟨?_, ?_⟩
    · obtain ⟨p, hp⟩ := List.exists_mem_of_ne_nil _ hne
      have := List.all_eq_true.mp hn'.2 p.2 (List.mem_map.mpr ⟨p, hp, rfl⟩)
      simp only [FFUse.exactlyD, Bool.and_eq_true] at this
      simp only [combine1, Bool.or_eq_true, List.any_eq_true]
      exact Or.inr ⟨p.2, List.mem_map.mpr ⟨p, hp, rfl⟩, this.1.1⟩
    · simp only [combine1]
      rw [List.any_eq_false]
      intro u _
      rw [show (!(brs.map (·.2)).isEmpty && (brs.map (·.2)).all FFUse.exactlyD) = true from hn]
      simp

theorem combine1_noLatch {b : FFUse} {brs : List (Bool × FFUse)} (hne : brs ≠ [])
    (hbr : ∀ p ∈ brs, UseOk p.1 p.2) (hmono : ∀ p ∈ brs, p.2.q = false → b.noLatch = true → p.2.noLatch = true)
    (hq : (combine1 b (brs.map (·.2))).q = false) (hn : b.noLatch = true) :
    (combine1 b (brs.map (·.2))).noLatch = true := by
  obtain ⟨_, hall⟩ := combine1_q hq
  simp only [combine1, Bool.and_eq_true, List.all_eq_true]
  refine ⟨by cases brs with | nil => exact absurd rfl hne | cons _ _ => rfl, ?_⟩
  intro u hu
  obtain ⟨p, hp, rfl⟩ := List.mem_map.mp hu
  have hqp := hall _ hu
  have := (hbr p hp hqp).2 (hmono p hp hqp hn)
  simp [FFUse.exactlyD, this.1, this.2, hqp]

/-- Without a latch after a conditional, a variable assigned in some branch has been assigned in every one, and
none of them needs a latch. -/
theorem combine1_all {kb : Bool} {b : FFUse} {brs : List (Bool × FFUse)} (hb : UseOk kb b)
    (hbr : ∀ p ∈ brs, UseOk p.1 p.2) (hmono : ∀ p ∈ brs, p.2.q = false → b.noLatch = true → p.2.noLatch = true)
    (hdm : ∀ p ∈ brs, b.d = true → p.2.d = true)
    (hq : (combine1 b (brs.map (·.2))).q = false) (hl : (combine1 b (brs.map (·.2))).latch = false)
    (hk : (kb || brs.any (·.1)) = true) :
    ∀ p ∈ brs, p.1 = true ∧ p.2.latch = false := by
  intro p hp
  have hne : brs ≠ [] := by rintro rfl; simp at hp
  obtain ⟨hbq, hall⟩ := combine1_q hq
  have hallq : ∀ p ∈ brs, p.2.q = false := fun p hp => hall _ (List.mem_map.mpr ⟨p, hp, rfl⟩)
  by_cases hin : (combine1 b (brs.map (·.2))).noLatch = true
  · have hin' : (!(brs.map (·.2)).isEmpty && (brs.map (·.2)).all FFUse.exactlyD) = true := hin
    rw [Bool.and_eq_true] at hin'
    have h := List.all_eq_true.mp hin'.2 p.2 (List.mem_map.mpr ⟨p, hp, rfl⟩)
    simp only [FFUse.exactlyD, Bool.and_eq_true, Bool.not_eq_true'] at h
    exact ⟨by rw [← (hbr p hp (hallq p hp)).1]; exact h.1.1, h.2⟩
  · exfalso
    apply hin
    apply combine1_noLatch hne hbr hmono hq
    -- some branch assigns it
    have : ∃ p ∈ brs, p.2.d = true := by
      rcases Bool.or_eq_true_iff.mp hk with h | h
      · exact ⟨p, hp, hdm p hp (by rw [(hb hbq).1]; exact h)⟩
      · obtain ⟨r, hr, hrk⟩ := List.any_eq_true.mp h
        exact ⟨r, hr, by rw [(hbr r hr (hallq r hr)).1]; exact hrk⟩
    obtain ⟨r, hr, hrd⟩ := this
    by_contra hbn
    have hin' : (!(brs.map (·.2)).isEmpty && (brs.map (·.2)).all FFUse.exactlyD) = false :=
      Bool.eq_false_iff.mpr hin
    simp only [combine1] at hl
    rw [List.any_eq_false] at hl
    have := hl r.2 (List.mem_map.mpr ⟨r, hr, rfl⟩)
    rw [hin'] at this
    simp [hrd, hallq r hr] at this
    exact hbn this

/-! ### Reads and instructions -/

variable {V L : Type}

theorem readsUse_ok {cls : String → Store} {rs : List String} {K : Keys} {U : Usage} {x : String}
    (hc : cls x = .flipflop) (h : UseOk (K x) (U x)) : UseOk (K x) (readsUse cls rs K U x) := by
  intro hq
  by_cases hx : x ∈ rs
  · simp only [readsUse, hx, if_true, readUse, hc] at hq ⊢
    by_cases hk : K x = true
    · simp only [hk, if_true, FFUse.readD, Bool.or_eq_false_iff] at hq ⊢
      refine ⟨trivial, fun hn => ⟨trivial, ?_⟩⟩
      exact hq.2
    · simp [hk, FFUse.readQ] at hq
  · simp only [readsUse, hx, if_false] at hq ⊢
    exact h hq

theorem readsUse_mono {cls : String → Store} {rs : List String} {K : Keys} {U : Usage} {x : String} :
    ((readsUse cls rs K U x).q = false → (U x).q = false) ∧
    ((readsUse cls rs K U x).noLatch = (U x).noLatch) ∧ ((readsUse cls rs K U x).latch = (U x).latch) ∧
    ((U x).d = true → (readsUse cls rs K U x).d = true) := by
  by_cases hx : x ∈ rs
  · simp only [readsUse, hx, if_true, readUse]
    cases cls x <;> simp only [] <;> (try split) <;> simp [FFUse.readD, FFUse.readQ] <;> tauto
  · simp [readsUse, hx]

/-- A read that does not use the Q side finds the variable assigned, and no latch. -/
theorem readsUse_read {cls : String → Store} {rs : List String} {K : Keys} {U : Usage} {x : String}
    (hc : cls x = .flipflop) (hx : x ∈ rs) (hq : (readsUse cls rs K U x).q = false) :
    K x = true ∧ (U x).latch = false := by
  simp only [readsUse, hx, if_true, readUse, hc] at hq
  by_cases hk : K x = true
  · simp only [hk, if_true, FFUse.readD, Bool.or_eq_false_iff] at hq
    exact ⟨hk, hq.2⟩
  · simp [hk, FFUse.readQ] at hq

theorem writesUse_ok {i : Ins V} {K : Keys} {U : Usage} {x : String} (h : UseOk (K x) (U x)) :
    UseOk (insKeys i K x) (writesUse i U x) := by
  intro hq
  simp only [writesUse] at hq ⊢
  by_cases hp : x ∈ i.parts
  · simp [hp, FFUse.readQ] at hq
  · simp only [hp, if_false, false_or, insKeys] at hq ⊢
    by_cases hw : x ∈ i.writes ∨ x ∈ i.fields
    · simp only [hw, if_true, FFUse.writeD, decide_true, Bool.or_true] at hq ⊢
      exact ⟨trivial, fun hn => ⟨trivial, ((h hq).2 hn).2⟩⟩
    · simp only [hw, if_false, decide_false, Bool.or_false] at hq ⊢
      exact h hq

theorem writesUse_mono {i : Ins V} {U : Usage} {x : String} :
    ((writesUse i U x).q = false → (U x).q = false ∧ x ∉ i.parts) ∧
    ((writesUse i U x).noLatch = (U x).noLatch) ∧ ((writesUse i U x).latch = (U x).latch) ∧
    ((U x).d = true → (writesUse i U x).d = true) := by
  simp only [writesUse]
  split_ifs <;> simp_all [FFUse.readQ, FFUse.writeD]

/-! ### Code -/

theorem Brs.uses_ne {cls : String → Store} (bs : Brs V L) {K : Keys} {U : Usage} : bs.uses cls K U ≠ [] := by
  cases bs <;> simp [Brs.uses]

mutual
/-- Names assigned and bits, branch by branch, for one variable. -/
def Brs.pairs (cls : String → Store) (x : String) : Brs V L → Keys → Usage → List (Bool × FFUse)
  | .one s, K, U => [(s.keys K x, s.use cls K U x)]
  | .cons s bs, K, U => (s.keys K x, s.use cls K U x) :: bs.pairs cls x K U
end

theorem Brs.pairs_snd (cls : String → Store) (x : String) (bs : Brs V L) (K : Keys) (U : Usage) :
    (bs.pairs cls x K U).map (·.2) = (bs.uses cls K U).map (· x) := by
  match bs with
  | .one s => rfl
  | .cons s bs => simp [Brs.pairs, Brs.uses, Brs.pairs_snd cls x bs K U]

theorem Brs.pairs_fst (cls : String → Store) (x : String) (bs : Brs V L) (K : Keys) (U : Usage) :
    (bs.pairs cls x K U).any (·.1) = bs.anyKey K x := by
  match bs with
  | .one s => simp [Brs.pairs, Brs.anyKey]
  | .cons s bs => simp [Brs.pairs, Brs.anyKey, Brs.pairs_fst cls x bs K U]

/-- All branches of a conditional for one variable, with the extra one. -/
def branchPairs (cls : String → Store) (x : String) (bs : Brs V L) (push : Bool) (K : Keys) (U : Usage) :
    List (Bool × FFUse) :=
  bs.pairs cls x K U ++ if push then [(K x, U x)] else []

theorem branchPairs_snd (cls : String → Store) (x : String) (bs : Brs V L) (push : Bool) (K : Keys) (U : Usage) :
    (branchPairs cls x bs push K U).map (·.2) = (bs.uses cls K U).map (· x) ++ if push then [U x] else [] := by
  cases push <;> simp [branchPairs, Brs.pairs_snd]

theorem branchPairs_fst (cls : String → Store) (x : String) (bs : Brs V L) (push : Bool) (K : Keys) (U : Usage) :
    (K x || (branchPairs cls x bs push K U).any (·.1)) = (K x || bs.anyKey K x) := by
  cases push <;> simp [branchPairs, Brs.pairs_fst]
  cases K x <;> simp

theorem branchPairs_ne (cls : String → Store) (x : String) (bs : Brs V L) (push : Bool) (K : Keys) (U : Usage) :
    branchPairs cls x bs push K U ≠ [] := by
  cases bs <;> simp [branchPairs, Brs.pairs]

/-- What one step of the analysis guarantees for a variable. -/
structure StepOk (k k' : Bool) (u u' : FFUse) : Prop where
  ok : UseOk k' u'
  q : u'.q = false → u.q = false
  noLatch : u'.q = false → u.noLatch = true → u'.noLatch = true
  d : u.d = true → u'.d = true
  k : k = true → k' = true

mutual
theorem Stm.stepOk {cls : String → Store} {x : String} (hc : cls x = .flipflop) (s : Stm V L) (K : Keys) (U : Usage)
    (h : UseOk (K x) (U x)) : StepOk (K x) (s.keys K x) (U x) (s.use cls K U x) := by
  match s with
  | .skip => exact ⟨h, id, fun _ => id, id, id⟩
  | .exit _ => exact ⟨h, id, fun _ => id, id, id⟩
  | .ins i =>
    have m1 := readsUse_mono (cls := cls) (rs := i.reads) (K := K) (U := U) (x := x)
    have m2 := writesUse_mono (i := i) (U := readsUse cls i.reads K U) (x := x)
    refine ⟨writesUse_ok (readsUse_ok hc h), fun hq => m1.1 (m2.1 hq).1, ?_, fun hd => m2.2.2.2 (m1.2.2.2 hd), ?_⟩
    · intro _ hn
      show (writesUse i (readsUse cls i.reads K U) x).noLatch = true
      rw [m2.2.1, m1.2.1]; exact hn
    · intro hk; show insKeys i K x = true; simp [insKeys, hk]
  | .seq a b =>
    have ha := a.stepOk hc K U h
    have hb := b.stepOk hc (a.keys K) (a.use cls K U) ha.ok
    exact ⟨hb.ok, fun hq => ha.q (hb.q hq), fun hq hn => hb.noLatch hq (ha.noLatch (hb.q hq) hn),
      fun hd => hb.d (ha.d hd), fun hk => hb.k (ha.k hk)⟩
  | .branch rs sel bs push other =>
    have m1 := readsUse_mono (cls := cls) (rs := rs) (K := K) (U := U) (x := x)
    have h1 := readsUse_ok (rs := rs) hc h
    have hbs := bs.stepOk hc K (readsUse cls rs K U) h1
    have hp : ∀ p ∈ branchPairs cls x bs push K (readsUse cls rs K U),
        StepOk (K x) p.1 (readsUse cls rs K U x) p.2 := by
      intro p hp
      rcases List.mem_append.mp hp with hp | hp
      · exact hbs p hp
      · cases push with
        | false => simp at hp
        | true => simp only [if_true, List.mem_singleton] at hp; subst hp; exact ⟨h1, id, fun _ => id, id, id⟩
    have e1 : (Stm.branch rs sel bs push other).use cls K U x =
        combine1 (readsUse cls rs K U x) ((branchPairs cls x bs push K (readsUse cls rs K U)).map (·.2)) := by
      rw [branchPairs_snd]; rfl
    have e2 : (Stm.branch rs sel bs push other).keys K x =
        (K x || (branchPairs cls x bs push K (readsUse cls rs K U)).any (·.1)) := by
      rw [branchPairs_fst]; rfl
    rw [e1, e2]
    refine ⟨combine1_ok h1 (branchPairs_ne _ _ _ _ _ _) fun p h => (hp p h).ok, ?_, ?_, ?_, ?_⟩
    · intro hq; exact m1.1 (combine1_q hq).1
    · intro hq hn
      exact combine1_noLatch (branchPairs_ne _ _ _ _ _ _) (fun p h => (hp p h).ok) (fun p h => (hp p h).noLatch) hq
        (by rw [m1.2.1]; exact hn)
    · intro hd; simp [combine1, m1.2.2.2 hd]
    · intro hk; simp [hk]

theorem Brs.stepOk {cls : String → Store} {x : String} (hc : cls x = .flipflop) (bs : Brs V L) (K : Keys) (U : Usage)
    (h : UseOk (K x) (U x)) : ∀ p ∈ bs.pairs cls x K U, StepOk (K x) p.1 (U x) p.2 := by
  match bs with
  | .one s =>
    intro p hp
    simp only [Brs.pairs, List.mem_singleton] at hp; subst hp
    exact s.stepOk hc K U h
  | .cons s bs =>
    intro p hp
    simp only [Brs.pairs, List.mem_cons] at hp
    rcases hp with rfl | hp
    · exact s.stepOk hc K U h
    · exact bs.stepOk hc K U h p hp
end

/-! ### Reads come after writes -/

/-- Reads of `x` come after an assignment, or `x` was assigned at the start. -/
def Covered (x : String) : Bool → List (Ev V) → Prop
  | _, [] => True
  | w, e :: es => (x ∈ e.reads → w = true) ∧ Covered x (w || decide (x ∈ e.writes)) es

/-- Is `x` assigned at the end. -/
def wrote (x : String) (w : Bool) (evs : List (Ev V)) : Bool := w || evs.any fun e => decide (x ∈ e.writes)

theorem wrote_append (x : String) (w : Bool) (a b : List (Ev V)) :
    wrote x w (a ++ b) = wrote x (wrote x w a) b := by
  simp [wrote, Bool.or_assoc]

theorem Covered.append {x : String} {w : Bool} {a b : List (Ev V)} :
    Covered x w (a ++ b) ↔ Covered x w a ∧ Covered x (wrote x w a) b := by
  induction a generalizing w with
  | nil => simp [Covered, wrote]
  | cons e es ih =>
    simp only [List.cons_append, Covered, ih, wrote, List.any_cons, Bool.or_assoc]
    tauto

theorem covered_writtenBeforeRead {x : String} {evs : List (Ev V)} (h : Covered x false evs) :
    WrittenBeforeRead x evs := by
  intro before e after he hx
  subst he
  have := (Covered.append.mp h).2.1 hx
  simpa [wrote] using this

mutual
/-- Code that never leaves the cycle. -/
theorem Stm.run_noExit (s : Stm V L) (h : s.NoExit) (m : String → V) : (s.run m).out = none := by
  match s with
  | .skip => rfl
  | .ins i => rfl
  | .exit _ => exact h.elim
  | .seq a b =>
    simp only [Stm.run, a.run_noExit h.1 m]
    exact b.run_noExit h.2 _
  | .branch rs sel bs push other =>
    simp only [Stm.run]
    cases sel (rs.map m) with
    | none => exact h.2
    | some k => exact bs.run_noExit h.1 k m

theorem Brs.run_noExit (bs : Brs V L) (h : bs.NoExit) (k : Nat) (m : String → V) : (bs.run k m).out = none := by
  match bs, k with
  | .one s, _ => exact s.run_noExit h m
  | .cons s bs, 0 => exact s.run_noExit h.1 m
  | .cons s bs, k + 1 => exact bs.run_noExit h.2 k m
end

mutual
/-- A variable whose Q side is not used: reads come after assignments, and at the end it has been assigned
unless it would need a latch. -/
theorem Stm.cover {cls : String → Store} {x : String} (hc : cls x = .flipflop) (s : Stm V L) (K : Keys) (U : Usage)
    (hs : s.Shape) (hf : s.NoField x) (h : UseOk (K x) (U x)) (hq : (s.use cls K U x).q = false) (w : Bool)
    (hw : K x = true → (U x).latch = false → w = true) (m : String → V) :
    Covered x w (s.run m).evs ∧
    (((s.run m).out = none ∨ s.Closed) → s.keys K x = true → (s.use cls K U x).latch = false →
      wrote x w (s.run m).evs = true) := by
  match s with
  | .skip => exact ⟨trivial, fun _ hk hl => by simpa [wrote, Stm.run] using hw hk hl⟩
  | .exit _ => exact ⟨trivial, fun _ hk hl => by simpa [wrote, Stm.run] using hw hk hl⟩
  | .ins i =>
    have m1 := readsUse_mono (cls := cls) (rs := i.reads) (K := K) (U := U) (x := x)
    have m2 := writesUse_mono (i := i) (U := readsUse cls i.reads K U) (x := x)
    have hq2 : (writesUse i (readsUse cls i.reads K U) x).q = false := hq
    obtain ⟨hq1, hp⟩ := m2.1 hq2
    refine ⟨⟨fun hx => ?_, trivial⟩, ?_⟩
    · obtain ⟨hk, hl⟩ := readsUse_read hc hx hq1
      exact hw hk hl
    · intro _ hk hl
      have hl' : (U x).latch = false := by rw [← m1.2.2.1, ← m2.2.2.1]; exact hl
      have hk' : insKeys i K x = true := hk
      simp only [insKeys, Bool.or_eq_true, decide_eq_true_eq] at hk'
      simp only [wrote, Stm.run, List.any_cons, List.any_nil, Bool.or_false, Bool.or_eq_true, decide_eq_true_eq]
      rcases hk' with hk' | hk' | hk' | hk'
      · exact Or.inl (hw hk' hl')
      · exact Or.inr hk'
      · exact absurd hk' hp
      · exact absurd hk' hf
  | .seq a b =>
    have ha := a.stepOk hc K U h
    have hb := b.stepOk hc (a.keys K) (a.use cls K U) ha.ok
    have hqb : (b.use cls (a.keys K) (a.use cls K U) x).q = false := hq
    have hout := a.run_noExit hs.1 m
    obtain ⟨ca, wa⟩ := a.cover hc K U hs.2.1 hf.1 h (hb.q hqb) w hw m
    obtain ⟨cb, wb⟩ := b.cover hc (a.keys K) (a.use cls K U) hs.2.2 hf.2 ha.ok hqb (wrote x w (a.run m).evs)
      (fun hk hl => wa (Or.inl hout) hk hl) (a.run m).env
    simp only [Stm.run, hout]
    refine ⟨Covered.append.mpr ⟨ca, cb⟩, ?_⟩
    intro hcl hk hl
    rw [wrote_append]
    exact wb (hcl.imp id fun h => h.2) hk hl
  | .branch rs sel bs push other =>
    have m1 := readsUse_mono (cls := cls) (rs := rs) (K := K) (U := U) (x := x)
    have h1 := readsUse_ok (rs := rs) hc h
    have hp : ∀ p ∈ branchPairs cls x bs push K (readsUse cls rs K U),
        StepOk (K x) p.1 (readsUse cls rs K U x) p.2 := by
      intro p hp
      rcases List.mem_append.mp hp with hp | hp
      · exact bs.stepOk hc K _ h1 p hp
      · cases push with
        | false => simp at hp
        | true => simp only [if_true, List.mem_singleton] at hp; subst hp; exact ⟨h1, id, fun _ => id, id, id⟩
    have e1 : (Stm.branch rs sel bs push other).use cls K U x =
        combine1 (readsUse cls rs K U x) ((branchPairs cls x bs push K (readsUse cls rs K U)).map (·.2)) := by
      rw [branchPairs_snd]; rfl
    have e2 : (Stm.branch rs sel bs push other).keys K x =
        (K x || (branchPairs cls x bs push K (readsUse cls rs K U)).any (·.1)) := by
      rw [branchPairs_fst]; rfl
    rw [e1] at hq
    rw [e1, e2]
    obtain ⟨hq1, hqall⟩ := combine1_q hq
    have hrd : x ∈ rs → w = true := by
      intro hx
      obtain ⟨hk, hl⟩ := readsUse_read hc hx hq1
      exact hw hk hl
    have hw1 : K x = true → (readsUse cls rs K U x).latch = false → w = true := by
      intro hk hl; rw [m1.2.2.1] at hl; exact hw hk hl
    have key := combine1_all h1 (fun p h => (hp p h).ok) (fun p h => (hp p h).noLatch) (fun p h => (hp p h).d) hq
    simp only [Stm.run]
    cases hsel : sel (rs.map m) with
    | none =>
      refine ⟨⟨hrd, trivial⟩, ?_⟩
      intro hcl hk hl
      simp only [wrote, List.any_cons, List.any_nil, List.not_mem_nil, decide_false, Bool.or_false]
      have hpush : push = true := by
        cases push with
        | true => rfl
        | false =>
          exfalso
          have ho : other = none := hcl.elim id fun h => h.2 rfl
          have := hs.2 rfl ho (rs.map m)
          rw [hsel] at this; exact absurd this (by simp)
      have hm : (K x, readsUse cls rs K U x) ∈ branchPairs cls x bs push K (readsUse cls rs K U) := by
        subst hpush; simp [branchPairs]
      obtain ⟨a1, a2⟩ := key hl hk _ hm
      exact hw1 a1 a2
    | some k =>
      obtain ⟨cb, k1, u1, hpm, wb⟩ := bs.cover hc K (readsUse cls rs K U) hs.1 hf h1
        (fun p hp => hqall _ (List.mem_map.mpr ⟨p, List.mem_append_left _ hp, rfl⟩)) w hw1 k m
      refine ⟨⟨hrd, by simpa using cb⟩, ?_⟩
      intro hcl hk hl
      obtain ⟨a1, a2⟩ := key hl hk _ (List.mem_append_left _ hpm)
      have := wb (hcl.imp id fun h => h.1) a1 a2
      simpa [wrote] using this

theorem Brs.cover {cls : String → Store} {x : String} (hc : cls x = .flipflop) (bs : Brs V L) (K : Keys) (U : Usage)
    (hs : bs.Shape) (hf : bs.NoField x) (h : UseOk (K x) (U x))
    (hq : ∀ p ∈ bs.pairs cls x K U, p.2.q = false) (w : Bool)
    (hw : K x = true → (U x).latch = false → w = true) (k : Nat) (m : String → V) :
    Covered x w (bs.run k m).evs ∧
    ∃ k1 u1, (k1, u1) ∈ bs.pairs cls x K U ∧ (((bs.run k m).out = none ∨ bs.Closed) → k1 = true → u1.latch = false →
      wrote x w (bs.run k m).evs = true) := by
  match bs, k with
  | .one s, _ =>
    obtain ⟨c, w'⟩ := s.cover hc K U hs hf h (hq (s.keys K x, s.use cls K U x) (by simp [Brs.pairs])) w hw m
    exact ⟨c, _, _, by simp [Brs.pairs], w'⟩
  | .cons s bs, 0 =>
    obtain ⟨c, w'⟩ := s.cover hc K U hs.1 hf.1 h (hq (s.keys K x, s.use cls K U x) (by simp [Brs.pairs])) w hw m
    exact ⟨c, _, _, by simp [Brs.pairs], fun hcl => w' (hcl.imp id fun h => h.1)⟩
  | .cons s bs, k + 1 =>
    obtain ⟨c, k1, u1, hm, w'⟩ := bs.cover hc K U hs.2 hf.2 h
      (fun p hp => hq p (by simp [Brs.pairs, hp])) w hw k m
    exact ⟨c, k1, u1, by simp [Brs.pairs, hm], fun hcl => w' (hcl.imp id fun h => h.2)⟩
end

/-! ### Emitted code does what the source does -/

theorem covered_of {x : String} {w : Bool} {evs : List (Ev V)}
    (h : ∀ before e after, evs = before ++ e :: after → x ∈ e.reads → wrote x w before = true) : Covered x w evs := by
  induction evs generalizing w with
  | nil => trivial
  | cons e es ih =>
    refine ⟨fun hx => by simpa [wrote] using h [] e es rfl hx, ih ?_⟩
    intro b e' a he hx
    have := h (e :: b) e' a (by rw [he]; rfl) hx
    simpa [wrote, Bool.or_assoc] using this

theorem covered_of_writtenBeforeRead {x : String} {evs : List (Ev V)} (h : WrittenBeforeRead x evs) :
    Covered x false evs := by
  apply covered_of
  intro b e a he hx
  obtain ⟨e', he', hw⟩ := h b e a he hx
  simp only [wrote, Bool.false_or, List.any_eq_true, decide_eq_true_eq]
  exact ⟨e', he', hw⟩

theorem reads_agree {cls : String → Store} {K : Keys} {rs : List String} {h : HSt V L} {m : String → V}
    {w : String → Bool}
    (hff : ∀ x, cls x = .flipflop → h.v x = m x)
    (hq : ∀ x, cls x = .flipflop → K x = false → h.q x = m x)
    (ht : ∀ x, cls x = .temp → w x = true → h.v x = m x)
    (hr : ∀ x, cls x = .temp → x ∈ rs → w x = true) :
    ((rs.map (readSide cls K)).zip rs).map h.rd = rs.map m := by
  induction rs with
  | nil => rfl
  | cons x rs ih =>
    simp only [List.map_cons, List.zip_cons_cons]
    congr 1
    · simp only [HSt.rd, readSide]
      cases hx : cls x with
      | temp => exact ht x hx (hr x hx (List.mem_cons_self ..))
      | flipflop =>
        by_cases hk : K x = true
        · simp only [hk, if_true]; exact hff x hx
        · simp only [hk]; exact hq x hx (by simpa using hk)
    · exact ih fun y hy hm => hr y hy (List.mem_cons_of_mem _ hm)

theorem wrote_of {x : String} {w : Bool} {evs : List (Ev V)} (h : w = true) : wrote x w evs = true := by
  simp [wrote, h]

/-- Agreement of hardware and source at the end of some code. -/
structure Agree (cls : String → Store) (K' : Keys) (w : String → Bool) (h h' : HSt V L) (r : Res V L) : Prop where
  q : h'.q = h.q
  evs : h'.evs = h.evs ++ r.evs
  next : h'.next = (r.out <|> h.next)
  ff : ∀ x, cls x = .flipflop → h'.v x = r.env x
  keep : ∀ x, cls x = .flipflop → K' x = false → h.q x = r.env x
  tmp : ∀ x, cls x = .temp → wrote x (w x) r.evs = true → h'.v x = r.env x

theorem Stm.keys_mono (s : Stm V L) {K : Keys} {x : String} (h : s.keys K x = false) : K x = false := by
  match s with
  | .skip => exact h
  | .exit _ => exact h
  | .ins i => exact (Bool.or_eq_false_iff.mp h).1
  | .seq a b => exact a.keys_mono (b.keys_mono h)
  | .branch _ _ _ _ _ => exact (Bool.or_eq_false_iff.mp h).1

mutual
theorem Stm.refine {cls : String → Store} (s : Stm V L) (K : Keys) (hs : s.Shape) (m : String → V) (h : HSt V L)
    (w : String → Bool)
    (hff : ∀ x, cls x = .flipflop → h.v x = m x)
    (hq : ∀ x, cls x = .flipflop → K x = false → h.q x = m x)
    (ht : ∀ x, cls x = .temp → w x = true → h.v x = m x)
    (hcov : ∀ x, cls x = .temp → Covered x (w x) (s.run m).evs) :
    Agree cls (s.keys K) w h ((s.emit cls K).run h) (s.run m) := by
  match s with
  | .skip =>
    exact ⟨rfl, by simp [Stm.emit, ECode.run, Stm.run], by simp [Stm.emit, ECode.run, Stm.run], hff, hq,
      fun x hx hw => ht x hx (by simpa [wrote, Stm.run] using hw)⟩
  | .exit l =>
    exact ⟨rfl, by simp [Stm.emit, ECode.run, Stm.run], by simp [Stm.emit, ECode.run, Stm.run], hff, hq,
      fun x hx hw => ht x hx (by simpa [wrote, Stm.run] using hw)⟩
  | .ins i =>
    have hv := reads_agree hff hq ht (rs := i.reads) (fun x hx hm => (hcov x hx).1 hm)
    refine ⟨rfl, ?_, ?_, ?_, ?_, ?_⟩
    · simp only [Stm.emit, ECode.run, Stm.run, hv]
    · simp [Stm.emit, ECode.run, Stm.run]
    · intro x hx
      simp only [Stm.emit, ECode.run, Stm.run, hv, Ins.apply, hff x hx]
    · intro x hx hk
      have hk' : (K x || decide (x ∈ i.writes ∨ x ∈ i.parts ∨ x ∈ i.fields)) = false := hk
      rw [Bool.or_eq_false_iff, decide_eq_false_iff_not] at hk'
      have h1 : x ∉ i.writes := fun h => hk'.2 (Or.inl h)
      have h2 : ¬ (x ∈ i.parts ∨ x ∈ i.fields) := fun h => hk'.2 (Or.inr h)
      simp only [Stm.run, Ins.apply, h1, h2, if_false]
      exact hq x hx hk'.1
    · intro x hx hw
      simp only [Stm.emit, ECode.run, Stm.run, hv, Ins.apply]
      by_cases h1 : x ∈ i.writes
      · simp [h1]
      · have : w x = true := by simpa [wrote, Stm.run, h1] using hw
        rw [ht x hx this]
  | .seq a b =>
    have hout := a.run_noExit hs.1 m
    have hev : (Stm.seq a b).run m =
        ⟨(b.run (a.run m).env).env, (b.run (a.run m).env).out, (a.run m).evs ++ (b.run (a.run m).env).evs⟩ := by
      simp only [Stm.run, hout]
    rw [hev] at hcov ⊢
    have ha := a.refine K hs.2.1 m h w hff hq ht fun x hx => (Covered.append.mp (hcov x hx)).1
    have hb := b.refine (a.keys K) hs.2.2 (a.run m).env ((a.emit cls K).run h) (fun x => wrote x (w x) (a.run m).evs)
      ha.ff (fun x hx hk => by rw [ha.q]; exact ha.keep x hx hk) ha.tmp
      fun x hx => (Covered.append.mp (hcov x hx)).2
    refine ⟨?_, ?_, ?_, hb.ff, ?_, ?_⟩
    · exact hb.q.trans ha.q
    · show ((b.emit cls (a.keys K)).run ((a.emit cls K).run h)).evs = _
      rw [hb.evs, ha.evs, List.append_assoc]
    · show ((b.emit cls (a.keys K)).run ((a.emit cls K).run h)).next = _
      rw [hb.next, ha.next, hout]
      simp
    · intro x hx hk
      have := hb.keep x hx hk
      rw [ha.q] at this; exact this
    · intro x hx hw
      rw [wrote_append] at hw
      exact hb.tmp x hx hw
  | .branch rs sel bs push other =>
    have hrd : ∀ x, cls x = .temp → x ∈ rs → w x = true := by
      intro x hx hm
      have := hcov x hx
      simp only [Stm.run] at this
      cases hsel : sel (rs.map m) with
      | none => rw [hsel] at this; exact this.1 hm
      | some k => rw [hsel] at this; exact this.1 hm
    have hv := reads_agree hff hq ht hrd
    simp only [Stm.emit, ECode.run, hv]
    simp only [Stm.run] at hcov ⊢
    cases hsel : sel (rs.map m) with
    | none =>
      refine ⟨rfl, rfl, rfl, hff, fun x hx hk => hq x hx (Stm.keys_mono _ hk), ?_⟩
      intro x hx hw
      exact ht x hx (by simpa [wrote] using hw)
    | some k =>
      rw [hsel] at hcov
      have hb := bs.refine K hs.1 k m { h with evs := h.evs ++ [⟨rs, rs.map m, []⟩] } w hff hq ht
        (fun x hx => by simpa using (hcov x hx).2)
      refine ⟨hb.q, ?_, hb.next, hb.ff, ?_, ?_⟩
      · have := hb.evs
        simp only [List.append_assoc, List.singleton_append] at this
        exact this
      · intro x hx hk
        exact hb.keep x hx (Bool.or_eq_false_iff.mp hk).2
      · intro x hx hw
        exact hb.tmp x hx (by simpa [wrote] using hw)

theorem Brs.refine {cls : String → Store} (bs : Brs V L) (K : Keys) (hs : bs.Shape) (k : Nat) (m : String → V)
    (h : HSt V L) (w : String → Bool)
    (hff : ∀ x, cls x = .flipflop → h.v x = m x)
    (hq : ∀ x, cls x = .flipflop → K x = false → h.q x = m x)
    (ht : ∀ x, cls x = .temp → w x = true → h.v x = m x)
    (hcov : ∀ x, cls x = .temp → Covered x (w x) (bs.run k m).evs) :
    Agree cls (bs.anyKey K) w h ((bs.emits cls K).run k h) (bs.run k m) := by
  match bs, k with
  | .one s, k =>
    have := s.refine K hs m h w hff hq ht hcov
    exact ⟨this.q, this.evs, this.next, this.ff, this.keep, this.tmp⟩
  | .cons s bs, 0 =>
    have := s.refine K hs.1 m h w hff hq ht hcov
    exact ⟨this.q, this.evs, this.next, this.ff,
      fun x hx hk => this.keep x hx (Bool.or_eq_false_iff.mp hk).1, this.tmp⟩
  | .cons s bs, k + 1 =>
    have := bs.refine K hs.2 k m h w hff hq ht hcov
    exact ⟨this.q, this.evs, this.next, this.ff,
      fun x hx hk => this.keep x hx (Bool.or_eq_false_iff.mp hk).2, this.tmp⟩
end

/-! ### A whole cycle -/

mutual
theorem Stm.covered_noRead {x : String} (s : Stm V L) (h : s.NoRead x) (w : Bool) (m : String → V) :
    Covered x w (s.run m).evs := by
  match s with
  | .skip => trivial
  | .exit _ => trivial
  | .ins i => exact ⟨fun hx => absurd hx h, trivial⟩
  | .seq a b =>
    simp only [Stm.run]
    cases (a.run m).out with
    | some l => exact a.covered_noRead h.1 w m
    | none => exact Covered.append.mpr ⟨a.covered_noRead h.1 w m, b.covered_noRead h.2 _ _⟩
  | .branch rs sel bs push other =>
    simp only [Stm.run]
    cases sel (rs.map m) with
    | none => exact ⟨fun hx => absurd hx h.1, trivial⟩
    | some k => exact ⟨fun hx => absurd hx h.1, bs.covered_noRead h.2 _ k m⟩

theorem Brs.covered_noRead {x : String} (bs : Brs V L) (h : bs.NoRead x) (w : Bool) (k : Nat) (m : String → V) :
    Covered x w (bs.run k m).evs := by
  match bs, k with
  | .one s, _ => exact s.covered_noRead h w m
  | .cons s bs, 0 => exact s.covered_noRead h.1 w m
  | .cons s bs, k + 1 => exact bs.covered_noRead h.2 w k m
end

mutual
theorem Stm.keys_noWrite {x : String} (s : Stm V L) (h : s.NoWrite x) (K : Keys) : s.keys K x = K x := by
  match s with
  | .skip => rfl
  | .exit _ => rfl
  | .ins i => simp [Stm.keys, insKeys, h.1, h.2.1, h.2.2]
  | .seq a b => rw [Stm.keys, b.keys_noWrite h.2, a.keys_noWrite h.1]
  | .branch rs sel bs push other => simp [Stm.keys, bs.keys_noWrite h]

theorem Brs.keys_noWrite {x : String} (bs : Brs V L) (h : bs.NoWrite x) (K : Keys) : bs.anyKey K x = K x := by
  match bs with
  | .one s => exact s.keys_noWrite h K
  | .cons s bs => simp [Brs.anyKey, s.keys_noWrite h.1, bs.keys_noWrite h.2]
end

theorem Design.cover {cls : String → Store} {a : Design V L} {x : String} (hc : cls x = .flipflop) (hs : a.Shape)
    (hf : a.NoField x) (hq : (a.endUse cls x).q = false) (k : Nat) (hp : a.PostSafe x k) (m : String → V) :
    Covered x false (a.srcCycle ⟨k, m⟩).evs ∧ x ∉ a.bindQ ∧
    (x ∈ a.bindD → a.endKeys x = true → wrote x false (a.srcCycle ⟨k, m⟩).evs = true) := by
  -- always_before
  have h0 : UseOk ((fun _ => false : Keys) x) ((fun y => { q := decide (y ∈ a.bindQ) } : Usage) x) := by
    intro _; exact ⟨rfl, by simp⟩
  have p1 := a.pre.stepOk hc (fun _ => false) (fun y => { q := decide (y ∈ a.bindQ) }) h0
  have ok1 : UseOk (a.preKeys x) (a.preUse cls x) := p1.ok.clear
  -- the states
  have psok : ∀ s ∈ a.states, StepOk (a.preKeys x) (s.keys a.preKeys x) (a.preUse cls x) (s.use cls a.preKeys (a.preUse cls) x) :=
    fun s _ => s.stepOk hc a.preKeys (a.preUse cls) ok1
  let prs : List (Bool × FFUse) := a.states.map fun s => (s.keys a.preKeys x, (s.use cls a.preKeys (a.preUse cls) x).clearNoLatch)
  have hprs2 : prs.map (·.2) = a.states.map fun s => (s.use cls a.preKeys (a.preUse cls) x).clearNoLatch := by
    simp [prs]
  have hprs1 : (a.preKeys x || prs.any (·.1)) = a.postKeys x := by
    simp [prs, Design.postKeys, List.any_map, Function.comp_def]
  have hpr : ∀ p ∈ prs, UseOk p.1 p.2 ∧ ((a.preUse cls x).d = true → p.2.d = true) := by
    intro p hp
    obtain ⟨s, hs, rfl⟩ := List.mem_map.mp hp
    exact ⟨(psok s hs).ok.clear, (psok s hs).d⟩
  have ok2 : UseOk (a.postKeys x) (a.stateUse cls x) := by
    unfold Design.stateUse
    by_cases he : a.states = []
    · have : a.postKeys x = a.preKeys x := by simp [Design.postKeys, he]
      simp only [he, List.isEmpty_nil, if_true, this]
      exact ok1
    · have : a.states.isEmpty = false := by simpa using he
      rw [this, ← hprs1, ← hprs2]
      exact combine1_ok ok1 (by simpa [prs] using he) fun p hp => (hpr p hp).1
  have p3 := a.post.stepOk hc a.postKeys (a.stateUse cls) ok2
  -- Q is not used anywhere
  have hqE : (combine1 (a.postUse cls x) [{ d := decide (x ∈ a.bindD) }]).q = false := hq
  have hq3 : (a.post.use cls a.postKeys (a.stateUse cls) x).q = false := (combine1_q hqE).1
  have hq2 : (a.stateUse cls x).q = false := p3.q hq3
  have hq1 : (a.preUse cls x).q = false ∧ ∀ s ∈ a.states, (s.use cls a.preKeys (a.preUse cls) x).q = false := by
    unfold Design.stateUse at hq2
    by_cases he : a.states = []
    · simp only [he, List.isEmpty_nil, if_true] at hq2
      exact ⟨hq2, by simp [he]⟩
    · have : a.states.isEmpty = false := by simpa using he
      rw [this] at hq2
      obtain ⟨h1, h2⟩ := combine1_q hq2
      exact ⟨h1, fun s hs => h2 (s.use cls a.preKeys (a.preUse cls) x).clearNoLatch (List.mem_map.mpr ⟨s, hs, rfl⟩)⟩
  have hq1' : (a.pre.use cls (fun _ => false) (fun y => { q := decide (y ∈ a.bindQ) }) x).q = false := hq1.1
  -- walk along the cycle
  obtain ⟨c1, w1⟩ := a.pre.cover hc (fun _ => false) (fun y => { q := decide (y ∈ a.bindQ) }) hs.pre hf.pre h0 hq1' false
    (by intro h; exact absurd h (by simp)) m
  have w1' : a.preKeys x = true → (a.preUse cls x).latch = false → wrote x false (a.pre.run m).evs = true :=
    fun hk hl => w1 (Or.inl (a.pre.run_noExit hs.preStays m)) hk hl
  have c2 : Covered x (wrote x false (a.pre.run m).evs) (a.stateRun k (a.pre.run m).env).evs := by
    unfold Design.stateRun
    cases hk : a.states[k]? with
    | none => trivial
    | some s =>
      have hm := List.mem_of_getElem? hk
      exact (s.cover hc a.preKeys (a.preUse cls) (hs.states s hm) (hf.states s hm) ok1 (hq1.2 s hm) _ w1' _).1
  -- agreement at the end of the state
  have w2 : (∀ s ∈ a.states, s.NoWrite x) ∨ (∃ s, a.states[k]? = some s ∧ s.Closed) → a.postKeys x = true →
      (a.stateUse cls x).latch = false →
      wrote x (wrote x false (a.pre.run m).evs) (a.stateRun k (a.pre.run m).env).evs = true := by
    intro hsafe hk hl
    rcases hsafe with hn | ⟨s, hsk, hcl⟩
    · have hk1 : a.preKeys x = true := by
        simp only [Design.postKeys, Bool.or_eq_true, List.any_eq_true] at hk
        rcases hk with hk | ⟨s, hs, hk⟩
        · exact hk
        · rw [s.keys_noWrite (hn s hs)] at hk; exact hk
      apply wrote_of
      apply w1' hk1
      unfold Design.stateUse at hl hq2
      by_cases he : a.states = []
      · simpa [he] using hl
      · have hne : a.states.isEmpty = false := by simpa using he
        rw [hne] at hl hq2
        -- a latch before the states would have used Q
        obtain ⟨s, hs⟩ := List.exists_mem_of_ne_nil _ he
        by_contra hla
        have hla' : (a.preUse cls x).latch = true := by simpa using hla
        have hd : (s.use cls a.preKeys (a.preUse cls) x).d = true :=
          (psok s hs).d (by rw [(ok1 hq1.1).1]; exact hk1)
        have hq2' : (combine1 (a.preUse cls x) (a.states.map fun s => (s.use cls a.preKeys (a.preUse cls) x).clearNoLatch)).q = false := hq2
        simp only [combine1, Bool.or_eq_false_iff, List.any_eq_false] at hq2'
        have := hq2'.2 _ (List.mem_map.mpr ⟨s, hs, rfl⟩)
        simp [FFUse.clearNoLatch, hd, hla', hq1.2 s hs] at this
    · have hm := List.mem_of_getElem? hsk
      have he : a.states ≠ [] := by rintro h; simp [h] at hm
      have hne : a.states.isEmpty = false := by simpa using he
      unfold Design.stateUse at hl hq2
      rw [hne, ← hprs2] at hl hq2
      rw [← hprs1] at hk
      have := combine1_all ok1 (fun p hp => (hpr p hp).1)
        (by intro p _ _ hn; exact absurd hn (by simp [Design.preUse, FFUse.clearNoLatch]))
        (fun p hp => (hpr p hp).2) hq2 hl hk
        (s.keys a.preKeys x, (s.use cls a.preKeys (a.preUse cls) x).clearNoLatch) (List.mem_map.mpr ⟨s, hm, rfl⟩)
      unfold Design.stateRun
      rw [hsk]
      exact (s.cover hc a.preKeys (a.preUse cls) (hs.states s hm) (hf.states s hm) ok1 (hq1.2 s hm) _ w1' _).2
        (Or.inr hcl) this.1 this.2
  have hcyc : (a.srcCycle ⟨k, m⟩).evs = (a.pre.run m).evs ++ (a.stateRun k (a.pre.run m).env).evs ++
      (a.post.run (a.stateRun k (a.pre.run m).env).env).evs := rfl
  rw [hcyc]
  have hbq : x ∉ a.bindQ := by
    intro hx
    have := p1.q hq1'
    simp [hx] at this
  rcases hp with ⟨hnr, hnb⟩ | hsafe
  · refine ⟨?_, hbq, fun hx => absurd hx hnb⟩
    rw [Covered.append, Covered.append]
    exact ⟨⟨c1, c2⟩, a.post.covered_noRead hnr _ _⟩
  · obtain ⟨c3, w3⟩ := a.post.cover hc a.postKeys (a.stateUse cls) hs.post hf.post ok2 hq3
      (wrote x (wrote x false (a.pre.run m).evs) (a.stateRun k (a.pre.run m).env).evs) (w2 hsafe)
      (a.stateRun k (a.pre.run m).env).env
    refine ⟨?_, hbq, ?_⟩
    · rw [Covered.append, Covered.append, wrote_append]
      exact ⟨⟨c1, c2⟩, c3⟩
    · intro hx hk
      rw [wrote_append, wrote_append]
      apply w3 (Or.inl (a.post.run_noExit hs.postStays _)) hk
      by_contra hla
      have hla' : (a.post.use cls a.postKeys (a.stateUse cls) x).latch = true := by simpa using hla
      simp [combine1, hx, Design.postUse, FFUse.clearNoLatch, hla'] at hqE

/-- One cycle of the hardware does what one cycle of the source does. -/
theorem Design.cycle_agree {cls : String → Store} {a : Design V L} (hs : a.Shape) (junk : String → V) (r : HReg V)
    (s : SReg V) (hi : r.idx = s.idx) (hr : ∀ x, cls x = .flipflop → r.q x = s.env x)
    (hcov : ∀ x, cls x = .temp → Covered x false (a.srcCycle s).evs) :
    Agree cls a.endKeys (fun _ => false) ⟨r.q, fun x => match cls x with | .temp => junk x | .flipflop => r.q x, none, []⟩
      ((a.emit cls).cycle cls junk r) (a.srcCycle s) := by
  let h0 : HSt V L := ⟨r.q, fun x => match cls x with | .temp => junk x | .flipflop => r.q x, none, []⟩
  have hc1 : ∀ x, cls x = .temp → Covered x false (a.pre.run s.env).evs ∧
      Covered x (wrote x false (a.pre.run s.env).evs) (a.stateRun s.idx (a.pre.run s.env).env).evs ∧
      Covered x (wrote x (wrote x false (a.pre.run s.env).evs) (a.stateRun s.idx (a.pre.run s.env).env).evs)
        (a.post.run (a.stateRun s.idx (a.pre.run s.env).env).env).evs := by
    intro x hx
    have := hcov x hx
    have e : (a.srcCycle s).evs = (a.pre.run s.env).evs ++ (a.stateRun s.idx (a.pre.run s.env).env).evs ++
      (a.post.run (a.stateRun s.idx (a.pre.run s.env).env).env).evs := rfl
    rw [e, Covered.append, Covered.append, wrote_append] at this
    exact ⟨this.1.1, this.1.2, this.2⟩
  have h1 := a.pre.refine (cls := cls) (fun _ => false) hs.pre s.env h0 (fun _ => false)
    (fun x hx => by simp only [h0, hx]; exact hr x hx) (fun x hx _ => hr x hx) (fun x _ h => absurd h (by simp))
    (fun x hx => (hc1 x hx).1)
  let g1 := (a.pre.emit cls fun _ => false).run h0
  -- the state
  let g2 := match (a.emit cls).states[r.idx]? with
    | some c => c.run g1
    | none => g1
  have h2 : Agree cls a.postKeys (fun x => wrote x false (a.pre.run s.env).evs) g1 g2
      (a.stateRun s.idx (a.pre.run s.env).env) := by
    simp only [g2, Design.emit, List.getElem?_map, hi, Design.stateRun]
    cases hk : a.states[s.idx]? with
    | none =>
      simp only [Option.map_none]
      refine ⟨rfl, by simp, by simp, h1.ff, ?_, ?_⟩
      · intro x hx hkk
        have hpk : a.preKeys x = false := (Bool.or_eq_false_iff.mp hkk).1
        show g1.q x = _
        rw [h1.q]; exact h1.keep x hx hpk
      · intro x hx hw
        exact h1.tmp x hx (by simpa [wrote] using hw)
    | some c =>
      simp only [Option.map_some]
      have hm := List.mem_of_getElem? hk
      have := c.refine (cls := cls) a.preKeys (hs.states c hm) (a.pre.run s.env).env g1
        (fun x => wrote x false (a.pre.run s.env).evs) h1.ff
        (fun x hx hkk => by show g1.q x = _; rw [h1.q]; exact h1.keep x hx hkk) h1.tmp
        (fun x hx => by
          have := (hc1 x hx).2.1
          simp only [Design.stateRun, hk] at this
          exact this)
      refine ⟨this.q, this.evs, this.next, this.ff, ?_, this.tmp⟩
      intro x hx hkk
      apply this.keep x hx
      simp only [Design.postKeys, Bool.or_eq_false_iff, List.any_eq_false] at hkk
      simpa using hkk.2 c hm
  have h3 := a.post.refine (cls := cls) a.postKeys hs.post (a.stateRun s.idx (a.pre.run s.env).env).env g2
    (fun x => wrote x (wrote x false (a.pre.run s.env).evs) (a.stateRun s.idx (a.pre.run s.env).env).evs) h2.ff
    (fun x hx hkk => by rw [h2.q]; exact h2.keep x hx hkk) h2.tmp (fun x hx => (hc1 x hx).2.2)
  have hq2 : g2.q = r.q := h2.q.trans h1.q
  refine ⟨h3.q.trans hq2, ?_, ?_, h3.ff, ?_, ?_⟩
  · show ((a.post.emit cls a.postKeys).run g2).evs = _
    rw [h3.evs, h2.evs]
    show (g1.evs ++ _) ++ _ = _
    rw [h1.evs]
    rfl
  · show ((a.post.emit cls a.postKeys).run g2).next = _
    rw [h3.next, h2.next, a.post.run_noExit hs.postStays]
    have : g1.next = none := by
      show ((a.pre.emit cls fun _ => false).run h0).next = none
      rw [h1.next, a.pre.run_noExit hs.preStays]; rfl
    rw [this]
    show (none <|> ((a.stateRun s.idx (a.pre.run s.env).env).out <|> none)) = ((a.srcCycle s).out <|> none)
    simp [Design.srcCycle]
  · intro x hx hk
    have := h3.keep x hx hk
    rw [hq2] at this; exact this
  · intro x hx hw
    apply h3.tmp x hx
    have e : (a.srcCycle s).evs = (a.pre.run s.env).evs ++ (a.stateRun s.idx (a.pre.run s.env).env).evs ++
      (a.post.run (a.stateRun s.idx (a.pre.run s.env).env).env).evs := rfl
    rw [e, wrote_append, wrote_append] at hw
    exact hw

end Silice
