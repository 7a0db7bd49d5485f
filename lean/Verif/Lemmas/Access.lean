import Verif.Spec.Access

set_option autoImplicit false

namespace Silice

theorem mem_insReads (x : String) : ∀ (is : List (List String × List String)) (w : List String),
    x ∈ insReads w is ↔ x ∉ w ∧ ∃ before i after, is = before ++ i :: after ∧ x ∈ i.1 ∧ ∀ j ∈ before, x ∉ j.2
  | [], w => by simp [insReads]
  | i :: is, w => by
    simp only [insReads, List.mem_append, List.mem_filter, decide_eq_true_eq, mem_insReads x is]
    constructor
    · rintro (⟨h1, h2⟩ | ⟨h1, before, j, after, h2, h3, h4⟩)
      · exact ⟨h2, [], i, is, rfl, h1, by simp⟩
      · refine ⟨fun h => h1 (Or.inl h), i :: before, j, after, by simp [h2], h3, ?_⟩
        intro k hk
        rcases List.mem_cons.mp hk with rfl | hk
        · exact fun h => h1 (Or.inr h)
        · exact h4 k hk
    · rintro ⟨h1, before, j, after, h2, h3, h4⟩
      cases before with
      | nil =>
        simp only [List.nil_append, List.cons.injEq] at h2
        exact Or.inl ⟨h2.1 ▸ h3, h1⟩
      | cons k before =>
        simp only [List.cons_append, List.cons.injEq] at h2
        refine Or.inr ⟨?_, before, j, after, h2.2, h3, fun m hm => h4 m (List.mem_cons_of_mem _ hm)⟩
        rintro (h | h)
        · exact h1 h
        · exact h4 k (by simp) (h2.1 ▸ h)

section
variable {B : Type}

theorem Walk.snoc_inv {g : B → ABlock B} {head : B} {l : List B} {c : B} (h : Walk g head l c) (hl : l ≠ []) :
    ∃ l' b, l = l' ++ [b] ∧ Walk g head l' b ∧ (l' = [] ∨ (g b).isState = false) ∧ c ∈ (g b).children := by
  cases h with
  | start => exact absurd rfl hl
  | step h hb hc => exact ⟨_, _, rfl, h, hb, hc⟩

theorem Walk.nil_inv {g : B → ABlock B} {head c : B} (h : Walk g head [] c) : c = head := by
  generalize hl : ([] : List B) = l at h
  cases h with
  | start => rfl
  | step h hb hc => simp at hl

/-- A block on a walk has a walk leading to it. -/
theorem Walk.pre {g : B → ABlock B} {head : B} {l : List B} {c : B} (h : Walk g head l c) :
    ∀ p ∈ l, ∃ l1 l2, l = l1 ++ p :: l2 ∧ Walk g head l1 p ∧ (l1 = [] ∨ (g p).isState = false) := by
  induction h with
  | start => simp
  | @step l b c h hb hc ih =>
    intro p hp
    rcases List.mem_append.mp hp with hp | hp
    · obtain ⟨l1, l2, e, w, s⟩ := ih p hp
      exact ⟨l1, l2 ++ [b], by simp [e], w, s⟩
    · rw [List.mem_singleton] at hp
      subst hp
      exact ⟨l, [], rfl, h, hb⟩

theorem Walk.head_mem {g : B → ABlock B} {head : B} {l : List B} {c : B} (h : Walk g head l c) (hl : l ≠ []) : head ∈ l := by
  induction h with
  | start => exact absurd rfl hl
  | @step l b c h hb hc ih =>
    by_cases e : l = []
    · subst e
      simp [h.nil_inv]
    · exact List.mem_append_left _ (ih e)

/-- Every walk to `c` writes all of `w` before. -/
def GoodFor (g : B → ABlock B) (head c : B) (w : List String) : Prop :=
  ∀ l, Walk g head l c → l ≠ [] → ∀ x ∈ w, ∃ b ∈ l, x ∈ (g b).writes

variable [DecidableEq B]

/-- First entry of the queue for a block. -/
def firstOf (c : B) (q : List (B × List String)) : Option (B × List String) := q.find? fun p => decide (p.1 = c)

/-- Invariant of the exploration. -/
structure AccInv (g : B → ABlock B) (head : B) (q : List (B × List String)) (vis : List B) (log : List (B × List String)) : Prop where
  good : ∀ c ∈ vis, (g c).isState = false → ∃ w, (c, w) ∈ log ∧ GoodFor g head c w
  closed : ∀ a, a = head ∨ (a ∈ vis ∧ (g a).isState = false) → ∀ c ∈ (g a).children, c ∈ vis ∨ c ∈ q.map (·.1)
  first : ∀ c, c ∉ vis → (g c).isState = false → ∀ p, firstOf c q = some p → GoodFor g head c p.2
  walks : ∀ p ∈ q, ∃ l, Walk g head l p.1 ∧ l ≠ [] ∧ p.2 = l.flatMap (fun b => (g b).writes) ∧
    ∀ a ∈ l, a = head ∨ (a ∈ vis ∧ (g a).isState = false)
  logged : ∀ p ∈ log, ∃ l, Walk g head l p.1 ∧ Enters g l p.1 ∧ p.2 = l.flatMap (fun b => (g b).writes)
  headIn : (head, []) ∈ log

theorem firstOf_append (c : B) (q r : List (B × List String)) :
    firstOf c (q ++ r) = (firstOf c q).or (firstOf c r) := by
  simp [firstOf, List.find?_append]

theorem firstOf_none {c : B} {q : List (B × List String)} : firstOf c q = none ↔ c ∉ q.map (·.1) := by
  simp only [firstOf, List.find?_eq_none, decide_eq_true_eq, List.mem_map, not_exists, not_and]

theorem firstOf_some {c : B} {q : List (B × List String)} {p : B × List String} (h : firstOf c q = some p) : p ∈ q ∧ p.1 = c := by
  refine ⟨List.mem_of_find?_eq_some h, ?_⟩
  have := List.find?_some h
  simpa using this

theorem AccInv.init (g : B → ABlock B) (head : B) :
    AccInv g head ((g head).children.map fun c => (c, (g head).writes)) [] [(head, [])] where
  good := by simp
  closed := by
    intro a ha c hc
    rcases ha with rfl | ⟨h, _⟩
    · exact Or.inr (by simpa using hc)
    · simp at h
  first := by
    intro c _ _ p hp l hl hne x hx
    obtain ⟨hp, _⟩ := firstOf_some hp
    obtain ⟨d, _, rfl⟩ := List.mem_map.mp hp
    exact ⟨head, hl.head_mem hne, hx⟩
  walks := by
    intro p hp
    obtain ⟨d, hd, rfl⟩ := List.mem_map.mp hp
    exact ⟨[head], Walk.step (l := []) .start (Or.inl rfl) hd, by simp, by simp, by simp⟩
  logged := by
    intro p hp
    rw [List.mem_singleton] at hp
    subst hp
    exact ⟨[], .start, Or.inl rfl, rfl⟩
  headIn := by simp

theorem AccInv.pop_state {g : B → ABlock B} {head b : B} {w : List String} {q : List (B × List String)} {vis : List B}
    {log : List (B × List String)} (h : AccInv g head ((b, w) :: q) vis log) (hb : (g b).isState = true) :
    AccInv g head q (b :: vis) log where
  good := by
    intro c hc hs
    rcases List.mem_cons.mp hc with rfl | hc
    · rw [hb] at hs; cases hs
    · exact h.good c hc hs
  closed := by
    intro a ha c hc
    have ha' : a = head ∨ (a ∈ vis ∧ (g a).isState = false) := by
      rcases ha with e | ⟨m, s⟩
      · exact Or.inl e
      · rcases List.mem_cons.mp m with rfl | m
        · rw [hb] at s; cases s
        · exact Or.inr ⟨m, s⟩
    rcases h.closed a ha' c hc with m | m
    · exact Or.inl (List.mem_cons_of_mem _ m)
    · rcases List.mem_cons.mp m with e | m
      · exact Or.inl (by simp only at e; simp [e])
      · exact Or.inr m
  first := by
    intro c hc hs p hp
    have hcb : b ≠ c := fun e => hc (by simp [e])
    refine h.first c (fun m => hc (List.mem_cons_of_mem _ m)) hs p ?_
    simpa [firstOf, hcb] using hp
  walks := by
    intro p hp
    obtain ⟨l, h1, h2, h3, h4⟩ := h.walks p (List.mem_cons_of_mem _ hp)
    refine ⟨l, h1, h2, h3, fun a ha => ?_⟩
    rcases h4 a ha with e | ⟨m, s⟩
    · exact Or.inl e
    · exact Or.inr ⟨List.mem_cons_of_mem _ m, s⟩
  logged := h.logged
  headIn := h.headIn

theorem AccInv.pop {g : B → ABlock B} {head b : B} {w : List String} {q : List (B × List String)} {vis : List B}
    {log : List (B × List String)} (hdom : Dominated g head) (h : AccInv g head ((b, w) :: q) vis log)
    (hb : (g b).isState = false) :
    AccInv g head
      (q ++ ((g b).children.filter fun c => decide (c ∉ b :: vis)).map fun c => (c, w ++ (g b).writes))
      (b :: vis) (log ++ [(b, w)]) := by
  obtain ⟨lb, hw, hlne, hweq, hlv⟩ := h.walks (b, w) (by simp)
  simp only at hw hweq
  have closed' : ∀ a, a = head ∨ (a ∈ vis ∧ (g a).isState = false) → ∀ c ∈ (g a).children, c ∈ b :: vis ∨ c ∈ q.map (·.1) := by
    intro a ha c hc
    rcases h.closed a ha c hc with m | m
    · exact Or.inl (List.mem_cons_of_mem _ m)
    · rcases List.mem_cons.mp m with e | m
      · exact Or.inl (by simp only at e; simp [e])
      · exact Or.inr m
  constructor
  case good =>
    intro c hc hs
    by_cases hv : c ∈ vis
    · obtain ⟨w', m, hg⟩ := h.good c hv hs
      exact ⟨w', List.mem_append_left _ m, hg⟩
    · rcases List.mem_cons.mp hc with rfl | hc
      · exact ⟨w, by simp, h.first c hv hs (c, w) (by simp [firstOf])⟩
      · exact absurd hc hv
  case closed =>
    intro a ha c hc
    by_cases ha' : a = head ∨ (a ∈ vis ∧ (g a).isState = false)
    · rcases closed' a ha' c hc with m | m
      · exact Or.inl m
      · exact Or.inr (by rw [List.map_append]; exact List.mem_append_left _ m)
    · have hab : a = b := by
        rcases ha with e | ⟨m, s⟩
        · exact absurd (Or.inl e) ha'
        · rcases List.mem_cons.mp m with e | m
          · exact e
          · exact absurd (Or.inr ⟨m, s⟩) ha'
      subst hab
      by_cases hv : c ∈ a :: vis
      · exact Or.inl hv
      · refine Or.inr ?_
        rw [List.map_append]
        refine List.mem_append_right _ ?_
        rw [List.map_map, List.mem_map]
        exact ⟨c, List.mem_filter.mpr ⟨hc, by simpa using hv⟩, rfl⟩
  case first =>
    intro c hc hs p hp
    have hcb : b ≠ c := fun e => hc (by simp [e])
    rw [firstOf_append] at hp
    cases hq : firstOf c q with
    | some p' =>
      rw [hq] at hp
      simp only [Option.some_or, Option.some.injEq] at hp
      subst hp
      exact h.first c (fun m => hc (List.mem_cons_of_mem _ m)) hs p' (by simpa [firstOf, hcb] using hq)
    | none =>
      have hnq := firstOf_none.mp hq
      rw [hq] at hp
      simp only [Option.none_or] at hp
      obtain ⟨hp, hpc⟩ := firstOf_some hp
      obtain ⟨d, hd, rfl⟩ := List.mem_map.mp hp
      simp only at hpc
      subst hpc
      have hdc : d ∈ (g b).children := (List.mem_filter.mp hd).1
      have hwd : Walk g head (lb ++ [b]) d := Walk.step hw (Or.inr hb) hdc
      obtain ⟨p, hpd, hall⟩ := hdom _ _ hwd (by simp) hs
      -- `p` was not treated before, so it is `b`
      have hnp : ¬ (p = head ∨ (p ∈ vis ∧ (g p).isState = false)) := by
        intro hp'
        rcases closed' p hp' d hpd with m | m
        · exact hc m
        · exact hnq m
      have hpb : p = b := by
        rcases List.mem_append.mp (hall _ hwd).2 with m | m
        · exact absurd (hlv p m) hnp
        · simpa using m
      subst hpb
      have hnv : p ∉ vis := fun m => hnp (Or.inr ⟨m, hb⟩)
      have hgood : GoodFor g head p w := h.first p hnv hb (p, w) (by simp [firstOf])
      intro l hl hne x hx
      obtain ⟨l1, l2, e, hw1, _⟩ := hl.pre p (hall l hl).2
      rcases List.mem_append.mp hx with hx | hx
      · by_cases h1 : l1 = []
        · subst h1
          exact absurd (Or.inl hw1.nil_inv) hnp
        · obtain ⟨a, ha, hxa⟩ := hgood l1 hw1 h1 x hx
          exact ⟨a, by simp [e, ha], hxa⟩
      · exact ⟨p, by simp [e], hx⟩
  case walks =>
    intro p hp
    rcases List.mem_append.mp hp with hp | hp
    · obtain ⟨l, h1, h2, h3, h4⟩ := h.walks p (List.mem_cons_of_mem _ hp)
      refine ⟨l, h1, h2, h3, fun a ha => ?_⟩
      rcases h4 a ha with e | ⟨m, s⟩
      · exact Or.inl e
      · exact Or.inr ⟨List.mem_cons_of_mem _ m, s⟩
    · obtain ⟨d, hd, rfl⟩ := List.mem_map.mp hp
      refine ⟨lb ++ [b], Walk.step hw (Or.inr hb) (List.mem_filter.mp hd).1, by simp, by simp [hweq], fun a ha => ?_⟩
      rcases List.mem_append.mp ha with ha | ha
      · rcases hlv a ha with e | ⟨m, s⟩
        · exact Or.inl e
        · exact Or.inr ⟨List.mem_cons_of_mem _ m, s⟩
      · rw [List.mem_singleton] at ha
        subst ha
        exact Or.inr ⟨by simp, hb⟩
  case logged =>
    intro p hp
    rcases List.mem_append.mp hp with hp | hp
    · exact h.logged p hp
    · rw [List.mem_singleton] at hp
      subst hp
      exact ⟨lb, hw, Or.inr hb, hweq⟩
  case headIn => exact List.mem_append_left _ h.headIn

theorem accLoop_inv {g : B → ABlock B} {head : B} (hdom : Dominated g head) :
    ∀ (fuel : Nat) (q : List (B × List String)) (vis : List B) (log res : List (B × List String)),
      AccInv g head q vis log → accLoop g fuel q vis log = some res → ∃ vis', AccInv g head [] vis' res
  | fuel, [], vis, log, res, h, e => by
    have : res = log := by cases fuel <;> simpa [accLoop] using e.symm
    exact ⟨vis, this ▸ h⟩
  | 0, _ :: _, _, _, _, _, e => by simp [accLoop] at e
  | fuel + 1, (b, w) :: q, vis, log, res, h, e => by
    cases hb : (g b).isState with
    | true =>
      simp only [accLoop, hb, if_true] at e
      exact accLoop_inv hdom fuel _ _ _ _ (h.pop_state hb) e
    | false =>
      simp only [accLoop, hb, Bool.false_eq_true, if_false] at e
      exact accLoop_inv hdom fuel _ _ _ _ (h.pop hdom hb) e

/-- The blocks examined stand for all walks. -/
theorem accHead_complete {g : B → ABlock B} {head : B} (hdom : Dominated g head) {fuel : Nat} {log : List (B × List String)}
    (e : accHead g fuel head = some log) {l : List B} {c : B} (hw : Walk g head l c) (hc : Enters g l c) :
    ∃ w, (c, w) ∈ log ∧ ∀ x ∈ w, ∃ b ∈ l, x ∈ (g b).writes := by
  obtain ⟨vis, h⟩ := accLoop_inv hdom _ _ _ _ _ (AccInv.init g head) e
  by_cases hl : l = []
  · subst hl
    rw [hw.nil_inv]
    exact ⟨[], h.headIn, by simp⟩
  · have hv : ∀ {l : List B} {c : B}, Walk g head l c → l ≠ [] → c ∈ vis := by
      intro l c hw
      induction hw with
      | start => intro h'; exact absurd rfl h'
      | @step l b c hw hb hc ih =>
        intro _
        have : b = head ∨ (b ∈ vis ∧ (g b).isState = false) := by
          by_cases hl : l = []
          · subst hl
            exact Or.inl hw.nil_inv
          · exact Or.inr ⟨ih hl, hb.resolve_left hl⟩
        simpa using h.closed b this c hc
    obtain ⟨w, hm, hg⟩ := h.good c (hv hw hl) (hc.resolve_left hl)
    exact ⟨w, hm, hg l hw hl⟩

/-- Without any condition on the graph, entries come from walks. -/
theorem accLoop_sound {g : B → ABlock B} {head : B} :
    ∀ (fuel : Nat) (q : List (B × List String)) (vis : List B) (log res : List (B × List String)),
      (∀ p ∈ q, ∃ l, Walk g head l p.1 ∧ p.2 = l.flatMap (fun b => (g b).writes)) →
      (∀ p ∈ log, ∃ l, Walk g head l p.1 ∧ Enters g l p.1 ∧ p.2 = l.flatMap (fun b => (g b).writes)) →
      accLoop g fuel q vis log = some res →
      ∀ p ∈ res, ∃ l, Walk g head l p.1 ∧ Enters g l p.1 ∧ p.2 = l.flatMap (fun b => (g b).writes)
  | fuel, [], vis, log, res, _, hlog, e => by
    have : res = log := by cases fuel <;> simpa [accLoop] using e.symm
    exact this ▸ hlog
  | 0, _ :: _, _, _, _, _, _, e => by simp [accLoop] at e
  | fuel + 1, (b, w) :: q, vis, log, res, hq, hlog, e => by
    obtain ⟨lb, hw, hweq⟩ := hq (b, w) (by simp)
    simp only at hw hweq
    cases hb : (g b).isState with
    | true =>
      simp only [accLoop, hb, if_true] at e
      exact accLoop_sound fuel _ _ _ _ (fun p hp => hq p (List.mem_cons_of_mem _ hp)) hlog e
    | false =>
      simp only [accLoop, hb, Bool.false_eq_true, if_false] at e
      refine accLoop_sound fuel _ _ _ _ ?_ ?_ e
      · intro p hp
        rcases List.mem_append.mp hp with hp | hp
        · exact hq p (List.mem_cons_of_mem _ hp)
        · obtain ⟨d, hd, rfl⟩ := List.mem_map.mp hp
          exact ⟨lb ++ [b], Walk.step hw (Or.inr hb) (List.mem_filter.mp hd).1, by simp [hweq]⟩
      · intro p hp
        rcases List.mem_append.mp hp with hp | hp
        · exact hlog p hp
        · rw [List.mem_singleton] at hp
          subst hp
          exact ⟨lb, hw, Or.inr hb, hweq⟩

theorem accHead_sound {g : B → ABlock B} {head : B} {fuel : Nat} {log : List (B × List String)}
    (e : accHead g fuel head = some log) : ∀ p ∈ log, ∃ l, Walk g head l p.1 ∧ Enters g l p.1 ∧
      p.2 = l.flatMap (fun b => (g b).writes) := by
  refine accLoop_sound fuel _ _ _ _ ?_ ?_ e
  · intro p hp
    obtain ⟨d, hd, rfl⟩ := List.mem_map.mp hp
    exact ⟨[head], Walk.step (l := []) .start (Or.inl rfl) hd, by simp⟩
  · intro p hp
    rw [List.mem_singleton] at hp
    subst hp
    exact ⟨[], .start, Or.inl rfl, rfl⟩

theorem readsFirst_of_log {g : B → ABlock B} {head : B} {fuel : Nat} {log : List (B × List String)}
    (e : accHead g fuel head = some log) {x : String} (hx : x ∈ inVarsRead g log) :
    ∃ l c, Walk g head l c ∧ Enters g l c ∧ ReadsFirst g l c x := by
  obtain ⟨p, hp, hx⟩ := List.mem_flatMap.mp hx
  obtain ⟨l, hw, hc, hweq⟩ := accHead_sound e p hp
  obtain ⟨h1, before, i, after, h2, h3, h4⟩ := (mem_insReads x _ _).mp hx
  refine ⟨l, p.1, hw, hc, before, i, after, h2, h3, fun b hb hxb => h1 ?_, h4⟩
  rw [hweq]
  exact List.mem_flatMap.mpr ⟨b, hb, hxb⟩

theorem log_of_readsFirst {g : B → ABlock B} {head : B} (hdom : Dominated g head) {fuel : Nat} {log : List (B × List String)}
    (e : accHead g fuel head = some log) {x : String} {l : List B} {c : B} (hw : Walk g head l c) (hc : Enters g l c)
    (hr : ReadsFirst g l c x) : x ∈ inVarsRead g log := by
  obtain ⟨w, hm, hg⟩ := accHead_complete hdom e hw hc
  obtain ⟨before, i, after, h2, h3, h4, h5⟩ := hr
  refine List.mem_flatMap.mpr ⟨(c, w), hm, (mem_insReads x _ _).mpr ⟨fun hx => ?_, before, i, after, h2, h3, h5⟩⟩
  obtain ⟨b, hb, hxb⟩ := hg x hx
  exact h4 b hb hxb

/-! ### Enough steps -/

theorem accLoop_mono {g : B → ABlock B} : ∀ (fuel : Nat) (q : List (B × List String)) (vis : List B)
    (log res : List (B × List String)), accLoop g fuel q vis log = some res → ∀ k, accLoop g (fuel + k) q vis log = some res
  | fuel, [], vis, log, res, e, k => by
    cases fuel <;> cases k <;> simpa [accLoop] using e
  | 0, _ :: _, _, _, _, e, _ => by simp [accLoop] at e
  | fuel + 1, (b, w) :: q, vis, log, res, e, k => by
    rw [show fuel + 1 + k = (fuel + k) + 1 by omega]
    cases hb : (g b).isState with
    | true =>
      simp only [accLoop, hb, if_true] at e ⊢
      exact accLoop_mono fuel _ _ _ _ e k
    | false =>
      simp only [accLoop, hb, Bool.false_eq_true, if_false] at e ⊢
      exact accLoop_mono fuel _ _ _ _ e k

/-- Blocks of `s` not visited. -/
def unvis (s vis : List B) : Nat := (s.filter fun c => decide (c ∉ vis)).length

theorem unvis_le (s vis : List B) (b : B) : unvis s (b :: vis) ≤ unvis s vis := by
  induction s with
  | nil => simp [unvis]
  | cons a s ih =>
    simp only [unvis, List.filter_cons] at ih ⊢
    by_cases h1 : a ∈ vis
    · simpa [h1] using ih
    · by_cases h2 : a = b
      · simp only [h2, List.mem_cons, true_or, not_true_eq_false, decide_false, Bool.false_eq_true, if_false]
        rw [h2] at h1
        simp only [h1, not_false_eq_true, decide_true, if_true, List.length_cons]
        simp only [List.mem_cons] at ih
        omega
      · simp only [List.mem_cons, h1, h2, or_self, not_false_eq_true, decide_true, if_true, List.length_cons]
        simp only [List.mem_cons] at ih
        omega

theorem unvis_lt (s vis : List B) (b : B) (hb : b ∈ s) (hv : b ∉ vis) : unvis s (b :: vis) < unvis s vis := by
  induction s with
  | nil => simp at hb
  | cons a s ih =>
    by_cases h2 : a = b
    · have := unvis_le s vis b
      simp only [unvis, List.filter_cons] at this ⊢
      simp only [h2, List.mem_cons, true_or, not_true_eq_false, decide_false, Bool.false_eq_true, if_false, hv,
        not_false_eq_true, decide_true, if_true, List.length_cons]
      simp only [List.mem_cons] at this
      omega
    · have := ih ((List.mem_cons.mp hb).resolve_left (fun e => h2 e.symm))
      simp only [unvis, List.filter_cons] at this ⊢
      by_cases h1 : a ∈ vis
      · simpa [h1] using this
      · simp only [List.mem_cons, h1, h2, or_self, not_false_eq_true, decide_true, if_true, List.length_cons]
        simp only [List.mem_cons] at this
        omega

theorem accLoop_total {g : B → ABlock B} (s : List B) (hs : ∀ b ∈ s, ∀ c ∈ (g b).children, c ∈ s) :
    ∀ (n : Nat) (vis : List B), unvis s vis ≤ n → ∀ (q log : List (B × List String)), (∀ p ∈ q, p.1 ∈ s) →
      ∃ fuel res, accLoop g fuel q vis log = some res := by
  intro n
  induction n using Nat.strong_induction_on with
  | _ n ih =>
    -- one step
    have one : ∀ (vis : List B) (b : B) (w : List String) (q log : List (B × List String)), b ∈ s → (∀ p ∈ q, p.1 ∈ s) →
        (∀ (q' log' : List (B × List String)), (∀ p ∈ q', p.1 ∈ s) →
          (q' = q ∨ ∃ r, q' = q ++ r ∧ ∀ p ∈ r, p.1 ∉ b :: vis) →
          ∃ fuel res, accLoop g fuel q' (b :: vis) log' = some res) →
        ∃ fuel res, accLoop g fuel ((b, w) :: q) vis log = some res := by
      intro vis b w q log hb hq hk
      cases hst : (g b).isState with
      | true =>
        obtain ⟨f, r, e⟩ := hk q log hq (Or.inl rfl)
        exact ⟨f + 1, r, by simpa [accLoop, hst] using e⟩
      | false =>
        obtain ⟨f, r, e⟩ := hk (q ++ ((g b).children.filter fun c => decide (c ∉ b :: vis)).map fun c => (c, w ++ (g b).writes))
          (log ++ [(b, w)])
          (by
            intro p hp
            rcases List.mem_append.mp hp with hp | hp
            · exact hq p hp
            · obtain ⟨d, hd, rfl⟩ := List.mem_map.mp hp
              exact hs b hb d (List.mem_filter.mp hd).1)
          (Or.inr ⟨_, rfl, by
            intro p hp
            obtain ⟨d, hd, rfl⟩ := List.mem_map.mp hp
            simpa using (List.mem_filter.mp hd).2⟩)
        refine ⟨f + 1, r, ?_⟩
        simp only [accLoop, hst, Bool.false_eq_true, if_false]
        exact e
    -- the queue has a block not visited
    have hasNew : ∀ (q1 : List (B × List String)) (vis : List B) (u : B × List String) (q2 log : List (B × List String)),
        unvis s vis ≤ n → (∀ p ∈ q1 ++ u :: q2, p.1 ∈ s) → u.1 ∉ vis →
        ∃ fuel res, accLoop g fuel (q1 ++ u :: q2) vis log = some res := by
      intro q1
      induction q1 with
      | nil =>
        intro vis u q2 log hn hq hu
        obtain ⟨b, w⟩ := u
        have hbs : b ∈ s := hq (b, w) (by simp)
        have hlt := unvis_lt s vis b hbs hu
        refine one vis b w q2 log hbs (fun p hp => hq p (by simp [hp])) ?_
        intro q' log' hq' _
        exact ih (unvis s (b :: vis)) (by omega) (b :: vis) (le_refl _) q' log' hq'
      | cons a q1 ih1 =>
        intro vis u q2 log hn hq hu
        obtain ⟨b, w⟩ := a
        have hbs : b ∈ s := hq (b, w) (by simp)
        refine one vis b w (q1 ++ u :: q2) log hbs (fun p hp => hq p (List.mem_cons_of_mem _ hp)) ?_
        intro q' log' hq' hshape
        by_cases hbv : b ∈ vis
        · have hle : unvis s (b :: vis) ≤ n := le_trans (unvis_le s vis b) hn
          have hub : u.1 ∉ b :: vis := by
            intro m
            rcases List.mem_cons.mp m with e | m
            · exact hu (e ▸ hbv)
            · exact hu m
          rcases hshape with rfl | ⟨r, rfl, _⟩
          · exact ih1 _ u q2 log' hle hq' hub
          · rw [List.append_assoc, List.cons_append] at hq' ⊢
            exact ih1 _ u (q2 ++ r) log' hle hq' hub
        · have hlt := unvis_lt s vis b hbs hbv
          exact ih (unvis s (b :: vis)) (by omega) (b :: vis) (le_refl _) q' log' hq'
    -- any queue
    intro vis hn q
    induction q generalizing vis with
    | nil => intro log _; exact ⟨0, log, by simp [accLoop]⟩
    | cons a q ihq =>
      intro log hq
      obtain ⟨b, w⟩ := a
      have hbs : b ∈ s := hq (b, w) (by simp)
      refine one vis b w q log hbs (fun p hp => hq p (List.mem_cons_of_mem _ hp)) ?_
      intro q' log' hq' hshape
      have hle : unvis s (b :: vis) ≤ n := le_trans (unvis_le s vis b) hn
      rcases hshape with rfl | ⟨r, rfl, hr⟩
      · exact ihq _ hle log' hq'
      · cases r with
        | nil => simpa using ihq _ hle log' (by simpa using hq')
        | cons u r => exact hasNew q _ u r log' hle hq' (hr u (by simp))

/-- Blocks visited are logged unless states, and their children are visited or in the queue. -/
structure CovInv (g : B → ABlock B) (head : B) (q : List (B × List String)) (vis : List B) (log : List (B × List String)) : Prop where
  seen : ∀ c ∈ vis, (g c).isState = false → c ∈ log.map (·.1)
  closed : ∀ a, a = head ∨ (a ∈ vis ∧ (g a).isState = false) → ∀ c ∈ (g a).children, c ∈ vis ∨ c ∈ q.map (·.1)
  headIn : head ∈ log.map (·.1)

omit [DecidableEq B] in
theorem CovInv.closed_cons {g : B → ABlock B} {head b : B} {w : List String} {q : List (B × List String)} {vis : List B}
    {log : List (B × List String)} (h : CovInv g head ((b, w) :: q) vis log) (a : B)
    (ha : a = head ∨ (a ∈ vis ∧ (g a).isState = false)) (c : B) (hc : c ∈ (g a).children) :
    c ∈ b :: vis ∨ c ∈ q.map (·.1) := by
  rcases h.closed a ha c hc with m | m
  · exact Or.inl (List.mem_cons_of_mem _ m)
  · rcases List.mem_cons.mp m with e | m
    · exact Or.inl (by simp only at e; simp [e])
    · exact Or.inr m

theorem accLoop_cover {g : B → ABlock B} {head : B} :
    ∀ (fuel : Nat) (q : List (B × List String)) (vis : List B) (log res : List (B × List String)),
      CovInv g head q vis log → accLoop g fuel q vis log = some res → ∃ vis', CovInv g head [] vis' res
  | fuel, [], vis, log, res, h, e => by
    have : res = log := by cases fuel <;> simpa [accLoop] using e.symm
    exact ⟨vis, this ▸ h⟩
  | 0, _ :: _, _, _, _, _, e => by simp [accLoop] at e
  | fuel + 1, (b, w) :: q, vis, log, res, h, e => by
    cases hb : (g b).isState with
    | true =>
      simp only [accLoop, hb, if_true] at e
      refine accLoop_cover fuel _ _ _ _ ⟨?_, ?_, h.headIn⟩ e
      · intro c hc hs
        rcases List.mem_cons.mp hc with rfl | hc
        · rw [hb] at hs; cases hs
        · exact h.seen c hc hs
      · intro a ha c hc
        refine h.closed_cons a ?_ c hc
        rcases ha with e | ⟨m, s⟩
        · exact Or.inl e
        · rcases List.mem_cons.mp m with rfl | m
          · rw [hb] at s; cases s
          · exact Or.inr ⟨m, s⟩
    | false =>
      simp only [accLoop, hb, Bool.false_eq_true, if_false] at e
      refine accLoop_cover fuel _ _ _ _ ⟨?_, ?_, ?_⟩ e
      · intro c hc hs
        rw [List.map_append]
        rcases List.mem_cons.mp hc with rfl | hc
        · exact List.mem_append_right _ (by simp)
        · exact List.mem_append_left _ (h.seen c hc hs)
      · intro a ha c hc
        rw [List.map_append]
        by_cases ha' : a = head ∨ (a ∈ vis ∧ (g a).isState = false)
        · exact (h.closed_cons a ha' c hc).imp_right (List.mem_append_left _)
        · have hab : a = b := by
            rcases ha with e | ⟨m, s⟩
            · exact absurd (Or.inl e) ha'
            · rcases List.mem_cons.mp m with e | m
              · exact e
              · exact absurd (Or.inr ⟨m, s⟩) ha'
          subst hab
          by_cases hv : c ∈ a :: vis
          · exact Or.inl hv
          · refine Or.inr (List.mem_append_right _ ?_)
            rw [List.map_map, List.mem_map]
            exact ⟨c, List.mem_filter.mpr ⟨hc, by simpa using hv⟩, rfl⟩
      · rw [List.map_append]
        exact List.mem_append_left _ h.headIn

/-- On any graph, all blocks that control can enter are examined. -/
theorem accHead_cover {g : B → ABlock B} {head : B} {fuel : Nat} {log : List (B × List String)}
    (e : accHead g fuel head = some log) {l : List B} {c : B} (hw : Walk g head l c) (hc : Enters g l c) :
    ∃ w, (c, w) ∈ log := by
  have hi : CovInv g head ((g head).children.map fun c => (c, (g head).writes)) [] [(head, [])] := by
    refine ⟨by simp, ?_, by simp⟩
    intro a ha c hc
    rcases ha with rfl | ⟨h, _⟩
    · exact Or.inr (by simpa using hc)
    · simp at h
  obtain ⟨vis, h⟩ := accLoop_cover _ _ _ _ _ hi e
  have key : c ∈ log.map (·.1) := by
    by_cases hl : l = []
    · subst hl
      rw [hw.nil_inv]
      exact h.headIn
    · have hv : ∀ {l : List B} {c : B}, Walk g head l c → l ≠ [] → c ∈ vis := by
        intro l c hw
        induction hw with
        | start => intro h'; exact absurd rfl h'
        | @step l b c hw hb hc ih =>
          intro _
          have : b = head ∨ (b ∈ vis ∧ (g b).isState = false) := by
            by_cases hl : l = []
            · subst hl
              exact Or.inl hw.nil_inv
            · exact Or.inr ⟨ih hl, hb.resolve_left hl⟩
          simpa using h.closed b this c hc
      exact h.seen c (hv hw hl) (hc.resolve_left hl)
  obtain ⟨p, hp, rfl⟩ := List.mem_map.mp key
  exact ⟨p.2, hp⟩

/-! ### All heads -/

theorem mem_accAll {a : AccIn B} {fuel : Nat} {log : List (B × List String)} (e : accAll a fuel = some log)
    (p : B × List String) : p ∈ log ↔ ∃ head ∈ a.heads, ∃ lg, accHead a.g fuel head = some lg ∧ p ∈ lg := by
  simp only [accAll, Option.map_eq_some_iff] at e
  obtain ⟨ls, e, rfl⟩ := e
  generalize a.heads = hs at e ⊢
  induction hs generalizing ls with
  | nil =>
    simp only [List.mapM_nil, Option.pure_def, Option.some.injEq] at e
    subst e
    simp
  | cons h hs ih =>
    simp only [List.mapM_cons, Option.bind_eq_bind, Option.bind_eq_some_iff, Option.pure_def, Option.some.injEq] at e
    obtain ⟨l1, e1, l2, e2, rfl⟩ := e
    simp only [List.flatten_cons, List.mem_append, ih l2 e2, List.mem_cons, exists_eq_or_imp]
    constructor
    · rintro (h' | h')
      · exact Or.inl ⟨l1, e1, h'⟩
      · exact Or.inr h'
    · rintro (⟨lg, e', h'⟩ | h')
      · rw [e1] at e'
        cases e'
        exact Or.inl h'
      · exact Or.inr h'

theorem accAll_head {a : AccIn B} {fuel : Nat} {log : List (B × List String)} (e : accAll a fuel = some log)
    (head : B) (hh : head ∈ a.heads) : ∃ lg, accHead a.g fuel head = some lg := by
  simp only [accAll, Option.map_eq_some_iff] at e
  obtain ⟨ls, e, he⟩ := e
  clear he
  generalize a.heads = hs at e hh
  induction hs generalizing ls with
  | nil => simp at hh
  | cons h hs ih =>
    simp only [List.mapM_cons, Option.bind_eq_bind, Option.bind_eq_some_iff, Option.pure_def, Option.some.injEq] at e
    obtain ⟨l1, e1, l2, e2, rfl⟩ := e
    rcases List.mem_cons.mp hh with rfl | hh
    · exact ⟨l1, e1⟩
    · exact ih l2 e2 hh

/-- The blocks examined are those that control can enter. -/
theorem accAll_blocks {a : AccIn B} {fuel : Nat} {log : List (B × List String)}
    (e : accAll a fuel = some log) (c : B) :
    (∃ w, (c, w) ∈ log) ↔ ∃ head ∈ a.heads, ∃ l, Walk a.g head l c ∧ Enters a.g l c := by
  constructor
  · rintro ⟨w, hw⟩
    obtain ⟨head, hh, lg, e', m⟩ := (mem_accAll e _).mp hw
    obtain ⟨l, h1, h2, _⟩ := accHead_sound e' _ m
    exact ⟨head, hh, l, h1, h2⟩
  · rintro ⟨head, hh, l, h1, h2⟩
    obtain ⟨lg, e'⟩ := accAll_head e head hh
    obtain ⟨w, m⟩ := accHead_cover e' h1 h2
    exact ⟨w, (mem_accAll e _).mpr ⟨head, hh, lg, e', m⟩⟩

theorem accBits_r {a : AccIn B} {fuel : Nat} {log : List (B × List String)}
    (e : accAll a fuel = some log) (x : String) :
    (accBits a log x).r = true ↔ a.ReadSome x ∨ x ∈ a.readEnd ∨ x ∈ a.trickle := by
  simp only [accBits, Bool.or_eq_true, List.any_eq_true, decide_eq_true_eq, or_assoc, AccIn.ReadSome]
  refine or_congr_left ⟨?_, ?_⟩
  · rintro ⟨p, hp, i, hi, hx⟩
    obtain ⟨head, hh, l, h1, h2⟩ := (accAll_blocks e p.1).mp ⟨p.2, hp⟩
    exact ⟨head, hh, l, p.1, h1, h2, i, hi, hx⟩
  · rintro ⟨head, hh, l, c, h1, h2, i, hi, hx⟩
    obtain ⟨w, hw⟩ := (accAll_blocks e c).mpr ⟨head, hh, l, h1, h2⟩
    exact ⟨(c, w), hw, i, hi, hx⟩

theorem accBits_w {a : AccIn B} {fuel : Nat} {log : List (B × List String)}
    (e : accAll a fuel = some log) (x : String) : (accBits a log x).w = true ↔ a.WriteSome x := by
  simp only [accBits, List.any_eq_true, decide_eq_true_eq, AccIn.WriteSome, ABlock.writes, List.mem_flatMap]
  constructor
  · rintro ⟨p, hp, i, hi, hx⟩
    obtain ⟨head, hh, l, h1, h2⟩ := (accAll_blocks e p.1).mp ⟨p.2, hp⟩
    exact ⟨head, hh, l, p.1, h1, h2, i, hi, hx⟩
  · rintro ⟨head, hh, l, c, h1, h2, i, hi, hx⟩
    obtain ⟨w, hw⟩ := (accAll_blocks e c).mpr ⟨head, hh, l, h1, h2⟩
    exact ⟨(c, w), hw, i, hi, hx⟩

theorem globalInRead_iff {a : AccIn B} (hdom : ∀ h ∈ a.heads, Dominated a.g h) {fuel : Nat} {log : List (B × List String)}
    (e : accAll a fuel = some log) (x : String) : x ∈ globalInRead a log ↔ a.NeedsOld x := by
  simp only [globalInRead, List.mem_append, AccIn.NeedsOld]
  rw [or_comm]
  refine or_congr_right ⟨?_, ?_⟩
  · intro hx
    obtain ⟨p, hp, hx⟩ := List.mem_flatMap.mp hx
    obtain ⟨head, hh, lg, e', m⟩ := (mem_accAll e p).mp hp
    obtain ⟨l, c, h⟩ := readsFirst_of_log e' (List.mem_flatMap.mpr ⟨p, m, hx⟩)
    exact ⟨head, hh, l, c, h⟩
  · rintro ⟨head, hh, l, c, h1, h2, h3⟩
    obtain ⟨lg, e'⟩ := accAll_head e head hh
    obtain ⟨p, m, hx⟩ := List.mem_flatMap.mp (log_of_readsFirst (hdom head hh) e' h1 h2 h3)
    exact List.mem_flatMap.mpr ⟨p, (mem_accAll e p).mpr ⟨head, hh, lg, e', m⟩, hx⟩

end

end Silice
