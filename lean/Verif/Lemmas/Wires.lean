import Verif.Spec.Wires
import Verif.Lemmas.Access

/-!
Lemmas about wires.
-/

set_option autoImplicit false

namespace Silice

theorem wireStart_ok {acc : String → Acc} : ∀ {ws : List WireDef} {q : List String}, wireStart acc ws = .ok q →
    (∀ x, x ∈ q ↔ x ∈ ws.map (·.name) ∧ acc x ≠ {}) ∧ ∀ d ∈ ws, acc d.name = {} ∨ acc d.name = { r := true } := by
  intro ws
  induction ws with
  | nil => intro q h; simp only [wireStart] at h; injection h with h; subst h; simp
  | cons d ds ih =>
    intro q h
    simp only [wireStart] at h
    by_cases h0 : acc d.name = {}
    · rw [if_pos h0] at h
      obtain ⟨h1, h2⟩ := ih h
      refine ⟨fun x => ?_, fun d' hd' => ?_⟩
      · rw [h1]
        simp only [List.map_cons, List.mem_cons]
        constructor
        · rintro ⟨a, b⟩; exact ⟨Or.inr a, b⟩
        · rintro ⟨rfl | a, b⟩
          · exact absurd h0 b
          · exact ⟨a, b⟩
      · rcases List.mem_cons.mp hd' with rfl | hd'
        · exact Or.inl h0
        · exact h2 d' hd'
    · rw [if_neg h0] at h
      by_cases h1 : acc d.name = { r := true }
      · rw [if_pos h1] at h
        cases hw : wireStart acc ds with
        | error e => rw [hw] at h; cases h
        | ok q' =>
          rw [hw] at h
          simp only [Except.map] at h
          injection h with h
          subst h
          obtain ⟨h3, h4⟩ := ih hw
          refine ⟨fun x => ?_, fun d' hd' => ?_⟩
          · simp only [List.mem_cons, h3, List.map_cons]
            constructor
            · rintro (rfl | ⟨a, b⟩)
              · exact ⟨Or.inl rfl, h0⟩
              · exact ⟨Or.inr a, b⟩
            · rintro ⟨rfl | a, b⟩
              · exact Or.inl rfl
              · exact Or.inr ⟨a, b⟩
          · rcases List.mem_cons.mp hd' with rfl | hd'
            · exact Or.inr h1
            · exact h4 d' hd'
      · rw [if_neg h1] at h; cases h

theorem wireStart_error {acc : String → Acc} : ∀ {ws : List WireDef} {e : WireErr}, wireStart acc ws = .error e →
    ∃ d ∈ ws, acc d.name ≠ {} ∧ acc d.name ≠ { r := true } ∧ e = .written d.name := by
  intro ws
  induction ws with
  | nil => intro e h; simp [wireStart] at h
  | cons d ds ih =>
    intro e h
    simp only [wireStart] at h
    by_cases h0 : acc d.name = {}
    · rw [if_pos h0] at h
      obtain ⟨d', h1, h2⟩ := ih h
      exact ⟨d', List.mem_cons_of_mem _ h1, h2⟩
    · rw [if_neg h0] at h
      by_cases h1 : acc d.name = { r := true }
      · rw [if_pos h1] at h
        cases hw : wireStart acc ds with
        | error e' =>
          rw [hw] at h
          simp only [Except.map] at h
          injection h with h
          subst h
          obtain ⟨d', h1, h2⟩ := ih hw
          exact ⟨d', List.mem_cons_of_mem _ h1, h2⟩
        | ok q' => rw [hw] at h; cases h
      · rw [if_neg h1] at h
        injection h with h
        exact ⟨d, List.mem_cons_self .., h0, h1, h.symm⟩

theorem wireReads_some {ws : List WireDef} {x : String} {rs : List String} (h : wireReads ws x = some rs) :
    ∃ d ∈ ws, d.name = x ∧ d.reads = rs := by
  unfold wireReads at h
  cases hf : ws.find? (fun d => decide (d.name = x)) with
  | none => rw [hf] at h; cases h
  | some d =>
    rw [hf] at h
    simp only [Option.map_some, Option.some.injEq] at h
    exact ⟨d, List.mem_of_find?_eq_some hf, by simpa using List.find?_some hf, h⟩

theorem wireReads_mem {ws : List WireDef} {x : String} (h : x ∈ ws.map (·.name)) : ∃ rs, wireReads ws x = some rs := by
  unfold wireReads
  cases hf : ws.find? (fun d => decide (d.name = x)) with
  | none =>
    obtain ⟨d, hd, rfl⟩ := List.mem_map.mp h
    have := List.find?_eq_none.mp hf d hd
    simp at this
  | some d => exact ⟨d.reads, rfl⟩

theorem wireDef_unique {ws : List WireDef} (hu : WiresUnique ws) {d d' : WireDef} (h : d ∈ ws) (h' : d' ∈ ws)
    (e : d.name = d'.name) : d = d' := by
  unfold WiresUnique at hu
  induction ws with
  | nil => simp at h
  | cons c cs ih =>
    simp only [List.map_cons, List.nodup_cons] at hu
    rcases List.mem_cons.mp h with h1 | h1 <;> rcases List.mem_cons.mp h' with h2 | h2
    · rw [h1, h2]
    · exact absurd (List.mem_map.mpr ⟨d', h2, by rw [← e, h1]⟩) hu.1
    · exact absurd (List.mem_map.mpr ⟨d, h1, by rw [e, h2]⟩) hu.1
    · exact ih hu.2 h1 h2

theorem wireReads_mentions {ws : List WireDef} (hu : WiresUnique ws) {x y : String} {rs : List String}
    (h : wireReads ws x = some rs) : Mentions ws x y ↔ y ∈ rs := by
  obtain ⟨d, hd, hn, rfl⟩ := wireReads_some h
  constructor
  · rintro ⟨d', hd', hn', hy⟩
    rw [wireDef_unique hu hd hd' (hn.trans hn'.symm)]
    exact hy
  · exact fun hy => ⟨d, hd, hn, hy⟩

/-- State of the loop: `start` are the wires it began with. -/
structure WireInv (ws : List WireDef) (start q processed out : List String) : Prop where
  wires : ∀ x ∈ q, x ∈ ws.map (·.name)
  from_start : ∀ x ∈ q ++ processed, x ∈ start ∨ ∃ s ∈ start, ReadThrough ws s x
  start_in : ∀ x ∈ start, x ∈ q ++ processed
  sound : ∀ y ∈ out, ∃ s ∈ start, ReadThrough ws s y
  done : ∀ x ∈ processed, ∀ y, Mentions ws x y → y ∈ out ∧ (y ∈ ws.map (·.name) → y ∈ q ++ processed)

theorem WireInv.end' {ws : List WireDef} {start processed out : List String}
    (h : WireInv ws start [] processed out) (y : String) : y ∈ out ↔ ∃ s ∈ start, ReadThrough ws s y := by
  refine ⟨h.sound y, ?_⟩
  rintro ⟨s, hs, hr⟩
  have hs' : s ∈ processed := by simpa using h.start_in s hs
  have key : ∀ z, ReadThrough ws s z → z ∈ out ∧ (z ∈ ws.map (·.name) → z ∈ processed) := by
    intro z hz
    induction hz with
    | single h1 =>
      have := h.done s hs' _ h1
      simpa using this
    | @tail b c _ h1 ih =>
      have hb : b ∈ processed := by
        obtain ⟨d, hd, hn, _⟩ := h1
        exact ih.2 (List.mem_map.mpr ⟨d, hd, hn⟩)
      have := h.done b hb _ h1
      simpa using this
  exact (key y hr).1

theorem WireInv.skip {ws : List WireDef} {start q processed out : List String} {w : String} (hw : w ∈ processed)
    (h : WireInv ws start (w :: q) processed out) : WireInv ws start q processed out := by
  have hq : ∀ x, x ∈ w :: q ++ processed → x ∈ q ++ processed := by
    intro x hx
    simp only [List.cons_append, List.mem_cons, List.mem_append] at hx ⊢
    rcases hx with rfl | hx | hx
    · exact Or.inr hw
    · exact Or.inl hx
    · exact Or.inr hx
  refine ⟨fun x hx => h.wires x (List.mem_cons_of_mem _ hx), fun x hx => h.from_start x ?_,
    fun x hx => hq x (h.start_in x hx), h.sound, fun x hx y hy => ?_⟩
  · simp only [List.cons_append, List.mem_cons]
    exact Or.inr hx
  · obtain ⟨h1, h2⟩ := h.done x hx y hy
    exact ⟨h1, fun hm => hq y (h2 hm)⟩

theorem WireInv.step {ws : List WireDef} (hu : WiresUnique ws) {start q processed out rs : List String} {w : String}
    (hr : wireReads ws w = some rs) (h : WireInv ws start (w :: q) processed out) :
    WireInv ws start (q ++ rs.filter fun v => decide (v ∈ ws.map (·.name)) && decide (v ∉ w :: processed))
      (w :: processed) (out ++ rs) := by
  have hm : ∀ y, Mentions ws w y ↔ y ∈ rs := fun y => wireReads_mentions hu hr
  have hwreach : ∀ y ∈ rs, ∃ s ∈ start, ReadThrough ws s y := by
    intro y hy
    rcases h.from_start w (by simp) with hs | ⟨s, hs, hsw⟩
    · exact ⟨w, hs, .single ((hm y).mpr hy)⟩
    · exact ⟨s, hs, hsw.tail ((hm y).mpr hy)⟩
  have hkeep : ∀ x, x ∈ w :: q ++ processed →
      x ∈ (q ++ rs.filter fun v => decide (v ∈ ws.map (·.name)) && decide (v ∉ w :: processed)) ++ w :: processed := by
    intro x hx
    simp only [List.cons_append, List.mem_cons, List.mem_append] at hx ⊢
    tauto
  refine ⟨fun x hx => ?_, fun x hx => ?_, fun x hx => hkeep x (h.start_in x hx), fun y hy => ?_, fun x hx y hy => ?_⟩
  · rcases List.mem_append.mp hx with hx | hx
    · exact h.wires x (List.mem_cons_of_mem _ hx)
    · have := (List.mem_filter.mp hx).2
      simp only [Bool.and_eq_true, decide_eq_true_eq] at this
      exact this.1
  · rcases List.mem_append.mp hx with hx | hx
    · rcases List.mem_append.mp hx with hx | hx
      · exact h.from_start x (by simp [hx])
      · exact Or.inr (hwreach x (List.mem_filter.mp hx).1)
    · rcases List.mem_cons.mp hx with rfl | hx
      · exact h.from_start x (by simp)
      · exact h.from_start x (by simp [hx])
  · rcases List.mem_append.mp hy with hy | hy
    · exact h.sound y hy
    · exact hwreach y hy
  · rcases List.mem_cons.mp hx with rfl | hx
    · have hy' := (hm y).mp hy
      refine ⟨List.mem_append_right _ hy', fun hyw => ?_⟩
      by_cases hp : y ∈ x :: processed
      · exact List.mem_append_right _ hp
      · refine List.mem_append_left _ (List.mem_append_right _ (List.mem_filter.mpr ⟨hy', ?_⟩))
        simp only [Bool.and_eq_true, decide_eq_true_eq]
        exact ⟨hyw, hp⟩
    · obtain ⟨h1, h2⟩ := h.done x hx y hy
      exact ⟨List.mem_append_left _ h1, fun hyw => hkeep y (h2 hyw)⟩

theorem wireLoop_spec {ws : List WireDef} (hu : WiresUnique ws) {start : List String} : ∀ (fuel : Nat)
    (q processed out reads : List String), WireInv ws start q processed out →
    wireLoop ws fuel q processed out = some reads → ∀ y, y ∈ reads ↔ ∃ s ∈ start, ReadThrough ws s y := by
  intro fuel
  induction fuel with
  | zero =>
    intro q processed out reads hi h
    cases q with
    | nil => simp only [wireLoop] at h; injection h with h; subst h; exact hi.end'
    | cons w q => simp [wireLoop] at h
  | succ f ih =>
    intro q processed out reads hi h
    cases q with
    | nil => simp only [wireLoop] at h; injection h with h; subst h; exact hi.end'
    | cons w q =>
      simp only [wireLoop] at h
      by_cases hw : w ∈ processed
      · rw [if_pos hw] at h
        exact ih _ _ _ _ (hi.skip hw) h
      · rw [if_neg hw] at h
        cases hr : wireReads ws w with
        | none => rw [hr] at h; cases h
        | some rs =>
          rw [hr] at h
          exact ih _ _ _ _ (hi.step hu hr) h

/-- Reads of the wires still to process. -/
def wireLeft (processed : List String) : List WireDef → Nat
  | [] => 0
  | d :: ds => (if d.name ∈ processed then 0 else d.reads.length) + wireLeft processed ds

theorem wireLeft_le (processed : List String) (w : String) (ws : List WireDef) :
    wireLeft (w :: processed) ws ≤ wireLeft processed ws := by
  induction ws with
  | nil => simp [wireLeft]
  | cons d ds ih =>
    simp only [wireLeft]
    by_cases h : d.name ∈ processed
    · have : d.name ∈ w :: processed := List.mem_cons_of_mem _ h
      rw [if_pos h, if_pos this]; omega
    · rw [if_neg h]
      split_ifs <;> omega

theorem wireLeft_step {processed : List String} {w : String} (hw : w ∉ processed) : ∀ {ws : List WireDef} {d : WireDef},
    d ∈ ws → d.name = w → wireLeft (w :: processed) ws + d.reads.length ≤ wireLeft processed ws := by
  intro ws
  induction ws with
  | nil => intro d h; simp at h
  | cons c cs ih =>
    intro d hd hn
    simp only [wireLeft]
    rcases List.mem_cons.mp hd with rfl | hd
    · have h1 : d.name ∈ w :: processed := by simp [hn]
      have h2 : d.name ∉ processed := by rw [hn]; exact hw
      rw [if_pos h1, if_neg h2]
      have := wireLeft_le processed w cs
      omega
    · have := ih hd hn
      by_cases h : c.name ∈ processed
      · have h' : c.name ∈ w :: processed := List.mem_cons_of_mem _ h
        rw [if_pos h, if_pos h']; omega
      · rw [if_neg h]
        split_ifs <;> omega

theorem wireLoop_total {ws : List WireDef} : ∀ (fuel : Nat) (q processed out : List String),
    (∀ x ∈ q, x ∈ ws.map (·.name)) → q.length + wireLeft processed ws ≤ fuel →
    ∃ reads, wireLoop ws fuel q processed out = some reads := by
  intro fuel
  induction fuel with
  | zero =>
    intro q processed out _ hl
    cases q with
    | nil => exact ⟨out, by simp [wireLoop]⟩
    | cons w q => simp at hl
  | succ f ih =>
    intro q processed out hq hl
    cases q with
    | nil => exact ⟨out, by simp [wireLoop]⟩
    | cons w q =>
      simp only [wireLoop]
      by_cases hw : w ∈ processed
      · rw [if_pos hw]
        exact ih q processed out (fun x hx => hq x (List.mem_cons_of_mem _ hx)) (by simp at hl; omega)
      · rw [if_neg hw]
        obtain ⟨rs, hr⟩ := wireReads_mem (hq w (List.mem_cons_self ..))
        rw [hr]
        refine ih _ _ _ (fun x hx => ?_) ?_
        · rcases List.mem_append.mp hx with hx | hx
          · exact hq x (List.mem_cons_of_mem _ hx)
          · have := (List.mem_filter.mp hx).2
            simp only [Bool.and_eq_true, decide_eq_true_eq] at this
            exact this.1
        · obtain ⟨d, hd, hn, rfl⟩ := wireReads_some hr
          have h1 := wireLeft_step hw hd hn
          have h2 := List.length_filter_le (fun v => decide (v ∈ ws.map (·.name)) && decide (v ∉ w :: processed)) d.reads
          simp only [List.length_cons, List.length_append] at hl ⊢
          omega

end Silice
