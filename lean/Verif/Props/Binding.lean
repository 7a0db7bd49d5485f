import Verif.Prelude
import Verif.Model.Binding
/-! Property theorems C10, C11, C12. -/
set_option autoImplicit false
namespace Silice

/-- The connection a written binding stands for, per direction sign and kind of port. -/
inductive Connects (p : Ports) : Binding → Binding → Prop where
  | input (l r) : l ∈ p.inputs → Connects p ⟨l, r, .auto⟩ ⟨l, r, .left⟩
  | inputReg (l r) : l ∈ p.inputs → Connects p ⟨l, r, .autoQ⟩ ⟨l, r, .leftQ⟩
  | output (l r d) : (d = .auto ∨ d = .autoQ) → l ∈ p.outputs → l ∉ p.inputs → Connects p ⟨l, r, d⟩ ⟨l, r, .right⟩
  | inout (l r d) : (d = .auto ∨ d = .autoQ) → l ∈ p.inouts → l ∉ p.inputs → l ∉ p.outputs →
      Connects p ⟨l, r, d⟩ ⟨l, r, .biDir⟩
  | explicit (l r d) : d ≠ .auto → d ≠ .autoQ → Connects p ⟨l, r, d⟩ ⟨l, r, d⟩

/-- A written binding without connection: automatic, to a name which is not a port. -/
def NoPort (p : Ports) (b : Binding) : Prop :=
  (b.dir = .auto ∨ b.dir = .autoQ) ∧ b.left ∉ p.inputs ∧ b.left ∉ p.outputs ∧ b.left ∉ p.inouts

theorem resolveStep_append (p : Ports) (acc : List Binding) (b : Binding) :
    resolveStep p acc b = acc ++ resolveStep p [] b := by
  unfold resolveStep
  split_ifs <;> simp

theorem foldl_resolve (p : Ports) (bs : List Binding) : ∀ acc, bs.foldl (resolveStep p) acc = acc ++ bs.flatMap (resolveStep p []) := by
  induction bs with
  | nil => simp
  | cons b bs ih =>
    intro acc
    simp only [List.foldl_cons, ih, List.flatMap_cons]
    rw [resolveStep_append]; simp

theorem resolve_single (p : Ports) (b : Binding) :
    (NoPort p b ∧ resolveStep p [] b = []) ∨ (¬ NoPort p b ∧ ∃ c, resolveStep p [] b = [c] ∧ Connects p b c) := by
  obtain ⟨l, r, d⟩ := b
  simp only [resolveStep, NoPort]
  by_cases hd : d = .auto ∨ d = .autoQ
  · rw [if_pos hd]
    by_cases h1 : l ∈ p.inputs
    · refine Or.inr ⟨by tauto, _, by rw [if_pos h1]; rfl, ?_⟩
      rcases hd with rfl | rfl
      · exact Connects.input l r h1
      · exact Connects.inputReg l r h1
    · by_cases h2 : l ∈ p.outputs
      · exact Or.inr ⟨by tauto, _, by rw [if_neg h1, if_pos h2]; rfl, Connects.output l r d hd h2 h1⟩
      · by_cases h3 : l ∈ p.inouts
        · exact Or.inr ⟨by tauto, _, by rw [if_neg h1, if_neg h2, if_pos h3]; rfl, Connects.inout l r d hd h3 h1 h2⟩
        · exact Or.inl ⟨⟨hd, h1, h2, h3⟩, by rw [if_neg h1, if_neg h2, if_neg h3]⟩
  · rw [if_neg hd]
    refine Or.inr ⟨by tauto, _, rfl, ?_⟩
    exact Connects.explicit l r d (by tauto) (by tauto)

/-- C10. The list of connections is obtained from the list of written bindings by dropping those that name no port
and replacing, in order, each other one by the connection it stands for. -/
theorem C10_directions_resolved (p : Ports) (bs : List Binding) [DecidablePred (NoPort p)] :
    List.Forall₂ (Connects p) (bs.filter (fun b => ¬ NoPort p b)) (resolveDirections p bs) := by
  unfold resolveDirections
  rw [foldl_resolve, List.nil_append]
  induction bs with
  | nil => simp
  | cons b bs ih =>
    rcases resolve_single p b with ⟨h1, h2⟩ | ⟨h1, c, h2, h3⟩
    · rw [List.filter_cons_of_neg (by simpa using h1), List.flatMap_cons, h2]
      exact ih
    · rw [List.filter_cons_of_pos (by simpa using h1), List.flatMap_cons, h2]
      exact List.Forall₂.cons h3 ih

/-- C10. A connection is determined by the written binding. -/
theorem C10_connection_unique (p : Ports) (b c c' : Binding) (h : Connects p b c) (h' : Connects p b c') : c = c' := by
  cases h <;> cases h' <;> simp_all

/-! ### auto-bind -/

theorem autobindLoop_eq (defined first vars : List String) (dir : Dir) (ios : List String) : ∀ acc,
    autobindLoop defined first vars dir ios acc =
      acc ++ (ios.filter (fun io => decide (io ∉ defined ∧ (io ∈ first ∨ io ∈ vars)))).map (fun io => ⟨io, io, dir⟩) := by
  induction ios with
  | nil => simp [autobindLoop]
  | cons io ios ih =>
    intro acc
    simp only [autobindLoop]
    by_cases hk : io ∉ defined ∧ (io ∈ first ∨ io ∈ vars)
    · rw [List.filter_cons_of_pos (by simpa using hk), if_pos hk.1]
      by_cases h2 : io ∈ first
      · rw [if_pos h2, ih]; simp
      · rw [if_neg h2, if_pos (by tauto), ih]; simp
    · rw [List.filter_cons_of_neg (by simpa using hk)]
      by_cases h1 : io ∉ defined
      · rw [if_pos h1, if_neg (by tauto), if_neg (by tauto), ih]
      · rw [if_neg h1, ih]

theorem autobindInternals_eq (defined inputs : List String) (ios : List String) : ∀ acc,
    autobindInternals defined inputs ios acc =
      acc ++ (ios.filter (fun io => decide (io ∉ defined ∧ io ∈ inputs))).map (fun io => ⟨io, io, .left⟩) := by
  induction ios with
  | nil => simp [autobindInternals]
  | cons io ios ih =>
    intro acc
    simp only [autobindInternals]
    by_cases hk : io ∉ defined ∧ io ∈ inputs
    · rw [List.filter_cons_of_pos (by simpa using hk), if_pos hk, ih]; simp
    · rw [List.filter_cons_of_neg (by simpa using hk), if_neg hk, ih]

/-- The bindings added by auto-bind. -/
def added (h : Host) (p : Ports) (bs : List Binding) : List Binding :=
  let d := bs.map Binding.left
  (p.inputs.filter (fun io => decide (io ∉ d ∧ (io ∈ h.inputs ∨ io ∈ h.vars)))).map (fun io => ⟨io, io, .left⟩) ++
  ([ALG_CLOCK, ALG_RESET].filter (fun io => decide (io ∉ d ∧ io ∈ p.inputs))).map (fun io => ⟨io, io, .left⟩) ++
  (p.outputs.filter (fun io => decide (io ∉ d ∧ (io ∈ h.outputs ∨ io ∈ h.vars)))).map (fun io => ⟨io, io, .right⟩) ++
  (p.inouts.filter (fun io => decide (io ∉ d ∧ (io ∈ h.inouts ∨ io ∈ h.vars)))).map (fun io => ⟨io, io, .biDir⟩)

theorem autobind_eq (h : Host) (p : Ports) (bs : List Binding) : autobind h p bs = bs ++ added h p bs := by
  simp [autobind, added, autobindLoop_eq, autobindInternals_eq]

theorem mem_added (h : Host) (p : Ports) (bs : List Binding) (c : Binding) : c ∈ added h p bs ↔
    c.left ∉ bs.map Binding.left ∧ c.right = c.left ∧
    ((c.dir = .left ∧ c.left ∈ p.inputs ∧ (c.left ∈ h.inputs ∨ c.left ∈ h.vars ∨ c.left = ALG_CLOCK ∨ c.left = ALG_RESET)) ∨
     (c.dir = .right ∧ c.left ∈ p.outputs ∧ (c.left ∈ h.outputs ∨ c.left ∈ h.vars)) ∨
     (c.dir = .biDir ∧ c.left ∈ p.inouts ∧ (c.left ∈ h.inouts ∨ c.left ∈ h.vars))) := by
  obtain ⟨l, r, d⟩ := c
  simp only [added, List.mem_append, List.mem_map, List.mem_filter, decide_eq_true_eq, Binding.mk.injEq]
  constructor
  · rintro (((⟨io, ⟨h1, h2⟩, rfl, rfl, rfl⟩ | ⟨io, ⟨h1, h2⟩, rfl, rfl, rfl⟩) | ⟨io, ⟨h1, h2⟩, rfl, rfl, rfl⟩) | ⟨io, ⟨h1, h2⟩, rfl, rfl, rfl⟩)
    · exact ⟨by simpa using h2.1, rfl, Or.inl ⟨rfl, h1, by tauto⟩⟩
    · refine ⟨by simpa using h2.1, rfl, Or.inl ⟨rfl, h2.2, ?_⟩⟩
      simp at h1; tauto
    · exact ⟨by simpa using h2.1, rfl, Or.inr (Or.inl ⟨rfl, h1, by tauto⟩)⟩
    · exact ⟨by simpa using h2.1, rfl, Or.inr (Or.inr ⟨rfl, h1, by tauto⟩)⟩
  · rintro ⟨h1, hr, ⟨rfl, h3, h4⟩ | ⟨rfl, h3, h4⟩ | ⟨rfl, h3, h4⟩⟩ <;> subst hr
    · rcases h4 with h4 | h4 | h4 | h4
      · exact Or.inl (Or.inl (Or.inl ⟨_, ⟨h3, by simpa using h1, by tauto⟩, rfl, rfl, rfl⟩))
      · exact Or.inl (Or.inl (Or.inl ⟨_, ⟨h3, by simpa using h1, by tauto⟩, rfl, rfl, rfl⟩))
      · exact Or.inl (Or.inl (Or.inr ⟨_, ⟨by simp [h4], by simpa using h1, h3⟩, rfl, rfl, rfl⟩))
      · exact Or.inl (Or.inl (Or.inr ⟨_, ⟨by simp [h4], by simpa using h1, h3⟩, rfl, rfl, rfl⟩))
    · exact Or.inl (Or.inr ⟨_, ⟨h3, by simpa using h1, h4⟩, rfl, rfl, rfl⟩)
    · exact Or.inr ⟨_, ⟨h3, by simpa using h1, h4⟩, rfl, rfl, rfl⟩

/-- C11. Auto-bind only appends: explicit bindings are kept as they are, first, and explicitly bound ports get no
other binding. -/
theorem C11_explicit_bindings_kept (h : Host) (p : Ports) (bs : List Binding) :
    ∃ new, autobind h p bs = bs ++ new ∧ ∀ c ∈ new, ∀ b ∈ bs, c.left ≠ b.left := by
  refine ⟨added h p bs, autobind_eq h p bs, ?_⟩
  intro c hc b hb e
  exact ((mem_added h p bs c).mp hc).1 (List.mem_map.mpr ⟨b, hb, e.symm⟩)

/-- C11. What is bound: exactly the unbound ports having a same-named identifier of matching kind (or a variable) in
the host, plus unbound clock and reset inputs; each to the identifier of the same name, in the direction of the
port. -/
theorem C11_autobound_ports (h : Host) (p : Ports) (bs : List Binding) (c : Binding) (hc : c.left ∉ bs.map Binding.left) :
    c ∈ autobind h p bs ↔ c.right = c.left ∧
      ((c.dir = .left ∧ c.left ∈ p.inputs ∧ (c.left ∈ h.inputs ∨ c.left ∈ h.vars ∨ c.left = ALG_CLOCK ∨ c.left = ALG_RESET)) ∨
       (c.dir = .right ∧ c.left ∈ p.outputs ∧ (c.left ∈ h.outputs ∨ c.left ∈ h.vars)) ∨
       (c.dir = .biDir ∧ c.left ∈ p.inouts ∧ (c.left ∈ h.inouts ∨ c.left ∈ h.vars))) := by
  rw [autobind_eq, List.mem_append, mem_added]
  constructor
  · rintro (h1 | h1)
    · exact absurd (List.mem_map.mpr ⟨c, h1, rfl⟩) hc
    · exact h1.2
  · exact fun h1 => Or.inr ⟨hc, h1⟩

/-- C11, partial. No port gets two bindings from auto-bind, if port names are distinct and the host has no input or
variable named as the clock or the reset. Missing: that last case, see the next theorem. -/
theorem C11_at_most_once_partial (h : Host) (p : Ports) (bs : List Binding)
    (hnd : (p.inputs ++ p.outputs ++ p.inouts).Nodup)
    (hclk : ∀ x ∈ [ALG_CLOCK, ALG_RESET], x ∉ h.inputs ∧ x ∉ h.vars) :
    ((added h p bs).map Binding.left).Nodup ∧ (∃ new, autobind h p bs = bs ++ new ∧ new = added h p bs) := by
  refine ⟨?_, _, autobind_eq h p bs, rfl⟩
  have hnd' := List.nodup_append.mp hnd
  have hnd'' := List.nodup_append.mp hnd'.1
  simp only [added, List.map_append, List.map_map]
  have e : ∀ (d : Dir) (l : List String), l.map (Binding.left ∘ fun io => (⟨io, io, d⟩ : Binding)) = l := by
    intro d l; simp [Function.comp_def]
  simp only [e]
  have hci : ∀ a ∈ [ALG_CLOCK, ALG_RESET].filter (fun io => decide (io ∉ bs.map Binding.left ∧ io ∈ p.inputs)), a ∈ p.inputs := by
    intro a ha
    have := (List.mem_filter.mp ha).2
    simp only [decide_eq_true_eq] at this
    exact this.2
  rw [List.nodup_append, List.nodup_append, List.nodup_append]
  refine ⟨⟨⟨List.Pairwise.filter _ hnd''.1, List.Pairwise.filter _ (by decide), ?_⟩, List.Pairwise.filter _ hnd''.2.1, ?_⟩, List.Pairwise.filter _ hnd'.2.1, ?_⟩
  · intro a ha b hb e
    subst e
    have h1 := (List.mem_filter.mp ha).2
    simp only [decide_eq_true_eq] at h1
    have h2 := hclk a ((List.mem_filter.mp hb).1)
    rcases h1.2 with h3 | h3
    · exact h2.1 h3
    · exact h2.2 h3
  · intro a ha b hb
    have hb' := (List.mem_filter.mp hb).1
    rcases List.mem_append.mp ha with ha | ha
    · exact hnd''.2.2 a ((List.mem_filter.mp ha).1) b hb'
    · exact hnd''.2.2 a (hci a ha) b hb'
  · intro a ha b hb
    have hb' := (List.mem_filter.mp hb).1
    rcases List.mem_append.mp ha with ha | ha
    · rcases List.mem_append.mp ha with ha | ha
      · exact hnd'.2.2 a (by simp [(List.mem_filter.mp ha).1]) b hb'
      · exact hnd'.2.2 a (by simp [hci a ha]) b hb'
    · exact hnd'.2.2 a (by simp [(List.mem_filter.mp ha).1]) b hb'

/-- C11 (negation). If the host has an input (or variable) named `clock` and the instanced unit has an input of that
name, auto-bind binds it twice, whatever the rest. -/
theorem C11_clock_bound_twice (h : Host) (p : Ports) (bs : List Binding) (hp : ALG_CLOCK ∈ p.inputs)
    (hh : ALG_CLOCK ∈ h.inputs ∨ ALG_CLOCK ∈ h.vars) (hb : ALG_CLOCK ∉ bs.map Binding.left) :
    2 ≤ ((autobind h p bs).filter (fun c => c.left = ALG_CLOCK)).length := by
  rw [autobind_eq]
  have h1 : (⟨ALG_CLOCK, ALG_CLOCK, .left⟩ : Binding) ∈
      ((p.inputs.filter (fun io => decide (io ∉ bs.map Binding.left ∧ (io ∈ h.inputs ∨ io ∈ h.vars)))).map
        (fun io => (⟨io, io, .left⟩ : Binding))).filter (fun c => c.left = ALG_CLOCK) := by
    simp only [List.mem_filter, List.mem_map, decide_eq_true_eq, and_true]
    exact ⟨ALG_CLOCK, ⟨hp, by simpa using hb, hh⟩, rfl⟩
  have h2 : (⟨ALG_CLOCK, ALG_CLOCK, .left⟩ : Binding) ∈
      (([ALG_CLOCK, ALG_RESET].filter (fun io => decide (io ∉ bs.map Binding.left ∧ io ∈ p.inputs))).map
        (fun io => (⟨io, io, .left⟩ : Binding))).filter (fun c => c.left = ALG_CLOCK) := by
    simp only [List.mem_filter, List.mem_map, decide_eq_true_eq, and_true]
    exact ⟨ALG_CLOCK, ⟨by simp, by simpa using hb, hp⟩, rfl⟩
  have l1 := List.length_pos_of_mem h1
  have l2 := List.length_pos_of_mem h2
  simp only [added, List.filter_append, List.length_append]
  omega

/-! ### checks -/

/-- What a well directed binding is. -/
structure WellDirected (h : Host) (p : Ports) (b : Binding) : Prop where
  port : b.left ∈ p.inputs ∨ b.left ∈ p.outputs ∨ b.left ∈ p.inouts
  inbound : b.dir = .left ∨ b.dir = .leftQ → b.left ∈ p.inputs
  outbound : b.dir = .right → b.left ∈ p.outputs
  bidir : b.dir = .biDir → b.left ∈ p.inouts
  known : b.right ∈ h.inputs ∨ b.right ∈ h.outputs ∨ b.right ∈ h.inouts ∨ b.right ∈ h.vars ∨
    b.right = h.clock ∨ b.right = h.reset ∨ b.right = "clock" ∨ b.right = "reset"
  comb : p.combInfo = true → b.left ∈ p.outputs → b.right ∈ h.outputs → h.comb b.right = p.comb b.left

theorem checkBinding_none_iff (h : Host) (p : Ports) (b : Binding) : checkBinding h p b = none ↔ WellDirected h p b := by
  unfold checkBinding
  constructor
  · intro hc
    split_ifs at hc with h1 h2 h3 h4 h5 h6
    refine ⟨?_, ?_, ?_, ?_, ?_, ?_⟩
    · clear h2 h3 h4 h5 h6; tauto
    · intro hd; by_contra hx; exact h2 ⟨hd, hx⟩
    · intro hd; by_contra hx; exact h3 ⟨hd, hx⟩
    · intro hd; by_contra hx; exact h4 ⟨hd, hx⟩
    · simp only [ALG_CLOCK, ALG_RESET] at h5
      clear h1 h2 h3 h4 h6; tauto
    · intro k1 k2 k3; by_contra hx; exact h6 ⟨k1, k2, k3, hx⟩
  · intro w
    rw [if_neg, if_neg, if_neg, if_neg, if_neg, if_neg]
    · rintro ⟨k1, k2, k3, k4⟩; exact k4 (w.comb k1 k2 k3)
    · rintro ⟨k1, k2, k3, k4, k5, k6, k7, k8⟩
      rcases w.known with k | k | k | k | k | k | k | k
      · exact k1 k
      · exact k2 k
      · exact k3 k
      · exact k4 k
      · exact k5 k
      · exact k7 k
      · exact k6 k
      · exact k8 k
    · rintro ⟨k1, k2⟩; exact k2 (w.bidir k1)
    · rintro ⟨k1, k2⟩; exact k2 (w.outbound k1)
    · rintro ⟨k1, k2⟩; exact k2 (w.inbound k1)
    · rintro ⟨k1, k2, k3⟩
      rcases w.port with k | k | k
      · exact k1 k
      · exact k2 k
      · exact k3 k

/-- C12. Binding checks pass exactly when every binding is well directed and no host identifier (inouts excepted) is
both an inbound and an outbound binding of the instance. -/
theorem C12_checks_pass_iff (h : Host) (p : Ports) (bs : List Binding) :
    checkBindings h p bs = none ↔ (∀ b ∈ bs, WellDirected h p b) ∧
      ∀ b ∈ bs, ∀ c ∈ bs, b.dir = .right → (c.dir = .left ∨ c.dir = .leftQ) → b.right = c.right → b.right ∈ h.inouts := by
  unfold checkBindings
  have key : bs.findSome? (checkBinding h p) = none ↔ ∀ b ∈ bs, WellDirected h p b := by
    rw [List.findSome?_eq_none_iff]
    exact forall₂_congr (fun b _ => checkBinding_none_iff h p b)
  cases hf : bs.findSome? (checkBinding h p) with
  | some e =>
    simp only [reduceCtorEq, false_iff, not_and]
    intro hw
    rw [← key, hf] at hw
    simp at hw
  | none =>
    have hw := key.mp hf
    simp only
    split_ifs with ha
    · simp only [false_iff, not_and]
      intro _ hno
      simp only [List.any_eq_true, Bool.and_eq_true, decide_eq_true_eq, inboundSet, List.contains_iff_mem, List.mem_map,
        List.mem_filter, Bool.or_eq_true, Bool.not_eq_true'] at ha
      obtain ⟨b, hb, ⟨hd, c, ⟨hc, hcd⟩, e⟩, hio⟩ := ha
      have := hno b hb c hc hd hcd e.symm
      rw [← List.contains_iff_mem, hio] at this
      simp at this
    · simp only [true_iff]
      refine ⟨hw, ?_⟩
      intro b hb c hc hd hcd e
      by_contra hio
      apply ha
      simp only [List.any_eq_true, Bool.and_eq_true, decide_eq_true_eq, inboundSet, List.contains_iff_mem, List.mem_map,
        List.mem_filter, Bool.or_eq_true, Bool.not_eq_true']
      refine ⟨b, hb, ⟨hd, c, ⟨hc, hcd⟩, e.symm⟩, ?_⟩
      cases hx : h.inouts.contains b.right
      · rfl
      · exact absurd (List.contains_iff_mem.mp hx) hio

/-- C10 and C11. Bindings that went through resolution and auto-bind are never rejected for their direction unless
the direction was written explicitly: every binding whose direction was chosen by the compiler targets a port of
that direction. -/
theorem C11_chosen_directions_valid (h : Host) (p : Ports) (want : Bool) (bs : List Binding) (c : Binding)
    (hc : c ∈ instanceBindings h p want bs) (hne : c ∉ bs) :
    (c.dir = .left ∨ c.dir = .leftQ) ∧ c.left ∈ p.inputs ∨ c.dir = .right ∧ c.left ∈ p.outputs ∨
    c.dir = .biDir ∧ c.left ∈ p.inouts := by
  have res : ∀ c ∈ resolveDirections p bs, c ∉ bs →
      ((c.dir = .left ∨ c.dir = .leftQ) ∧ c.left ∈ p.inputs ∨ c.dir = .right ∧ c.left ∈ p.outputs ∨
       c.dir = .biDir ∧ c.left ∈ p.inouts) := by
    intro c hc hne
    unfold resolveDirections at hc
    rw [foldl_resolve, List.nil_append, List.mem_flatMap] at hc
    obtain ⟨b, hb, hcb⟩ := hc
    rcases resolve_single p b with ⟨_, h2⟩ | ⟨_, c', h2, h3⟩
    · rw [h2] at hcb; simp at hcb
    · rw [h2] at hcb
      simp at hcb
      subst hcb
      cases h3 with
      | input l r h1 => exact Or.inl ⟨Or.inl rfl, h1⟩
      | inputReg l r h1 => exact Or.inl ⟨Or.inr rfl, h1⟩
      | output l r d _ h1 _ => exact Or.inr (Or.inl ⟨rfl, h1⟩)
      | inout l r d _ h1 _ _ => exact Or.inr (Or.inr ⟨rfl, h1⟩)
      | explicit l r d _ _ => exact absurd hb hne
  unfold instanceBindings at hc
  cases want with
  | false => exact res c hc hne
  | true =>
    simp only [if_true] at hc
    rw [autobind_eq, List.mem_append] at hc
    rcases hc with hc | hc
    · exact res c hc hne
    · have := ((mem_added h p _ c).mp hc).2.2
      tauto

/-! Non-vacuity -/
def exPorts : Ports := ⟨["clock", "a"], ["q"], ["io"], true, fun _ => false⟩
def exHost : Host := ⟨["a"], ["q"], [], ["v"], "clock", "reset", fun _ => false⟩
example : resolveDirections exPorts [⟨"a", "v", .autoQ⟩, ⟨"zz", "v", .auto⟩, ⟨"q", "v", .auto⟩] =
    [⟨"a", "v", .leftQ⟩, ⟨"q", "v", .right⟩] := by decide +kernel
example : autobind exHost exPorts [⟨"a", "v", .left⟩] =
    [⟨"a", "v", .left⟩, ⟨"clock", "clock", .left⟩, ⟨"q", "q", .right⟩] := by decide +kernel
example : checkBindings exHost exPorts [⟨"a", "v", .left⟩, ⟨"q", "q", .right⟩] = none := by decide +kernel
example : checkBindings exHost exPorts [⟨"a", "v", .left⟩, ⟨"q", "v", .right⟩] = some .bothWays := by decide +kernel
example : (exPorts.inputs ++ exPorts.outputs ++ exPorts.inouts).Nodup ∧
    ∀ x ∈ [ALG_CLOCK, ALG_RESET], x ∉ exHost.inputs ∧ x ∉ exHost.vars := by decide +kernel

end Silice
