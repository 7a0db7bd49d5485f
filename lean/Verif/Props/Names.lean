import Verif.Prelude
import Verif.Model.Names
/-! Property theorem C13. -/
set_option autoImplicit false
namespace Silice

/-- Objects that are known by name in the whole unit. -/
def NState.globals (s : NState) : List String :=
  s.inputs ++ s.outputs ++ s.inouts ++ s.memories ++ s.instances ++ s.subs

/-- Each visible name denotes one object: the unit-wide objects have distinct names; no two variables have the same
full name; from the current scope no visible variable has the name of a unit-wide object; within one block no two
variables have the same name. -/
structure NamesOk (s : NState) : Prop where
  globals : s.globals.Nodup
  vars : (s.vars.map DVar.full).Nodup
  visible : ∀ b ∈ s.stack, ∀ d ∈ b.decl, d.base ∉ s.globals
  block : ∀ b ∈ s.stack, (b.decl.map DVar.base).Nodup

/-- Auxiliary part of the invariant. -/
structure NamesInv (s : NState) : Prop extends NamesOk s where
  known : ∀ b ∈ s.stack, ∀ d ∈ b.decl, d ∈ s.vars ∧ d.full = blockVIOName d.base b.name

theorem not_collision {s : NState} {io : List String} {base name : String} (h : isAvailable s io base name ≠ .collision) :
    base ∉ s.globals ∧ name ∉ s.vars.map DVar.full := by
  unfold isAvailable at h
  split_ifs at h <;> simp_all [NState.globals]

theorem is_available {s : NState} {io : List String} {base name : String} (h : isAvailable s io base name = .available) :
    base ∉ s.globals ∧ name ∉ s.vars.map DVar.full ∧ ∀ b ∈ s.stack, ∀ d ∈ b.decl, d.base ≠ base := by
  have h1 := not_collision (s := s) (io := io) (base := base) (name := name) (by rw [h]; decide)
  refine ⟨h1.1, h1.2, ?_⟩
  unfold isAvailable at h
  split_ifs at h with _ _ _ _ _ _ _ _ h9
  simp only [List.any_eq_true, decide_eq_true_eq, not_exists, not_and] at h9
  exact fun b hb d hd => h9 b hb d hd

theorem addVar_globals {s s' : NState} {io : List String} {base : String} (h : addVar s io base = some s') :
    s'.globals = s.globals ∧ base ∉ s.globals ∧ (∃ f, s'.vars = s.vars ++ [⟨f, base⟩]) := by
  unfold addVar at h
  split at h
  · simp at h
  · rename_i b bs hst
    simp only at h
    split at h
    · simp at h
    · rename_i hnc
      simp only [Option.some.injEq] at h
      subst h
      exact ⟨rfl, (not_collision hnc).1, _, rfl⟩

theorem addVar_inv {s s' : NState} {io : List String} {base : String} (hi : NamesInv s) (h : addVar s io base = some s') :
    NamesInv s' := by
  have hg := addVar_globals h
  unfold addVar at h
  split at h
  · simp at h
  · rename_i b bs hst
    simp only at h
    split at h
    · simp at h
    · rename_i hnc
      have hn := not_collision hnc
      simp only [Option.some.injEq] at h
      have hb : b ∈ s.stack := by rw [hst]; simp
      have hbs : ∀ c ∈ bs, c ∈ s.stack := by intro c hc; rw [hst]; simp [hc]
      subst h
      refine ⟨⟨hi.globals, ?_, ?_, ?_⟩, ?_⟩
      · simp only [List.map_append, List.map_cons, List.map_nil]
        rw [List.nodup_append]
        refine ⟨hi.vars, by simp, ?_⟩
        intro a ha c hc e
        simp at hc
        subst hc; subst e
        exact hn.2 ha
      · intro c hc d hd
        rcases List.mem_cons.mp hc with rfl | hc
        · rcases List.mem_append.mp hd with hd | hd
          · exact hi.visible b hb d hd
          · simp at hd; subst hd; exact hn.1
        · exact hi.visible c (hbs c hc) d hd
      · intro c hc
        rcases List.mem_cons.mp hc with rfl | hc
        · simp only [List.map_append, List.map_cons, List.map_nil]
          rw [List.nodup_append]
          refine ⟨hi.block b hb, by simp, ?_⟩
          intro a ha c hc e
          simp at hc
          subst hc; subst e
          obtain ⟨d, hd, rfl⟩ := List.mem_map.mp ha
          have hk := hi.known b hb d hd
          exact hn.2 (List.mem_map.mpr ⟨d, hk.1, hk.2⟩)
        · exact hi.block c (hbs c hc)
      · intro c hc d hd
        rcases List.mem_cons.mp hc with rfl | hc
        · rcases List.mem_append.mp hd with hd | hd
          · have hk := hi.known b hb d hd
            exact ⟨by simp [hk.1], hk.2⟩
          · simp at hd; subst hd
            exact ⟨by simp, rfl⟩
        · have hk := hi.known c (hbs c hc) d hd
          exact ⟨by simp [hk.1], hk.2⟩

theorem addVars_inv (bs : List String) : ∀ {s s' : NState} {io : List String}, NamesInv s → addVars s io bs = some s' →
    NamesInv s' ∧ s'.globals = s.globals ∧ (∀ b ∈ s'.stack, ∀ d ∈ b.decl, d.base ∉ bs → ∃ c ∈ s.stack, d ∈ c.decl) := by
  induction bs with
  | nil =>
    intro s s' io hi h
    simp [addVars] at h; subst h
    exact ⟨hi, rfl, fun b hb d hd _ => ⟨b, hb, hd⟩⟩
  | cons x bs ih =>
    intro s s' io hi h
    simp only [addVars] at h
    split at h
    · simp at h
    · rename_i s1 h1
      obtain ⟨a1, a2, a3⟩ := ih (addVar_inv hi h1) h
      refine ⟨a1, by rw [a2, (addVar_globals h1).1], ?_⟩
      intro b hb d hd hne
      simp only [List.mem_cons, not_or] at hne
      obtain ⟨c, hc, hdc⟩ := a3 b hb d hd hne.2
      unfold addVar at h1
      split at h1
      · simp at h1
      · rename_i b0 bs0 hst
        simp only at h1
        split at h1
        · simp at h1
        · simp only [Option.some.injEq] at h1
          subst h1
          rcases List.mem_cons.mp hc with rfl | hc
          · rcases List.mem_append.mp hdc with hdc | hdc
            · exact ⟨b0, by rw [hst]; simp, hdc⟩
            · simp at hdc; subst hdc; exact absurd rfl hne.1
          · exact ⟨c, by rw [hst]; simp [hc], hdc⟩

theorem append_ne (b m : String) : b ++ "_" ++ m ≠ b := by
  intro e
  have h2 : (b ++ "_" ++ m).toList.length = b.toList.length := by rw [e]
  simp only [String.toList_append, List.length_append] at h2
  have : "_".toList.length = 1 := by decide
  omega

theorem step_inv {s s' : NState} {e : DeclEv} (hi : NamesInv s) (h : declStep s e = some s') : NamesInv s' := by
  cases e with
  | enter n =>
    simp [declStep] at h; subst h
    refine ⟨⟨hi.globals, hi.vars, ?_, ?_⟩, ?_⟩
    · intro b hb d hd
      rcases List.mem_cons.mp hb with rfl | hb
      · simp at hd
      · exact hi.visible b hb d hd
    · intro b hb
      rcases List.mem_cons.mp hb with rfl | hb
      · simp
      · exact hi.block b hb
    · intro b hb d hd
      rcases List.mem_cons.mp hb with rfl | hb
      · simp at hd
      · exact hi.known b hb d hd
  | leave =>
    simp [declStep] at h; subst h
    have ht : ∀ b ∈ s.stack.tail, b ∈ s.stack := fun b hb => List.mem_of_mem_tail hb
    exact ⟨⟨hi.globals, hi.vars, fun b hb => hi.visible b (ht b hb), fun b hb => hi.block b (ht b hb)⟩,
      fun b hb => hi.known b (ht b hb)⟩
  | var io b => exact addVar_inv hi h
  | memory io b ms =>
    simp only [declStep] at h
    split at h
    · simp at h
    · rename_i hav
      simp only [ne_eq, Decidable.not_not] at hav
      have ha := is_available hav
      split at h
      · simp at h
      · rename_i s1 h1
        simp only [Option.some.injEq] at h
        obtain ⟨a1, a2, a3⟩ := addVars_inv _ hi h1
        have hgl : b ∉ s1.globals := by rw [a2]; exact ha.1
        subst h
        refine ⟨⟨?_, a1.vars, ?_, a1.block⟩, a1.known⟩
        · have := a1.globals
          simp only [NState.globals] at this hgl ⊢
          simp only [List.append_assoc] at this hgl ⊢
          have hp : (s1.inputs ++ (s1.outputs ++ (s1.inouts ++ (s1.memories ++ ([b] ++ (s1.instances ++ s1.subs)))))).Perm
              (b :: (s1.inputs ++ (s1.outputs ++ (s1.inouts ++ (s1.memories ++ (s1.instances ++ s1.subs)))))) := by
            have := List.perm_middle (a := b) (l₁ := s1.inputs ++ (s1.outputs ++ (s1.inouts ++ s1.memories))) (l₂ := s1.instances ++ s1.subs)
            simpa using this
          exact (List.Perm.nodup_iff hp).mpr (List.nodup_cons.mpr ⟨hgl, this⟩)
        · intro c hc d hd hm
          have h1 := a1.visible c hc d hd
          have hbase : d.base = b := by
            simp only [NState.globals, List.mem_append, List.mem_singleton] at hm h1
            tauto
          by_cases hin : d.base ∈ ms.map (fun m => b ++ "_" ++ m)
          · obtain ⟨m, _, e⟩ := List.mem_map.mp hin
            exact append_ne b m (e.trans hbase)
          · obtain ⟨c', hc', hd'⟩ := a3 c hc d hd hin
            exact ha.2.2 c' hc' d hd' hbase
  | inst io b =>
    simp only [declStep] at h
    split at h
    · simp at h
    · rename_i hav
      simp only [ne_eq, Decidable.not_not] at hav
      have ha := is_available hav
      simp only [Option.some.injEq] at h
      subst h
      refine ⟨⟨?_, hi.vars, ?_, hi.block⟩, hi.known⟩
      · have h1 := hi.globals
        have h2 := ha.1
        simp only [NState.globals] at h1 h2 ⊢
        simp only [List.append_assoc] at h1 h2 ⊢
        have hp : (s.inputs ++ (s.outputs ++ (s.inouts ++ (s.memories ++ (s.instances ++ ([b] ++ s.subs)))))).Perm
            (b :: (s.inputs ++ (s.outputs ++ (s.inouts ++ (s.memories ++ (s.instances ++ s.subs)))))) := by
          have := List.perm_middle (a := b) (l₁ := s.inputs ++ (s.outputs ++ (s.inouts ++ (s.memories ++ s.instances)))) (l₂ := s.subs)
          simpa using this
        exact (List.Perm.nodup_iff hp).mpr (List.nodup_cons.mpr ⟨h2, h1⟩)
      · intro c hc d hd hm
        have h1 := hi.visible c hc d hd
        have h2 := ha.2.2 c hc d hd
        simp only [NState.globals, List.mem_append, List.mem_singleton] at hm h1
        tauto
  | sub io b =>
    simp only [declStep] at h
    split at h
    · simp at h
    · rename_i hav
      simp only [ne_eq, Decidable.not_not] at hav
      have ha := is_available hav
      simp only [Option.some.injEq] at h
      subst h
      refine ⟨⟨?_, hi.vars, ?_, hi.block⟩, hi.known⟩
      · have h1 := hi.globals
        have h2 := ha.1
        simp only [NState.globals] at h1 h2 ⊢
        rw [← List.append_assoc, List.nodup_append]
        refine ⟨h1, by simp, ?_⟩
        intro a ha' c hc e
        simp at hc; subst hc; subst e
        exact h2 ha'
      · intro c hc d hd hm
        have h1 := hi.visible c hc d hd
        have h2 := ha.2.2 c hc d hd
        simp only [NState.globals, List.mem_append, List.mem_singleton] at hm h1
        tauto
  | group io b ms =>
    simp only [declStep] at h
    split at h
    · simp at h
    · have hi' : NamesInv { s with groups := s.groups ++ [b] } :=
        ⟨⟨hi.globals, hi.vars, hi.visible, hi.block⟩, hi.known⟩
      exact (addVars_inv _ hi' h).1

theorem run_inv (evs : List DeclEv) : ∀ {s s' : NState}, NamesInv s → declRun s evs = some s' → NamesInv s' := by
  induction evs with
  | nil => intro s s' hi h; simp [declRun] at h; subst h; exact hi
  | cons e es ih =>
    intro s s' hi h
    simp only [declRun] at h
    split at h
    · simp at h
    · rename_i s1 h1
      exact ih (step_inv hi h1) h

theorem ios_inv (ios : List IoDecl) : ∀ {s s' : NState}, (∀ d ∈ ios, ∃ k n, d = .plain k n) →
    (s.memories = [] ∧ s.instances = [] ∧ s.subs = [] ∧ s.vars = [] ∧ s.stack = [⟨"_top", []⟩] ∧
      (s.inputs ++ s.outputs ++ s.inouts).Nodup) → declareIos s ios = some s' →
    (s'.memories = [] ∧ s'.instances = [] ∧ s'.subs = [] ∧ s'.vars = [] ∧ s'.stack = [⟨"_top", []⟩] ∧
      (s'.inputs ++ s'.outputs ++ s'.inouts).Nodup) := by
  induction ios with
  | nil => intro s s' _ hi h; simp [declareIos] at h; subst h; exact hi
  | cons d ds ih =>
    intro s s' hp hi h
    simp only [declareIos] at h
    split at h
    · simp at h
    · rename_i s1 h1
      refine ih (fun d hd => hp d (by simp [hd])) ?_ h
      obtain ⟨k, n, rfl⟩ := hp d (by simp)
      simp only [declareIo] at h1
      split at h1
      · simp at h1
      · rename_i hn
        simp only [Option.some.injEq] at h1
        simp only [not_or] at hn
        obtain ⟨i1, i2, i3, i4, i5, i6⟩ := hi
        subst h1
        have hnn : n ∉ s.inputs ++ s.outputs ++ s.inouts := by simp; tauto
        cases k with
        | input =>
          refine ⟨i1, i2, i3, i4, i5, ?_⟩
          simp only [addIo]
          have hp : (s.inputs ++ [n] ++ s.outputs ++ s.inouts).Perm (n :: (s.inputs ++ s.outputs ++ s.inouts)) := by
            simp
          exact (List.Perm.nodup_iff hp).mpr (List.nodup_cons.mpr ⟨hnn, i6⟩)
        | output =>
          refine ⟨i1, i2, i3, i4, i5, ?_⟩
          simp only [addIo]
          have hp : (s.inputs ++ (s.outputs ++ [n]) ++ s.inouts).Perm (n :: (s.inputs ++ s.outputs ++ s.inouts)) := by
            have := List.perm_middle (a := n) (l₁ := s.inputs ++ s.outputs) (l₂ := s.inouts)
            simpa using this
          exact (List.Perm.nodup_iff hp).mpr (List.nodup_cons.mpr ⟨hnn, i6⟩)
        | inout =>
          refine ⟨i1, i2, i3, i4, i5, ?_⟩
          simp only [addIo]
          rw [← List.append_assoc, List.nodup_append]
          refine ⟨i6, by simp, ?_⟩
          intro a ha c hc e
          simp at hc; subst hc; subst e
          exact hnn ha

/-- C13, partial. After any accepted history of declarations (ports, then any interleaving of declarations and block
entries and exits), each name visible from the current scope denotes one object. Missing: ports declared through groups or
interfaces (added without check), names of groups, and full names of variables of labelled blocks against port
names; the claim is false for these, see below. -/
theorem C13_names_unique_partial (ios : List IoDecl) (hios : ∀ d ∈ ios, ∃ k n, d = .plain k n) (evs : List DeclEv)
    (s : NState) (h : declareAll ios evs = some s) : NamesOk s := by
  unfold declareAll at h
  split at h
  · simp at h
  · rename_i s0 h0
    obtain ⟨i1, i2, i3, i4, i5, i6⟩ := ios_inv ios hios (by simp) h0
    have hi : NamesInv s0 := by
      refine ⟨⟨?_, ?_, ?_, ?_⟩, ?_⟩
      · simpa [NState.globals, i1, i2, i3] using i6
      · simp [i4]
      · rw [i5]; intro b hb d hd; simp at hb; subst hb; simp at hd
      · rw [i5]; intro b hb; simp at hb; subst hb; simp
      · rw [i5]; intro b hb d hd; simp at hb; subst hb; simp at hd
    exact (run_inv evs hi h).toNamesOk

/-- C13. Refusal, at any point of any history: reusing the name of a port, memory, instance or subroutine is an
error for every kind of declaration, and reusing the name of a visible variable is an error for everything but a
variable of an inner block. -/
theorem C13_reuse_refused (s : NState) (io : List String) (n : String) (ms : List String) :
    (n ∈ s.globals → addVar s io n = none ∧ declStep s (.memory io n ms) = none ∧ declStep s (.inst io n) = none ∧
      declStep s (.sub io n) = none ∧ declStep s (.group io n ms) = none) ∧
    ((∃ b ∈ s.stack, ∃ d ∈ b.decl, d.base = n) → declStep s (.memory io n ms) = none ∧ declStep s (.inst io n) = none ∧
      declStep s (.sub io n) = none ∧ declStep s (.group io n ms) = none) := by
  constructor
  · intro hg
    have hc : ∀ name, isAvailable s io n name = .collision := by
      intro name
      by_contra hne
      exact (not_collision hne).1 hg
    refine ⟨?_, by simp [declStep, hc], by simp [declStep, hc], by simp [declStep, hc], by simp [declStep, hc]⟩
    unfold addVar
    split
    · rfl
    · simp [hc]
  · rintro ⟨b, hb, d, hd, e⟩
    have hc : isAvailable s io n n ≠ .available := by
      intro h
      exact (is_available h).2.2 b hb d hd e
    exact ⟨by simp [declStep, hc], by simp [declStep, hc], by simp [declStep, hc], by simp [declStep, hc]⟩

/-- C13. Two variables of one name in one block are refused, whatever was declared before. -/
theorem C13_same_block_redeclaration_refused (s s' : NState) (io io' : List String) (n : String)
    (h1 : addVar s io n = some s') : addVar s' io' n = none := by
  unfold addVar at h1
  split at h1
  · simp at h1
  · rename_i b bs hst
    simp only at h1
    split at h1
    · simp at h1
    · simp only [Option.some.injEq] at h1
      subst h1
      unfold addVar
      simp only
      have : isAvailable { s with
          vars := s.vars ++ [⟨blockVIOName n b.name, n⟩],
          stack := { b with decl := b.decl ++ [⟨blockVIOName n b.name, n⟩] } :: bs } io' n (blockVIOName n b.name) = .collision := by
        by_contra hne
        have := (not_collision hne).2
        simp at this
      rw [this]

/-- C13. Shadowing: a variable of a block may reuse the name of any variable declared elsewhere, visible or not; it gets a full
name of its own, made of the name of the block, and the variables known before keep theirs. -/
theorem C13_name_reused_in_other_block (s : NState) (io : List String) (n : String) (b : Blk) (bs : List Blk)
    (hst : s.stack = b :: bs) (hb : b.name ≠ "_top") (hg : n ∉ s.globals) (hio : n ∉ io)
    (hfresh : b.name ++ "_" ++ n ∉ s.vars.map DVar.full) :
    ∃ s', addVar s io n = some s' ∧ s'.vars = s.vars ++ [⟨b.name ++ "_" ++ n, n⟩] ∧
      s'.stack.tail = bs ∧ s'.globals = s.globals := by
  have hav : isAvailable s io n (blockVIOName n b.name) ≠ .collision := by
    simp only [blockVIOName, ne_eq, hb, not_false_eq_true, if_true, isAvailable]
    simp only [NState.globals, List.mem_append, not_or] at hg
    obtain ⟨⟨⟨⟨⟨g1, g2⟩, g3⟩, g4⟩, g5⟩, g6⟩ := hg
    simp only [g1, g2, g3, g4, g5, g6, hio, hfresh, if_false]
    split <;> exact nofun
  refine ⟨{ s with vars := s.vars ++ [⟨blockVIOName n b.name, n⟩], stack := { b with decl := b.decl ++ [⟨blockVIOName n b.name, n⟩] } :: bs }, ?_, ?_, rfl, rfl⟩
  · unfold addVar
    rw [hst]
    cases ha : isAvailable s io n (blockVIOName n b.name) with
    | collision => exact absurd ha hav
    | available => simp only [ha]
    | shadowing => simp only [ha]
  · simp [blockVIOName, hb]

/-- C13. Inside a subroutine no declaration may reuse the name of one of its parameters. -/
theorem C13_subroutine_parameter_refused (s : NState) (io : List String) (n : String) (ms : List String) (hn : n ∈ io) :
    addVar s io n = none ∧ declStep s (.memory io n ms) = none ∧ declStep s (.inst io n) = none ∧
      declStep s (.sub io n) = none ∧ declStep s (.group io n ms) = none := by
  have hc : ∀ name, isAvailable s io n name = .collision := by
    intro name
    simp [isAvailable, hn]
  refine ⟨?_, by simp [declStep, hc], by simp [declStep, hc], by simp [declStep, hc], by simp [declStep, hc]⟩
  unfold addVar
  split
  · rfl
  · simp [hc]

/-- C13 (negation). Ports declared through a group or interface are not checked against other ports: two ports of one
name are accepted. -/
theorem C13_group_port_collision :
    ∃ ios s, declareAll ios [] = some s ∧ ¬ s.globals.Nodup :=
  ⟨[.plain .input "a_x", .member .output "a" "x"], _, rfl, by decide +kernel⟩

/-- C13 (negation). A variable declared in a labelled block is renamed after the label and checked only by its base name
against ports: it may get the very name of an input. -/
theorem C13_label_prefix_captures_input :
    ∃ evs s, declareAll [.plain .input "lbl_x"] evs = some s ∧ "lbl_x" ∈ s.inputs ∧ "lbl_x" ∈ s.vars.map DVar.full :=
  ⟨[.enter "lbl", .var [] "x"], _, rfl, by decide +kernel, by decide +kernel⟩

/-- C13 (negation). Group names are not consulted: a variable may reuse the name of a group. -/
theorem C13_variable_named_as_group :
    ∃ evs s, declareAll [] evs = some s ∧ "g" ∈ s.groups ∧ "g" ∈ s.vars.map DVar.full :=
  ⟨[.group [] "g" ["x"], .var [] "g"], _, rfl, by decide +kernel, by decide +kernel⟩

/-! Non-vacuity -/
example : ∃ s, declareAll [.plain .input "a", .plain .output "q"]
    [.var [] "x", .memory [] "m" ["addr", "rdata"], .enter "__block_1", .var [] "x", .leave, .inst [] "i", .sub [] "f"] = some s ∧
    s.globals = ["a", "q", "m", "i", "f"] ∧ s.vars.length = 4 := ⟨_, rfl, by decide +kernel, by decide +kernel⟩
example : declareAll [.plain .input "a"] [.enter "__block_1", .var [] "a"] = none := by decide +kernel

end Silice
