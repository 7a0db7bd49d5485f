import Verif.Spec.SigNames
import Mathlib.Data.List.Nodup

set_option autoImplicit false

namespace Silice

theorem str_ne {a b : String} (h : a.toList ≠ b.toList) : a ≠ b := fun e => h (by rw [e])

theorem nodup_prefix (p : String) {l : List String} (h : l.Nodup) : (l.map (p ++ ·)).Nodup := by
  refine List.Nodup.map ?_ h
  intro a b hab
  have := congrArg String.toList hab
  simp only [String.toList_append, List.append_cancel_left_eq] at this
  exact String.toList_injective this

theorem nodup_suffix (p : String) {l : List String} (h : l.Nodup) : (l.map (· ++ p)).Nodup := by
  refine List.Nodup.map ?_ h
  intro a b hab
  have := congrArg String.toList hab
  simp only [String.toList_append, List.append_cancel_right_eq] at this
  exact String.toList_injective this

theorem inoutNames_nodup (split : Bool) (n : String) : (inoutNames split n).Nodup := by
  unfold inoutNames
  split
  · have h1 : n ++ "_oe" ≠ n ++ "_i" := str_ne (by simp [String.toList_append])
    have h2 : n ++ "_oe" ≠ n ++ "_o" := str_ne (by simp [String.toList_append])
    have h3 : n ++ "_i" ≠ n ++ "_o" := str_ne (by simp [String.toList_append])
    simp [h1, h2, h3]
  · simp

theorem snoc_inj {a b : List Char} {x y : Char} (h : a ++ [x] = b ++ [y]) : a = b ∧ x = y := by
  have := List.append_inj' h rfl
  simpa using this

/-- The names of two inouts differ. -/
theorem inoutNames_inj {split : Bool} {m n x : String} (hm : x ∈ inoutNames split m) (hn : x ∈ inoutNames split n) : m = n := by
  have e1 : ∀ s : String, (s ++ "_oe").toList = s.toList ++ ['_', 'o'] ++ ['e'] := by simp [String.toList_append]
  have e2 : ∀ s : String, (s ++ "_i").toList = s.toList ++ ['_'] ++ ['i'] := by simp [String.toList_append]
  have e3 : ∀ s : String, (s ++ "_o").toList = s.toList ++ ['_'] ++ ['o'] := by simp [String.toList_append]
  unfold inoutNames at hm hn
  split at hm
  · rename_i h
    rw [if_pos h] at hn
    simp only [List.mem_cons, List.not_mem_nil, or_false] at hm hn
    apply String.toList_injective
    rcases hm with hm | hm | hm <;> rcases hn with hn | hn | hn <;> rw [hm] at hn <;>
      have h' := congrArg String.toList hn <;> simp only [e1, e2, e3] at h' <;>
      obtain ⟨h1, h2⟩ := snoc_inj h' <;> first | exact absurd h2 (by decide) | simpa using h1
  · rename_i h
    rw [if_neg h] at hn
    simp only [List.mem_singleton] at hm hn
    rw [← hm, ← hn]

theorem inouts_nodup (split : Bool) {l : List String} (h : l.Nodup) : (l.flatMap (inoutNames split)).Nodup := by
  rw [List.nodup_flatMap]
  refine ⟨fun n _ => inoutNames_nodup split n, ?_⟩
  refine h.imp ?_
  intro a b hab x ha hb
  exact hab (inoutNames_inj ha hb)

/-- What an inout name is made of. -/
theorem inoutNames_form {split : Bool} {n x : String} (h : x ∈ inoutNames split n) : x = n ∨ x = n ++ "_oe" ∨ x = n ++ "_i" ∨ x = n ++ "_o" := by
  unfold inoutNames at h
  split at h
  · simp only [List.mem_cons, List.not_mem_nil, or_false] at h
    exact .inr h
  · exact .inl (by simpa using h)

variable {u : SigUnit}

theorem SigUnit.registers_nodup (hc : u.Checked) (ha : u.Avoids) : u.registers.Nodup := by
  have hf := List.nodup_append.mp hc.fsms
  have hs : ∀ {x} (h r : String), h ∈ fsmHeads → x ∈ u.flipflops → x ≠ h ++ r := fun h r hh hx e => (ha.fsm h hh r).1 (e ▸ hx)
  unfold SigUnit.registers
  rw [List.nodup_append, List.nodup_append, List.nodup_append, List.nodup_append]
  refine ⟨⟨⟨⟨hc.flipflops, nodup_prefix _ hf.1, ?_⟩, nodup_prefix _ hf.2.1, ?_⟩, nodup_prefix _ hf.2.1, ?_⟩, ?_, ?_⟩
  · intro a h1 b h2
    obtain ⟨f, _, rfl⟩ := List.mem_map.mp h2
    exact hs _ _ (by simp [fsmHeads]) h1
  · intro a h1 b h2
    obtain ⟨f, hf', rfl⟩ := List.mem_map.mp h2
    rcases List.mem_append.mp h1 with h1 | h1
    · exact hs _ _ (by simp [fsmHeads]) h1
    · obtain ⟨g, hg, rfl⟩ := List.mem_map.mp h1
      have := hf.2.2 g hg f hf'
      refine str_ne ?_
      simp only [String.toList_append, ne_eq, List.append_cancel_left_eq]
      exact fun e => this (String.toList_injective e)
  · intro a h1 b h2
    obtain ⟨f, hf', rfl⟩ := List.mem_map.mp h2
    simp only [List.mem_append] at h1
    rcases h1 with (h1 | h1) | h1
    · exact hs _ _ (by simp [fsmHeads]) h1
    all_goals
      obtain ⟨g, hg, rfl⟩ := List.mem_map.mp h1
      exact str_ne (by simp [String.toList_append])
  · split
    · rw [List.nodup_cons]
      refine ⟨?_, nodup_suffix _ hc.subs⟩
      intro h
      obtain ⟨s, _, h⟩ := List.mem_map.mp h
      have := congrArg (fun x => x.toList.length) h
      simp [String.toList_append] at this
    · exact List.nodup_nil
  · intro a h1 b h2
    split at h2
    · have hsub : ∀ s ∈ u.callingSubs, ∀ (c : Char) (h r : String), h.toList.take 2 = ['_', c] → c ≠ 'c' → h ++ r ≠ s ++ "_caller" := by
        intro s hs' c h r hh hcc e
        have e' := congrArg String.toList e
        simp only [String.toList_append] at e'
        match hl : h.toList, hh with
        | a :: b :: t, hh =>
          simp only [List.take_succ_cons, List.take_zero, List.cons.injEq, and_true] at hh
          obtain ⟨rfl, rfl⟩ := hh
          rw [hl] at e'
          match hsl : s.toList with
          | [] => rw [hsl] at e'; simp at e'; exact hcc e'.1
          | x :: xs =>
            rw [hsl] at e'
            simp only [List.cons_append, List.cons.injEq] at e'
            refine hc.letter s (by simp [hs']) (String.ofList xs) (String.toList_injective ?_)
            simp [String.toList_append, hsl, ← e'.1]
      have hall : ∀ (c : Char) (h r : String), h.toList.take 2 = ['_', c] → c ≠ 'c' → h ++ r ≠ b := by
        intro c h r hh hcc
        rcases List.mem_cons.mp h2 with rfl | h2
        · refine str_ne ?_
          match hl : h.toList, hh with
          | a :: b :: t, hh =>
            simp only [List.take_succ_cons, List.take_zero, List.cons.injEq, and_true] at hh
            obtain ⟨rfl, rfl⟩ := hh
            simp [String.toList_append, hl]
        · obtain ⟨s, hs', rfl⟩ := List.mem_map.mp h2
          exact hsub s hs' c h r hh hcc
      simp only [List.mem_append] at h1
      rcases h1 with ((h1 | h1) | h1) | h1
      · rcases List.mem_cons.mp h2 with rfl | h2
        · exact fun e => ha.caller (e ▸ h1)
        · obtain ⟨s, hs', rfl⟩ := List.mem_map.mp h2
          exact fun e => ha.subCaller s hs' (e ▸ h1)
      · obtain ⟨g, hg, rfl⟩ := List.mem_map.mp h1
        exact hall 'i' _ _ (by simp) (by decide)
      · obtain ⟨g, hg, rfl⟩ := List.mem_map.mp h1
        exact hall 'i' _ _ (by simp) (by decide)
      · obtain ⟨g, hg, rfl⟩ := List.mem_map.mp h1
        exact hall 'f' _ _ (by simp) (by decide)
    · cases h2

theorem SigUnit.temporary_nodup (hc : u.Checked) (ha : u.Avoids) : u.temporary.Nodup := by
  have hf := (List.nodup_append.mp hc.fsms).2.1
  have hs : ∀ {x} (h r : String), h ∈ fsmHeads → x ∈ u.temps → x ≠ h ++ r := fun h r hh hx e => (ha.fsm h hh r).2 (e ▸ hx)
  unfold SigUnit.temporary
  rw [List.nodup_append, List.nodup_append]
  refine ⟨⟨hc.temps, nodup_prefix _ hf, ?_⟩, nodup_prefix _ hf, ?_⟩
  · intro a h1 b h2
    obtain ⟨f, _, rfl⟩ := List.mem_map.mp h2
    exact hs _ _ (by simp [fsmHeads]) h1
  · intro a h1 b h2
    obtain ⟨f, hf', rfl⟩ := List.mem_map.mp h2
    rcases List.mem_append.mp h1 with h1 | h1
    · exact hs _ _ (by simp [fsmHeads]) h1
    · obtain ⟨g, hg, rfl⟩ := List.mem_map.mp h1
      exact str_ne (by simp [String.toList_append])

theorem SigUnit.wired_nodup (hc : u.Checked) (ha : u.Avoids) : u.wired.Nodup := by
  have hd : ((u.insts.filter (·.fsm)).map (fun i => i.name ++ "_done")).Nodup := by
    have : (u.insts.filter (·.fsm)).map (fun i => i.name ++ "_done") = ((u.insts.filter (·.fsm)).map SigInst.name).map (· ++ "_done") := by simp
    rw [this]
    exact nodup_suffix _ (hc.insts.sublist (List.filter_sublist.map _))
  have hinst : ∀ x ∈ u.insts.flatMap (fun i => i.outputs.map (fun o => i.name ++ "_" ++ o)), ∃ i ∈ u.insts, ∃ o ∈ i.outputs, x = i.name ++ "_" ++ o := by
    intro x hx
    obtain ⟨i, hi, hx⟩ := List.mem_flatMap.mp hx
    obtain ⟨o, ho, rfl⟩ := List.mem_map.mp hx
    exact ⟨i, hi, o, ho, rfl⟩
  have hdone : ∀ x ∈ (u.insts.filter (·.fsm)).map (fun i => i.name ++ "_done"), ∃ i ∈ u.insts, x = i.name ++ "_done" := by
    intro x hx
    obtain ⟨i, hi, rfl⟩ := List.mem_map.mp hx
    exact ⟨i, (List.mem_filter.mp hi).1, rfl⟩
  have hio : ∀ x ∈ u.inoutWires.flatMap (inoutNames u.split), x ∈ u.inoutWires.flatMap (fun n => [n, n ++ "_oe", n ++ "_i", n ++ "_o"]) := by
    intro x hx
    obtain ⟨n, hn, hx⟩ := List.mem_flatMap.mp hx
    refine List.mem_flatMap.mpr ⟨n, hn, ?_⟩
    simpa using inoutNames_form hx
  have hw : ∀ a ∈ u.insts.flatMap (fun i => i.outputs.map (fun o => i.name ++ "_" ++ o)) ++ (u.insts.filter (·.fsm)).map (fun i => i.name ++ "_done") ++
      u.memOuts.map ("mem_" ++ ·), ∀ b ∈ u.wires ++ u.inoutWires.flatMap (fun n => [n, n ++ "_oe", n ++ "_i", n ++ "_o"]), a ≠ b := by
    intro a h1 b h2 e
    have hb := ha.wire b h2
    simp only [List.mem_append] at h1
    rcases h1 with (h1 | h1) | h1
    · obtain ⟨i, hi, o, ho, rfl⟩ := hinst a h1
      exact (hb.2 i hi).2 o ho e.symm
    · obtain ⟨i, hi, rfl⟩ := hdone a h1
      exact (hb.2 i hi).1 e.symm
    · obtain ⟨v, hv, rfl⟩ := List.mem_map.mp h1
      exact hb.1 v hv e.symm
  unfold SigUnit.wired
  rw [List.nodup_append, List.nodup_append, List.nodup_append, List.nodup_append]
  refine ⟨⟨⟨⟨hc.instOutputs, hd, ?_⟩, nodup_prefix _ hc.memOuts, ?_⟩, hc.wires, ?_⟩, inouts_nodup _ hc.inoutWires, ?_⟩
  · intro a h1 b h2
    obtain ⟨i, hi, o, ho, rfl⟩ := hinst a h1
    obtain ⟨j, hj, rfl⟩ := hdone b h2
    exact (ha.instDone j hj i hi o ho).symm
  · intro a h1 b h2
    obtain ⟨v, hv, rfl⟩ := List.mem_map.mp h2
    rcases List.mem_append.mp h1 with h1 | h1
    · obtain ⟨i, hi, o, ho, rfl⟩ := hinst a h1
      exact (ha.instMem i hi v hv).2 o ho
    · obtain ⟨i, hi, rfl⟩ := hdone a h1
      exact (ha.instMem i hi v hv).1
  · intro a h1 b h2
    exact hw a h1 b (List.mem_append_left _ h2)
  · intro a h1 b h2
    rcases List.mem_append.mp h1 with h1 | h1
    · exact hw a h1 b (List.mem_append_right _ (hio b h2))
    · obtain ⟨n, hn, h2⟩ := List.mem_flatMap.mp h2
      have := ha.split n hn
      rcases inoutNames_form h2 with rfl | rfl | rfl | rfl <;> rintro rfl
      · exact hc.between _ h1 hn
      · exact this.1 h1
      · exact this.2.1 h1
      · exact this.2.2 h1

theorem SigUnit.unused_nodup (hc : u.Checked) (ha : u.Avoids) : u.unused.Nodup := by
  have hl : ∀ i ∈ u.insts, ∀ v ∈ u.inputs.map Prod.fst ++ u.inouts.map SigInout.name, v ≠ "_" ++ i.name := by
    intro i hi v hv
    exact hc.letter v (by rw [List.append_assoc, List.mem_append]; exact .inl hv) i.name
  have hi : ∀ x ∈ (u.inputs.filter (fun v => !v.2)).map Prod.fst, x ∈ u.inputs.map Prod.fst := fun x hx => (List.filter_sublist.map _).subset hx
  have ho : ∀ x ∈ (if u.split then (u.inouts.filter (fun v => !v.used)).map SigInout.name else []), x ∈ u.inouts.map SigInout.name := by
    intro x hx
    split at hx
    · exact (List.filter_sublist.map _).subset hx
    · cases hx
  unfold SigUnit.unused
  rw [List.nodup_append, List.nodup_append, List.nodup_append]
  refine ⟨⟨⟨?_, hc.inputs.sublist (List.filter_sublist.map _), ?_⟩, ?_, ?_⟩, ?_, ?_⟩
  · split <;> simp
  · intro a h1 b h2
    split at h1
    · rw [List.mem_singleton] at h1
      subst h1
      exact fun e => ha.inRun (List.mem_append_left _ (hi _ (e ▸ h2)))
    · cases h1
  · split
    · exact hc.inouts.sublist (List.filter_sublist.map _)
    · exact List.nodup_nil
  · intro a h1 b h2
    have h2 := ho b h2
    rcases List.mem_append.mp h1 with h1 | h1
    · split at h1
      · rw [List.mem_singleton] at h1
        subst h1
        exact fun e => ha.inRun (List.mem_append_right _ (e ▸ h2))
      · cases h1
    · obtain ⟨v, hv, rfl⟩ := List.mem_map.mp (hi a h1)
      obtain ⟨w, hw, rfl⟩ := List.mem_map.mp h2
      exact hc.ports v hv w hw
  · have : u.insts.map (fun i => "_" ++ i.name) = (u.insts.map SigInst.name).map ("_" ++ ·) := by simp
    rw [this]
    exact nodup_prefix _ hc.insts
  · intro a h1 b h2
    obtain ⟨i, hi', rfl⟩ := List.mem_map.mp h2
    simp only [List.mem_append] at h1
    rcases h1 with (h1 | h1) | h1
    · split at h1
      · rw [List.mem_singleton] at h1
        subst h1
        exact str_ne (by simp [String.toList_append])
      · cases h1
    · exact hl i hi' a (List.mem_append_left _ (hi a h1))
    · exact hl i hi' a (List.mem_append_right _ (ho a h1))

/-- Ports: how they start. -/
theorem SigUnit.ports_form {x : String} (h : x ∈ u.ports) :
    (∃ r, x = "in_" ++ r) ∨ (∃ r, x = "out_" ++ r) ∨ (∃ r, x = "inout_" ++ r) ∨ x = "reset" ∨ x = "clock" := by
  unfold SigUnit.ports at h
  simp only [List.mem_append, List.mem_map, List.mem_flatMap, List.mem_ite_nil_right, List.mem_cons, List.not_mem_nil, or_false] at h
  rcases h with (((((⟨v, _, rfl⟩ | ⟨v, _, rfl⟩) | ⟨v, _, h⟩) | ⟨_, rfl⟩) | ⟨_, rfl⟩) | ⟨_, rfl⟩) | rfl | rfl
  · exact .inl ⟨_, rfl⟩
  · exact .inr (.inl ⟨_, rfl⟩)
  · refine .inr (.inr (.inl ?_))
    rcases inoutNames_form h with rfl | rfl | rfl | rfl
    · exact ⟨_, rfl⟩
    · exact ⟨v.name ++ "_oe", by simp [String.append_assoc]⟩
    · exact ⟨v.name ++ "_i", by simp [String.append_assoc]⟩
    · exact ⟨v.name ++ "_o", by simp [String.append_assoc]⟩
  · exact .inl ⟨"run", by decide⟩
  · exact .inr (.inl ⟨"done", by decide⟩)
  · exact .inr (.inr (.inr (.inl rfl)))
  · exact .inr (.inl ⟨"clock", by decide⟩)
  · exact .inr (.inr (.inr (.inr rfl)))

theorem SigUnit.ports_nodup (hc : u.Checked) (ha : u.Avoids) : u.ports.Nodup := by
  have hin : u.inputs.map (fun v => "in_" ++ v.1) = (u.inputs.map Prod.fst).map ("in_" ++ ·) := by simp
  have hio : u.inouts.flatMap (fun v => inoutNames u.split ("inout_" ++ v.name)) =
      ((u.inouts.map SigInout.name).map ("inout_" ++ ·)).flatMap (inoutNames u.split) := by simp [List.flatMap_map]
  have h3 : ∀ x ∈ u.inouts.flatMap (fun v => inoutNames u.split ("inout_" ++ v.name)), ∃ r, x = "inout_" ++ r := by
    intro x hx
    obtain ⟨v, _, h⟩ := List.mem_flatMap.mp hx
    rcases inoutNames_form h with rfl | rfl | rfl | rfl
    · exact ⟨_, rfl⟩
    · exact ⟨v.name ++ "_oe", by simp [String.append_assoc]⟩
    · exact ⟨v.name ++ "_i", by simp [String.append_assoc]⟩
    · exact ⟨v.name ++ "_o", by simp [String.append_assoc]⟩
  have ei : ∀ r, "in_" ++ r = "in_run" → r = "run" := by
    intro r h
    have := congrArg String.toList h
    simp [String.toList_append] at this
    exact String.toList_injective (by simp [this])
  have ed : ∀ r, "out_" ++ r = "out_done" → r = "done" := by
    intro r h
    have := congrArg String.toList h
    simp [String.toList_append] at this
    exact String.toList_injective (by simp [this])
  have ec : ∀ r, "out_" ++ r = "out_clock" → r = "clock" := by
    intro r h
    have := congrArg String.toList h
    simp [String.toList_append] at this
    exact String.toList_injective (by simp [this])
  unfold SigUnit.ports
  rw [List.nodup_append, List.nodup_append, List.nodup_append, List.nodup_append, List.nodup_append, List.nodup_append]
  refine ⟨⟨⟨⟨⟨⟨?_, nodup_prefix _ hc.outputs, ?_⟩, ?_, ?_⟩, ?_, ?_⟩, ?_, ?_⟩, ?_, ?_⟩, by decide, ?_⟩
  · rw [hin]; exact nodup_prefix _ hc.inputs
  · intro a h1 b h2
    obtain ⟨v, _, rfl⟩ := List.mem_map.mp h1
    obtain ⟨w, _, rfl⟩ := List.mem_map.mp h2
    exact str_ne (by simp [String.toList_append])
  · rw [hio]; exact inouts_nodup _ (nodup_prefix _ hc.inouts)
  · intro a h1 b h2
    obtain ⟨r, rfl⟩ := h3 b h2
    rcases List.mem_append.mp h1 with h1 | h1 <;> obtain ⟨v, _, rfl⟩ := List.mem_map.mp h1 <;> exact str_ne (by simp [String.toList_append])
  · split <;> simp
  · intro a h1 b h2
    split at h2
    · rw [List.mem_singleton] at h2
      subst h2
      simp only [List.mem_append] at h1
      rcases h1 with (h1 | h1) | h1
      · obtain ⟨v, hv, rfl⟩ := List.mem_map.mp h1
        exact fun e => ha.run (List.mem_map.mpr ⟨v, hv, ei _ e⟩)
      · obtain ⟨v, hv, rfl⟩ := List.mem_map.mp h1
        exact str_ne (by simp [String.toList_append])
      · obtain ⟨r, rfl⟩ := h3 a h1
        exact str_ne (by simp [String.toList_append])
    · cases h2
  · split <;> simp
  · intro a h1 b h2
    split at h2
    · rw [List.mem_singleton] at h2
      subst h2
      simp only [List.mem_append] at h1
      rcases h1 with ((h1 | h1) | h1) | h1
      · obtain ⟨v, hv, rfl⟩ := List.mem_map.mp h1
        exact str_ne (by simp [String.toList_append])
      · obtain ⟨v, hv, rfl⟩ := List.mem_map.mp h1
        exact fun e => ha.done (ed _ e ▸ hv)
      · obtain ⟨r, rfl⟩ := h3 a h1
        exact str_ne (by simp [String.toList_append])
      · split at h1
        · rw [List.mem_singleton.mp h1]; decide
        · cases h1
    · cases h2
  · split <;> simp
  · intro a h1 b h2
    split at h2
    · rw [List.mem_singleton] at h2
      subst h2
      simp only [List.mem_append] at h1
      rcases h1 with (((h1 | h1) | h1) | h1) | h1
      · obtain ⟨v, hv, rfl⟩ := List.mem_map.mp h1
        exact str_ne (by simp [String.toList_append])
      · obtain ⟨v, hv, rfl⟩ := List.mem_map.mp h1
        exact str_ne (by simp [String.toList_append])
      · obtain ⟨r, rfl⟩ := h3 a h1
        exact str_ne (by simp [String.toList_append])
      · split at h1
        · rw [List.mem_singleton.mp h1]; decide
        · cases h1
      · split at h1
        · rw [List.mem_singleton.mp h1]; decide
        · cases h1
    · cases h2
  · intro a h1 b h2
    simp only [List.mem_append] at h1
    rcases h1 with ((((h1 | h1) | h1) | h1) | h1) | h1
    · obtain ⟨v, hv, rfl⟩ := List.mem_map.mp h1
      simp only [List.mem_cons, List.not_mem_nil, or_false] at h2
      rcases h2 with rfl | rfl <;> exact str_ne (by simp [String.toList_append])
    · obtain ⟨v, hv, rfl⟩ := List.mem_map.mp h1
      simp only [List.mem_cons, List.not_mem_nil, or_false] at h2
      rcases h2 with rfl | rfl
      · exact fun e => ha.clock (ec _ e ▸ hv)
      · exact str_ne (by simp [String.toList_append])
    · obtain ⟨r, rfl⟩ := h3 a h1
      simp only [List.mem_cons, List.not_mem_nil, or_false] at h2
      rcases h2 with rfl | rfl <;> exact str_ne (by simp [String.toList_append])
    all_goals
      split at h1
      · rw [List.mem_singleton.mp h1]
        simp only [List.mem_cons, List.not_mem_nil, or_false] at h2
        rcases h2 with rfl | rfl <;> decide
      · cases h1

/-- `_<instance>_run` does not start as another generated signal. -/
theorem inst_run_ne (ha : u.Avoids) {i : SigInst} (hi : i ∈ u.insts) {p : String} (hp : p ∈ signalHeads) (r : String) :
    "_" ++ i.name ++ "_run" ≠ "_" ++ p ++ "_" ++ r := by
  intro e
  have e' := congrArg String.toList e
  simp only [String.toList_append, List.append_assoc] at e'
  have e' : i.name.toList ++ '_' :: ['r', 'u', 'n'] = p.toList ++ '_' :: r.toList := by simpa using e'
  have h := ha.instSignal i hi p hp
  have hu : ∀ q ∈ signalHeads, '_' ∉ q.toList := by decide
  rcases List.append_eq_append_iff.mp e' with ⟨c, h1, h2⟩ | ⟨c, h1, h2⟩
  · cases c with
    | nil => exact h.1 (String.toList_injective (by simpa using h1.symm))
    | cons x c =>
      simp only [List.cons_append, List.cons.injEq] at h2
      exact hu p hp (by rw [h1, ← h2.1]; simp)
  · cases c with
    | nil => exact h.1 (String.toList_injective (by simpa using h1))
    | cons x c =>
      simp only [List.cons_append, List.cons.injEq] at h2
      refine h.2 (String.ofList c) (String.toList_injective ?_)
      simp [String.toList_append, h1, ← h2.1]

theorem SigUnit.others_nodup (hc : u.Checked) (ha : u.Avoids) : u.others.Nodup := by
  have hf := (List.nodup_append.mp hc.fsms).2.1
  unfold SigUnit.others
  rw [List.nodup_append, List.nodup_append]
  refine ⟨⟨?_, nodup_prefix _ hf, ?_⟩, ?_, ?_⟩
  · split <;> simp
  · intro a h1 b h2
    obtain ⟨f, _, rfl⟩ := List.mem_map.mp h2
    split at h1
    · rw [List.mem_singleton.mp h1]
      exact str_ne (by simp [String.toList_append])
    · cases h1
  · have : (u.insts.filter (·.callable)).map (fun i => "_" ++ i.name ++ "_run") =
        (((u.insts.filter (·.callable)).map SigInst.name).map ("_" ++ ·)).map (· ++ "_run") := by simp
    rw [this]
    exact nodup_suffix _ (nodup_prefix _ (hc.insts.sublist (List.filter_sublist.map _)))
  · intro a h1 b h2
    obtain ⟨i, hi, rfl⟩ := List.mem_map.mp h2
    have hi := (List.mem_filter.mp hi).1
    rcases List.mem_append.mp h1 with h1 | h1
    · split at h1
      · rw [List.mem_singleton.mp h1]
        intro e
        have e' := congrArg (fun x => x.toList.reverse) e
        simp [String.toList_append] at e'
      · cases h1
    · obtain ⟨f, _, rfl⟩ := List.mem_map.mp h1
      have := inst_run_ne ha hi (p := "ready") (by decide) f
      intro e
      apply this
      rw [← e]
      apply String.toList_injective
      simp [String.toList_append]

theorem SigUnit.instances_nodup (hc : u.Checked) : u.instances.Nodup := by
  unfold SigUnit.instances
  rw [List.nodup_append]
  refine ⟨hc.insts, nodup_prefix _ hc.mems, ?_⟩
  intro a h1 b h2
  obtain ⟨m, _, rfl⟩ := List.mem_map.mp h2
  have := hc.letter a (by simp only [List.mem_append]; exact .inl (.inr h1)) ("_mem__" ++ m)
  intro e
  apply this
  rw [e]
  apply String.toList_injective
  simp [String.toList_append]

/-- Every port starts with a letter. -/
theorem SigUnit.ports_letter {x : String} (h : x ∈ u.ports) (r : String) : x ≠ "_" ++ r := by
  rcases SigUnit.ports_form h with ⟨s, rfl⟩ | ⟨s, rfl⟩ | ⟨s, rfl⟩ | rfl | rfl <;> exact str_ne (by simp [String.toList_append])

theorem SigUnit.others_form (hc : u.Checked) (ha : u.Avoids) {x : String} (h : x ∈ u.others) :
    (∃ r, x = "_" ++ r) ∧ (∀ r, x ≠ "__unused_" ++ r ∧ x ≠ "__mem__" ++ r) ∧ ∀ p ∈ ["_w_", "_t_", "_c_", "_d_", "_q_"], ∀ r, x ≠ p ++ r := by
  unfold SigUnit.others at h
  simp only [List.mem_append, List.mem_ite_nil_right, List.mem_singleton] at h
  rcases h with (⟨_, rfl⟩ | h) | h
  · refine ⟨⟨"autorun", by decide⟩, fun r => ⟨str_ne (by simp [String.toList_append]), str_ne (by simp [String.toList_append])⟩, ?_⟩
    intro p hp r
    simp only [List.mem_cons, List.not_mem_nil, or_false] at hp
    rcases hp with rfl | rfl | rfl | rfl | rfl <;> exact str_ne (by simp [String.toList_append])
  · obtain ⟨f, _, rfl⟩ := List.mem_map.mp h
    refine ⟨⟨"ready_" ++ f, String.toList_injective (by simp [String.toList_append])⟩, fun r => ⟨str_ne (by simp [String.toList_append]), str_ne (by simp [String.toList_append])⟩, ?_⟩
    intro p hp r
    simp only [List.mem_cons, List.not_mem_nil, or_false] at hp
    rcases hp with rfl | rfl | rfl | rfl | rfl <;> exact str_ne (by simp [String.toList_append])
  · obtain ⟨i, hi, rfl⟩ := List.mem_map.mp h
    have hi := (List.mem_filter.mp hi).1
    refine ⟨⟨i.name ++ "_run", by simp [String.append_assoc]⟩, ?_, ?_⟩
    · have key : ∀ c l, c ≠ 'r' → ∀ r, "_" ++ i.name ++ "_run" ≠ "_" ++ ("_" ++ String.ofList (c :: l)) ++ r := by
        intro c l hl' r e
        have e' := congrArg String.toList e
        simp only [String.toList_append] at e'
        match hl : i.name.toList with
        | [] =>
          rw [hl] at e'
          simp at e'
          exact hl' e'.1.symm
        | x :: xs =>
          rw [hl] at e'
          simp at e'
          refine hc.letter i.name (by simp only [List.mem_append]; exact .inl (.inr (List.mem_map.mpr ⟨i, hi, rfl⟩))) (String.ofList xs)
            (String.toList_injective ?_)
          simp [String.toList_append, hl, e'.1]
      exact fun r => ⟨key 'u' ['n', 'u', 's', 'e', 'd', '_'] (by decide) r, key 'm' ['e', 'm', '_', '_'] (by decide) r⟩
    · intro p hp r
      simp only [List.mem_cons, List.not_mem_nil, or_false] at hp
      rcases hp with rfl | rfl | rfl | rfl | rfl
      · exact inst_run_ne ha hi (p := "w") (by decide) r
      · exact inst_run_ne ha hi (p := "t") (by decide) r
      · exact inst_run_ne ha hi (p := "c") (by decide) r
      · exact inst_run_ne ha hi (p := "d") (by decide) r
      · exact inst_run_ne ha hi (p := "q") (by decide) r

theorem disjoint_prefix {p q : String} (h : ∀ r s, p ++ r ≠ q ++ s) (l m : List String) :
    ∀ a ∈ l.map (p ++ ·), ∀ b ∈ m.map (q ++ ·), a ≠ b := by
  intro a h1 b h2
  obtain ⟨x, _, rfl⟩ := List.mem_map.mp h1
  obtain ⟨y, _, rfl⟩ := List.mem_map.mp h2
  exact h x y

theorem SigUnit.declared_nodup (hc : u.Checked) (ha : u.Avoids) : u.declared.Nodup := by
  have hport : ∀ p : String, p.toList.head? = some '_' → ∀ l : List String, ∀ a ∈ u.ports, ∀ b ∈ l.map (p ++ ·), a ≠ b := by
    intro p hp l a h1 b h2
    obtain ⟨r, _, rfl⟩ := List.mem_map.mp h2
    match hl : p.toList, hp with
    | c :: cs, hp =>
      simp only [List.head?_cons, Option.some.injEq] at hp
      subst hp
      intro e
      refine SigUnit.ports_letter h1 (String.ofList cs ++ r) ?_
      rw [e]
      apply String.toList_injective
      simp [String.toList_append, hl]
  have hinst : ∀ x ∈ u.insts.map SigInst.name, ∀ r, x ≠ "_" ++ r := fun x hx r =>
    hc.letter x (by simp only [List.mem_append]; exact .inl (.inr hx)) r
  have hi : ∀ p : String, p.toList.head? = some '_' → (∀ r s, p ++ r ≠ "__mem__" ++ s) → ∀ l : List String, ∀ a ∈ l.map (p ++ ·), ∀ b ∈ u.instances, a ≠ b := by
    intro p hp hm l a h1 b h2
    obtain ⟨r, _, rfl⟩ := List.mem_map.mp h1
    rcases List.mem_append.mp h2 with h2 | h2
    · match hl : p.toList, hp with
      | c :: cs, hp =>
        simp only [List.head?_cons, Option.some.injEq] at hp
        subst hp
        intro e
        refine hinst b h2 (String.ofList cs ++ r) ?_
        rw [← e]
        apply String.toList_injective
        simp [String.toList_append, hl]
    · obtain ⟨m, _, rfl⟩ := List.mem_map.mp h2
      exact hm r m
  have ho : ∀ p : String, (p = "__unused_" ∨ p ∈ ["_w_", "_t_", "_c_", "_d_", "_q_"]) → ∀ l : List String, ∀ a ∈ l.map (p ++ ·), ∀ b ∈ u.others, a ≠ b := by
    intro p hp l a h1 b h2 e
    obtain ⟨r, _, rfl⟩ := List.mem_map.mp h1
    have := SigUnit.others_form hc ha h2
    rcases hp with rfl | hp
    · exact (this.2.1 r).1 e.symm
    · exact this.2.2 p hp r e.symm
  have hne : ∀ {p q : String}, (∀ r s, (p ++ r).toList ≠ (q ++ s).toList) → ∀ l m : List String, ∀ a ∈ l.map (p ++ ·), ∀ b ∈ m.map (q ++ ·), a ≠ b :=
    fun h l m => disjoint_prefix (fun r s => str_ne (h r s)) l m
  unfold SigUnit.declared
  rw [List.nodup_append, List.nodup_append, List.nodup_append, List.nodup_append, List.nodup_append, List.nodup_append, List.nodup_append,
    List.nodup_append]
  refine ⟨⟨⟨⟨⟨⟨⟨⟨SigUnit.ports_nodup hc ha, nodup_prefix _ (SigUnit.unused_nodup hc ha), ?_⟩, nodup_prefix _ (SigUnit.wired_nodup hc ha), ?_⟩,
    nodup_prefix _ (SigUnit.temporary_nodup hc ha), ?_⟩, nodup_prefix _ hc.consts, ?_⟩, nodup_prefix _ (SigUnit.registers_nodup hc ha), ?_⟩,
    nodup_prefix _ (SigUnit.registers_nodup hc ha), ?_⟩, SigUnit.others_nodup hc ha, ?_⟩, SigUnit.instances_nodup hc, ?_⟩
  · exact hport _ (by simp) _
  · intro a h1 b h2
    rcases List.mem_append.mp h1 with h1 | h1
    · exact hport _ (by simp) _ a h1 b h2
    · exact hne (by simp [String.toList_append]) _ _ a h1 b h2
  · intro a h1 b h2
    simp only [List.mem_append] at h1
    rcases h1 with (h1 | h1) | h1
    · exact hport _ (by simp) _ a h1 b h2
    all_goals exact hne (by simp [String.toList_append]) _ _ a h1 b h2
  · intro a h1 b h2
    simp only [List.mem_append] at h1
    rcases h1 with ((h1 | h1) | h1) | h1
    · exact hport _ (by simp) _ a h1 b h2
    all_goals exact hne (by simp [String.toList_append]) _ _ a h1 b h2
  · intro a h1 b h2
    simp only [List.mem_append] at h1
    rcases h1 with (((h1 | h1) | h1) | h1) | h1
    · exact hport _ (by simp) _ a h1 b h2
    all_goals exact hne (by simp [String.toList_append]) _ _ a h1 b h2
  · intro a h1 b h2
    simp only [List.mem_append] at h1
    rcases h1 with ((((h1 | h1) | h1) | h1) | h1) | h1
    · exact hport _ (by simp) _ a h1 b h2
    all_goals exact hne (by simp [String.toList_append]) _ _ a h1 b h2
  · intro a h1 b h2
    simp only [List.mem_append] at h1
    rcases h1 with (((((h1 | h1) | h1) | h1) | h1) | h1) | h1
    · obtain ⟨r, rfl⟩ := (SigUnit.others_form hc ha h2).1
      exact SigUnit.ports_letter h1 r
    · exact ho _ (.inl rfl) _ a h1 b h2
    all_goals exact ho _ (.inr (by simp)) _ a h1 b h2
  · intro a h1 b h2
    simp only [List.mem_append] at h1
    rcases h1 with ((((((h1 | h1) | h1) | h1) | h1) | h1) | h1) | h1
    · rcases List.mem_append.mp h2 with h2 | h2
      · obtain ⟨i, hi', rfl⟩ := List.mem_map.mp h2
        have := ha.instPort i hi'
        rcases SigUnit.ports_form h1 with ⟨s, rfl⟩ | ⟨s, rfl⟩ | ⟨s, rfl⟩ | rfl | rfl
        · exact (this.2.2 "in_" (by simp) s).symm
        · exact (this.2.2 "out_" (by simp) s).symm
        · exact (this.2.2 "inout_" (by simp) s).symm
        · exact this.1.symm
        · exact this.2.1.symm
      · exact hport _ (by simp) _ a h1 b h2
    · exact hi _ (by simp) (fun r s => str_ne (by simp [String.toList_append])) _ a h1 b h2
    · exact hi _ (by simp) (fun r s => str_ne (by simp [String.toList_append])) _ a h1 b h2
    · exact hi _ (by simp) (fun r s => str_ne (by simp [String.toList_append])) _ a h1 b h2
    · exact hi _ (by simp) (fun r s => str_ne (by simp [String.toList_append])) _ a h1 b h2
    · exact hi _ (by simp) (fun r s => str_ne (by simp [String.toList_append])) _ a h1 b h2
    · exact hi _ (by simp) (fun r s => str_ne (by simp [String.toList_append])) _ a h1 b h2
    · have := SigUnit.others_form hc ha h1
      rcases List.mem_append.mp h2 with h2 | h2
      · obtain ⟨r, rfl⟩ := this.1
        exact fun e => hinst b h2 r e.symm
      · obtain ⟨m, _, rfl⟩ := List.mem_map.mp h2
        exact (this.2.1 m).2

end Silice
