import Verif.Spec.ModNames
import Mathlib.Data.List.Nodup

set_option autoImplicit false

namespace Silice

mutual
/-- Units and paths of the modules. -/
def UNode.parts (path : List Char) : UNode → List (String × List Char)
  | .mk u mems insts => mems.map (fun m => (u, path ++ '_' :: ("mem_" ++ m).toList)) ++ [(u, path)] ++ insts.parts path

def UNodes.parts (path : List Char) : UNodes → List (String × List Char)
  | .nil => []
  | .cons i n rest => n.parts (path ++ '_' :: i.toList) ++ rest.parts path
end

def partName (p : String × List Char) : List Char := 'M' :: '_' :: p.1.toList ++ '_' :: p.2

theorem memModule_part (u m path : String) :
    (memModule u path m).toList = partName (u, path.toList ++ '_' :: ("mem_" ++ m).toList) := by
  simp [memModule, partName, String.toList_append]

theorem unitModule_part (u path : String) : (unitModule u path).toList = partName (u, path.toList) := by
  simp [unitModule, partName, String.toList_append]

mutual
theorem UNode.modules_parts (n : UNode) (path : String) : (n.modules path).map String.toList = (n.parts path.toList).map partName := by
  match n with
  | .mk u mems insts =>
    simp only [UNode.modules, UNode.parts, List.map_append, List.map_map, List.map_cons, List.map_nil, unitModule_part, insts.modules_parts path]
    congr 2
    apply List.map_congr_left
    intro m _
    exact memModule_part u m path

theorem UNodes.modules_parts (l : UNodes) (path : String) : (l.modules path).map String.toList = (l.parts path.toList).map partName := by
  match l with
  | .nil => rfl
  | .cons i n rest =>
    have : (path ++ "_" ++ i).toList = path.toList ++ '_' :: i.toList := by simp [String.toList_append]
    simp only [UNodes.modules, UNodes.parts, List.map_append, n.modules_parts, rest.modules_parts, this]
end

mutual
/-- What follows the path of a unit: nothing, or an underscore and more, the latter only if it is not a leaf. -/
theorem UNode.parts_cases (n : UNode) (path : List Char) (p : String × List Char) (hp : p ∈ n.parts path) :
    p.2 = path ∨ (¬ n.Leaf ∧ ∃ r, p.2 = path ++ '_' :: r) := by
  match n with
  | .mk u mems insts =>
    simp only [UNode.parts, List.mem_append, List.mem_map, List.mem_singleton] at hp
    rcases hp with (⟨m, hm, rfl⟩ | rfl) | hp
    · refine .inr ⟨fun h => ?_, _, rfl⟩
      have h1 : mems = [] := h.1
      rw [h1] at hm
      cases hm
    · exact .inl rfl
    · refine .inr ⟨fun h => ?_, ?_⟩
      · have h1 : insts = .nil := h.2
        rw [h1] at hp
        cases hp
      · obtain ⟨i, c, _, h | ⟨_, r, h⟩⟩ := insts.parts_cases path p hp
        · exact ⟨_, h⟩
        · exact ⟨i.toList ++ '_' :: r, by rw [h]; simp⟩

theorem UNodes.parts_cases (l : UNodes) (path : List Char) (p : String × List Char) (hp : p ∈ l.parts path) :
    ∃ i c, (i, c) ∈ l.list ∧ (p.2 = path ++ '_' :: i.toList ∨ (¬ c.Leaf ∧ ∃ r, p.2 = path ++ '_' :: i.toList ++ '_' :: r)) := by
  match l with
  | .nil => cases hp
  | .cons i n rest =>
    rw [UNodes.parts, List.mem_append] at hp
    rcases hp with h | h
    · exact ⟨i, n, by simp [UNodes.list], n.parts_cases _ p h⟩
    · obtain ⟨j, c, hm, h⟩ := rest.parts_cases path p h
      exact ⟨j, c, by simp [UNodes.list, hm], h⟩
end

theorem string_of_chars {q p : String} {r : List Char} (h : q.toList = p.toList ++ '_' :: r) : q = p ++ "_" ++ String.ofList r := by
  apply String.toList_injective
  simp [String.toList_append, h]

/-- Two names that are equal once followed by an underscore and more: they are the same, or one starts the other. -/
theorem common_start {a b r s : List Char} (h : a ++ '_' :: r = b ++ '_' :: s) :
    a = b ∨ (∃ t, b = a ++ '_' :: t) ∨ ∃ t, a = b ++ '_' :: t := by
  rcases List.append_eq_append_iff.mp h with ⟨c, h1, h2⟩ | ⟨c, h1, h2⟩
  · cases c with
    | nil => exact .inl (by simpa using h1.symm)
    | cons x c => simp only [List.cons_append, List.cons.injEq] at h2; exact .inr (.inl ⟨c, by rw [h1, h2.1]⟩)
  · cases c with
    | nil => exact .inl (by simpa using h1)
    | cons x c => simp only [List.cons_append, List.cons.injEq] at h2; exact .inr (.inr ⟨c, by rw [h1, h2.1]⟩)

/-- Names of instances and memories that do not run into each other. -/
def Clear (l : UNodes) : Prop :=
  (l.list.map Prod.fst).Nodup ∧ ∀ p ∈ l.list, ¬ p.2.Leaf → ∀ r : List Char, ∀ q ∈ l.list, q.1.toList ≠ p.1.toList ++ '_' :: r

theorem siblings_differ {path : List Char} {i j : String} {c d : UNode} {s t : List Char}
    (hs : s = path ++ '_' :: i.toList ∨ (¬ c.Leaf ∧ ∃ r, s = path ++ '_' :: i.toList ++ '_' :: r))
    (ht : t = path ++ '_' :: j.toList ∨ (¬ d.Leaf ∧ ∃ r, t = path ++ '_' :: j.toList ++ '_' :: r))
    (hne : i ≠ j) (hi : ¬ c.Leaf → ∀ r, j.toList ≠ i.toList ++ '_' :: r) (hj : ¬ d.Leaf → ∀ r, i.toList ≠ j.toList ++ '_' :: r) : s ≠ t := by
  rintro rfl
  have hne' : i.toList ≠ j.toList := fun h => hne (String.toList_injective h)
  rcases hs with hs | ⟨hl, r, hs⟩ <;> rcases ht with ht | ⟨hl', r', ht⟩ <;> rw [hs] at ht
  · simp at ht; exact hne' ht
  · simp at ht; exact hj hl' _ ht
  · simp at ht; exact hi hl _ ht.symm
  · simp at ht
    rcases common_start ht with h | ⟨t, h⟩ | ⟨t, h⟩
    · exact hne' h
    · exact hi hl _ h
    · exact hj hl' _ h

mutual
theorem UNode.parts_nodup (n : UNode) (path : List Char) (h : ∀ m, UNode.Below n m → m.Apart) : ((n.parts path).map Prod.snd).Nodup := by
  match n with
  | .mk u mems insts =>
    have ha := h _ (.self _)
    have hc : Clear insts := ⟨ha.insts, fun p hp hl r q hq he => (ha.starts p hp hl (String.ofList r)).1 q hq (string_of_chars he)⟩
    have hi := insts.parts_nodup path hc (fun i c hm m hb => h m (.step hm hb))
    simp only [UNode.parts, List.map_append, List.map_map, List.map_cons, List.map_nil]
    rw [List.nodup_append, List.nodup_append]
    refine ⟨⟨?_, by simp, ?_⟩, hi, ?_⟩
    · have : (Prod.snd ∘ fun m => (u, path ++ '_' :: ("mem_" ++ m).toList)) = fun m => path ++ '_' :: ("mem_" ++ m).toList := rfl
      rw [this]
      refine List.Nodup.map ?_ ha.mems
      intro a b hab
      simp [String.toList_append] at hab
      exact String.toList_injective hab
    · intro a ha' b hb
      simp only [List.mem_map, Function.comp] at ha'
      obtain ⟨m, _, rfl⟩ := ha'
      rw [List.mem_singleton] at hb
      subst hb
      simp
    · intro a ha' b hb
      rw [List.mem_map] at hb
      obtain ⟨p, hp, rfl⟩ := hb
      obtain ⟨i, c, hm, hp⟩ := insts.parts_cases path p hp
      rw [List.mem_append] at ha'
      rcases ha' with ha' | ha'
      · simp only [List.mem_map, Function.comp] at ha'
        obtain ⟨m, hm', rfl⟩ := ha'
        refine siblings_differ (i := "mem_" ++ m) (j := i) (c := .mk "" [] .nil) (.inl rfl) hp
          (fun e => ha.mixed m hm' i (List.mem_map.mpr ⟨_, hm, rfl⟩) e.symm) (fun h => absurd ⟨rfl, rfl⟩ h)
          (fun hl r he => (ha.starts _ hm hl (String.ofList r)).2 m hm' (string_of_chars he))
      · rw [List.mem_singleton] at ha'
        subst ha'
        rcases hp with hp | ⟨_, r, hp⟩ <;> rw [hp] <;> simp

theorem UNodes.parts_nodup (l : UNodes) (path : List Char) (hc : Clear l) (h : ∀ i c, (i, c) ∈ l.list → ∀ m, UNode.Below c m → m.Apart) :
    ((l.parts path).map Prod.snd).Nodup := by
  match l with
  | .nil => exact List.nodup_nil
  | .cons i n rest =>
    rw [UNodes.parts, List.map_append, List.nodup_append]
    have hcr : Clear rest := by
      refine ⟨?_, fun p hp hl r q hq => hc.2 p (by simp [UNodes.list, hp]) hl r q (by simp [UNodes.list, hq])⟩
      have := hc.1
      simp only [UNodes.list, List.map_cons, List.nodup_cons] at this
      exact this.2
    refine ⟨n.parts_nodup _ (h i n (by simp [UNodes.list])), rest.parts_nodup path hcr (fun j c hm => h j c (by simp [UNodes.list, hm])), ?_⟩
    intro a ha b hb
    rw [List.mem_map] at ha hb
    obtain ⟨p, hp, rfl⟩ := ha
    obtain ⟨q, hq, rfl⟩ := hb
    have h1 := n.parts_cases _ p hp
    obtain ⟨j, d, hm, h2⟩ := rest.parts_cases path q hq
    refine siblings_differ h1 h2 ?_ (fun hl r => hc.2 (i, n) (by simp [UNodes.list]) hl r (j, d) (by simp [UNodes.list, hm]))
      (fun hl r => hc.2 (j, d) (by simp [UNodes.list, hm]) hl r (i, n) (by simp [UNodes.list]))
    rintro rfl
    have := hc.1
    simp only [UNodes.list, List.map_cons, List.nodup_cons] at this
    exact this.1 (List.mem_map.mpr ⟨_, hm, rfl⟩)
end

mutual
theorem UNode.parts_unit (n : UNode) (path : List Char) (p : String × List Char) (hp : p ∈ n.parts path) : ∃ m, UNode.Below n m ∧ p.1 = m.unit := by
  match n with
  | .mk u mems insts =>
    simp only [UNode.parts, List.mem_append, List.mem_map, List.mem_singleton] at hp
    rcases hp with (⟨m, hm, rfl⟩ | rfl) | hp
    · exact ⟨_, .self _, rfl⟩
    · exact ⟨_, .self _, rfl⟩
    · obtain ⟨i, c, hm, m, hb, e⟩ := insts.parts_unit path p hp
      exact ⟨m, .step hm hb, e⟩

theorem UNodes.parts_unit (l : UNodes) (path : List Char) (p : String × List Char) (hp : p ∈ l.parts path) :
    ∃ i c, (i, c) ∈ l.list ∧ ∃ m, UNode.Below c m ∧ p.1 = m.unit := by
  match l with
  | .nil => cases hp
  | .cons i n rest =>
    rw [UNodes.parts, List.mem_append] at hp
    rcases hp with h | h
    · exact ⟨i, n, by simp [UNodes.list], n.parts_unit _ p h⟩
    · obtain ⟨j, c, hm, h⟩ := rest.parts_unit path p h
      exact ⟨j, c, by simp [UNodes.list, hm], h⟩
end

/-- The first `_M` ends the name of the unit. -/
theorem before_M {u v : String} (hu : NoM u) (hv : NoM v) {s t : List Char} (h : u.toList ++ '_' :: 'M' :: s = v.toList ++ '_' :: 'M' :: t) :
    u = v ∧ s = t := by
  have key : ∀ {u v : String} {s t : List Char} (c : List Char), NoM v → v.toList = u.toList ++ c →
      '_' :: 'M' :: s = c ++ '_' :: 'M' :: t → u = v ∧ s = t := by
    intro u v s t c hv h1 h2
    match c with
    | [] =>
      simp at h2
      exact ⟨String.toList_injective (by simpa using h1.symm), h2⟩
    | [x] => simp at h2
    | x :: y :: c =>
      simp at h2
      obtain ⟨rfl, rfl, _⟩ := h2
      exact absurd h1 (hv _ _)
  rcases List.append_eq_append_iff.mp h with ⟨c, h1, h2⟩ | ⟨c, h1, h2⟩
  · exact key c hv h1 h2
  · obtain ⟨a, b⟩ := key c hu h1 h2
    exact ⟨a.symm, b.symm⟩

theorem nodup_of_toList {l : List String} (h : (l.map String.toList).Nodup) : l.Nodup := List.Nodup.of_map _ h

/-- Modules of instances in the top unit: all start with the name of a unit, an underscore and an `M`. -/
theorem insts_parts_form {u : String} {mems : List String} {insts : UNodes} (hN : (UNode.mk u mems insts).Named)
    {p : String × List Char} (hp : p ∈ insts.parts ('M' :: '_' :: u.toList)) : NoM p.1 ∧ ∃ s, p.2 = 'M' :: '_' :: u.toList ++ '_' :: s := by
  obtain ⟨i, c, hm, m, hb, e⟩ := insts.parts_unit _ p hp
  refine ⟨e ▸ hN.units m (.step hm hb), ?_⟩
  obtain ⟨i, c, _, h | ⟨_, r, h⟩⟩ := insts.parts_cases _ p hp
  · exact ⟨_, h⟩
  · exact ⟨i.toList ++ '_' :: r, by rw [h]; simp⟩

theorem topModules_nodup (top : UNode) (hN : top.Named) : top.topModules.Nodup := by
  match top with
  | .mk u mems insts =>
    have hu : NoM u := hN.units _ (.self _)
    have ha := hN.apart _ (.self _)
    apply nodup_of_toList
    have hpath : ("M_" ++ u).toList = 'M' :: '_' :: u.toList := by simp [String.toList_append]
    simp only [UNode.topModules, List.map_append, List.map_map, List.map_cons, List.map_nil, insts.modules_parts, hpath]
    rw [List.nodup_append, List.nodup_append]
    have hc : Clear insts := ⟨ha.insts, fun p hp hl r q hq he => (ha.starts p hp hl (String.ofList r)).1 q hq (string_of_chars he)⟩
    have hi := insts.parts_nodup ('M' :: '_' :: u.toList) hc (fun i c hm m hb => hN.apart m (.step hm hb))
    refine ⟨⟨?_, by simp, ?_⟩, ?_, ?_⟩
    · refine List.Nodup.map ?_ ha.mems
      intro a b hab
      simp [memModule, String.toList_append] at hab
      exact String.toList_injective hab
    · intro a ha' b hb
      simp only [List.mem_map, Function.comp] at ha'
      obtain ⟨m, _, rfl⟩ := ha'
      rw [List.mem_singleton] at hb
      subst hb
      simp [memModule, String.toList_append]
    · refine List.Nodup.map_on ?_ (List.Nodup.of_map _ hi)
      intro p hp q hq he
      obtain ⟨h1, s, h2⟩ := insts_parts_form hN hp
      obtain ⟨h3, t, h4⟩ := insts_parts_form hN hq
      rw [partName, partName, h2, h4] at he
      simp only [List.cons_append, List.cons.injEq, true_and] at he
      obtain ⟨e1, e2⟩ := before_M h1 h3 he
      refine Prod.ext e1 ?_
      rw [h2, h4]
      simp only [List.cons_append, e2]
    · intro a ha' b hb
      rw [List.mem_map] at hb
      obtain ⟨p, hp, rfl⟩ := hb
      obtain ⟨h1, s, h2⟩ := insts_parts_form hN hp
      rw [List.mem_append] at ha'
      rcases ha' with ha' | ha'
      · simp only [List.mem_map, Function.comp] at ha'
        obtain ⟨m, hm, rfl⟩ := ha'
        intro he
        have hm' := hN.mems m hm
        simp only [memModule, partName, h2, String.toList_append, List.cons_append, List.append_assoc] at he
        simp only [String.reduceToList, List.cons_append, List.nil_append, List.cons.injEq, true_and] at he
        rcases List.append_eq_append_iff.mp he with ⟨c, e1, e2⟩ | ⟨c, e1, e2⟩
        · match c with
          | [] => simp at e2
          | [_] => simp at e2
          | [_, _] => simp at e2
          | [_, _, _] => simp at e2
          | [_, _, _, _] => simp at e2
          | _ :: _ :: _ :: _ :: _ :: c =>
            simp only [List.cons_append, List.cons.injEq] at e2
            obtain ⟨_, _, _, _, _, e2⟩ := e2
            refine hm' c ('_' :: u.toList ++ '_' :: s) ?_
            simpa [String.toList_append] using e2
        · match c with
          | [] => simp at e2
          | [_] => simp at e2
          | _ :: _ :: c =>
            simp only [List.cons_append, List.cons.injEq] at e2
            obtain ⟨rfl, rfl, _⟩ := e2
            exact hu _ _ e1
      · rw [List.mem_singleton] at ha'
        subst ha'
        intro he
        simp only [partName, h2, List.cons_append, List.cons.injEq, true_and] at he
        exact hu p.1.toList ('_' :: u.toList ++ '_' :: s) he

end Silice
