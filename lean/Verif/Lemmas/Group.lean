import Verif.Spec.Group
import Verif.Props.Binding
import Verif.Props.Instantiation

set_option autoImplicit false

namespace Silice

theorem memberPort_inj {g m m' : String} (h : memberPort g m = memberPort g m') : m = m' := by
  have := congrArg String.toList h
  simp only [memberPort, String.toList_append] at this
  exact String.toList_injective (List.append_cancel_left this)

theorem declaredTwice_nodup : ∀ (l seen : List String), declaredTwice seen l = false ↔ l.Nodup ∧ ∀ x ∈ l, x ∉ seen
  | [], seen => by simp [declaredTwice]
  | a :: l, seen => by
    rw [declaredTwice]
    by_cases ha : a ∈ seen
    · rw [if_pos ha]
      constructor
      · intro h; cases h
      · intro h; exact absurd ha (h.2 a List.mem_cons_self)
    · rw [if_neg ha, declaredTwice_nodup l (a :: seen), List.nodup_cons]
      constructor
      · rintro ⟨h1, h2⟩
        refine ⟨⟨fun hm => h2 a hm List.mem_cons_self, h1⟩, ?_⟩
        intro x hx
        rcases List.mem_cons.mp hx with rfl | hx
        · exact ha
        · exact fun hm => h2 x hx (List.mem_cons_of_mem _ hm)
      · rintro ⟨⟨h1, h2⟩, h3⟩
        refine ⟨h2, ?_⟩
        intro x hx hm
        rcases List.mem_cons.mp hm with rfl | hm
        · exact h1 hx
        · exact h3 x (List.mem_cons_of_mem _ hx) hm

/-- A list of ports describes what is said of the members. -/
def Describes (g : String) (tells : String → IoKind → Prop) (P : List GPort) : Prop :=
  ∀ n k, (∃ p ∈ P, p.name = n ∧ p.kind = k) ↔ ∃ m, n = memberPort g m ∧ tells m k

theorem groupList_spec {ms : List GroupVar} {pre : String} : ∀ {l : List GroupIo} {P : List GPort}, groupList ms pre l = .ok P →
    ∀ p, p ∈ P ↔ ∃ io ∈ l, ∃ v, ms.find? (fun m => m.name = io.name) = some v ∧ p = ⟨memberPort pre io.name, io.kind, io.kind ≠ .input && io.comb, v.type⟩
  | [], P, h, p => by
    simp only [groupList, Except.ok.injEq] at h
    subst h; simp
  | io :: ios, P, h, p => by
    rw [groupList] at h
    split at h
    · cases h
    · rename_i v hv
      have hn : v.name = io.name := by simpa using List.find?_some hv
      split at h
      · cases h
      · rename_i ps hps
        simp only [Except.ok.injEq] at h
        subst h
        have ih := groupList_spec hps p
        rw [List.mem_cons, ih]
        have hc : (if io.kind = .input then false else io.comb) = (io.kind ≠ .input && io.comb) := by by_cases hk : io.kind = .input <;> simp [hk]
        constructor
        · rintro (rfl | ⟨io', hio, v', h1, h2⟩)
          · exact ⟨io, List.mem_cons_self, v, hv, by rw [hn, hc]; rfl⟩
          · exact ⟨io', List.mem_cons_of_mem _ hio, v', h1, h2⟩
        · rintro ⟨io', hio, v', h1, h2⟩
          rcases List.mem_cons.mp hio with rfl | hio
          · rw [hv] at h1
            cases h1
            left; rw [h2, hn, hc]; rfl
          · exact .inr ⟨io', hio, v', h1, h2⟩

theorem groupList_found {ms : List GroupVar} {pre : String} : ∀ {l : List GroupIo} {P : List GPort}, groupList ms pre l = .ok P →
    ∀ io ∈ l, ∃ v, ms.find? (fun m => m.name = io.name) = some v
  | [], _, _, io, hio => by cases hio
  | a :: ios, P, h, io, hio => by
    rw [groupList] at h
    split at h
    · cases h
    · rename_i v hv
      split at h
      · cases h
      · rename_i ps hps
        rcases List.mem_cons.mp hio with rfl | hio
        · exact ⟨v, hv⟩
        · exact groupList_found hps io hio

theorem interface_spec {pre : String} : ∀ {l : List GroupIo} {seen : List String} {P : List GPort}, gatherIoInterface pre seen l = .ok P →
    (∀ p, p ∈ P ↔ ∃ io ∈ l, p = ⟨memberPort pre io.name, io.kind, io.kind ≠ .input && io.comb, .param⟩) ∧ (l.map GroupIo.name).Nodup ∧ ∀ io ∈ l, io.name ∉ seen
  | [], seen, P, h => by
    simp only [gatherIoInterface, Except.ok.injEq] at h
    subst h; simp
  | io :: ios, seen, P, h => by
    rw [gatherIoInterface] at h
    split at h
    · cases h
    · rename_i hs
      split at h
      · cases h
      · split at h
        · cases h
        · rename_i ps hps
          simp only [Except.ok.injEq] at h
          subst h
          obtain ⟨ih, ihn, ihs⟩ := interface_spec hps
          have hc : (if io.kind = .input then false else io.comb) = (io.kind ≠ .input && io.comb) := by by_cases hk : io.kind = .input <;> simp [hk]
          refine ⟨?_, ?_, ?_⟩
          · intro p
            rw [List.mem_cons, ih p]
            constructor
            · rintro (rfl | ⟨io', h1, h2⟩)
              · exact ⟨io, List.mem_cons_self, by rw [hc]; rfl⟩
              · exact ⟨io', List.mem_cons_of_mem _ h1, h2⟩
            · rintro ⟨io', h1, h2⟩
              rcases List.mem_cons.mp h1 with rfl | h1
              · left; rw [h2, hc]; rfl
              · exact .inr ⟨io', h1, h2⟩
          · rw [List.map_cons, List.nodup_cons]
            refine ⟨?_, ihn⟩
            intro hm
            obtain ⟨io', h1, h2⟩ := List.mem_map.mp hm
            exact ihs io' h1 (by rw [h2]; exact List.mem_cons_self)
          · intro io' h1
            rcases List.mem_cons.mp h1 with rfl | h1
            · exact hs
            · exact fun hm => ihs io' h1 (List.mem_cons_of_mem _ hm)

theorem portsOf_mem (l : List GPort) (n : String) :
    (n ∈ (portsOf l).inputs ↔ ∃ p ∈ l, p.name = n ∧ p.kind = .input) ∧ (n ∈ (portsOf l).outputs ↔ ∃ p ∈ l, p.name = n ∧ p.kind = .output) ∧
    (n ∈ (portsOf l).inouts ↔ ∃ p ∈ l, p.name = n ∧ p.kind = .inout) := by
  simp only [portsOf, List.mem_map, List.mem_filter, decide_eq_true_eq]
  refine ⟨?_, ?_, ?_⟩ <;>
  · constructor
    · rintro ⟨p, ⟨h1, h2⟩, h3⟩; exact ⟨p, h1, h3, h2⟩
    · rintro ⟨p, h1, h2, h3⟩; exact ⟨p, ⟨h1, h3⟩, h2⟩

/-- The connection made for one member. -/
theorem member_resolve {g h : String} {tells : String → IoKind → Prop} {P others : List GPort} (hd : Describes g tells P) (hone : ∀ m k k', tells m k → tells m k' → k = k')
    {m : String} (hcap : ∀ p ∈ others, p.name ≠ memberPort g m) (q : Bool) (c : Binding) :
    c ∈ resolveStep (portsOf (others ++ P)) [] ⟨memberPort g m, memberPort h m, if q then .autoQ else .auto⟩ ↔
      ∃ k, tells m k ∧ c = ⟨memberPort g m, memberPort h m, dirFor q k⟩ := by
  have hmem : ∀ k, (∃ p ∈ others ++ P, p.name = memberPort g m ∧ p.kind = k) ↔ tells m k := by
    intro k
    constructor
    · rintro ⟨p, hp, h1, h2⟩
      rcases List.mem_append.mp hp with hp | hp
      · exact absurd h1 (hcap p hp)
      · obtain ⟨m', h3, h4⟩ := (hd _ k).mp ⟨p, hp, h1, h2⟩
        rw [memberPort_inj h3]; exact h4
    · intro hs
      obtain ⟨p, hp, h1⟩ := (hd (memberPort g m) k).mpr ⟨m, rfl, hs⟩
      exact ⟨p, List.mem_append_right _ hp, h1⟩
  obtain ⟨hi, ho, hio⟩ := portsOf_mem (others ++ P) (memberPort g m)
  rw [hmem] at hi ho hio
  unfold resolveStep
  have hauto : ((if q then Dir.autoQ else Dir.auto) = .auto ∨ (if q then Dir.autoQ else Dir.auto) = .autoQ) := by cases q <;> simp
  rw [if_pos hauto]
  simp only []
  have huniq : ∀ {k}, tells m k → ((∃ k', tells m k' ∧ c = ⟨memberPort g m, memberPort h m, dirFor q k'⟩) ↔ c = ⟨memberPort g m, memberPort h m, dirFor q k⟩) := by
    intro k hk
    constructor
    · rintro ⟨k', h1, h2⟩; rw [hone m k k' hk h1]; exact h2
    · intro h2; exact ⟨k, hk, h2⟩
  by_cases h1 : tells m .input
  · rw [if_pos (hi.mpr h1), huniq h1]
    cases q <;> simp [dirFor]
  · rw [if_neg (fun h => h1 (hi.mp h))]
    by_cases h2 : tells m .output
    · rw [if_pos (ho.mpr h2), huniq h2]
      simp [dirFor]
    · rw [if_neg (fun h => h2 (ho.mp h))]
      by_cases h3 : tells m .inout
      · rw [if_pos (hio.mpr h3), huniq h3]
        simp [dirFor]
      · rw [if_neg (fun h => h3 (hio.mp h))]
        simp only [List.not_mem_nil, false_iff]
        rintro ⟨k, hk, _⟩
        cases k <;> contradiction

theorem group_resolve {g h : String} {tells : String → IoKind → Prop} {P others : List GPort} (hd : Describes g tells P) (hone : ∀ m k k', tells m k → tells m k' → k = k')
    {M : List String} (hcap : ∀ p ∈ others, ∀ m ∈ M, p.name ≠ memberPort g m) (q : Bool) (c : Binding) :
    c ∈ resolveDirections (portsOf (others ++ P)) (groupBindings g h M q) ↔ ∃ m ∈ M, ∃ k, tells m k ∧ c = ⟨memberPort g m, memberPort h m, dirFor q k⟩ := by
  unfold resolveDirections
  rw [foldl_resolve, List.nil_append, List.mem_flatMap]
  constructor
  · rintro ⟨b, hb, hc⟩
    obtain ⟨m, hm, rfl⟩ := List.mem_map.mp hb
    exact ⟨m, hm, (member_resolve hd hone (fun p hp => hcap p hp m hm) q c).mp hc⟩
  · rintro ⟨m, hm, hc⟩
    exact ⟨_, List.mem_map.mpr ⟨m, hm, rfl⟩, (member_resolve hd hone (fun p hp => hcap p hp m hm) q c).mpr hc⟩

theorem resolveStep_left {p : Ports} {b c : Binding} (h : c ∈ resolveStep p [] b) : resolveStep p [] b = [c] ∧ c.left = b.left := by
  rcases resolve_single p b with ⟨_, h1⟩ | ⟨_, c', h1, h2⟩
  · rw [h1] at h; cases h
  · rw [h1, List.mem_singleton] at h
    subst h
    exact ⟨h1, by cases h2 <;> rfl⟩

/-- Each port is connected once. -/
theorem group_once (p : Ports) (g h : String) (q : Bool) : ∀ {M : List String}, M.Nodup → ((resolveDirections p (groupBindings g h M q)).map Binding.left).Nodup := by
  intro M hM
  unfold resolveDirections
  rw [foldl_resolve, List.nil_append]
  induction M with
  | nil => simp [groupBindings]
  | cons m M ih =>
    rw [List.nodup_cons] at hM
    have e : groupBindings g h (m :: M) q = ⟨memberPort g m, memberPort h m, if q then .autoQ else .auto⟩ :: groupBindings g h M q := rfl
    rw [e, List.flatMap_cons, List.map_append]
    have hlefts : ∀ n ∈ ((groupBindings g h M q).flatMap (resolveStep p [])).map Binding.left, ∃ m' ∈ M, n = memberPort g m' := by
      intro n hn
      obtain ⟨c, hc, rfl⟩ := List.mem_map.mp hn
      obtain ⟨b, hb, hc⟩ := List.mem_flatMap.mp hc
      obtain ⟨m', hm', rfl⟩ := List.mem_map.mp hb
      exact ⟨m', hm', (resolveStep_left hc).2⟩
    rcases resolve_single p ⟨memberPort g m, memberPort h m, if q then .autoQ else .auto⟩ with ⟨_, h1⟩ | ⟨_, c', h1, h2⟩
    · rw [h1]; exact ih hM.2
    · rw [h1, List.map_cons, List.map_nil, List.singleton_append, List.nodup_cons]
      refine ⟨?_, ih hM.2⟩
      intro hmem
      obtain ⟨m', hm', he⟩ := hlefts _ hmem
      have : c'.left = memberPort g m := (resolveStep_left (by rw [h1]; exact List.mem_singleton.mpr rfl)).2
      rw [this] at he
      exact hM.1 (memberPort_inj he ▸ hm')

end Silice
