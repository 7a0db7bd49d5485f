import Mathlib.Data.List.Nodup
import Verif.Lemmas.Group

/-!
# C67: Binding a group connects its members to the ports of the same name

`tells m k`: the unit says that member `m` is an input, an output or an inout. `resolveDirections` and `makeCtx` are what is done with the bindings when the unit is instantiated
(C10, C36).
-/

set_option autoImplicit false

namespace Silice

/-- The ports of a unit that takes a group are those it lists, of the kind it lists and of the type they have in the group. -/
theorem C67_group_ports {ms order : List GroupVar} (ho : order.Perm ms) {g : String} {spec : GroupSpec} {P : List GPort} (h : gatherIoGroup ms order g spec = .ok P) :
    (∀ m k, spec.tells ms m k → ∃ v ∈ ms, v.name = m) ∧
    ∀ n k t, (∃ p ∈ P, p.name = n ∧ p.kind = k ∧ p.type = t) ↔ ∃ v ∈ ms, n = memberPort g v.name ∧ spec.tells ms v.name k ∧ t = v.type := by
  unfold gatherIoGroup at h
  split at h
  · cases h
  · rename_i hnd
    have hnd' : (ms.map GroupVar.name).Nodup := ((declaredTwice_nodup _ []).mp (by simpa using hnd)).1
    have huniq : ∀ v ∈ ms, ms.find? (fun m => m.name = v.name) = some v := by
      intro v hv
      clear h ho hnd
      induction ms with
      | nil => cases hv
      | cons a l ih =>
        rw [List.map_cons, List.nodup_cons] at hnd'
        rcases List.mem_cons.mp hv with rfl | hv
        · simp
        · have : a.name ≠ v.name := fun e => hnd'.1 (e ▸ List.mem_map_of_mem hv)
          rw [List.find?_cons_of_neg (by simpa using this)]
          exact ih hnd'.2 hv
    cases spec with
    | ios l =>
      simp only at h
      refine ⟨?_, ?_⟩
      · rintro m k ⟨io, hio, rfl, rfl⟩
        obtain ⟨v, hv⟩ := groupList_found h io hio
        exact ⟨v, List.mem_of_find?_eq_some hv, by simpa using List.find?_some hv⟩
      · intro n k t
        constructor
        · rintro ⟨p, hp, rfl, rfl, rfl⟩
          obtain ⟨io, hio, v, hv, rfl⟩ := (groupList_spec h p).mp hp
          have hn : v.name = io.name := by simpa using List.find?_some hv
          exact ⟨v, List.mem_of_find?_eq_some hv, by rw [hn], ⟨io, hio, hn.symm, rfl⟩, rfl⟩
        · rintro ⟨v, hv, rfl, ⟨io, hio, h1, rfl⟩, rfl⟩
          refine ⟨_, (groupList_spec h _).mpr ⟨io, hio, v, by rw [h1]; exact huniq v hv, rfl⟩, ?_, rfl, rfl⟩
          rw [h1]
    | inputs =>
      simp only [Except.ok.injEq] at h
      subst h
      refine ⟨fun m k ⟨_, hv⟩ => hv, ?_⟩
      intro n k t
      constructor
      · rintro ⟨p, hp, rfl, rfl, rfl⟩
        obtain ⟨v, hv, rfl⟩ := List.mem_map.mp hp
        exact ⟨v, ho.subset hv, rfl, ⟨rfl, v, ho.subset hv, rfl⟩, rfl⟩
      · rintro ⟨v, hv, rfl, ⟨rfl, _⟩, rfl⟩
        exact ⟨_, List.mem_map.mpr ⟨v, ho.symm.subset hv, rfl⟩, rfl, rfl, rfl⟩
    | outputs comb =>
      simp only [Except.ok.injEq] at h
      subst h
      refine ⟨fun m k ⟨_, hv⟩ => hv, ?_⟩
      intro n k t
      constructor
      · rintro ⟨p, hp, rfl, rfl, rfl⟩
        obtain ⟨v, hv, rfl⟩ := List.mem_map.mp hp
        exact ⟨v, ho.subset hv, rfl, ⟨rfl, v, ho.subset hv, rfl⟩, rfl⟩
      · rintro ⟨v, hv, rfl, ⟨rfl, _⟩, rfl⟩
        exact ⟨_, List.mem_map.mpr ⟨v, ho.symm.subset hv, rfl⟩, rfl, rfl, rfl⟩

/-- Which units with a group are accepted: the members of the group differ in name, and each port listed is one of them. -/
theorem C67_group_accepted {ms order : List GroupVar} (g : String) (spec : GroupSpec) :
    (∃ P, gatherIoGroup ms order g spec = .ok P) ↔ (ms.map GroupVar.name).Nodup ∧ ∀ l, spec = .ios l → ∀ io ∈ l, ∃ v ∈ ms, v.name = io.name := by
  unfold gatherIoGroup
  by_cases hd : (ms.map GroupVar.name).Nodup
  · rw [if_neg (by rw [(declaredTwice_nodup _ []).mpr ⟨hd, by simp⟩]; simp)]
    cases spec with
    | inputs => simp [hd]
    | outputs c => simp [hd]
    | ios l =>
      simp only [GroupSpec.ios.injEq, forall_eq', hd, true_and]
      constructor
      · rintro ⟨P, h⟩ io hio
        obtain ⟨v, hv⟩ := groupList_found h io hio
        exact ⟨v, List.mem_of_find?_eq_some hv, by simpa using List.find?_some hv⟩
      · intro h
        induction l with
        | nil => exact ⟨[], rfl⟩
        | cons io l ih =>
          obtain ⟨ps, hps⟩ := ih (fun io' hio' => h io' (List.mem_cons_of_mem _ hio'))
          obtain ⟨v, hv, hn⟩ := h io List.mem_cons_self
          have hf : (ms.find? (fun m => m.name = io.name)).isSome = true := List.find?_isSome.mpr ⟨v, hv, by simpa using hn⟩
          obtain ⟨w, hw⟩ := Option.isSome_iff_exists.mp hf
          simp only [groupList, hw, hps]
          exact ⟨_, rfl⟩
  · have : declaredTwice [] (ms.map GroupVar.name) = true := by
      by_contra hc
      exact hd ((declaredTwice_nodup _ []).mp (by simpa using hc)).1
    rw [if_pos this]
    simp [hd]

/-- Which units with an interface are accepted: its members differ in name, and inputs have no initial value. -/
theorem C67_interface_accepted (g : String) (ios : List GroupIo) :
    (∃ P, gatherIoInterface g [] ios = .ok P) ↔ (ios.map GroupIo.name).Nodup ∧ ∀ io ∈ ios, io.kind = .input → io.init = false := by
  have key : ∀ (ios : List GroupIo) (seen : List String), (∃ P, gatherIoInterface g seen ios = .ok P) ↔
      ((ios.map GroupIo.name).Nodup ∧ ∀ io ∈ ios, io.name ∉ seen) ∧ ∀ io ∈ ios, io.kind = .input → io.init = false := by
    intro ios
    induction ios with
    | nil => intro seen; simp [gatherIoInterface]
    | cons io ios ih =>
      intro seen
      rw [gatherIoInterface]
      by_cases h1 : io.name ∈ seen
      · rw [if_pos h1]
        constructor
        · rintro ⟨P, h⟩; cases h
        · rintro ⟨⟨_, h⟩, _⟩; exact absurd h1 (h io List.mem_cons_self)
      · rw [if_neg h1]
        by_cases h2 : io.kind = .input ∧ io.init = true
        · rw [if_pos h2]
          constructor
          · rintro ⟨P, h⟩; cases h
          · rintro ⟨_, h⟩
            have := h io List.mem_cons_self h2.1
            rw [h2.2] at this; cases this
        · rw [if_neg h2]
          refine Iff.trans (b := ∃ P, gatherIoInterface g (io.name :: seen) ios = .ok P) (by cases gatherIoInterface g (io.name :: seen) ios <;> simp) ?_
          rw [ih (io.name :: seen)]
          constructor
          · rintro ⟨⟨h3, h4⟩, h5⟩
            refine ⟨⟨?_, ?_⟩, ?_⟩
            · rw [List.map_cons, List.nodup_cons]
              refine ⟨?_, h3⟩
              intro hm
              obtain ⟨io', h6, h7⟩ := List.mem_map.mp hm
              exact h4 io' h6 (by rw [h7]; exact List.mem_cons_self)
            · intro io' h6
              rcases List.mem_cons.mp h6 with rfl | h6
              · exact h1
              · exact fun hm => h4 io' h6 (List.mem_cons_of_mem _ hm)
            · intro io' h6 h7
              rcases List.mem_cons.mp h6 with rfl | h6
              · by_contra hc
                exact h2 ⟨h7, by simpa using hc⟩
              · exact h5 io' h6 h7
          · rintro ⟨⟨h3, h4⟩, h5⟩
            rw [List.map_cons, List.nodup_cons] at h3
            refine ⟨⟨h3.2, ?_⟩, fun io' h6 => h5 io' (List.mem_cons_of_mem _ h6)⟩
            intro io' h6 hm
            rcases List.mem_cons.mp hm with h7 | h7
            · exact h3.1 (h7 ▸ List.mem_map_of_mem h6)
            · exact h4 io' (List.mem_cons_of_mem _ h6) h7
  simpa using key ios []

/-- The ports that follow their value within the cycle are those listed so. -/
theorem C67_group_combinational {ms order : List GroupVar} (ho : order.Perm ms) {g : String} {spec : GroupSpec} {P : List GPort} (h : gatherIoGroup ms order g spec = .ok P) :
    ∀ m, (portsOf P).comb (memberPort g m) = true ↔ spec.tellsComb ms m := by
  intro m
  simp only [portsOf, List.any_eq_true, Bool.and_eq_true, decide_eq_true_eq]
  unfold gatherIoGroup at h
  split at h
  · cases h
  · cases spec with
    | ios l =>
      simp only at h
      constructor
      · rintro ⟨p, hp, hn, hc⟩
        obtain ⟨io, hio, v, hv, rfl⟩ := (groupList_spec h p).mp hp
        simp only [Bool.and_eq_true, decide_eq_true_eq] at hc
        exact ⟨io, hio, memberPort_inj hn, hc⟩
      · rintro ⟨io, hio, rfl, hk, hc⟩
        obtain ⟨v, hv⟩ := groupList_found h io hio
        exact ⟨_, (groupList_spec h _).mpr ⟨io, hio, v, hv, rfl⟩, rfl, by simp [hk, hc]⟩
    | inputs =>
      simp only [Except.ok.injEq] at h
      subst h
      simp [GroupSpec.tellsComb]
    | outputs comb =>
      simp only [Except.ok.injEq] at h
      subst h
      constructor
      · rintro ⟨p, hp, hn, hc⟩
        obtain ⟨v, hv, rfl⟩ := List.mem_map.mp hp
        exact ⟨hc, v, ho.subset hv, memberPort_inj hn⟩
      · rintro ⟨rfl, v, hv, rfl⟩
        exact ⟨_, List.mem_map.mpr ⟨v, ho.symm.subset hv, rfl⟩, rfl, rfl⟩

/-- The same for a named interface. -/
theorem C67_interface_combinational {g : String} {ios : List GroupIo} {P : List GPort} (h : gatherIoInterface g [] ios = .ok P) :
    ∀ m, (portsOf P).comb (memberPort g m) = true ↔ ∃ io ∈ ios, io.name = m ∧ io.kind ≠ .input ∧ io.comb = true := by
  intro m
  simp only [portsOf, List.any_eq_true, Bool.and_eq_true, decide_eq_true_eq]
  have hs := (interface_spec h).1
  constructor
  · rintro ⟨p, hp, hn, hc⟩
    obtain ⟨io, hio, rfl⟩ := (hs p).mp hp
    simp only [Bool.and_eq_true, decide_eq_true_eq] at hc
    exact ⟨io, hio, memberPort_inj hn, hc⟩
  · rintro ⟨io, hio, rfl, hk, hc⟩
    exact ⟨_, (hs _).mpr ⟨io, hio, rfl⟩, rfl, by simp [hk, hc]⟩

/-- Ports described by a group. -/
theorem group_describes {ms order : List GroupVar} (ho : order.Perm ms) {g : String} {spec : GroupSpec} {P : List GPort} (h : gatherIoGroup ms order g spec = .ok P) :
    Describes g (spec.tells ms) P := by
  obtain ⟨h1, h2⟩ := C67_group_ports ho h
  intro n k
  constructor
  · rintro ⟨p, hp, hn, hk⟩
    obtain ⟨v, hv, h3, h4, _⟩ := (h2 n k p.type).mp ⟨p, hp, hn, hk, rfl⟩
    exact ⟨v.name, h3, h4⟩
  · rintro ⟨m, rfl, hm⟩
    obtain ⟨v, hv, rfl⟩ := h1 m k hm
    obtain ⟨p, hp, h3, h4, _⟩ := (h2 _ k v.type).mpr ⟨v, hv, rfl, hm, rfl⟩
    exact ⟨p, hp, h3, h4⟩

/-- Ports described by an interface. -/
theorem interface_describes {g : String} {ios : List GroupIo} {P : List GPort} (h : gatherIoInterface g [] ios = .ok P) :
    Describes g (interfaceTells ios) P ∧ ∀ m k k', interfaceTells ios m k → interfaceTells ios m k' → k = k' := by
  obtain ⟨h1, h2, _⟩ := interface_spec h
  refine ⟨?_, ?_⟩
  · intro n k
    constructor
    · rintro ⟨p, hp, rfl, rfl⟩
      obtain ⟨io, hio, rfl⟩ := (h1 p).mp hp
      exact ⟨io.name, rfl, io, hio, rfl, rfl⟩
    · rintro ⟨m, rfl, io, hio, rfl, rfl⟩
      exact ⟨_, (h1 _).mpr ⟨io, hio, rfl⟩, rfl, rfl⟩
  · rintro m k k' ⟨io, hio, h3, h4⟩ ⟨io', hio', h3', h4'⟩
    have : io = io' := List.inj_on_of_nodup_map h2 hio hio' (h3.trans h3'.symm)
    rw [← h4, ← h4', this]

/-- Binding a group to the ports a unit made from a group: a member is connected exactly when the unit lists it, to the port of its name and in the direction listed, and once.
`others` are the other ports of the unit. Partial: members are listed with one kind, and no other port has the name of a port of the group. -/
theorem C67_group_connected_partial {ms order : List GroupVar} (ho : order.Perm ms) {g : String} {spec : GroupSpec} {P : List GPort} (hg : gatherIoGroup ms order g spec = .ok P)
    (hone : ∀ m k k', spec.tells ms m k → spec.tells ms m k' → k = k') {others : List GPort} {h : String} {M : List String}
    (hcap : ∀ p ∈ others, ∀ m ∈ M, p.name ≠ memberPort g m) (q : Bool) :
    (∀ c, c ∈ resolveDirections (portsOf (others ++ P)) (groupBindings g h M q) ↔
      ∃ m ∈ M, ∃ k, spec.tells ms m k ∧ c = ⟨memberPort g m, memberPort h m, dirFor q k⟩) ∧
    (M.Nodup → ((resolveDirections (portsOf (others ++ P)) (groupBindings g h M q)).map Binding.left).Nodup) :=
  ⟨group_resolve (group_describes ho hg) hone hcap q, fun hM => group_once _ g h q hM⟩

/-- The same for a named interface. -/
theorem C67_interface_connected_partial {g : String} {ios : List GroupIo} {P : List GPort} (hg : gatherIoInterface g [] ios = .ok P) {others : List GPort} {h : String}
    {M : List String} (hcap : ∀ p ∈ others, ∀ m ∈ M, p.name ≠ memberPort g m) (q : Bool) :
    (∀ c, c ∈ resolveDirections (portsOf (others ++ P)) (groupBindings g h M q) ↔
      ∃ m ∈ M, ∃ k, interfaceTells ios m k ∧ c = ⟨memberPort g m, memberPort h m, dirFor q k⟩) ∧
    (M.Nodup → ((resolveDirections (portsOf (others ++ P)) (groupBindings g h M q)).map Binding.left).Nodup) :=
  ⟨group_resolve (interface_describes hg).1 (interface_describes hg).2 hcap q, fun hM => group_once _ g h q hM⟩

/-- An interface that is accepted is bound to a group that has all its members, and its ports take width, sign and initial value of these members.
Partial: names of ports differ by more than case, and the variable bound is not itself of a type to be determined. -/
theorem C67_interface_types_partial {g : String} {ios : List GroupIo} {P : List GPort} (hg : gatherIoInterface g [] ios = .ok P) {others : List GPort} {h : String}
    {M : List String} (hcap : ∀ p ∈ others, ∀ m ∈ M, p.name ≠ memberPort g m) (q : Bool) {host : List VIO} {specs ictx l : Autos}
    (hspec : ∀ m, inCtx (memberPort g m) specs = false) (hd : DistinctUpper ((others ++ P).map GPort.vio))
    (hm : makeCtx host ⟨specs, (resolveDirections (portsOf (others ++ P)) (groupBindings g h M q)).map (fun c => (c.left, c.right)), (others ++ P).map GPort.vio⟩ ictx = some l) :
    ∀ m k, interfaceTells ios m k → m ∈ M ∧
      ∀ bn, findVIO host (memberPort h m) = some bn → bn.tableSize = 0 → bn.type ≠ .param → ∀ f, l (upper (memberPort g m), f) = bn.type.field f := by
  intro m k hk
  obtain ⟨hdesc, hone⟩ := interface_describes hg
  obtain ⟨io, hio, rfl, rfl⟩ := hk
  have hP : (⟨memberPort g io.name, io.kind, io.kind ≠ .input && io.comb, .param⟩ : GPort) ∈ P := ((interface_spec hg).1 _).mpr ⟨io, hio, rfl⟩
  have hv : (⟨memberPort g io.name, .param, none, 0⟩ : VIO) ∈ (others ++ P).map GPort.vio := List.mem_map.mpr ⟨_, List.mem_append_right _ hP, rfl⟩
  have hres := fun c => group_resolve (h := h) hdesc hone hcap q c
  have hlook : ∀ b, ((resolveDirections (portsOf (others ++ P)) (groupBindings g h M q)).map (fun c => (c.left, c.right))).find? (fun b => b.1 = memberPort g io.name) = some b →
      io.name ∈ M ∧ b = (memberPort g io.name, memberPort h io.name) := by
    intro b hb
    have h1 : b.1 = memberPort g io.name := by simpa using List.find?_some hb
    obtain ⟨c, hc, rfl⟩ := List.mem_map.mp (List.mem_of_find?_eq_some hb)
    obtain ⟨m', hm', k', _, rfl⟩ := (hres c).mp hc
    have := memberPort_inj h1
    subst this
    exact ⟨hm', rfl⟩
  cases hf : ((resolveDirections (portsOf (others ++ P)) (groupBindings g h M q)).map (fun c => (c.left, c.right))).find? (fun b => b.1 = memberPort g io.name) with
  | none =>
    exfalso
    have := C36_unbound_unspecialised_rejected host ⟨specs, _, (others ++ P).map GPort.vio⟩ ictx _ hv rfl rfl (hspec io.name) hf
    rw [this] at hm
    cases hm
  | some b =>
    obtain ⟨h1, h2⟩ := hlook b hf
    refine ⟨h1, ?_⟩
    intro bn hbn htb hty f
    exact C36_unspecialised_port_follows_binding_partial host ⟨specs, _, (others ++ P).map GPort.vio⟩ ictx l hm hd _ hv rfl rfl (hspec io.name) b hf bn (by rw [h2]; exact hbn) htb hty f

/-! ### Witnesses -/

def exGrp : List GroupVar := [⟨"addr", .fixed "24" "0" "0"⟩, ⟨"data", .fixed "8" "0" "1"⟩, ⟨"busy", .fixed "1" "0" "0"⟩]
def exSpec : GroupSpec := .ios [⟨.input, "addr", false, false⟩, ⟨.output, "busy", true, false⟩]
def exItf : List GroupIo := [⟨.input, "addr", false, false⟩, ⟨.inout, "data", false, false⟩]

-- a unit with a group and a clock, bound to a group with one member more
example : gatherIoGroup exGrp exGrp "sd" exSpec = .ok [⟨"sd_addr", .input, false, .fixed "24" "0" "0"⟩, ⟨"sd_busy", .output, true, .fixed "1" "0" "0"⟩] := by decide +kernel
example : (∀ p ∈ [(⟨"go", .input, false, .fixed "1" "0" "0"⟩ : GPort)], ∀ m ∈ ["addr", "data", "busy"], p.name ≠ memberPort "sd" m) := by decide +kernel
example : resolveDirections (portsOf [⟨"go", .input, false, .fixed "1" "0" "0"⟩, ⟨"sd_addr", .input, false, .fixed "24" "0" "0"⟩, ⟨"sd_busy", .output, true, .fixed "1" "0" "0"⟩])
    (groupBindings "sd" "mem" ["addr", "data", "busy"] true) = [⟨"sd_addr", "mem_addr", .leftQ⟩, ⟨"sd_busy", "mem_busy", .right⟩] := by decide +kernel
example : gatherIoInterface "sd" [] exItf = .ok [⟨"sd_addr", .input, false, .param⟩, ⟨"sd_data", .inout, false, .param⟩] := by decide +kernel
-- an interface bound to a group: accepted, and the types of the group
example : ∃ l, makeCtx [⟨"mem_addr", .fixed "24" "0" "0", none, 0⟩, ⟨"mem_data", .fixed "8" "0" "1", none, 0⟩]
    ⟨fun _ => none, (resolveDirections (portsOf [⟨"sd_addr", .input, false, .param⟩, ⟨"sd_data", .inout, false, .param⟩]) (groupBindings "sd" "mem" ["addr", "data"] false)).map
      (fun c => (c.left, c.right)), [⟨"sd_addr", .input, false, .param⟩, ⟨"sd_data", .inout, false, .param⟩].map GPort.vio⟩ (fun _ => none) = some l ∧
    l (upper "sd_data", .width) = some "8" := by
  have hs : (makeCtx [⟨"mem_addr", .fixed "24" "0" "0", none, 0⟩, ⟨"mem_data", .fixed "8" "0" "1", none, 0⟩]
    ⟨fun _ => none, (resolveDirections (portsOf [⟨"sd_addr", .input, false, .param⟩, ⟨"sd_data", .inout, false, .param⟩]) (groupBindings "sd" "mem" ["addr", "data"] false)).map
      (fun c => (c.left, c.right)), [⟨"sd_addr", .input, false, .param⟩, ⟨"sd_data", .inout, false, .param⟩].map GPort.vio⟩ (fun _ => none)).isSome = true := by decide +kernel
  obtain ⟨l, hl⟩ := Option.isSome_iff_exists.mp hs
  refine ⟨l, hl, ?_⟩
  have h := C67_interface_types_partial (g := "sd") (h := "mem") (ios := exItf) (P := [⟨"sd_addr", .input, false, .param⟩, ⟨"sd_data", .inout, false, .param⟩]) (others := [])
    (M := ["addr", "data"]) (by decide +kernel) (by simp) false (specs := fun _ => none) (fun _ => rfl) (by unfold DistinctUpper; decide +kernel) hl "data" .inout
    ⟨⟨.inout, "data", false, false⟩, by decide, rfl, rfl⟩
  exact h.2 ⟨"mem_data", .fixed "8" "0" "1", none, 0⟩ (by decide +kernel) rfl (by decide) .width

/-! ### What does not hold -/

/-- A port that is not part of the group is connected to a member of the group that is bound: here `sd_data`, declared beside the group `sd`. -/
theorem C67_counterexample_captured :
    gatherIoGroup exGrp exGrp "sd" exSpec = .ok [⟨"sd_addr", .input, false, .fixed "24" "0" "0"⟩, ⟨"sd_busy", .output, true, .fixed "1" "0" "0"⟩] ∧
    ¬ (∃ k, exSpec.tells exGrp "data" k) ∧
    (⟨"sd_data", "mem_data", .left⟩ : Binding) ∈ resolveDirections
      (portsOf ([⟨"sd_data", .input, false, .fixed "8" "0" "0"⟩] ++ [⟨"sd_addr", .input, false, .fixed "24" "0" "0"⟩, ⟨"sd_busy", .output, true, .fixed "1" "0" "0"⟩]))
      (groupBindings "sd" "mem" ["addr", "data", "busy"] false) := by
  refine ⟨by decide +kernel, ?_, by decide +kernel⟩
  rintro ⟨k, io, hio, h1, _⟩
  simp only [List.mem_cons, List.not_mem_nil, or_false] at hio
  rcases hio with rfl | rfl <;> revert h1 <;> decide

/-- A member may be listed twice, as an input and as an output: two ports get the same name, and only the input is connected. -/
theorem C67_counterexample_listed_twice :
    gatherIoGroup exGrp exGrp "sd" (.ios [⟨.input, "addr", false, false⟩, ⟨.output, "addr", false, false⟩]) =
      .ok [⟨"sd_addr", .input, false, .fixed "24" "0" "0"⟩, ⟨"sd_addr", .output, false, .fixed "24" "0" "0"⟩] ∧
    resolveDirections (portsOf [⟨"sd_addr", .input, false, .fixed "24" "0" "0"⟩, ⟨"sd_addr", .output, false, .fixed "24" "0" "0"⟩]) (groupBindings "sd" "mem" ["addr"] false) =
      [⟨"sd_addr", "mem_addr", .left⟩] := by
  decide +kernel

/-- Nothing is reported when the group bound to the ports of a group lacks a member: the port stays unconnected. Interfaces are refused (C36). -/
theorem C67_counterexample_missing_member :
    resolveDirections (portsOf [⟨"sd_addr", .input, false, .fixed "24" "0" "0"⟩, ⟨"sd_busy", .output, true, .fixed "1" "0" "0"⟩]) (groupBindings "sd" "mem" ["busy"] false) =
      [⟨"sd_busy", "mem_busy", .right⟩] ∧
    ∃ l, makeCtx [⟨"mem_busy", .fixed "1" "0" "0", none, 0⟩]
      ⟨fun _ => none, [("sd_busy", "mem_busy")], [⟨"sd_addr", .input, false, .fixed "24" "0" "0"⟩, ⟨"sd_busy", .output, true, .fixed "1" "0" "0"⟩].map GPort.vio⟩ (fun _ => none) = some l := by
  refine ⟨by decide +kernel, ?_⟩
  apply Option.isSome_iff_exists.mp
  decide +kernel

/-- The order of the ports of a group that is an input as a whole is that of a hash table: which of the arguments of a call goes to which member is not determined. -/
theorem C67_counterexample_order :
    ∃ o o' : List GroupVar, o.Perm exGrp ∧ o'.Perm exGrp ∧ ∃ P P', gatherIoGroup exGrp o "p" .inputs = .ok P ∧ gatherIoGroup exGrp o' "p" .inputs = .ok P' ∧
      (portsOf P).inputs = ["p_addr", "p_data", "p_busy"] ∧ (portsOf P').inputs = ["p_busy", "p_data", "p_addr"] := by
  refine ⟨exGrp, exGrp.reverse, .refl _, List.reverse_perm _, _, _, rfl, rfl, ?_, ?_⟩ <;> decide +kernel

end Silice
