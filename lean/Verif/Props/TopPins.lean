import Verif.Lemmas.TopPins

/-!
# C40, C41: pins of the top module
-/

set_option autoImplicit false

namespace Silice

/-- The framework of the examples: `pin A = 2`, `pin B = 1`, `pin C = 1`, `p = {A[1], 0, B}`, `q = {C}`. -/
def exPins : List (Txt × LuaVal) :=
  [("A".toList, .num 2), ("B".toList, .num 1), ("C".toList, .num 1),
   ("p".toList, .group [.bit "A".toList 1, .num 0, .whole "B".toList]), ("q".toList, .group [.whole "C".toList])]

def exPinEnv : PinEnv :=
  ⟨[("A".toList, 2), ("B".toList, 1), ("C".toList, 1)],
   [("p".toList, [.bit "A".toList 1, .unused, .whole "B".toList]), ("q".toList, [.whole "C".toList])]⟩

theorem exPins_plain : PlainPins exPins exPinEnv :=
  have h1 : ∀ a ∈ exPinEnv.pins, 0 < a.2 := by decide +kernel
  have h2 : ∀ a ∈ exPinEnv.pins, ¬ "__unused_".toList <+: a.1 := by decide +kernel
  ⟨by decide +kernel, by decide +kernel, fun n w h => h1 (n, w) h, fun n w h => h2 (n, w) h⟩

def exPortList : List (Txt × PortType) := [("q".toList, .input), ("p".toList, .output)]

/-! ## C40 -/

/-- C40 (part). If the ports of the main unit are accepted, whenever two elements given to ports share a bit of a pin, the later one is a
single bit of a pin. What is missing: single bits are not checked. -/
theorem C40_partial (env : PinEnv) (strict : Bool) (l ports pins : List (Txt × PortType))
    (h : topPorts env strict l [] = .ok (ports, pins)) :
    (allSels env l).Pairwise fun a b => a.Clash b → ∃ n c, b = .bit n c := by
  refine (topPorts_ok env strict l [] ports pins h).1.imp ?_
  intro a b hr hc
  cases b with
  | unused => cases a <;> exact absurd hc id
  | bit n c => exact ⟨n, c, rfl⟩
  | whole n =>
    obtain ⟨m, h1, h2⟩ := clash_pin hc
    simp only [PinSel.pin, Option.some.injEq] at h2
    exact absurd ⟨n, rfl, by rw [h1, h2]⟩ hr

/-- C40 for ports given whole pins: no two elements share a pin. -/
theorem C40_whole (env : PinEnv) (strict : Bool) (l ports pins : List (Txt × PortType))
    (h : topPorts env strict l [] = .ok (ports, pins)) (hw : ∀ n b, PinSel.bit n b ∉ allSels env l) :
    (allSels env l).Pairwise fun a b => ∀ n, a.pin = some n → b.pin ≠ some n := by
  refine (topPorts_ok env strict l [] ports pins h).1.imp_of_mem ?_
  intro a b _ hb hr n ha hbn
  cases b with
  | unused => cases hbn
  | bit m c => exact hw m c hb
  | whole m =>
    simp only [PinSel.pin, Option.some.injEq] at hbn
    subst hbn
    exact hr ⟨m, rfl, ha⟩

/-- The ports are accepted exactly if they are declared (unless this check is disabled), none has an empty group, and no whole pin comes
after another use of the same pin. -/
theorem C40_accepted_iff (env : PinEnv) (strict : Bool) (l : List (Txt × PortType)) :
    (∃ ports pins, topPorts env strict l [] = .ok (ports, pins)) ↔
      (strict = true → ∀ P ∈ l, pinsOf env P.1 ≠ none) ∧ (∀ P ∈ l, pinsOf env P.1 ≠ some []) ∧
      (allSels env l).Pairwise fun a b => ∀ n, b = .whole n → a.pin ≠ some n := by
  constructor
  · rintro ⟨ports, pins, h⟩
    obtain ⟨h1, _, _, h4, h5, h6⟩ := topPorts_ok env strict l [] ports pins h
    refine ⟨fun hs P hP hc => ?_, fun P hP hc => ?_, ?_⟩
    · have := (h4 P).mp (by rw [h6 hs]; exact hP)
      obtain ⟨_, ps, e⟩ := this
      rw [hc] at e; cases e
    · exact h5 P ((h4 P).mpr ⟨hP, [], hc⟩) hc
    · refine h1.imp ?_
      intro a b hr n e1 e2
      exact hr ⟨n, e1, e2⟩
  · rintro ⟨h1, h2, h3⟩
    cases hr : topPorts env strict l [] with
    | ok r => exact ⟨r.1, r.2, rfl⟩
    | error e =>
      rcases topPorts_fails env strict l [] e hr with ⟨_, hs, P, hP, hc⟩ | ⟨_, P, hP, hc⟩ | he
      · exact absurd hc (h1 hs P hP)
      · exact absurd hc (h2 P hP)
      · subst he
        rcases topPorts_error env strict l [] hr with ⟨n, _, hn⟩ | hn
        · simp at hn
        · refine absurd (h3.imp ?_) hn
          rintro a b hx ⟨n, e1, e2⟩
          exact hx n e1 e2

/-- The error about a pin used twice is only raised when two elements share a bit of a pin. -/
theorem C40_refused (env : PinEnv) (strict : Bool) (l : List (Txt × PortType)) (h : topPorts env strict l [] = .error .usedTwice) :
    ∃ (i j : Nat) (a b : PinSel) (n : Txt), i < j ∧ (allSels env l)[i]? = some a ∧ (allSels env l)[j]? = some b ∧ b = .whole n ∧ a.Clash b := by
  rcases topPorts_error env strict l [] h with ⟨n, _, hn⟩ | hn
  · simp at hn
  · rw [List.pairwise_iff_getElem] at hn
    push Not at hn
    obtain ⟨i, j, hi, hj, hij, n, h1, h2⟩ := hn
    refine ⟨i, j, _, _, n, hij, List.getElem?_eq_getElem hi, List.getElem?_eq_getElem hj, h1, ?_⟩
    rw [h1]
    generalize (allSels env l)[i] = a at h2
    cases a <;> simp_all [PinSel.pin, PinSel.Clash]

example : topPorts exPinEnv true exPortList [] =
    .ok (exPortList, [("C".toList, .input), ("A".toList, .output), ("B".toList, .output)]) := by decide +kernel

/-- The framework of the counterexamples: `p = {A[1], A[0]}`, `q = {A[1]}`, `A` being also a port. -/
def exClash : PinEnv :=
  ⟨[("A".toList, 2)], [("p".toList, [.bit "A".toList 1, .bit "A".toList 0]), ("q".toList, [.bit "A".toList 1])]⟩

/-- C40 fails for single bits: the same bit of a pin may be given to two outputs, and a bit of a pin already given as a whole. A pin with
one bit given to an input and another to an output is an input only. -/
theorem C40_counterexample :
    topPorts exClash true [("p".toList, .output), ("q".toList, .output)] [] =
      .ok ([("p".toList, .output), ("q".toList, .output)], [("A".toList, .output)]) ∧
    topPorts exClash true [("A".toList, .output), ("q".toList, .output)] [] =
      .ok ([("A".toList, .output), ("q".toList, .output)], [("A".toList, .output)]) ∧
    topPorts exClash true [("q".toList, .output), ("A".toList, .output)] [] = .error .usedTwice ∧
    topPorts exClash true [("q".toList, .input), ("p".toList, .output)] [] =
      .ok ([("q".toList, .input), ("p".toList, .output)], [("A".toList, .input)]) := by
  refine ⟨?_, ?_, ?_, ?_⟩ <;> decide +kernel

/-! ## C41 -/

/-- C41. For every port of the main unit, the text emitted connects the bits of its group: the group lists elements from most to least
significant, each unused element being a private wire. Bit selects must be on pins of more than one bit (see the counterexample). -/
theorem C41_glue (decls : List (Txt × LuaVal)) (env : PinEnv) (hd : PlainPins decls env) (strict : Bool)
    (l ports pins : List (Txt × PortType)) (h : topPorts env strict l [] = .ok (ports, pins))
    (hb : ∀ n b, PinSel.bit n b ∈ allSels env l → ∃ w, lookupT env.pins n = some w ∧ 1 < w)
    (P : Txt × PortType) (hP : P ∈ ports) (hn : PlainName P.1) (ps : List PinSel) (hps : pinsOf env P.1 = some ps) :
    concatBits (topNets env pins (allWires env l)) (glueVector P.1 ps) = some (groupBits env P.1 0 ps) := by
  obtain ⟨_, _, h3, h4, h5, _⟩ := topPorts_ok env strict l [] ports pins h
  have he := declarePins_ok decls _ env pinsOk_empty hd.names hd.declared
  have hPl := ((h4 P).mp hP).1
  have hne : ps ≠ [] := fun e => h5 P hP (by rw [hps, e])
  have hpin : ∀ s ∈ ps, ∀ n, s.pin = some n → n ∈ pins.map (·.1) := fun s hs n e =>
    (h3 n).mpr (Or.inr ⟨s, (allSels_mem l).mpr ⟨P, hPl, ps, hps, hs⟩, e⟩)
  have hwire : ∀ n w, lookupT env.pins n = some w → n ∉ allWires env l := by
    intro n w hl hm
    obtain ⟨Q, _, _, _, i, _, e⟩ := (allWires_mem l).mp hm
    apply hd.notPrivate n w (lookupT_mem hl)
    rw [e]
    unfold unusedName
    rw [List.append_assoc]
    exact List.prefix_append _ _
  refine glue_bits hn hne fun i s hs => ?_
  have hmem := List.mem_of_getElem? hs
  have hok := pinsOf_ok he hps s hmem
  cases s with
  | unused =>
    show topNets env pins (allWires env l) (unusedName P.1 i) = some none
    unfold topNets
    rw [if_pos ((allWires_mem l).mpr ⟨P, hPl, ps, hps, i, hs, rfl⟩)]
  | whole n =>
    obtain ⟨w, hw⟩ := hok
    refine ⟨he.names n w (lookupT_mem hw), w, hd.positive n w (lookupT_mem hw), hw, ?_⟩
    unfold topNets
    rw [if_neg (hwire n w hw), if_pos (hpin _ hmem n rfl), hw]
  | bit n b =>
    obtain ⟨w, hw, hbw⟩ := hok
    obtain ⟨w', hw', h1⟩ := hb n b ((allSels_mem l).mpr ⟨P, hPl, ps, hps, hmem⟩)
    rw [hw, Option.some.injEq] at hw'
    subst hw'
    refine ⟨he.names n w (lookupT_mem hw), w - 1, ?_, by omega⟩
    unfold topNets
    rw [if_neg (hwire n w hw), if_pos (hpin _ hmem n rfl), hw]
    simp only [gt_iff_lt, if_pos h1]

/-- Bit `i` of a port whose group has elements of one bit is connected to the element `i` counted from the end of the group: the first
element is the most significant bit. -/
theorem C41_order (env : PinEnv) (port : Txt) (ps : List PinSel)
    (hw : ∀ n, PinSel.whole n ∈ ps → lookupT env.pins n = some 1) (i : Nat) (hi : i < ps.length) :
    (groupBits env port 0 ps).length = ps.length ∧
    (groupBits env port 0 ps)[i]? = match ps[ps.length - 1 - i]? with
      | some .unused => some (unusedName port (ps.length - 1 - i), 0)
      | some (.whole n) => some (n, 0)
      | some (.bit n b) => some (n, b)
      | none => none := by
  have key := groupBits_length_one (env := env) (port := port) ps 0 fun j s hs => by
    cases s with
    | unused => rfl
    | whole n => simp [selBits, hw n (List.mem_of_getElem? hs)]
    | bit n b => rfl
  refine ⟨key.1, ?_⟩
  have hj : ps.length - 1 - i < ps.length := by omega
  obtain ⟨s, hs⟩ : ∃ s, ps[ps.length - 1 - i]? = some s := ⟨_, List.getElem?_eq_getElem hj⟩
  have hk := key.2 _ s hs
  rw [show ps.length - 1 - (ps.length - 1 - i) = i by omega, Nat.zero_add] at hk
  rw [hs]
  cases s with
  | unused => exact hk _ rfl
  | whole n => exact hk (n, 0) (by simp [selBits, hw n (List.mem_of_getElem? hs)])
  | bit n b => exact hk _ rfl

/-- Wires for unused bits are private: all different, and none has the name of a pin. -/
theorem C41_private (decls : List (Txt × LuaVal)) (env : PinEnv) (hd : PlainPins decls env) (l : List (Txt × PortType))
    (hn : (l.map (·.1)).Nodup) : (allWires env l).Nodup ∧ ∀ n w, (n, w) ∈ env.pins → n ∉ allWires env l := by
  refine ⟨allWires_nodup l hn, fun n w hl hm => ?_⟩
  obtain ⟨Q, _, _, _, i, _, e⟩ := (allWires_mem l).mp hm
  apply hd.notPrivate n w hl
  rw [e]
  unfold unusedName
  rw [List.append_assoc]
  exact List.prefix_append _ _

/-- The signature has every pin used by some port, once, with the width it was declared with, and no other. -/
theorem C41_signature (decls : List (Txt × LuaVal)) (env : PinEnv) (hd : PlainPins decls env) (strict : Bool)
    (l ports pins : List (Txt × PortType)) (h : topPorts env strict l [] = .ok (ports, pins)) :
    (pins.map (·.1)).Nodup ∧ (∀ n, n ∈ pins.map (·.1) ↔ ∃ s ∈ allSels env l, s.pin = some n) ∧
    ∀ P ∈ pins, ∃ w, lookupT env.pins P.1 = some w ∧ sigPin env P = some (P.1, P.2, if w > 1 then some (w - 1) else none) := by
  obtain ⟨_, _, h3, _⟩ := topPorts_ok env strict l [] ports pins h
  have he := declarePins_ok decls _ env pinsOk_empty hd.names hd.declared
  have h3' : ∀ n, n ∈ pins.map (·.1) ↔ ∃ s ∈ allSels env l, s.pin = some n := by
    intro n; rw [h3]; simp
  refine ⟨topPorts_nodup env strict l [] ports pins h (by simp), h3', fun P hP => ?_⟩
  obtain ⟨s, hs, e⟩ := (h3' P.1).mp (List.mem_map.mpr ⟨P, hP, rfl⟩)
  obtain ⟨Q, hQ, ps, hps, hs'⟩ := (allSels_mem l).mp hs
  have hok := pinsOf_ok he hps s hs'
  have hw : ∃ w, lookupT env.pins P.1 = some w := by
    cases s with
    | unused => cases e
    | whole n => simp only [PinSel.pin, Option.some.injEq] at e; subst e; exact hok
    | bit n b => simp only [PinSel.pin, Option.some.injEq] at e; subst e; obtain ⟨w, hw, _⟩ := hok; exact ⟨w, hw⟩
  obtain ⟨w, hw⟩ := hw
  exact ⟨w, hw, by simp only [sigPin, hw]⟩

/-- A group is what the framework wrote, when the bits are within the widths of the pins. -/
theorem C41_group (decls : List (Txt × LuaVal)) (env : PinEnv) (hd : PlainPins decls env) (g : List LuaPin) (ps : List PinSel)
    (h : groupPins env g = .ok ps) (hr : ∀ n b w, LuaPin.bit n b ∈ g → lookupT env.pins n = some w → b < w) :
    ps = g.map written :=
  meant_all h (declarePins_ok decls _ env pinsOk_empty hd.names hd.declared).names hr

example : concatBits (topNets exPinEnv [("C".toList, .input), ("A".toList, .output), ("B".toList, .output)]
    (allWires exPinEnv exPortList)) (glueVector "p".toList [.bit "A".toList 1, .unused, .whole "B".toList]) =
    some [("B".toList, 0), ("__unused_p_1".toList, 0), ("A".toList, 1)] := by
  rw [C41_glue exPins exPinEnv exPins_plain true exPortList exPortList _ (by decide +kernel) ?_ ("p".toList, .output)
    (by decide +kernel) (by decide +kernel) _ (by decide +kernel)]
  · decide +kernel
  · intro n b hm
    simp only [show allSels exPinEnv exPortList = [.whole "C".toList, .bit "A".toList 1, .unused, .whole "B".toList] by decide +kernel,
      List.mem_cons, reduceCtorEq, PinSel.bit.injEq, List.not_mem_nil, or_false, false_or] at hm
    exact ⟨2, by rw [hm.1]; decide +kernel, by omega⟩

example : glueLine "p".toList .output [.bit "A".toList 1, .unused, .whole "B".toList] = ".out_p({A[1],__unused_p_1,B}),\n".toList := by
  decide +kernel

/-- A bit select on a pin of one bit is accepted, but the text emitted is not Verilog: a single bit has no bit select. -/
theorem C41_counterexample_scalar :
    declarePins ⟨[], []⟩ [("B".toList, .num 1), ("p".toList, .group [.bit "B".toList 0])] =
      .ok ⟨[("B".toList, 1)], [("p".toList, [.bit "B".toList 0])]⟩ ∧
    topPorts ⟨[("B".toList, 1)], [("p".toList, [.bit "B".toList 0])]⟩ true [("p".toList, .output)] [] =
      .ok ([("p".toList, .output)], [("B".toList, .output)]) ∧
    glueVector "p".toList [.bit "B".toList 0] = "{B[0]}".toList ∧
    concatBits (topNets ⟨[("B".toList, 1)], [("p".toList, [.bit "B".toList 0])]⟩ [("B".toList, .output)] []) "{B[0]}".toList = none := by
  decide +kernel

/-- A bit out of the width of its pin is dropped from the group without an error: the bits before it move. -/
theorem C41_counterexample_dropped :
    groupPins ⟨[("A".toList, 2), ("B".toList, 1)], []⟩ [.whole "B".toList, .bit "A".toList 2, .bit "A".toList 0] =
      .ok [.whole "B".toList, .bit "A".toList 0] := by decide +kernel

end Silice
