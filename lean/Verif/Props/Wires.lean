import Verif.Lemmas.Wires

/-!
# C42: names read through wires
-/

set_option autoImplicit false

namespace Silice

/-- C42, reads: after a successful analysis, the names read by wires are exactly those that a wire used by the code
(or the instances) leads to, through any number of definitions of wires, cyclic ones included. -/
theorem C42_read_through (ws : List WireDef) (hu : WiresUnique ws) (acc : String → Acc) (fuel : Nat)
    (reads : List String) (e : wireAccess ws acc fuel = some (.ok reads)) (y : String) :
    y ∈ reads ↔ ∃ x, x ∈ ws.map (·.name) ∧ acc x ≠ {} ∧ ReadThrough ws x y := by
  unfold wireAccess at e
  cases hs : wireStart acc ws with
  | error x => rw [hs] at e; simp at e
  | ok q =>
    rw [hs] at e
    obtain ⟨hq, _⟩ := wireStart_ok hs
    cases hl : wireLoop ws fuel q [] [] with
    | none => simp [hl] at e
    | some r =>
      simp only [hl, Option.map_some, Option.some.injEq, Except.ok.injEq] at e
      subst e
      have hi : WireInv ws q q [] [] :=
        ⟨fun x hx => ((hq x).mp hx).1, fun x hx => Or.inl (by simpa using hx), fun x hx => by simpa using hx,
         by simp, by simp⟩
      rw [wireLoop_spec hu fuel q [] [] r hi hl y]
      constructor
      · rintro ⟨s, hs, hr⟩
        exact ⟨s, ((hq s).mp hs).1, ((hq s).mp hs).2, hr⟩
      · rintro ⟨x, h1, h2, hr⟩
        exact ⟨x, (hq x).mpr ⟨h1, h2⟩, hr⟩

/-- C42, writes: the analysis refuses a design exactly when some wire is used in another way than being read. -/
theorem C42_write_refused (ws : List WireDef) (acc : String → Acc) (fuel : Nat) :
    (∃ x, wireAccess ws acc fuel = some (.error x)) ↔
      ∃ x, x ∈ ws.map (·.name) ∧ acc x ≠ {} ∧ acc x ≠ { r := true } := by
  unfold wireAccess
  cases hs : wireStart acc ws with
  | error e =>
    obtain ⟨d, h1, h2, h3, _⟩ := wireStart_error hs
    exact ⟨fun _ => ⟨d.name, List.mem_map.mpr ⟨d, h1, rfl⟩, h2, h3⟩, fun _ => ⟨e, rfl⟩⟩
  | ok q =>
    obtain ⟨_, h⟩ := wireStart_ok hs
    constructor
    · rintro ⟨x, hx⟩
      cases hl : wireLoop ws fuel q [] [] <;> simp [hl] at hx
    · rintro ⟨x, hx, h1, h2⟩
      obtain ⟨d, hd, rfl⟩ := List.mem_map.mp hx
      rcases h d hd with h | h
      · exact absurd h h1
      · exact absurd h h2

/-- C42, termination: whatever the definitions, the analysis ends. -/
theorem C42_terminates (ws : List WireDef) (acc : String → Acc) :
    ∃ n, ∀ fuel, n ≤ fuel → ∃ r, wireAccess ws acc fuel = some r := by
  unfold wireAccess
  cases hs : wireStart acc ws with
  | error e => exact ⟨0, fun _ _ => ⟨_, rfl⟩⟩
  | ok q =>
    refine ⟨q.length + wireLeft [] ws, fun fuel hf => ?_⟩
    obtain ⟨r, hr⟩ := wireLoop_total fuel q [] [] (fun x hx => ((wireStart_ok hs).1 x |>.mp hx).1) hf
    exact ⟨_, by simp only [hr, Option.map_some]; rfl⟩

section
variable {B : Type} [DecidableEq B]

/-- C42, effect on storage: take a design accepted by the analysis, and a variable not tied to ports that a block which
can be entered, or an instance, uses through wires. If nothing writes the variable it becomes a constant, otherwise a
register: it is never dropped and never a temporary. No wire is written by the code. -/
theorem C42_storage (a : AccIn B) (ws : List WireDef) (hu : WiresUnique ws) (fuel fuel' : Nat)
    (log : List (B × List String)) (e : accAll a fuel = some log) (reads : List String)
    (ew : wireAccess ws (accBits a log) fuel' = some (.ok reads)) :
    (∀ w ∈ ws, ¬ a.WriteSome w.name) ∧
    ∀ w ∈ ws, (a.ReadSome w.name ∨ w.name ∈ a.readEnd) → ∀ y, ReadThrough ws w.name y → a.Plain y →
      (a.WriteSome y → usageOf (withWires a reads) log y = .ok .flipflop) ∧
      (¬ a.WriteSome y → usageOf (withWires a reads) log y = .ok .const) := by
  have hnone : ∀ w ∈ ws, ¬ a.WriteSome w.name := by
    intro w hw hwr
    have hne : ¬ ∃ x, wireAccess ws (accBits a log) fuel' = some (.error x) := by
      rintro ⟨x, hx⟩; rw [hx] at ew; simp at ew
    rw [C42_write_refused] at hne
    refine hne ⟨w.name, List.mem_map.mpr ⟨w, hw, rfl⟩, fun h => ?_, fun h => ?_⟩ <;>
    · have := (accBits_w e w.name).mpr hwr
      rw [h] at this
      simp at this
  refine ⟨hnone, fun w hw hr y hy hp => ?_⟩
  have hwread : accBits a log w.name ≠ {} := by
    intro h
    have := (accBits_r e w.name).mpr (by rcases hr with hr | hr <;> simp [hr])
    rw [h] at this
    simp at this
  have hyr : y ∈ reads := (C42_read_through ws hu _ fuel' reads ew y).mpr
    ⟨w.name, List.mem_map.mpr ⟨w, hw, rfl⟩, hwread, hy⟩
  have hg : y ∈ globalInRead (withWires a reads) log := by
    simp [globalInRead, withWires, hyr]
  have hb : accBits (withWires a reads) log y = { r := true, w := (accBits a log y).w } := by
    obtain ⟨h1, h2, h3⟩ := hp
    simp [accBits, withWires, h1, h2, h3, hyr]
    rfl
  rw [← accBits_w e y]
  simp only [usageOf, hb, hg]
  cases (accBits a log y).w <;> simp [classify]

end

/-- `uint8 a <: b + 1; uint8 b <: c; uint8 u <: v;` where the code reads `a` and writes `c`. -/
def exWires : List WireDef := [⟨"a", ["b"]⟩, ⟨"b", ["c"]⟩, ⟨"u", ["v"]⟩]

/-- One block that reads `a`, writes `c` and `o`. -/
def exWireCode : AccIn Unit where
  g := fun _ => ⟨[(["a"], ["o"]), ([], ["c"])], true, []⟩
  heads := [()]
  readEnd := []
  trickle := []
  boundOut := []
  boundInOut := []
  internalFF := []
  tables := []

/-- The hypotheses of the theorems hold: `c` is read through `a` and `b` and becomes a register, `v` is not read. -/
example : WiresUnique exWires := by unfold WiresUnique exWires; decide +kernel

example : ∃ log, accAll exWireCode 5 = some log ∧
    wireAccess exWires (accBits exWireCode log) 5 = some (.ok ["b", "c"]) ∧
    usageOf (withWires exWireCode ["b", "c"]) log "c" = .ok .flipflop ∧
    usageOf exWireCode log "c" = .ok .temporary := ⟨_, rfl, by rfl, by rfl, by rfl⟩

example : ReadThrough exWires "a" "c" :=
  .tail (.single ⟨⟨"a", ["b"]⟩, by simp [exWires], rfl, by simp⟩) ⟨⟨"b", ["c"]⟩, by simp [exWires], rfl, by simp⟩

example : exWireCode.Plain "c" := by simp [AccIn.Plain, exWireCode]

example : exWireCode.ReadSome "a" := ⟨(), by simp [exWireCode], [], (), .start, Or.inl rfl, (["a"], ["o"]), by simp [exWireCode], by simp⟩

/-- A design that writes a wire is refused. -/
example : ∃ log, accAll exWireCode 5 = some log ∧
    wireAccess [⟨"o", ["b"]⟩] (accBits exWireCode log) 5 = some (.error (.written "o")) := ⟨_, rfl, by rfl⟩

/-- Wires defined by each other: the analysis ends. -/
example : wireAccess [⟨"a", ["b"]⟩, ⟨"b", ["a"]⟩] (fun x => if x = "a" then { r := true } else {}) 5 =
    some (.ok ["b", "a"]) := by rfl

end Silice
