import Verif.Lemmas.Inout

/-!
# C65: Inouts are driven exactly where the source enables them

`InoTree` is an inout together with all that is bound to it, through any depth of instances. `InoOwner t b path d u r b'` says which unit the bit belongs to in the source.
-/

set_option autoImplicit false

namespace Silice

/-- The pin carries `o` of the unit the bit belongs to where that unit has set `oenable`, and is otherwise left alone: every other driver in the design is at high impedance.
Partial: no output of an instance is bound to an inout. -/
theorem C65_driven_partial {t : InoTree} (hw : t.WF) {b : Nat} {path : List Nat} {d : InoDecl} {u : InoUse} {r : InoRegs} {b' : Nat} (ho : InoOwner t b path d u r b')
    (hb : b < t.decl.width) : resolveAll (t.drivers false .pin b) = inoDriven d u r b' :=
  (tree_pin t hw b hb).1 _ _ _ _ _ ho

/-- A pin that belongs to no unit is not driven. -/
theorem C65_free {t : InoTree} (hw : t.WF) {b : Nat} (hb : b < t.decl.width) (ho : ∀ path d u r b', ¬ InoOwner t b path d u r b') :
    resolveAll (t.drivers false .pin b) = .z :=
  resolveAll_z ((tree_pin t hw b hb).2 ho)

/-- `o` and `oenable` of a cycle are on the pin in the next one. `en` and `o` are the values at the end of each cycle; the registers take them at the clock edge. -/
theorem C65_next_cycle {t : InoTree} (hw : t.WF) {b : Nat} {path : List Nat} {d : InoDecl} {u : InoUse} {r : InoRegs} {b' : Nat} (ho : InoOwner t b path d u r b')
    (hb : b < t.decl.width) (hc : d.comb = false) (hu : u.o = true) (he : u.oenable = true) {en o : Nat → Nat → Bool} {n : Nat} (h1 : r.oenableQ = en n) (h2 : r.oQ = o n) :
    resolveAll (t.drivers false .pin b) = if en n b' then .v (o n b') else .z := by
  rw [C65_driven_partial hw ho hb]
  simp [inoDriven, hc, hu, he, h1, h2]

/-- What a unit reads from an inout is what the pin carries, whichever unit drives it. -/
theorem C65_read {t : InoTree} {b : Nat} {path : List Nat} {d : InoDecl} {u : InoUse} {r : InoRegs} {b' : Nat} (ho : InoOwner t b path d u r b') (hu : u.i = true) (pins : Nat → InoTri) :
    t.wireI false path (fun _ => pins) b' = [pins b] := by
  simpa using tree_wireI false t _ _ _ _ _ _ (fun _ => pins) ho hu

/-- With split inouts, the pin does the same, provided the unit sets `o` or `oenable`. Partial: no input or output of an instance is bound to an inout. -/
theorem C65_split_partial {t : InoTree} (hw : t.WF) (hn : t.NoInput) {b : Nat} {path : List Nat} {d : InoDecl} {u : InoUse} {r : InoRegs} {b' : Nat}
    (ho : InoOwner t b path d u r b') (hb : b < t.decl.width) (hu : u.o = true ∨ u.oenable = true) :
    (t.drivers true .oe b).length = 1 ∧ (t.drivers true .o b).length = 1 ∧ padOf (resolveAll (t.drivers true .oe b)) (resolveAll (t.drivers true .o b)) = inoDriven d u r b' := by
  obtain ⟨h1, h2⟩ := tree_split t hw hn b hb _ _ _ _ _ ho hu
  refine ⟨by rw [h1]; rfl, by rw [h2]; rfl, ?_⟩
  rw [h1, h2]
  cases h3 : u.oenable <;> cases h4 : r.oenableQ b' <;> simp [resolveAll, join_z, padOf, inoDriven, h3, h4]

/-- With split inouts, units read the port that comes in. -/
theorem C65_split_read {t : InoTree} {b : Nat} {path : List Nat} {d : InoDecl} {u : InoUse} {r : InoRegs} {b' : Nat} (ho : InoOwner t b path d u r b') (hu : u.i = true)
    (ports : InoNet → Nat → InoTri) : t.wireI true path ports b' = [ports .i b] := by
  simpa using tree_wireI true t _ _ _ _ _ _ ports ho hu

/-- A binding to `x` or to `x[...]` connects the nets of `x`, with the same selection of bits. -/
theorem C65_connection_text (split : Bool) {base access : List Char} (hb : '[' ∉ base) (ha : access = [] ∨ access.head? = some '[') :
    inoPortText split (base ++ access) =
      if split then [base ++ "_oe".toList ++ access, base ++ "_o".toList ++ access, base ++ "_i".toList ++ access] else [base ++ access] := by
  rw [inoPortText_eq split base access hb ha]
  cases split <;> simp

/-- All that is written is Verilog, as long as no output is bound to an inout. -/
theorem C65_statements_closed_partial (split : Bool) (d : InoDecl) :
    (∀ u, ∀ s ∈ writeInoUsed split d u, s.closed = true ∧ s.bit < d.width) ∧
    ∀ bs : InoBinds, bs.WF d.width → ∀ s ∈ writeInoAll split d bs.dirs, s.closed = true := by
  constructor
  · intro u s hs
    unfold writeInoUsed at hs
    rcases List.mem_append.mp hs with hs | hs
    · split at hs
      · split at hs
        · obtain ⟨k, hk, rfl⟩ := List.mem_map.mp hs; exact ⟨rfl, List.mem_range.mp hk⟩
        · obtain ⟨k, hk, hs⟩ := List.mem_flatMap.mp hs
          simp only [List.mem_cons, List.not_mem_nil, or_false] at hs
          rcases hs with rfl | rfl <;> exact ⟨rfl, List.mem_range.mp hk⟩
      · split at hs
        · obtain ⟨k, hk, rfl⟩ := List.mem_map.mp hs; exact ⟨rfl, List.mem_range.mp hk⟩
        · obtain ⟨k, hk, rfl⟩ := List.mem_map.mp hs; exact ⟨rfl, List.mem_range.mp hk⟩
    · split at hs
      · obtain ⟨k, hk, rfl⟩ := List.mem_map.mp hs; exact ⟨rfl, List.mem_range.mp hk⟩
      · cases hs
  · intro bs hw s hs
    obtain ⟨p, hp, hs⟩ := List.mem_flatMap.mp hs
    have hr := dirs_noRight hw p (inoRecord_mem hp)
    obtain ⟨rg, dir⟩ := p
    cases dir with
    | right => exact absurd rfl hr
    | bidir => cases hs
    | left =>
      cases rg with
      | none => cases hs
      | some fn =>
        obtain ⟨k, _, rfl⟩ := List.mem_map.mp hs
        split <;> rfl

/-! ### Witnesses -/

/-- Registers with all bits of `oenable` set, and the low bit of `o`. -/
def exInoRegs : InoRegs := ⟨fun b => b != 3, fun b => b == 0, fun _ => false⟩

/-- Two units that share an inout of eight bits, one of them two levels below. -/
def exIno : InoTree :=
  .bound ⟨8, false⟩ exInoRegs (.bidir (some (0, 4)) (.used ⟨4, false⟩ ⟨true, true, true⟩ exInoRegs)
    (.bidir (some (4, 3)) (.bound ⟨3, false⟩ exInoRegs (.bidir none (.used ⟨3, false⟩ ⟨true, true, true⟩ exInoRegs) .nil)) .nil))

theorem exIno_wf : exIno.WF := by
  simp only [exIno, InoTree.WF, InoBinds.WF, InoTree.decl, InoBinds.Has]
  refine ⟨trivial, ?_, ⟨trivial, by omega⟩, ⟨trivial, by simp, trivial, trivial⟩, by simp, ⟨trivial, by omega⟩, trivial⟩
  intro b h r hr h'
  rcases hr with rfl | hr
  · have h1 := h.2 _ _ rfl
    have h2 := h'.2 _ _ rfl
    omega
  · exact hr

theorem exIno_owner : InoOwner exIno 4 [1, 0] ⟨3, false⟩ ⟨true, true, true⟩ exInoRegs 0 :=
  .bound (.bidir (.here ⟨by decide, fun f n h => by cases h; omega⟩ (.bound (.here ⟨by decide, fun f n h => by cases h⟩ (.used (by decide))))))

-- the hypotheses hold, and the pin carries the value of the unit two levels below
example : resolveAll (exIno.drivers false .pin 4) = .v true := by
  rw [C65_driven_partial exIno_wf exIno_owner (by decide)]; decide
example : padOf (resolveAll (exIno.drivers true .oe 4)) (resolveAll (exIno.drivers true .o 4)) = .v true := by
  rw [(C65_split_partial exIno_wf (by simp [exIno, InoTree.NoInput, InoBinds.NoInput]) exIno_owner (by decide) (.inl rfl)).2.2]; decide
-- a bit that is not enabled, and the bit that is bound to nothing
example : resolveAll (exIno.drivers false .pin 3) = .z := by decide +kernel
example : resolveAll (exIno.drivers false .pin 7) = .z := by
  refine C65_free exIno_wf (by decide) ?_
  intro path d u r b' h
  unfold exIno at h
  cases h with
  | bound h =>
    cases h with
    | here hr _ => have := hr.2 _ _ rfl; omega
    | bidir h =>
      cases h with
      | here hr _ => have := hr.2 _ _ rfl; omega
      | bidir h => cases h
example : exIno.wireI false [1, 0] (fun _ b => .v (b == 4)) 0 = [.v true] := C65_read exIno_owner rfl _
example : '[' ∉ "x".toList ∧ inoPortText true "x[0+:4]".toList = ["x_oe[0+:4]".toList, "x_o[0+:4]".toList, "x_i[0+:4]".toList] := by decide +kernel

/-! ### What does not hold -/

/-- An output of an instance bound to a whole inout (`o :> x`) drives nothing: whatever the registers hold, the pin is left alone. -/
theorem C65_counterexample_whole_output (d : InoDecl) (r : InoRegs) (b : Nat) :
    resolveAll ((InoTree.bound d r (.output none .nil)).drivers false .pin b) = .z := by
  simp [InoTree.drivers, InoBinds.drivers, InoBinds.dirs, writeInoAll, inoRecord, writeInoBound, stmDrivers, resolveAll]

/-- An output of an instance bound to a part of an inout gives a statement that has no end, with or without split inouts. -/
theorem C65_counterexample_part_output (split : Bool) (d : InoDecl) (f n : Nat) : ∃ s ∈ writeInoAll split d (InoBinds.output (some (f, n + 1)) .nil).dirs, s.closed = false := by
  cases split
  · exact ⟨⟨.pin, f, .reg (if d.comb then .oD else .oQ) f, false⟩, by simp [InoBinds.dirs, writeInoAll, inoRecord, writeInoBound, List.range'_succ], rfl⟩
  · exact ⟨⟨.o, f, .reg (if d.comb then .oD else .oQ) f, false⟩, by simp [InoBinds.dirs, writeInoAll, inoRecord, writeInoBound, List.range'_succ], rfl⟩

/-- With split inouts, a unit that only reads an inout leaves the enable at high impedance, so that it is not known whether the pin is driven. -/
theorem C65_counterexample_split_reader (d : InoDecl) (r : InoRegs) (b : Nat) (hb : b < d.width) :
    padOf (resolveAll ((InoTree.used d ⟨true, false, false⟩ r).drivers true .oe b)) (resolveAll ((InoTree.used d ⟨true, false, false⟩ r).drivers true .o b)) = .x ∧
    resolveAll ((InoTree.used d ⟨true, false, false⟩ r).drivers false .pin b) = .z := by
  refine ⟨?_, ?_⟩
  · have : resolveAll ((InoTree.used d ⟨true, false, false⟩ r).drivers true .oe b) = .z := by
      refine resolveAll_z ?_
      intro y hy
      rw [InoTree.drivers] at hy
      unfold stmDrivers writeInoUsed at hy
      obtain ⟨s, hs, rfl⟩ := List.mem_map.mp hy
      obtain ⟨hs, hp⟩ := List.mem_filter.mp hs
      simp only [Bool.or_self, Bool.false_eq_true, if_false, not_true_eq_false, if_true] at hs
      rcases List.mem_append.mp hs with hs | hs
      · obtain ⟨k, _, rfl⟩ := List.mem_map.mp hs; rfl
      · obtain ⟨k, _, rfl⟩ := List.mem_map.mp hs
        simp at hp
    rw [this]; rfl
  · rw [InoTree.drivers, used_pin d _ r _ hb]
    simp [inoDriven, resolveAll, join_z]

/-- With split inouts, a bit of an inout that no instance is bound to has no enable at all. -/
theorem C65_counterexample_split_free (d : InoDecl) (r : InoRegs) (t : InoTree) (f n b : Nat) (hb : b < f ∨ f + n ≤ b) :
    padOf (resolveAll ((InoTree.bound d r (.bidir (some (f, n)) t .nil)).drivers true .oe b)) (resolveAll ((InoTree.bound d r (.bidir (some (f, n)) t .nil)).drivers true .o b)) = .x := by
  have h : ¬ (f ≤ b ∧ b < f + n) := by omega
  have : (InoTree.bound d r (.bidir (some (f, n)) t .nil)).drivers true .oe b = [] := by
    simp [InoTree.drivers, InoBinds.drivers, InoBinds.dirs, writeInoAll, inoRecord, writeInoBound, stmDrivers, h]
  rw [this]; rfl

/-- With split inouts, a unit that drives an inout of which another instance reads a part has its enable contradicted. -/
theorem C65_counterexample_split_listener :
    let t := InoTree.bound ⟨4, false⟩ exInoRegs (.bidir none (.used ⟨4, false⟩ ⟨false, true, true⟩ exInoRegs) (.input (some (0, 2)) .nil))
    t.WF ∧ t.drivers true .oe 0 = [.v false, .v true] ∧ resolveAll (t.drivers true .oe 0) = .x ∧ resolveAll (t.drivers false .pin 0) = .v true := by
  refine ⟨?_, by decide +kernel, by decide +kernel, by decide +kernel⟩
  simp only [InoTree.WF, InoBinds.WF, InoTree.decl, InoBinds.Has]
  refine ⟨trivial, by simp, trivial, ?_, trivial⟩
  intro f n h; cases h; omega

/-- With `inout!`, the value is on the pin in the cycle it is set but the enable only in the next: a unit that sets both for one cycle never has its value on the pin. `o` is the bit
set in each cycle, and is set in cycle 1 only, together with the enable. -/
theorem C65_counterexample_combinational :
    let set : Nat → Bool := fun n => n == 1
    let regs : Nat → InoRegs := fun n => ⟨fun _ => n != 0 && set (n - 1), fun _ => n != 0 && set (n - 1), fun _ => set n⟩
    (∀ n, resolveAll ((InoTree.used ⟨1, true⟩ ⟨false, true, true⟩ (regs n)).drivers false .pin 0) ≠ .v true) ∧
    resolveAll ((InoTree.used ⟨1, false⟩ ⟨false, true, true⟩ (regs 2)).drivers false .pin 0) = .v true := by
  refine ⟨?_, by decide +kernel⟩
  intro n
  rw [InoTree.drivers, used_pin _ _ _ _ (by decide)]
  simp only [inoDriven, resolveAll, List.foldr_cons, List.foldr_nil, join_z, true_and, if_true, Bool.true_and]
  split
  · rename_i h
    simp only [Bool.and_eq_true, bne_iff_ne, beq_iff_eq] at h
    have : n = 2 := by omega
    subst this; decide
  · simp

end Silice
