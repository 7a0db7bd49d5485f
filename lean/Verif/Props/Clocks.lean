import Verif.Lemmas.Clocks

/-! C70: clocks and resets reach what the source designates. -/

set_option autoImplicit false

namespace Silice

/-- C70. For every hierarchy of units that is compiled, every unit in it and every value of all other signals: the
registers, the state machine, the memories, the instances, the bound inputs and `out_clock` of the unit have the clock
and the reset designated by the modifiers in the source, followed from the top through every instantiation.
Partial: outputs bound in part cannot be the clock or the reset of the unit itself, and a unit in which nothing needs a
reset cannot use `reset` (both are accepted by the compiler and wrong, see below); and no variable is bound as a whole
and in part (C05). -/
theorem C70_designated_partial (top : ClkUnit) (hok : top.Accepted)
    (hb : ∀ path v, UnitAt top path v → v.head.BoundOk)
    (hown : ∀ path v, UnitAt top path v → v.head.OwnWhole)
    (huse : ∀ path v, UnitAt top path v → v.UsesReset → v.NeedsReset ∨ path = [])
    (w : ClkWorld) (g : Given) (path : List String) (v : ClkUnit) (hv : UnitAt top path v) :
    ∃ g', srcGiven w [] top g path = some (v, g') ∧
      hwView w top ⟨some g.clock, some g.reset⟩ path =
        some (srcView v (srcSignal v.head g' (w.wire path) (w.var path))) :=
  view_value w top g path v (fun p x hx => ⟨(hok p x hx).1, (hok p x hx).2, hb p x hx, hown p x hx,
    fun hu => (huse p x hx hu).imp id (by rintro rfl; rfl)⟩) hv

/-- C70. A module has a reset port exactly when something in the unit, at any depth, is initialised, or is a state
machine or a processor, or when it is the top. -/
theorem C70_reset_port (top : Bool) (u : ClkUnit) (t : ClkText) (ht : u.text top = some t) :
    t.resetPort = true ↔ u.NeedsReset ∨ top = true := by
  unfold ClkUnit.text at ht
  simp only [Option.bind_eq_bind, Option.pure_def, Option.bind_eq_some_iff, Option.some.injEq] at ht
  obtain ⟨_, _, _, _, _, _, _, _, rfl⟩ := ht
  simp [requiresReset_iff]

/-! A design: `main` has a state machine and instantiates a Verilog module that makes a clock `fast` (bit by bit: its
output is bound to `both[0,1]`) and a reset `rst`, and a unit clocked by `fast` that has a memory and a register, and
itself contains a unit with a clock of its own. -/

def exDeep : ClkUnit := .mk ⟨[], false, [⟨"z", false, false⟩], [], false, [], []⟩ .nil

def exWorker : ClkUnit := .mk
  ⟨[.clock "mine"], false, [⟨"x", false, false⟩, ⟨"y", true, false⟩], [⟨"m", true, []⟩, ⟨"n", true, ["clock", "mine"]⟩],
    false, [("mine", 1)], [("mine", .whole "_w_div_o".toList)]⟩
  (.cons "div" [] .verilog [("clk", "clock")] (.cons "deep" [] (.unit exDeep) [] .nil))

def exTop : ClkUnit := .mk
  ⟨[], true, [⟨"a", false, true⟩], [], true, [("both", 2), ("rst", 1)],
    [("both", .part ⟨"_w_pll_f".toList, 0, 1⟩), ("both", .part ⟨"_w_pll_g".toList, 1, 1⟩),
     ("rst", .whole "_w_pll_r".toList)]⟩
  (.cons "pll" [] .verilog [("clkin", "clock"), ("rstin", "reset")]
    (.cons "work" [.clock "rst", .reset "rst", .clock "both"] (.unit exWorker) [] .nil))

theorem exTop_units {path : List String} {v : ClkUnit} (h : UnitAt exTop path v) :
    (path = [] ∧ v = exTop) ∨ (path = ["work"] ∧ v = exWorker) ∨ (path = ["work", "deep"] ∧ v = exDeep) := by
  cases h with
  | here => exact Or.inl ⟨rfl, rfl⟩
  | there _ v1 _ i path hf hw hr =>
    have hi := List.mem_of_find?_eq_some hf
    simp only [exTop, ClkUnit.insts, ClkInsts.toList, List.mem_cons, List.not_mem_nil, or_false] at hi
    rcases hi with rfl | rfl
    · cases hw
    · simp only [ClkWhat.unit.injEq] at hw
      subst hw
      cases hr with
      | here => exact Or.inr (Or.inl ⟨rfl, rfl⟩)
      | there _ v2 _ j path hf hw hr =>
        have hj := List.mem_of_find?_eq_some hf
        simp only [exWorker, ClkUnit.insts, ClkInsts.toList, List.mem_cons, List.not_mem_nil, or_false] at hj
        rcases hj with rfl | rfl
        · cases hw
        · simp only [ClkWhat.unit.injEq] at hw
          subst hw
          cases hr with
          | here => exact Or.inr (Or.inr ⟨rfl, rfl⟩)
          | there _ v3 _ k path hf hw hr => simp [exDeep, ClkUnit.insts, ClkInsts.toList] at hf

theorem exTop_accepted : exTop.Accepted := by
  intro path v hv
  rcases exTop_units hv with ⟨rfl, rfl⟩ | ⟨rfl, rfl⟩ | ⟨rfl, rfl⟩
  · refine ⟨by decide +kernel, fun i hi => ?_⟩
    simp only [exTop, ClkUnit.insts, ClkInsts.toList, List.mem_cons, List.not_mem_nil, or_false] at hi
    rcases hi with rfl | rfl <;> decide +kernel
  · refine ⟨by decide +kernel, fun i hi => ?_⟩
    simp only [exWorker, ClkUnit.insts, ClkInsts.toList, List.mem_cons, List.not_mem_nil, or_false] at hi
    rcases hi with rfl | rfl <;> decide +kernel
  · refine ⟨by decide +kernel, fun i hi => ?_⟩
    simp [exDeep, ClkUnit.insts, ClkInsts.toList] at hi

theorem exTop_bound {path : List String} {v : ClkUnit} (hv : UnitAt exTop path v) : v.head.BoundOk := by
  rcases exTop_units hv with ⟨rfl, rfl⟩ | ⟨rfl, rfl⟩ | ⟨rfl, rfl⟩
  · refine ⟨by decide +kernel, ?_, ?_, ?_, ?_⟩
    · intro o ho b hb
      simp only [exTop, ClkUnit.head, List.mem_cons, List.not_mem_nil, or_false] at ho
      rcases ho with rfl | rfl | rfl
      · cases hb; unfold PartBinding.NameOk; decide +kernel
      · cases hb; unfold PartBinding.NameOk; decide +kernel
      · cases hb
    · intro o ho t ht
      simp only [exTop, ClkUnit.head, List.mem_cons, List.not_mem_nil, or_false] at ho
      rcases ho with rfl | rfl | rfl
      · cases ht
      · cases ht
      · cases ht; decide +kernel
    · intro x n hn
      simp only [exTop, ClkUnit.head, List.lookup] at hn
      split at hn
      · simp at hn; omega
      · split at hn
        · simp at hn; omega
        · cases hn
    · intro x t ht
      have := (mem_outsOf exTop.head x _).1 ht
      simp only [exTop, ClkUnit.head, List.mem_cons, Prod.mk.injEq, reduceCtorEq, and_false, List.not_mem_nil,
        or_false, false_or] at this
      obtain ⟨rfl, hte⟩ := this
      injection hte with hte
      subst hte
      decide +kernel
  · refine ⟨by decide +kernel, ?_, ?_, ?_, ?_⟩
    · intro o ho b hb
      simp only [exWorker, ClkUnit.head, List.mem_cons, List.not_mem_nil, or_false] at ho
      subst ho
      cases hb
    · intro o ho t ht
      simp only [exWorker, ClkUnit.head, List.mem_cons, List.not_mem_nil, or_false] at ho
      subst ho
      cases ht; decide +kernel
    · intro x n hn
      simp only [exWorker, ClkUnit.head, List.lookup] at hn
      split at hn
      · simp at hn; omega
      · cases hn
    · intro x t ht
      have := (mem_outsOf exWorker.head x _).1 ht
      simp only [exWorker, ClkUnit.head, List.mem_cons, Prod.mk.injEq, List.not_mem_nil, or_false] at this
      obtain ⟨rfl, hte⟩ := this
      injection hte with hte
      subst hte
      decide +kernel
  · refine ⟨by decide +kernel, ?_, ?_, ?_, ?_⟩
    · intro o ho; simp [exDeep, ClkUnit.head] at ho
    · intro o ho; simp [exDeep, ClkUnit.head] at ho
    · intro x n hn; simp [exDeep, ClkUnit.head] at hn
    · intro x t ht; simp [exDeep, ClkUnit.head] at ht

/-- The design meets the conditions of the theorem. -/
example (w : ClkWorld) (g : Given) (path : List String) (v : ClkUnit) (hv : UnitAt exTop path v) :
    ∃ g', srcGiven w [] exTop g path = some (v, g') ∧
      hwView w exTop ⟨some g.clock, some g.reset⟩ path =
        some (srcView v (srcSignal v.head g' (w.wire path) (w.var path))) := by
  refine C70_designated_partial exTop exTop_accepted (fun _ _ h => exTop_bound h) ?_ ?_ w g path v hv
  · intro path v hv
    rcases exTop_units hv with ⟨rfl, rfl⟩ | ⟨rfl, rfl⟩ | ⟨rfl, rfl⟩
    · rintro x (⟨h1, h2⟩ | ⟨h1, h2⟩)
      · exact absurd (h1.trans (by decide +kernel)) h2
      · exact absurd (h1.trans (by decide +kernel)) h2
    · rintro x _ o ho _
      simp only [exWorker, ClkUnit.head, List.mem_cons, List.not_mem_nil, or_false] at ho
      subst ho
      exact ⟨_, rfl⟩
    · rintro x _ o ho _
      simp [exDeep, ClkUnit.head] at ho
  · intro path v hv _
    rcases exTop_units hv with ⟨rfl, rfl⟩ | ⟨rfl, rfl⟩ | ⟨rfl, rfl⟩
    · exact Or.inr rfl
    · exact Or.inl (.reg _ ⟨"x", false, false⟩ (by decide +kernel) rfl)
    · exact Or.inl (.reg _ ⟨"z", false, false⟩ (by decide +kernel) rfl)

/-- `work` is given the low bit of `both` and `rst`; its registers have the clock `mine`, its second memory also the one
it is given; what it contains has the clock `mine` and the reset it is given. -/
example (w : ClkWorld) (c r : Bool) : hwView w exTop ⟨some c, some r⟩ ["work"] =
    some {
      outClock := some (w.wire ["work"] "_w_div_o".toList 0)
      regs := [("x", some (w.wire ["work"] "_w_div_o".toList 0), some (some (w.wire [] "_w_pll_r".toList 0))),
               ("y", some (w.wire ["work"] "_w_div_o".toList 0), none)]
      fsm := none
      checks := none
      mems := [("m", [some (w.wire ["work"] "_w_div_o".toList 0), some (w.wire ["work"] "_w_div_o".toList 0)]),
               ("n", [some (w.wire [] "_w_pll_f".toList 0), some (w.wire ["work"] "_w_div_o".toList 0)])]
      insts := [⟨"div", none, none, [("clk", some (w.wire [] "_w_pll_f".toList 0))]⟩,
                ⟨"deep", some (some (w.wire ["work"] "_w_div_o".toList 0)), some (some (w.wire [] "_w_pll_r".toList 0)), []⟩] } := by
  with_unfolding_all rfl

/-- A unit without anything to reset, that gives its reset to a Verilog module: `pll p(rst <: reset, clk <: clock)`. -/
def exWrap : ClkUnit := .mk ⟨[], false, [], [], false, [], []⟩ (.cons "p" [] .verilog [("clk", "clock"), ("rst", "reset")] .nil)

/-- `main`, with a state machine, instantiates it. -/
def exWrapTop : ClkUnit := .mk ⟨[], true, [], [], false, [], []⟩ (.cons "wrap" [] (.unit exWrap) [] .nil)

/-- C70 (finding). A unit in which nothing needs a reset has no reset port, and may still bind `reset` to an input: the
design is compiled, `main` has a reset, and nothing arrives at the input. -/
theorem C70_counterexample_reset_not_given (w : ClkWorld) (c r : Bool) : exWrapTop.Accepted ∧ UnitAt exWrapTop ["wrap"] exWrap ∧
    hwView w exWrapTop ⟨some c, some r⟩ ["wrap"] =
      some ⟨some c, [], none, none, [], [⟨"p", none, none, [("clk", some c), ("rst", none)]⟩]⟩ := by
  refine ⟨?_, .there _ exWrap _ ⟨"wrap", [], .unit exWrap, []⟩ [] (by rfl) rfl (.here _), by rfl⟩
  intro path v hv
  cases hv with
  | here =>
    refine ⟨by decide +kernel, fun i hi => ?_⟩
    simp only [exWrapTop, ClkUnit.insts, ClkInsts.toList, List.mem_cons, List.not_mem_nil, or_false] at hi
    subst hi
    decide +kernel
  | there _ v1 _ i path hf hw hr =>
    have hi := List.mem_of_find?_eq_some hf
    simp only [exWrapTop, ClkUnit.insts, ClkInsts.toList, List.mem_cons, List.not_mem_nil, or_false] at hi
    subst hi
    simp only [ClkWhat.unit.injEq] at hw
    subst hw
    cases hr with
    | here =>
      refine ⟨by decide +kernel, fun i hi => ?_⟩
      simp only [exWrap, ClkUnit.insts, ClkInsts.toList, List.mem_cons, List.not_mem_nil, or_false] at hi
      subst hi
      decide +kernel
    | there _ v2 _ i path hf hw hr =>
      have hi := List.mem_of_find?_eq_some hf
      simp only [exWrap, ClkUnit.insts, ClkInsts.toList, List.mem_cons, List.not_mem_nil, or_false] at hi
      subst hi
      cases hw

/-- The same with a check that an input is stable: its text reads a name that is not declared. -/
def exCheck : ClkUnit := .mk ⟨[], false, [], [], true, [], []⟩ .nil

def exCheckTop : ClkUnit := .mk ⟨[], true, [], [], false, [], []⟩ (.cons "chk" [] (.unit exCheck) [] .nil)

/-- C70 (finding). A unit in which nothing needs a reset and with a check on the stability of an input reads a reset that
its module does not have. -/
theorem C70_counterexample_check_reset (w : ClkWorld) (c r : Bool) :
    (exCheck.text false).isSome ∧ exCheckTop.text true = some ⟨true, .port "clock", [], some (.port "clock", .port "reset"), none, []⟩ ∧
    hwView w exCheckTop ⟨some c, some r⟩ ["chk"] = some ⟨some c, [], none, some none, [], []⟩ := by
  refine ⟨by decide +kernel, by decide +kernel, by rfl⟩

/-- `unit main <@both>` where an output is bound to `both[0,1]`. -/
def exClkPart : ClkUnit := .mk
  ⟨[.clock "both"], false, [⟨"x", true, false⟩], [⟨"m", false, []⟩], false, [("both", 2)],
    [("both", .part ⟨"_w_pll_f".toList, 0, 1⟩)]⟩
  (.cons "pll" [] .verilog [("clkin", "clock")] .nil)

/-- C70 (finding). When the clock of a unit is a variable bound bit by bit, the design is compiled; its memories and
`out_clock` get the clock, but the text written for the clock of its registers is not a name (it is the record of the
binding, with its separators). -/
theorem C70_counterexample_part_clock (w : ClkWorld) (c r : Bool) :
    exClkPart.text true = some ⟨true, .bound (.concat [.zero, .wire "_w_pll_f".toList 0]),
      [("x", .bound (.verbatim ";_w_pll_f,0,1".toList), none)], none, none,
      [("m", [.bound (.concat [.zero, .wire "_w_pll_f".toList 0])])]⟩ ∧
    hwView w exClkPart ⟨some c, some r⟩ [] = some ⟨some (w.wire [] "_w_pll_f".toList 0), [("x", none, none)], none, none,
      [("m", [some (w.wire [] "_w_pll_f".toList 0)])], [⟨"pll", none, none, [("clkin", some c)]⟩]⟩ := by
  refine ⟨by decide +kernel, by with_unfolding_all rfl⟩

end Silice
