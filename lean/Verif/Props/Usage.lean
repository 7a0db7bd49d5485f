import Verif.Lemmas.Usage

/-!
# C30, C49: variables kept without a register, values seen by reads

`Design` is an algorithm (`always_before`, states, `always_after`, bound inputs), `demote` the storage classes
after the first pass, `emit` the second pass. `srcCycle`, `src` give the meaning of the source.
-/

set_option autoImplicit false

namespace Silice

variable {V : Type}

/-- C30. A variable that the first pass makes temporary is, in every cycle and on every path through it, assigned
as a whole before each read, also before the reads by instances bound to it, and no instance reads it at the
start of the cycle.
Partial: not for variables assigned through bit field members, and not for reads after the code of a state when
the algorithm has terminated or the state has a `while` followed by a state. See the counterexamples below. -/
theorem C30_temporary_written_before_read_partial (a : Design V) (cls : String → Store) (x : String)
    (hs : a.Shape) (hc : cls x = .flipflop) (ht : a.demote cls x = .temp) (hf : a.NoField x)
    (k : Nat) (hp : a.PostSafe x k) (m : String → V) :
    WrittenBeforeRead x (a.srcCycle ⟨k, m⟩).evs ∧ x ∉ a.bindQ ∧
    (x ∈ a.bindD → ∃ e ∈ (a.srcCycle ⟨k, m⟩).evs, x ∈ e.writes) := by
  have hd : (a.endUse cls x).q = false ∧ a.endKeys x = true := by
    unfold Design.demote at ht
    split at ht
    · next h => simp only [Bool.and_eq_true, Bool.not_eq_true'] at h; exact h.1
    · rw [hc] at ht; exact absurd ht (by simp)
  obtain ⟨h1, h2, h3⟩ := a.cover hc hs hf hd.1 k hp m
  refine ⟨covered_writtenBeforeRead h1, h2, fun hx => ?_⟩
  have := h3 hx hd.2
  simpa [wrote] using this

/-- C30. A flip-flop is given up only if no path reads it before assigning it: if in some cycle of some state a
read of `x` comes before any assignment of it, `x` keeps its register. Same restrictions. -/
theorem C30_register_kept_partial (a : Design V) (cls : String → Store) (x : String)
    (hs : a.Shape) (hc : cls x = .flipflop) (hf : a.NoField x)
    (k : Nat) (hp : a.PostSafe x k) (m : String → V)
    (hr : ¬ WrittenBeforeRead x (a.srcCycle ⟨k, m⟩).evs) : a.demote cls x = .flipflop := by
  by_contra h
  have ht : a.demote cls x = .temp := by
    cases hd : a.demote cls x with
    | temp => rfl
    | flipflop => exact absurd hd h
  exact hr (C30_temporary_written_before_read_partial a cls x hs hc ht hf k hp m).1

/-- C49. The hardware follows the source. `cls0` are the classes before the first pass; a variable that is
temporary there is assigned before it is read in every cycle (C33). Start with registers that hold the values of
the variables. Then after any number of cycles the state index and all flip-flops hold what the source says, every
instruction and test of the next cycle reads the values the source reads, in the same order, instances bound
on the D side receive the values at the end of the cycle, and a temporary assigned in the cycle (say an output that
is not registered) holds the value assigned. Temporaries may hold anything at the start of each cycle.
Partial: same restrictions as C30, for the variables made temporary. -/
theorem C49_hardware_follows_source_partial (a : Design V) (cls0 : String → Store) (hs : a.Shape)
    (junk : Nat → String → V) (r : HReg V) (s : SReg V) (hi : r.idx = s.idx)
    (hr : ∀ x, a.demote cls0 x = .flipflop → r.q x = s.env x)
    (hT : ∀ x, cls0 x = .temp → ∀ k m, WrittenBeforeRead x (a.srcCycle ⟨k, m⟩).evs)
    (hF : ∀ x, cls0 x = .flipflop → a.demote cls0 x = .temp → a.NoField x)
    (n : Nat) (hP : ∀ x, cls0 x = .flipflop → a.demote cls0 x = .temp → ∀ j, j ≤ n → a.PostSafe x (a.src s j).idx) :
    let cls := a.demote cls0
    let e := a.emit cls
    (e.regs cls junk r n).idx = (a.src s n).idx ∧
    (∀ x, cls x = .flipflop → (e.regs cls junk r n).q x = (a.src s n).env x) ∧
    (e.cycle cls (junk n) (e.regs cls junk r n)).evs = (a.srcCycle (a.src s n)).evs ∧
    (∀ x, cls0 x = .flipflop → x ∈ a.bindD →
      (e.cycle cls (junk n) (e.regs cls junk r n)).v x = (a.srcCycle (a.src s n)).env x) ∧
    (∀ x, cls x = .temp → (∃ v ∈ (a.srcCycle (a.src s n)).evs, x ∈ v.writes) →
      (e.cycle cls (junk n) (e.regs cls junk r n)).v x = (a.srcCycle (a.src s n)).env x) ∧
    (∀ x, cls0 x = .flipflop → x ∈ a.bindQ → cls x = .flipflop) := by
  intro cls e
  have hdem : ∀ x, cls0 x = .flipflop → a.demote cls0 x = .temp → (a.endUse cls0 x).q = false ∧ a.endKeys x = true := by
    intro x hc ht
    unfold Design.demote at ht
    split at ht
    · next h => simp only [Bool.and_eq_true, Bool.not_eq_true'] at h; exact h.1
    · rw [hc] at ht; exact absurd ht (by simp)
  have hcov : ∀ j, j ≤ n → ∀ x, cls x = .temp → Covered x false (a.srcCycle (a.src s j)).evs := by
    intro j hj x hx
    cases hc : cls0 x with
    | temp => exact covered_of_writtenBeforeRead (hT x hc _ _)
    | flipflop => exact (a.cover hc hs (hF x hc hx) (hdem x hc hx).1 _ (hP x hc hx j hj) _).1
  have main : ∀ j, j ≤ n → (e.regs cls junk r j).idx = (a.src s j).idx ∧
      ∀ x, cls x = .flipflop → (e.regs cls junk r j).q x = (a.src s j).env x := by
    intro j
    induction j with
    | zero => exact fun _ => ⟨hi, hr⟩
    | succ j ih =>
      intro hj
      obtain ⟨h1, h2⟩ := ih (by omega)
      have ag := Design.cycle_agree hs (junk j) (e.regs cls junk r j) (a.src s j) h1 h2 (hcov j (by omega))
      refine ⟨?_, ?_⟩
      · have hn : (e.cycle cls (junk j) (e.regs cls junk r j)).next = ((a.srcCycle (a.src s j)).out <|> none) := ag.next
        simp only [EDesign.regs, HSt.clock, Design.src, hn, h1]
        cases (a.srcCycle (a.src s j)).out <;> rfl
      · intro x hx
        simp only [EDesign.regs, HSt.clock, HSt.latched, Design.src, hx]
        exact ag.ff x hx
  obtain ⟨h1, h2⟩ := main n le_rfl
  have ag := Design.cycle_agree hs (junk n) (e.regs cls junk r n) (a.src s n) h1 h2 (hcov n le_rfl)
  refine ⟨h1, h2, ?_, ?_, ?_, ?_⟩
  · have := ag.evs
    simpa using this
  · intro x hc hx
    cases hd : cls x with
    | flipflop => exact ag.ff x hd
    | temp =>
      apply ag.tmp x hd
      exact (a.cover hc hs (hF x hc hd) (hdem x hc hd).1 _ (hP x hc hd n le_rfl) _).2.2 hx (hdem x hc hd).2
  · intro x hx hw
    exact ag.tmp x hx (by simpa [wrote] using hw)
  · intro x hc hx
    cases hd : cls x with
    | flipflop => rfl
    | temp => exact absurd hx (a.cover hc hs (hF x hc hd) (hdem x hc hd).1 _ (hP x hc hd n le_rfl) (a.src s n).env).2.1

/-! ### Examples -/

/-- `dst = f(reads)` on numbers. -/
def asg (dst : String) (reads : List String) (f : List Nat → Nat) : Stm Nat :=
  .ins { reads := reads, writes := [dst], fn := fun vs _ => f vs }

/-- `if (c != 0) a else b`. -/
def ifNZ (c : String) (a b : Stm Nat) : Stm Nat :=
  .branch [c] (fun vs => some (if vs = [0] then 1 else 0)) (.cons a (.one b)) false none

/-- always_before { t = a + 1; }  state 0: if (a) { u = t; } else { u = 7; } a = u + t; goto 0
always_after { o = u; } with t bound to an instance. -/
def exDesign : Design Nat :=
  { pre := asg "t" ["a"] fun vs => vs.sum + 1
    states := [.seq (ifNZ "a" (asg "u" ["t"] fun vs => vs.sum) (asg "u" [] fun _ => 7))
      (.seq (asg "a" ["u", "t"] fun vs => vs.sum) (.exit 0))]
    post := asg "o" ["u"] fun vs => vs.sum
    bindQ := ["a"]
    bindD := ["t"]
    outs := ["o"] }

def allFF : String → Store := fun _ => .flipflop

theorem ifNZ_shape {c : String} {a b : Stm Nat} (ha : a.Shape) (hb : b.Shape) : (ifNZ c a b).Shape :=
  ⟨⟨ha, hb⟩, fun _ _ _ => rfl⟩

theorem exDesign_shape : exDesign.Shape := by
  refine ⟨trivial, trivial, ?_, trivial, trivial⟩
  intro s hs
  simp only [exDesign, List.mem_singleton] at hs
  subst hs
  exact ⟨⟨⟨trivial, trivial⟩, rfl⟩, ifNZ_shape trivial trivial, trivial, trivial, trivial⟩

theorem exDesign_closed : ∀ s ∈ exDesign.states, s.Closed := by
  intro s hs
  simp only [exDesign, List.mem_singleton] at hs
  subst hs
  exact ⟨⟨⟨trivial, trivial⟩, fun _ => rfl⟩, trivial, trivial⟩

theorem exDesign_noField (x : String) : exDesign.NoField x := by
  refine ⟨List.not_mem_nil, ?_, List.not_mem_nil⟩
  intro s hs
  simp only [exDesign, List.mem_singleton] at hs
  subst hs
  exact ⟨⟨List.not_mem_nil, List.not_mem_nil⟩, List.not_mem_nil, trivial⟩

/-- `t` and `u` become temporaries, `a` keeps its register; `o` is never read. -/
example : exDesign.demote allFF "t" = .temp ∧ exDesign.demote allFF "u" = .temp ∧
    exDesign.demote allFF "a" = .flipflop := by decide +kernel

/-- The state goes back to itself, so the algorithm never terminates. -/
theorem exDesign_idx (m : String → Nat) (j : Nat) : (exDesign.src ⟨0, m⟩ j).idx = 0 := by
  induction j with
  | zero => rfl
  | succ j ih =>
    generalize hh : exDesign.src ⟨0, m⟩ j = s at ih
    have : (exDesign.srcCycle s).out = some 0 := by
      obtain ⟨i, env⟩ := s
      simp only at ih
      subst ih
      simp only [Design.srcCycle, Design.stateRun, exDesign, List.getElem?_cons_zero]
      simp only [Stm.run]
      have : ∀ m', ((ifNZ "a" (asg "u" ["t"] fun vs => vs.sum) (asg "u" [] fun _ => 7)).run m').out = none :=
        fun m' => by
          refine Stm.run_noExit _ ?_ m'
          exact ⟨⟨trivial, trivial⟩, rfl⟩
      rw [this]
      rfl
    simp only [Design.src, hh, this]

theorem exDesign_safe (m : String → Nat) (x : String) (j : Nat) : exDesign.PostSafe x (exDesign.src ⟨0, m⟩ j).idx := by
  rw [exDesign_idx]
  exact Or.inr (Or.inr ⟨_, rfl, exDesign_closed _ (by simp [exDesign])⟩)

/-- The hypotheses of C30 hold. -/
example (m : String → Nat) : WrittenBeforeRead "u" (exDesign.srcCycle ⟨0, m⟩).evs :=
  (C30_temporary_written_before_read_partial exDesign allFF "u" exDesign_shape rfl (by decide +kernel)
    (exDesign_noField _) 0 (exDesign_safe m "u" 0) m).1

/-- `a` is read before it is assigned, so its register is kept. -/
example (m : String → Nat) : exDesign.demote allFF "a" = .flipflop :=
  C30_register_kept_partial exDesign allFF "a" exDesign_shape rfl (exDesign_noField _) 0 (exDesign_safe m "a" 0) m (by
    intro h
    obtain ⟨e, he, _⟩ := h [] ⟨["a"], [m "a"], ["t"]⟩ _ rfl (by simp)
    simp at he)

/-- The hypotheses of C49 hold, with temporaries that hold anything. -/
example (junk : Nat → String → Nat) (m : String → Nat) (n : Nat) :
    ((exDesign.emit (exDesign.demote allFF)).regs (exDesign.demote allFF) junk ⟨0, m⟩ n).q "a" =
      (exDesign.src ⟨0, m⟩ n).env "a" :=
  (C49_hardware_follows_source_partial exDesign allFF exDesign_shape junk ⟨0, m⟩ ⟨0, m⟩ rfl (fun _ _ => rfl)
    (fun _ h => absurd h (by simp [allFF])) (fun x _ _ => exDesign_noField x) n
    (fun x _ _ j _ => exDesign_safe m x j)).2.1 "a" (by decide +kernel)

/-! ### Where it fails -/

/-- `algorithm f(output uint8 o) { uint8 x = 0; always_after { o = x; } x = 42; ++: x = 43; }` -/
def exEnd : Design Nat :=
  { pre := .skip
    states := [.seq (asg "x" [] fun _ => 42) (.exit 1), .seq (asg "x" [] fun _ => 43) (.exit 2)]
    post := asg "o" ["x"] fun vs => vs.sum
    bindQ := []
    bindD := []
    outs := ["o"] }

/-- Finding: once the algorithm has terminated, `always_after` reads the temporary `x`, which nothing assigns in
that cycle. The source has 43 in the output, the hardware gets the initial value. -/
theorem C30_counterexample_terminated :
    exEnd.demote allFF "x" = .temp ∧
    ¬ WrittenBeforeRead "x" (exEnd.srcCycle (exEnd.src ⟨0, fun _ => 0⟩ 2)).evs ∧
    (exEnd.src ⟨0, fun _ => 0⟩ 3).env "o" = 43 ∧
    ((exEnd.emit (exEnd.demote allFF)).regs (exEnd.demote allFF) (fun _ _ => 0) ⟨0, fun _ => 0⟩ 3).q "o" = 0 := by
  refine ⟨by decide +kernel, ?_, by decide +kernel, by decide +kernel⟩
  intro h
  obtain ⟨e, he, _⟩ := h [] ⟨["x"], [43], ["o"]⟩ [] rfl (by simp)
  simp at he

/-- `while (c) { x = 5; }  ++: c = 0; x = 6; goto the loop` with `always_after { o = x; }`. -/
def exLoop : Design Nat :=
  { pre := .skip
    states := [.branch ["c"] (fun vs => if vs = [0] then none else some 0)
        (.one (.seq (asg "x" [] fun _ => 5) (.exit 0))) false (some 1),
      .seq (asg "c" [] fun _ => 0) (.seq (asg "x" [] fun _ => 6) (.exit 0))]
    post := asg "o" ["x"] fun vs => vs.sum
    bindQ := []
    bindD := []
    outs := ["o"] }

/-- Finding: the path that leaves a `while` followed by a state is not counted as a branch. The variable assigned in
the loop is made temporary although this path reads it without assigning it. -/
theorem C30_counterexample_while :
    exLoop.demote allFF "x" = .temp ∧ (∀ s ∈ exLoop.states, s.Shape) ∧
    ¬ WrittenBeforeRead "x" (exLoop.srcCycle ⟨0, fun _ => 0⟩).evs ∧
    (exLoop.src ⟨1, fun _ => 0⟩ 2).env "o" = 6 ∧
    ((exLoop.emit (exLoop.demote allFF)).regs (exLoop.demote allFF) (fun _ _ => 0) ⟨1, fun _ => 0⟩ 2).q "o" = 0 := by
  refine ⟨by decide +kernel, ?_, ?_, by decide +kernel, by decide +kernel⟩
  · intro s hs
    simp only [exLoop, List.mem_cons, List.not_mem_nil, or_false] at hs
    rcases hs with rfl | rfl
    · exact ⟨⟨trivial, trivial, trivial⟩, fun _ h => absurd h (by simp)⟩
    · exact ⟨trivial, trivial, trivial, trivial, trivial⟩
  · intro h
    obtain ⟨e, he, hw⟩ := h [⟨["c"], [0], []⟩] ⟨["x"], [0], ["o"]⟩ [] rfl (by simp)
    simp only [List.mem_singleton] at he
    subst he
    simp at hw

/-- `always_before { F(x).hi = 1; }` with `y = x; x stays`: one member of two is assigned. Values are 10*hi + lo. -/
def exField : Design Nat :=
  { pre := .ins { reads := [], writes := [], fields := ["x"], fn := fun _ _ => 0, upd := fun _ _ v => 10 + v % 10 }
    states := [.seq (asg "y" ["x"] fun vs => vs.sum) (.exit 0)]
    post := .skip
    bindQ := []
    bindD := []
    outs := ["y"] }

/-- Finding: assigning one member through a bit field counts as assigning the variable (a part select would not), so
the variable loses its register and the other members are lost. -/
theorem C30_counterexample_bitfield :
    exField.demote allFF "x" = .temp ∧
    ¬ WrittenBeforeRead "x" (exField.srcCycle ⟨0, fun _ => 3⟩).evs ∧
    (exField.src ⟨0, fun _ => 3⟩ 1).env "y" = 13 ∧
    ((exField.emit (exField.demote allFF)).regs (exField.demote allFF) (fun _ _ => 0) ⟨0, fun _ => 3⟩ 1).q "y" = 10 := by
  refine ⟨by decide +kernel, ?_, by decide +kernel, by decide +kernel⟩
  intro h
  obtain ⟨e, he, hw⟩ := h [⟨[], [], []⟩] ⟨["x"], [13], ["y"]⟩ [] rfl (by simp)
  simp only [List.mem_singleton] at he
  subst he
  simp at hw

/-- `unit u(input uint1 c, output uint8 o) { always_before { if (c) { o = 1; } } }`: no states. -/
def exHold : Design Nat :=
  { pre := ifNZ "c" (asg "o" [] fun _ => 1) .skip
    states := []
    post := .skip
    bindQ := []
    bindD := []
    outs := ["o"] }

/-- Finding: without states, an output assigned on some paths only is not registered either: on the other paths it
shows its default instead of the last value assigned. With a state it would hold its value. -/
theorem C30_counterexample_output_not_held :
    exHold.demote allFF "o" = .temp ∧
    ({ exHold with states := [.exit 0] } : Design Nat).demote allFF "o" = .flipflop ∧
    (exHold.srcCycle ⟨0, fun x => if x = "o" then 1 else 0⟩).env "o" = 1 ∧
    ((exHold.emit (exHold.demote allFF)).cycle (exHold.demote allFF) (fun _ => 0) ⟨0, fun x => if x = "o" then 1 else 0⟩).v "o"
      = 0 := by decide +kernel

/-- The same with a part select keeps the register. -/
example : ({ exField with
    pre := .ins { reads := [], writes := [], parts := ["x"], fn := fun _ _ => 0, upd := fun _ _ v => 10 + v % 10 } } :
      Design Nat).demote allFF "x" = .flipflop := by decide +kernel

end Silice
