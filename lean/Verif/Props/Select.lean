import Verif.Lemmas.Select
import Verif.Model.Inline

/-!
# C63: accesses designate the bits that the source designates
-/

set_option autoImplicit false

namespace Silice

/-- An access is accepted exactly when it makes sense: what it names is declared, members and ports exist, an index is given to tables only, a member lies within the word, a part
has at least one bit, no output of an instance is assigned, no input given by a binding is accessed.
Identifiers are taken to be those of the source (see `C63_counterexample_hidden`). -/
theorem C63_accepted_iff {D : Declared} (hd : Distinct D) (c : SelCtx) (rw : RW) (a : SAcc) (hv : Visible D a.ids) :
    (∃ r, compAcc D c rw a = .ok r) ↔ a.Sensible D rw :=
  compAcc_iff hd c rw a hv

/-- An assignment is accepted exactly when both sides make sense and the left one is a part of a variable which is no input and no expression. -/
theorem C63_assignment_iff {D : Declared} (hd : Distinct D) (c : SelCtx) (b : SBase) (i : SIdx) (fd : Option (String × String)) (p : SPart) (e : SEx)
    (hv : Visible D (SAcc.mk b i fd p).ids) (hv' : Visible D e.ids) :
    (∃ r, writeAsg D c (.mk b i fd p) e = .ok r) ↔
      (SAcc.mk b i fd p).Sensible D .wr ∧ e.Sensible D ∧ ∃ v, StandsFor D b v ∧ (∀ x, v ≠ .own x) ∧ c.held (D.name v) ≠ .expr := by
  have h1 := compAcc_iff hd c .wr (.mk b i fd p) hv
  have h2 := compEx_iff hd c e hv'
  rw [← h1, ← h2]
  constructor
  · rintro ⟨r, h⟩
    unfold writeAsg at h
    simp only at h
    split at h
    · cases h
    rename_i hx
    split at h
    · cases h
    rename_i hin
    split at h
    · cases h
    rename_i r' hr
    split at h
    · cases h
    rename_i ve he
    refine ⟨⟨r', hr⟩, ⟨ve, he⟩, ?_⟩
    obtain ⟨v, t, g1, g2, g3, g4, -⟩ := h1.mp ⟨r', hr⟩
    rw [accessedVar_name hd g1 g2] at hx hin
    have ho : ∀ x, v ≠ .own x := by
      rintro x rfl
      exact hin (by rw [show D.name (.own x) = x from rfl, show D.ins.lookup x = some t from g2]; rfl)
    refine ⟨v, g1, ho, fun hE => hx ?_⟩
    rw [(allVars_isSome g2 g3 ho).1]
    simpa using hE
  · rintro ⟨⟨r, hr⟩, ⟨ve, he⟩, v, g1, ho, hE⟩
    obtain ⟨v', t', k1, k2, k3, k4, -⟩ := h1.mp ⟨r, hr⟩
    have ht : ∃ t, D.ty v = some t := by
      cases g1 <;> rename_i h <;> exact Option.isSome_iff_exists.mp h
    obtain ⟨t, ht⟩ := ht
    have hf : D.Free v := by
      cases g1 with
      | var _ => trivial
      | own _ => trivial
      | member _ => trivial
      | output _ => trivial
      | input hi =>
        cases k1 with
        | input _ => exact k3
        | output ho' =>
          exact absurd rfl (k4 rfl _ _)
        | member hm =>
          exfalso
          simp only [Declared.ty, Option.bind_eq_some_iff] at ht k2
          obtain ⟨ms, e1, _⟩ := k2
          obtain ⟨p, e2, _⟩ := ht
          rw [insts_groups hd e1] at e2
          cases e2
    refine ⟨(r, ve), ?_⟩
    unfold writeAsg
    simp only [accessedVar_name hd g1 ht, hr, he]
    rw [if_neg (by simp [hE]), if_neg (by rw [ins_none hd ht hf ho]; simp)]

/-- What is written for an expression has the value that the expression has in the source, whatever its accesses: entries of tables, members of bit
fields, parts, of variables, members of groups and ports of instances, in any combination and nesting, before and after variables are assigned.
Partial: variables replaced by macros have to be read whole (`C63_counterexample_field_macro`). -/
theorem C63_read_partial {D : Declared} (hd : Distinct D) (c : SelCtx) (M : Module) (σ : SrcMem) (s : NetMem) (hh : Holds D c.held M c.deps σ s)
    (e : SEx) (e' : VEx) (v : Nat) (h : compEx D c e = .ok e') (hm : e.MacroWhole D c.held) (hv : SVal D σ e v) : e'.val M s = some v :=
  compEx_val hd (hh.on fun _ => True) e h hm (SEx.within_all (fun _ => trivial) e) hv

/-- Assignments one after the other change exactly the bits that they designate in the source: afterwards the signals of the module hold the values that the variables have
in the source, for all variables, and signals that are not written by the code (registers, outputs of instances, inputs, constants) are unchanged.
Partial: as before, and what is assigned has to be held by a register or a temporary. -/
theorem C63_code_partial {D : Declared} (hd : Distinct D) (held : String → Held) (M : Module) (deps : List String) (σ σ' : SrcMem) (s : NetMem)
    (hh : Holds D held M deps σ s) (code : List (SAcc × SEx)) (vs : List (VRef × VEx)) (h : writeCode D held deps code = .ok vs)
    (hc : ∀ p ∈ code, (held (accessedVar D p.1) = .flipflop ∨ held (accessedVar D p.1) = .temp) ∧ p.1.MacroWhole D held ∧ p.2.MacroWhole D held)
    (hr : AsgRun D σ code σ') :
    ∃ s', s.run M vs = some s' ∧ Holds D held M ((code.map fun p => accessedVar D p.1).reverse ++ deps) σ' s' ∧
      ∀ n, (∀ y, n ≠ .d y ∧ n ≠ .t y) → s' n = s n :=
  code_run hd code hh h hc hr

/-! ### A concrete case -/

/-- A word, a table, an index, a group, an instance, a bit field. -/
def exSelD : Declared where
  vars := [("w", ⟨8, 0⟩), ("t", ⟨8, 4⟩), ("i", ⟨2, 0⟩)]
  ins := [("a", ⟨8, 0⟩)]
  groups := [("g", [("x", ⟨4, 0⟩)])]
  insts := [("m", ⟨"_m", [("p", ⟨4, 0⟩)], [("r", ⟨4, 0⟩)], []⟩)]
  fields := [("F", [("hi", 4), ("lo", 4)])]

theorem exSelD_distinct : Distinct exSelD := by
  refine ⟨by decide +kernel, by decide +kernel, by decide +kernel, by decide +kernel, ?_⟩
  intro v t h
  have key : ∀ l : List (String × VarTy), (∀ p ∈ l, p.2.width < 2 ^ 32) → ∀ x t, l.lookup x = some t → t.width < 2 ^ 32 :=
    fun l hl x t h => hl _ (lookupS_mem h)
  cases v with
  | var x => exact key _ (by decide +kernel) _ _ h
  | own x => exact key _ (by decide +kernel) _ _ h
  | member g m =>
    simp only [Declared.ty, Option.bind_eq_some_iff] at h
    obtain ⟨ms, h1, h2⟩ := h
    have := lookupS_mem h1
    simp only [exSelD, List.mem_singleton, Prod.mk.injEq] at this
    obtain ⟨rfl, rfl⟩ := this
    exact key _ (by decide +kernel) _ _ h2
  | input i m =>
    simp only [Declared.ty, Option.bind_eq_some_iff] at h
    obtain ⟨p, h1, h2⟩ := h
    have := lookupS_mem h1
    simp only [exSelD, List.mem_singleton, Prod.mk.injEq] at this
    obtain ⟨rfl, rfl⟩ := this
    exact key _ (by decide +kernel) _ _ h2
  | output i m =>
    simp only [Declared.ty, Option.bind_eq_some_iff] at h
    obtain ⟨p, h1, h2⟩ := h
    have := lookupS_mem h1
    simp only [exSelD, List.mem_singleton, Prod.mk.injEq] at this
    obtain ⟨rfl, rfl⟩ := this
    exact key _ (by decide +kernel) _ _ h2

/-- Everything is a flip-flop, except `g_x`, a temporary. -/
def exSelHeld (x : String) : Held := if x = "g_x" then .temp else .flipflop

/-- `F(t[i]).hi = g.x; m.p = F(t[i]).hi + m.r; t[i][1,3] = w` -/
def exSelCode : List (SAcc × SEx) :=
  [(.mk (.id "t") (.at (.read (.mk (.id "i") .no none .no))) (some ("F", "hi")) .no, .read (.mk (.io "g" "x") .no none .no)),
   (.mk (.io "m" "p") .no none .no, .bin (· + ·) (.read (.mk (.id "t") (.at (.read (.mk (.id "i") .no none .no))) (some ("F", "hi")) .no))
     (.read (.mk (.io "m" "r") .no none .no))),
   (.mk (.id "t") (.at (.read (.mk (.id "i") .no none .no))) none (.at (.num 1) 3), .read (.mk (.id "w") .no none .no))]

/-- The code written. -/
def exSelV : List (VRef × VEx) :=
  [(.mk (.net (.d "t")) (.index (.ref (.mk (.net (.q "i")) .nil)) (.range (.num 4) 4 .nil)), .ref (.mk (.net (.t "g_x")) .nil)),
   (.mk (.net (.d "_m_p")) .nil, .bin (· + ·) (.ref (.mk (.net (.d "t")) (.index (.ref (.mk (.net (.q "i")) .nil)) (.range (.num 4) 4 .nil))))
     (.ref (.mk (.net (.o "_m_r")) .nil))),
   (.mk (.net (.d "t")) (.index (.ref (.mk (.net (.q "i")) .nil)) (.range (.ex (.num 1)) 3 .nil)), .ref (.mk (.net (.q "w")) .nil))]

example : writeCode exSelD exSelHeld [] exSelCode = .ok exSelV := by rfl

example : ∀ p ∈ exSelCode, (exSelHeld (accessedVar exSelD p.1) = .flipflop ∨ exSelHeld (accessedVar exSelD p.1) = .temp) ∧
    p.1.MacroWhole exSelD exSelHeld ∧ p.2.MacroWhole exSelD exSelHeld := by
  intro p hp
  have hf : ∀ x, exSelHeld x ≠ .textMacro := by intro x; unfold exSelHeld; split <;> simp
  refine ⟨?_, ?_, ?_⟩
  · unfold exSelHeld; split <;> simp
  all_goals
    simp only [exSelCode, List.mem_cons, List.not_mem_nil, or_false] at hp
    rcases hp with rfl | rfl | rfl <;> simp [SAcc.MacroWhole, SEx.MacroWhole, SIdx.MacroWhole, SPart.MacroWhole, hf]

/-- Values of the source: all bits of `i` and `w` are zero, the others are one. -/
def exSelMem : SrcMem := fun v _ _ => decide (v ≠ .var "i" ∧ v ≠ .var "w")

/-- The module with the types declared. -/
def exSelM : Module where
  ty
    | .q x | .d x => if x = "_m_p" then some ⟨4, 0⟩ else exSelD.vars.lookup x
    | .t x => if x = "g_x" then some ⟨4, 0⟩ else none
    | .i x => exSelD.ins.lookup x
    | .o x => if x = "_m_r" then some ⟨4, 0⟩ else none
    | _ => none
  mac _ := 0
  width _ := 32

/-- Its signals. -/
def exSelNet : NetMem := fun n _ _ => decide (n ≠ .q "i" ∧ n ≠ .q "w" ∧ n ≠ .d "i" ∧ n ≠ .d "w")

theorem exSel_holds : Holds exSelD exSelHeld exSelM [] exSelMem exSelNet := by
  have hf : ∀ x, exSelHeld x ≠ .textMacro := by intro x; unfold exSelHeld; split <;> simp
  refine ⟨?_, ?_, fun v t _ _ _ h => absurd h (hf _)⟩
  all_goals
    intro v t ht hfr n hn
    cases v with
    | var x =>
      have hm : x ∈ ["w", "t", "i"] := by
        have := lookupS_isSome.mp (show (exSelD.vars.lookup x).isSome = true by rw [show exSelD.vars.lookup x = some t from ht]; rfl)
        exact this
      simp only [List.mem_cons, List.not_mem_nil, or_false] at hm
      rcases hm with rfl | rfl | rfl <;>
      · simp only [currentIn, Declared.name, exSelHeld, String.reduceEq, if_false, List.not_mem_nil, List.mem_cons, or_false] at hn
        rcases hn with rfl | rfl
        all_goals first | exact ht | (intro k j; rfl)
    | own x =>
      simp only [currentIn, List.mem_singleton] at hn
      subst hn
      first | exact ht | (intro k j; simp [exSelNet, exSelMem])
    | member g m =>
      simp only [Declared.ty, Option.bind_eq_some_iff] at ht
      obtain ⟨ms, h1, h2⟩ := ht
      have := lookupS_mem h1
      simp only [exSelD, List.mem_singleton, Prod.mk.injEq] at this
      obtain ⟨rfl, rfl⟩ := this
      have := lookupS_mem h2
      simp only [List.mem_singleton, Prod.mk.injEq] at this
      obtain ⟨rfl, rfl⟩ := this
      have e : exSelHeld (exSelD.name (.member "g" "x")) = .temp := by decide +kernel
      simp only [currentIn, e, List.mem_singleton] at hn
      subst hn
      first | (intro k j; simp [exSelNet, exSelMem]) | decide +kernel
    | input i m =>
      simp only [Declared.ty, Option.bind_eq_some_iff] at ht
      obtain ⟨ms, h1, h2⟩ := ht
      have := lookupS_mem h1
      simp only [exSelD, List.mem_singleton, Prod.mk.injEq] at this
      obtain ⟨rfl, rfl⟩ := this
      have := lookupS_mem h2
      simp only [List.mem_singleton, Prod.mk.injEq] at this
      obtain ⟨rfl, rfl⟩ := this
      have e : exSelD.name (.input "m" "p") = "_m_p" := by decide +kernel
      have e2 : exSelHeld "_m_p" = .flipflop := by decide +kernel
      simp only [currentIn, e, e2, List.not_mem_nil, if_false, List.mem_cons, or_false] at hn
      rcases hn with rfl | rfl
      all_goals first | (intro k j; simp [exSelNet, exSelMem]) | decide +kernel
    | output i m =>
      simp only [Declared.ty, Option.bind_eq_some_iff] at ht
      obtain ⟨ms, h1, h2⟩ := ht
      have := lookupS_mem h1
      simp only [exSelD, List.mem_singleton, Prod.mk.injEq] at this
      obtain ⟨rfl, rfl⟩ := this
      have := lookupS_mem h2
      simp only [List.mem_singleton, Prod.mk.injEq] at this
      obtain ⟨rfl, rfl⟩ := this
      have e : exSelD.name (.output "m" "r") = "_m_r" := by decide +kernel
      simp only [currentIn, e, List.mem_singleton] at hn
      subst hn
      first | (intro k j; simp [exSelNet, exSelMem]) | decide +kernel

/-- The four high bits of the first entry of `t` are 15, so `m.p` receives 15 + 15; then bits 1 to 3 of the entry become 0. -/
example : ∃ σ', AsgRun exSelD exSelMem exSelCode σ' ∧ σ' (.input "m" "p") 0 0 = false ∧ σ' (.input "m" "p") 0 1 = true ∧ σ' (.var "t") 0 1 = false ∧
    σ' (.var "t") 0 0 = true := by
  have hi : ∀ σ : SrcMem, σ (.var "i") 0 0 = false → σ (.var "i") 0 1 = false →
      SIdxVal exSelD σ (.at (.read (.mk (.id "i") .no none .no))) (some 0) := by
    intro σ h0 h1
    have := SIdxVal.at (SVal.read (SPlace.mk (D := exSelD) (σ := σ) (t := ⟨2, 0⟩) (StandsFor.var (x := "i") (by decide +kernel)) (by decide +kernel) SIdxVal.no SPartVal.no
      (.word (k := 0) (.inl ⟨rfl, rfl, rfl⟩))))
    simpa [bitsVal, h0, h1] using this
  have hF : Designated exSelD ⟨8, 4⟩ (some 0) (some ("F", "hi")) none ⟨0, 4, 4⟩ :=
    .field (b := [("hi", 4), ("lo", 4)]) (.word (.inr ⟨rfl, by decide⟩)) (by decide +kernel) ⟨[], [("lo", 4)], rfl, rfl⟩ (by decide)
  have hT : StandsFor exSelD (.id "t") (.var "t") := .var (by decide +kernel)
  have hTy : exSelD.ty (.var "t") = some ⟨8, 4⟩ := by decide +kernel
  refine ⟨_, .asg (.mk hT hTy (hi _ (by decide) (by decide)) .no hF)
      (.read (.mk (t := ⟨4, 0⟩) (.member (g := "g") (m := "x") (by decide +kernel)) (by decide +kernel) .no .no (.word (k := 0) (.inl ⟨rfl, rfl, rfl⟩))))
    (.asg (.mk (t := ⟨4, 0⟩) (.input (i := "m") (m := "p") (by decide +kernel)) (by decide +kernel) .no .no (.word (k := 0) (.inl ⟨rfl, rfl, rfl⟩)))
      (.bin (.read (.mk hT hTy (hi _ (by decide) (by decide)) .no hF))
        (.read (.mk (t := ⟨4, 0⟩) (.output (i := "m") (m := "r") (by decide +kernel)) (by decide +kernel) .no .no (.word (k := 0) (.inl ⟨rfl, rfl, rfl⟩)))))
      (.asg (.mk hT hTy (hi _ (by decide) (by decide)) (.at .num) (.part (.word (.inr ⟨rfl, by decide⟩)) (by decide) (by decide)))
        (.read (.mk (t := ⟨8, 0⟩) (.var (x := "w") (by decide +kernel)) (by decide +kernel) .no .no (.word (k := 0) (.inl ⟨rfl, rfl, rfl⟩)))) .nil)), ?_⟩
  decide +kernel

/-- The hypotheses of the two theorems are met. -/
example : ∀ p ∈ exSelCode, Visible exSelD p.1.ids ∧ Visible exSelD p.2.ids := by
  intro p hp
  simp only [exSelCode, List.mem_cons, List.not_mem_nil, or_false] at hp
  rcases hp with rfl | rfl | rfl <;> (unfold Visible; decide +kernel)

/-! ### Findings -/

/-- A member of a bit field, or a part, of a whole table is accepted. What is written is not Verilog: a table has to be indexed first. -/
theorem C63_counterexample_table (f : Nat) (M : Module) (s : NetMem) (hM : M.ty (.q "t") = some ⟨8, 4⟩) :
    (∃ e, compEx exSelD ⟨exSelHeld, []⟩ (.read (.mk (.id "t") .no none (.at (.num f) 3))) = .ok e ∧ e.val M s = none) ∧
    ∃ e, compEx exSelD ⟨exSelHeld, []⟩ (.read (.mk (.id "t") .no (some ("F", "hi")) .no)) = .ok e ∧ e.val M s = none := by
  refine ⟨⟨.ref (.mk (.net (.q "t")) (.range (.ex (.num f)) 3 .nil)), rfl, ?_⟩, ⟨.ref (.mk (.net (.q "t")) (.range (.num 4) 4 .nil)), rfl, ?_⟩⟩
  all_goals simp [VEx.val, VSufs.bits, VFirst.val, hM]

/-- Indices are not checked, even when they are numbers: entry 7 of a table of 4, bits 6 to 9 of a word of 8. -/
theorem C63_counterexample_bounds (M : Module) (s : NetMem) (hM : M.ty (.q "t") = some ⟨8, 4⟩) (hM' : M.ty (.q "w") = some ⟨8, 0⟩) :
    (∃ e, compEx exSelD ⟨exSelHeld, []⟩ (.read (.mk (.id "t") (.at (.num 7)) none .no)) = .ok e ∧ e.val M s = none) ∧
    ∃ e, compEx exSelD ⟨exSelHeld, []⟩ (.read (.mk (.id "w") .no none (.at (.num 6) 4))) = .ok e ∧ e.val M s = none := by
  refine ⟨⟨.ref (.mk (.net (.q "t")) (.index (.num 7) .nil)), rfl, ?_⟩, ⟨.ref (.mk (.net (.q "w")) (.range (.ex (.num 6)) 4 .nil)), rfl, ?_⟩⟩
  all_goals simp [VEx.val, VSufs.bits, VFirst.val, hM, hM']

/-- The names made by the compiler for members of groups are accepted in the source: nothing is declared as `g_x`, which stands for the member `x` of `g`. -/
theorem C63_counterexample_hidden :
    ¬ (SAcc.mk (.id "g_x") .no none .no).Sensible exSelD .wr ∧
    compAcc exSelD ⟨exSelHeld, []⟩ .wr (.mk (.id "g_x") .no none .no) = .ok (.mk (.net (.t "g_x")) .nil) := by
  refine ⟨?_, rfl⟩
  rintro ⟨v, t, h, ht, -⟩
  cases h with
  | var h => revert h; decide +kernel
  | own h => revert h; decide +kernel

/-- `w = a; o = F(w).hi`: the variable `w` is written once and then read, so it can become a macro; reading a member of a bit field does not prevent it
(`isPartialAccess`), and what is written for the member then is not Verilog: bits of the result of `$unsigned( )`. -/
theorem C63_counterexample_field_macro :
    (stableRun (V := Nat) 10 Deps.empty (fun _ => none) [⟨"w", ["a"], fun _ => 0⟩, ⟨"o", ["w"], fun _ => 0⟩]).map
      (fun r => (r.toOption.bind fun st => st "w")) = some (some true) ∧
    isPartialAccess (.mk (.id "w") .no (some ("F", "hi")) .no) = false ∧
    (SAcc.mk (.id "w") .no (some ("F", "hi")) .no).Sensible exSelD .rd ∧
    ∃ e, compEx exSelD ⟨fun x => if x = "w" then .textMacro else .flipflop, []⟩ (.read (.mk (.id "w") .no (some ("F", "hi")) .no)) = .ok e ∧
      ∀ M s, e.val M s = none := by
  refine ⟨by decide +kernel, rfl, ?_, ⟨.ref (.mk (.mac "w") (.range (.num 4) 4 .nil)), rfl, fun M s => rfl⟩⟩
  refine ⟨.var "w", ⟨8, 0⟩, .var (by decide +kernel), by decide +kernel, trivial, by simp, trivial, trivial, ?_⟩
  rintro f hf
  simp only [Option.some.injEq] at hf
  subst hf
  exact ⟨[("hi", 4), ("lo", 4)], 4, 4, by decide +kernel, ⟨[], [("lo", 4)], rfl, rfl⟩, by decide⟩

end Silice
