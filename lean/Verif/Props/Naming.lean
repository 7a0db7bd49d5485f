import Verif.Lemmas.ModNames
import Verif.Lemmas.SigNames

/-!
# C60: generated modules and signals have names of their own
-/

set_option autoImplicit false

namespace Silice

/-- Modules: under the conditions of `UNode.Named` no two modules of a design get the same name. -/
theorem C60_modules_distinct_partial (top : UNode) (hN : top.Named) : top.topModules.Nodup := topModules_nodup top hN

theorem modulePath_ne (a b : String) : a ++ "_" ++ b ≠ "" := by
  intro h
  have := congrArg String.toList h
  simp [String.toList_append] at this

mutual
theorem UNode.modules_uses (n : UNode) (path top : String) (hp : path ≠ "") : (n.modules path).Perm (unitModule n.unit path :: n.uses path top) := by
  match n with
  | .mk u mems insts =>
    rw [UNode.modules, UNode.uses, List.append_assoc, List.singleton_append]
    refine List.perm_middle.trans (.cons _ ?_)
    exact (List.Perm.refl _).append (insts.modules_uses path path top (by rw [if_neg hp]))

theorem UNodes.modules_uses (l : UNodes) (path ctx top : String) (hc : (if ctx = "" then top else ctx) = path) : (l.modules path).Perm (l.uses ctx top) := by
  match l with
  | .nil => exact .refl _
  | .cons i n rest =>
    have e : path ++ "_" ++ i ≠ "" := modulePath_ne path i
    simp only [UNodes.modules, UNodes.uses, hc, if_neg e]
    have h := n.modules_uses (path ++ "_" ++ i) top e
    have h' : unitModule n.unit (path ++ "_" ++ i) = "M_" ++ n.unit ++ ("_" ++ (path ++ "_" ++ i)) := by
      apply String.toList_injective; simp [unitModule, String.toList_append]
    rw [h'] at h
    exact h.append (rest.modules_uses path ctx top hc)
end

/-- For every design: the modules written are the top module and the ones instantiated somewhere, each as many times as it is instantiated. No module is
missing, and with distinct names each is written for a single place. -/
theorem C60_instantiated_written (top : UNode) :
    top.topModules.Perm (("M_" ++ top.unit) :: top.uses "" ("M_" ++ top.unit)) := by
  match top with
  | .mk u mems insts =>
    rw [UNode.topModules, UNode.uses, List.append_assoc, List.singleton_append]
    refine List.perm_middle.trans (.cons _ ?_)
    exact (List.Perm.refl _).append (insts.modules_uses ("M_" ++ u) "" ("M_" ++ u) (if_pos rfl))

/-- A unit `A` instantiated as `b_c`, and as `c` in a unit that is instantiated as `b`. -/
def exSameModule : UNode :=
  .mk "main" [] (.cons "b_c" (.mk "A" [] .nil) (.cons "b" (.mk "B" [] (.cons "c" (.mk "A" [] .nil) .nil)) .nil))

/-- Names of instances are distinct in every unit, yet two modules have the same name. -/
theorem C60_counterexample_modules : ¬ exSameModule.topModules.Nodup ∧ (exSameModule.insts.list.map Prod.fst).Nodup ∧
    exSameModule.topModules.count "M_A_M_main_b_c" = 2 := by
  refine ⟨?_, ?_, ?_⟩ <;> decide +kernel

/-- Imported Verilog modules: what is written is what was imported, in order; written once if all modules are different. -/
theorem C60_imports (known : List String) (l : List (String × String)) (st : ImportSt) (h : importAll ⟨known, []⟩ l = some st) :
    st.written = l.map Prod.snd ∧ (st.written.Nodup ↔ (l.map Prod.snd).Nodup) := by
  have key : ∀ (l : List (String × String)) (s : ImportSt), importAll s l = some st → st.written = s.order ++ l.map Prod.snd := by
    intro l
    induction l with
    | nil => intro s h; simp only [importAll, Option.some.injEq] at h; subst h; simp [ImportSt.written]
    | cons p l ih =>
      intro s h
      obtain ⟨f, n⟩ := p
      simp only [importAll, importModule] at h
      split at h
      · cases h
      · rw [Option.bind_some] at h
        rw [ih _ h]
        simp
  have := key l _ h
  simp only [List.nil_append] at this
  exact ⟨this, by rw [this]⟩

/-- A file imported twice is accepted, and its module written twice. -/
theorem C60_counterexample_import : ∃ st, importAll ⟨[], []⟩ [("./pll.v", "pll"), ("./pll.v", "pll")] = some st ∧ ¬ st.written.Nodup := by
  refine ⟨⟨["pll"], ["pll", "pll"]⟩, ?_, ?_⟩ <;> decide +kernel

/-- Signals: in the module of a unit no identifier is declared twice, under the conditions of `SigUnit.Avoids`. -/
theorem C60_signals_distinct_partial (u : SigUnit) (hc : u.Checked) (ha : u.Avoids) : u.declared.Nodup := SigUnit.declared_nodup hc ha

/-- A unit with nothing inside. -/
def sigNone : SigUnit where
  inputs := []
  outputs := []
  inouts := []
  temps := []
  consts := []
  wires := []
  inoutWires := []
  flipflops := []
  insts := []
  mems := []
  memOuts := []
  rootFsm := none
  autorun := true
  stageFsms := []
  calls := false
  callingSubs := []
  callable := false
  topmost := false
  reset := false
  split := false

/-- A unit with a state machine and an output `done`. -/
def exDoneSignal : SigUnit := { sigNone with outputs := ["done"], flipflops := ["done"], rootFsm := some "fsm0", callable := true }

/-- A unit with a variable `caller`, that calls subroutines. -/
def exCallerSignal : SigUnit := { sigNone with flipflops := ["caller"], rootFsm := some "fsm0", calls := true }

/-- A unit with a variable `run` and an instance `q` that can be called. -/
def exRunSignal : SigUnit := { sigNone with flipflops := ["run"], insts := [⟨"q", [], true, true⟩] }

/-- A unit with a tracked expression `a_v` and an instance `a` with an output `v`. -/
def exTracked : SigUnit := { sigNone with wires := ["a_v"], insts := [⟨"a", ["v"], false, false⟩] }

/-- Names the compiler accepts that are declared twice in the module: an output `done`, a variable `caller`, a variable `run` besides an instance `q`, a tracked
expression `a_v` besides an output `v` of instance `a`. -/
theorem C60_counterexample_signals :
    (exDoneSignal.Checked ∧ exDoneSignal.declared.count "out_done" = 2) ∧ (exCallerSignal.Checked ∧ exCallerSignal.declared.count "_d_caller" = 2) ∧
    (exRunSignal.Checked ∧ exRunSignal.declared.count "_q_run" = 2) ∧ (exTracked.Checked ∧ exTracked.declared.count "_w_a_v" = 2) := by
  have hq : ∀ r : String, "q" ≠ "_" ++ r := fun r => str_ne (by simp [String.toList_append])
  have h_a : ∀ r : String, "a" ≠ "_" ++ r := fun r => str_ne (by simp [String.toList_append])
  refine ⟨⟨?_, by decide +kernel⟩, ⟨?_, by decide +kernel⟩, ⟨?_, by decide +kernel⟩, ⟨?_, by decide +kernel⟩⟩
  · constructor <;> simp [exDoneSignal, sigNone]
  · constructor <;> simp [exCallerSignal, sigNone]
  · constructor <;> simp [exRunSignal, sigNone]
    exact hq
  · constructor <;> simp [exTracked, sigNone]
    exact h_a

/-! Cases that meet the conditions. -/

theorem noM_of {s : String} (h : ¬ ['_', 'M'] <:+: s.toList) : NoM s := by
  intro a b e
  exact h ⟨a, b, by rw [e]; simp⟩

def exLeaf : UNode := .mk "leaf" ["tbl"] .nil
def exTree : UNode := .mk "main" ["ram"] (.cons "a" exLeaf (.cons "b" (.mk "mid" [] (.cons "x" exLeaf .nil)) (.cons "ab" exLeaf .nil)))

theorem exTree_named : exTree.Named := by
  have hb : ∀ n, UNode.Below exTree n → n = exTree ∨ n = exLeaf ∨ n = .mk "mid" [] (.cons "x" exLeaf .nil) := by
    have hl : ∀ n, UNode.Below exLeaf n → n = exLeaf := by
      intro n h
      cases h with
      | self => rfl
      | step hm _ => simp [exLeaf, UNode.insts, UNodes.list] at hm
    have hmid : ∀ n, UNode.Below (.mk "mid" [] (.cons "x" exLeaf .nil)) n → n = .mk "mid" [] (.cons "x" exLeaf .nil) ∨ n = exLeaf := by
      intro n h
      cases h with
      | self => exact .inl rfl
      | step hm hb =>
        simp only [UNode.insts, UNodes.list, List.mem_singleton, Prod.mk.injEq] at hm
        obtain ⟨_, rfl⟩ := hm
        exact .inr (hl n hb)
    intro n h
    cases h with
    | self => exact .inl rfl
    | step hm hb =>
      simp only [exTree, UNode.insts, UNodes.list, List.mem_cons, Prod.mk.injEq, List.not_mem_nil, or_false] at hm
      rcases hm with ⟨_, rfl⟩ | ⟨_, rfl⟩ | ⟨_, rfl⟩
      · exact .inr (.inl (hl n hb))
      · rcases hmid n hb with h | h
        · exact .inr (.inr h)
        · exact .inr (.inl h)
      · exact .inr (.inl (hl n hb))
  have ne : ∀ a b r : String, '_' ∉ a.toList → a ≠ b ++ "_" ++ r := by
    intro a b r h e
    apply h
    rw [e]
    simp [String.toList_append]
  have mn : ∀ m p r : String, (p.toList ++ ['_']).take 2 ≠ ['m', 'e'] → "mem_" ++ m ≠ p ++ "_" ++ r := by
    intro m p r h e
    have e' := congrArg String.toList e
    simp only [String.toList_append] at e'
    match hp : p.toList with
    | [] => rw [hp] at e'; simp at e'
    | [c] => rw [hp] at e'; simp at e'
    | c :: d :: cs =>
      rw [hp] at e' h
      simp at e' h
      exact h e'.1.symm e'.2.1.symm
  refine ⟨fun n hn => ?_, fun n hn => ?_, ?_⟩
  · rcases hb n hn with rfl | rfl | rfl
    · refine ⟨by decide, by decide, by decide +kernel, ?_⟩
      intro p hp _ r
      refine ⟨?_, ?_⟩
      · intro q hq
        apply ne
        revert q
        simp [exTree, UNode.insts, UNodes.list]
      · intro m _
        simp only [exTree, UNode.insts, UNodes.list, List.mem_cons, List.not_mem_nil, or_false] at hp
        rcases hp with rfl | rfl | rfl <;> exact mn _ _ _ (by decide)
    · refine ⟨by decide, by decide, by decide +kernel, ?_⟩
      intro p hp
      simp [exLeaf, UNode.insts, UNodes.list] at hp
    · refine ⟨by decide, by decide, by decide +kernel, ?_⟩
      intro p hp _ r
      refine ⟨?_, fun m hm => by simp [UNode.mems] at hm⟩
      intro q hq
      apply ne
      revert q
      simp [UNode.insts, UNodes.list]
  · rcases hb n hn with rfl | rfl | rfl <;> exact noM_of (by decide +kernel)
  · intro m hm
    simp only [exTree, UNode.mems, List.mem_singleton] at hm
    subst hm
    exact noM_of (by decide +kernel)

/-- Nine modules of a design with two levels, all different. -/
example : exTree.topModules = ["M_main__mem_ram", "M_main", "M_leaf_M_main_a_mem_tbl", "M_leaf_M_main_a", "M_mid_M_main_b", "M_leaf_M_main_b_x_mem_tbl",
    "M_leaf_M_main_b_x", "M_leaf_M_main_ab_mem_tbl", "M_leaf_M_main_ab"] ∧ exTree.topModules.Nodup :=
  ⟨by decide +kernel, C60_modules_distinct_partial exTree exTree_named⟩

/-- A unit with all kinds of signals. -/
def exSignals : SigUnit where
  inputs := [("x", true), ("y", false)]
  outputs := ["o"]
  inouts := [⟨"pins", true⟩]
  temps := ["tmp"]
  consts := ["k"]
  wires := ["sum"]
  inoutWires := ["pad"]
  flipflops := ["o", "cnt"]
  insts := [⟨"a", ["v"], true, true⟩]
  mems := ["ram"]
  memOuts := ["ram_rdata"]
  rootFsm := some "fsm0"
  autorun := true
  stageFsms := ["fsm_p_0"]
  calls := true
  callingSubs := ["sub"]
  callable := false
  topmost := true
  reset := true
  split := true

theorem exSignals_checked : exSignals.Checked := by
  constructor
  case letter =>
    intro v hv r
    simp only [exSignals, List.map_cons, List.map_nil, List.cons_append, List.nil_append, List.mem_cons, List.not_mem_nil, or_false] at hv
    rcases hv with rfl | rfl | rfl | rfl | rfl <;> exact str_ne (by simp [String.toList_append])
  all_goals decide +kernel

theorem exSignals_avoids : exSignals.Avoids := by
  constructor
  case fsm =>
    intro h hh r
    simp only [fsmHeads, List.mem_cons, List.not_mem_nil, or_false] at hh
    simp only [exSignals, List.mem_cons, List.not_mem_nil, or_false, not_or]
    rcases hh with rfl | rfl | rfl | rfl <;> refine ⟨⟨?_, ?_⟩, ?_⟩ <;> exact str_ne (by simp [String.toList_append])
  case instPort =>
    intro i hi
    simp only [exSignals, List.mem_singleton] at hi
    subst hi
    refine ⟨by decide, by decide, ?_⟩
    intro p hp r
    simp only [List.mem_cons, List.not_mem_nil, or_false] at hp
    rcases hp with rfl | rfl | rfl <;> exact str_ne (by simp [String.toList_append])
  case instSignal =>
    intro i hi p hp
    simp only [exSignals, List.mem_singleton] at hi
    subst hi
    simp only [signalHeads, List.mem_cons, List.not_mem_nil, or_false] at hp
    rcases hp with rfl | rfl | rfl | rfl | rfl | rfl <;> exact ⟨by decide, fun r => str_ne (by simp [String.toList_append])⟩
  all_goals decide +kernel

example : exSignals.declared.Nodup ∧ exSignals.declared.length = 44 := ⟨C60_signals_distinct_partial _ exSignals_checked exSignals_avoids, by decide +kernel⟩

end Silice
