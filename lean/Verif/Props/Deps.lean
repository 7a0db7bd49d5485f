import Verif.Lemmas.Deps
import Verif.Model.Access
import Mathlib.Tactic.IntervalCases

/-!
# C28 dependencies are the transitive closure, C29 self-dependencies are detected
-/

set_option autoImplicit false

namespace Silice

/-- C28: after the closure, a variable with an entry depends on `x`, on the current value or on the value from before,
exactly when `x` is recorded in this way for some variable reached from it. -/
theorem C28_closure (D D' : Deps) (hwf : D.Wf) (fuel : Nat) (e : Deps.closure fuel D = some D') :
    D'.keys = D.keys ∧ ∀ w ∈ D.keys, ∀ x,
      ((D'.on w x).d = true ↔ ∃ y, D.Reaches w y ∧ (D.on y x).d = true) ∧
      ((D'.on w x).q = true ↔ ∃ y, D.Reaches w y ∧ (D.on y x).q = true) := by
  obtain ⟨_, h2, _, h4, h5, h6⟩ := closure_spec fuel _ _ (justified_refl D) (Deps.Le.refl D) hwf rfl e
  have key : ∀ w ∈ D.keys, ∀ x b, ((D'.on w x).bit b = true ↔ ∃ y, D.Reaches w y ∧ (D.on y x).bit b = true) :=
    fun w hw x b => ⟨h4.2 w x b, fun ⟨_, hr, hx⟩ => fix_reaches h2 h5 h6 hw hr hx⟩
  refine ⟨h2, fun w hw x => ⟨?_, ?_⟩⟩
  · simpa [QD.bit] using key w hw x true
  · simpa [QD.bit] using key w hw x false

/-- C28: the loop ends, within as many turns as there are bits to set. -/
theorem C28_terminates (D : Deps) (k : Nat) :
    ∃ D', Deps.closure (D.keys.length * (D.names.length * 2) + 1) D = some D' ∧
      Deps.closure (D.keys.length * (D.names.length * 2) + 1 + k) D = some D' := by
  obtain ⟨D', e⟩ := closure_total (D.keys.length * (D.names.length * 2) + 1) D (by omega)
  exact ⟨D', e, closure_mono _ _ _ e k⟩

/-- C28: an accepted instruction leaves, for each variable it writes, exactly the variables reachable from those it
reads: a read variable counts as current when it has been written before in the cycle. -/
theorem C28_instruction (D D' : Deps) (hwf : D.Wf) (fuel : Nat) (reads writes : List String)
    (e : Deps.instr fuel D reads writes = some (.ok D')) :
    D'.Wf ∧ (∀ w, w ∈ D'.keys ↔ w ∈ D.keys ∨ w ∈ writes) ∧ ∀ w ∈ writes, ∀ x,
      ((D'.on w x).d = true ↔
        (x ∈ reads ∧ x ∈ D.keys) ∨ ∃ r ∈ reads, (r ∈ D.keys ∨ r ∈ writes) ∧ (D'.on r x).d = true) ∧
      ((D'.on w x).q = true ↔
        (x ∈ reads ∧ x ∉ D.keys) ∨ ∃ r ∈ reads, (r ∈ D.keys ∨ r ∈ writes) ∧ (D'.on r x).q = true) := by
  obtain ⟨h1, h2, h3, h4, h5, _⟩ := instr_ok hwf e
  have hk : ∀ w, w ∈ D'.keys ↔ w ∈ D.keys ∨ w ∈ writes := fun w => by rw [h2, mem_addNew]
  have key : ∀ w ∈ writes, ∀ x b, ((D'.on w x).bit b = true ↔
      (x ∈ reads ∧ (D.side x).bit b = true) ∨ ∃ r ∈ reads, (r ∈ D.keys ∨ r ∈ writes) ∧ (D'.on r x).bit b = true) := by
    intro w hw x b
    have hside : ∀ r, ∃ b', (D.side r).bit b' = true := fun r => by
      by_cases hr : r ∈ D.keys
      · exact ⟨true, by simp [Deps.side, hr, QD.bit]⟩
      · exact ⟨false, by simp [Deps.side, hr, QD.bit]⟩
    constructor
    · intro hb
      obtain ⟨y, hr, hy⟩ := h4.2 w x b hb
      rcases Relation.ReflTransGen.cases_head hr with rfl | ⟨c, hc, hr'⟩
      · left
        by_cases hx : x ∈ reads
        · exact ⟨hx, by simpa [Deps.assign, hw, hx] using hy⟩
        · simp [Deps.assign, hw, hx, QD.bit] at hy
      · right
        obtain ⟨hck, hcb⟩ := hc
        have hcr : c ∈ reads := by
          by_contra hx
          simp [Deps.assign, hw, hx] at hcb
        have hck' : c ∈ D.keys ∨ c ∈ writes := by simpa [Deps.assign, mem_addNew] using hck
        exact ⟨c, hcr, hck', fix_reaches h4.1 h3 h5 hck hr' hy⟩
    · rintro (⟨hx, hb⟩ | ⟨r, hr, hrk, hb⟩)
      · apply h3
        simpa [Deps.assign, hw, hx] using hb
      · obtain ⟨b', hb'⟩ := hside r
        refine fix_trans h5 ((hk w).mpr (Or.inr hw)) ((hk r).mpr hrk) (b' := b') (h3 _ _ _ ?_) hb
        simpa [Deps.assign, hw, hr] using hb'
  refine ⟨h1, hk, fun w hw x => ⟨?_, ?_⟩⟩
  · have := key w hw x true
    by_cases hx : x ∈ D.keys <;> simpa [QD.bit, Deps.side, hx] using this
  · have := key w hw x false
    by_cases hx : x ∈ D.keys <;> simpa [QD.bit, Deps.side, hx] using this

/-- C29: in an accepted sequence of instructions, no value given to a variable is computed, directly or through other
variables, from a value given to the same variable earlier in the cycle. -/
theorem C29_accepted_has_no_self_dependency (is : List (List String × List String)) (fuel : Nat) (D : Deps)
    (e : Deps.instrs fuel Deps.empty is = some (.ok D)) (j k : Nat) (w : String) :
    ¬ UsesTrans is (j, w) (k, w) := by
  have h := instrs_inv is [] Deps.empty D rfl (depInv_init is) e
  intro ht
  have hk : k < is.length := by
    obtain ⟨p, _, _, ik, _, h2, _⟩ := Relation.TransGen.tail'_iff.mp ht
    exact (List.getElem?_eq_some_iff.mp h2).1
  exact h.clean j k w hk ht

/-- C29: a sequence that gives each variable at most one value is accepted, whatever it reads. -/
theorem C29_single_assignment_accepted (fuel : Nat) (is : List (List String × List String))
    (h1 : is.Pairwise fun i i' => ∀ w ∈ i.2, w ∉ i'.2)
    (r : Except String Deps) (e : Deps.instrs fuel Deps.empty is = some r) : ∃ D, r = .ok D := by
  have main : ∀ (rest done : List (List String × List String)) (D : Deps), is = done ++ rest → D.Wf → Fresh D →
      (∀ w, w ∈ D.keys → ∃ i ∈ done, w ∈ i.2) → Deps.instrs fuel D rest = some r → ∃ D, r = .ok D := by
    intro rest
    induction rest with
    | nil =>
      intro done D _ _ _ _ e
      simp only [Deps.instrs, Option.some.injEq] at e
      exact ⟨D, e.symm⟩
    | cons i rest ih =>
      intro done D he hwf hf hk e
      simp only [Deps.instrs] at e
      cases hi : Deps.instr fuel D i.1 i.2 with
      | none => rw [hi] at e; simp at e
      | some ri =>
        have hnew : ∀ w ∈ i.2, w ∉ D.keys := by
          intro w hw hwk
          obtain ⟨i', hm, hw'⟩ := hk w hwk
          rw [he, List.pairwise_append] at h1
          exact h1.2.2 i' hm i (by simp) w hw' hw
        obtain ⟨D1, rfl, hwf1, hf1, hk1⟩ := fresh_instr hwf hf hnew ri hi
        rw [hi] at e
        refine ih (done ++ [i]) D1 (by simp [he]) hwf1 hf1 ?_ e
        intro w hw
        rw [hk1, mem_addNew] at hw
        rcases hw with hw | hw
        · obtain ⟨i', hm, hw'⟩ := hk w hw
          exact ⟨i', by simp [hm], hw'⟩
        · exact ⟨i, by simp, hw⟩
  exact main is [] Deps.empty rfl empty_wf (by intro y x _; simp [Deps.empty, QD.bit]) (by simp [Deps.empty]) e

/-- C29: every sequence gets a verdict. -/
theorem C29_verdict (is : List (List String × List String)) :
    ∃ fuel r, Deps.instrs fuel Deps.empty is = some r ∧ ∀ k, Deps.instrs (fuel + k) Deps.empty is = some r := by
  generalize Deps.empty = D
  induction is generalizing D with
  | nil => exact ⟨0, .ok D, rfl, fun _ => rfl⟩
  | cons i is ih =>
    obtain ⟨D1, e1⟩ := closure_total _ (D.assign i.1 i.2) (Nat.lt_add_left (D.assign i.1 i.2).weight (Nat.lt_succ_self _))
    have hall := closure_mono _ _ _ e1
    set f1 := ((D.assign i.1 i.2).keys.length * ((D.assign i.1 i.2).names.length * 2)).succ with hf1
    clear_value f1
    cases hw : i.2.find? fun w => (D1.on w w).d with
    | some w =>
      refine ⟨f1, .error w, ?_, fun k => ?_⟩
      · simp [Deps.instrs, Deps.instr, e1, hw]
      · simp [Deps.instrs, Deps.instr, hall k, hw]
    | none =>
      obtain ⟨f2, r, _, hr⟩ := ih D1
      have : ∀ k, Deps.instrs (f1 + f2 + k) D (i :: is) = some r := by
        intro k
        have h1 := hall (f2 + k)
        have h2 := hr (f1 + k)
        rw [show f1 + (f2 + k) = f1 + f2 + k by omega] at h1
        rw [show f2 + (f1 + k) = f1 + f2 + k by omega] at h2
        simp [Deps.instrs, Deps.instr, h1, hw, h2]
      exact ⟨f1 + f2, r, this 0, this⟩

/-- C29 for code with conditionals: when it is accepted, on every path through it no value given to a variable is computed from
a value given to the same variable earlier in the cycle. The full statement has no condition on the code; here a
variable assigned in a branch is not assigned before the conditional nor in another branch, as the dependencies found
are otherwise dropped when branches are merged (`C29_counterexample_branch`, `C29_counterexample_both`). -/
theorem C29_conditionals_partial (s : DStm) (hm : s.MergeOk []) (fuel : Nat) (D : Deps)
    (e : Deps.stm fuel Deps.empty s = some (.ok D)) (p : List (List String × List String)) (f : Bool) (hp : s.Path p f)
    (j k : Nat) (w : String) : ¬ UsesTrans p (j, w) (k, w) := by
  have h := (stm_ok s Deps.empty D [] empty_wf (by simp [Deps.empty]) hm e).2.2.2 [] p f (by simpa using depInv_init []) hp
  exact h.2 j k w

/-- C28 for code with conditionals, same condition: after the code, a variable assigned on a path that goes on has an entry, and
this entry has every variable whose value in the cycle its own value was computed from. -/
theorem C28_conditionals_partial (s : DStm) (hm : s.MergeOk []) (fuel : Nat) (D : Deps)
    (e : Deps.stm fuel Deps.empty s = some (.ok D)) (p : List (List String × List String)) (hp : s.Path p true)
    (k : Nat) (w : String) (i : List String × List String) (hk : p[k]? = some i) (hw : w ∈ i.2)
    (hlast : ∀ m im, k < m → p[m]? = some im → w ∉ im.2) :
    w ∈ D.keys ∧ ∀ j x, UsesTrans p (j, x) (k, w) → (D.on w x).d = true := by
  have h := (stm_ok s Deps.empty D [] empty_wf (by simp [Deps.empty]) hm e).2.2.2 [] p true
    (by simpa using depInv_init []) hp
  have hi := h.1 rfl
  simp only [List.nil_append] at hi
  have hl : LastWrite p p.length k w :=
    ⟨(List.getElem?_eq_some_iff.mp hk).1, ⟨i, hk, hw⟩, fun m im a _ c => hlast m im a c⟩
  exact ⟨hi.keys k w hl, fun j x hu => by simpa [QD.bit] using hi.deps k w hl (j, x) hu⟩

/-- C29: code with conditionals gets a verdict. -/
theorem C29_conditionals_verdict (s : DStm) : ∃ fuel r, ∀ k, Deps.stm (fuel + k) Deps.empty s = some r :=
  stm_total s Deps.empty

/-! ### Cases meeting the hypotheses -/

/-- Whether a verdict is an error, and on which variable. -/
def verdict : Option (Except String Deps) → Option (Option String)
  | none => none
  | some (.ok _) => some none
  | some (.error w) => some (some w)

/-- `a = 1; b = a; a = b;` -/
def exSelf : List (List String × List String) := [([], ["a"]), (["a"], ["b"]), (["b"], ["a"])]

example : verdict (Deps.instrs 20 Deps.empty exSelf) = some (some "a") ∧ UsesTrans exSelf (0, "a") (2, "a") := by
  refine ⟨by decide +kernel, ?_⟩
  refine Relation.TransGen.tail (b := (1, "b")) (Relation.TransGen.single ?_) ?_
  · exact ⟨([], ["a"]), (["a"], ["b"]), rfl, rfl, by decide, by simp, by simp, by simp, fun m _ h1 h2 => by simp at h1 h2; omega⟩
  · exact ⟨(["a"], ["b"]), (["b"], ["a"]), rfl, rfl, by decide, by simp, by simp, by simp, fun m _ h1 h2 => by simp at h1 h2; omega⟩

/-- `b = a; a = b + a; c = a + c;` reads values from before, and is accepted. -/
def exOnce : List (List String × List String) := [(["a"], ["b"]), (["b", "a"], ["a"]), (["a", "c"], ["c"])]

example : verdict (Deps.instrs 20 Deps.empty exOnce) = some none := by decide +kernel

example : exOnce.Pairwise fun i i' => ∀ w ∈ i.2, w ∉ i'.2 := by decide +kernel

/-- A map with a cycle: `a` uses current `b`, `b` uses previous `a` and previous `c`. -/
def exDeps : Deps :=
  { keys := ["a", "b"], names := ["a", "b", "c"]
    on := fun w x =>
      if w = "a" ∧ x = "b" then { d := true } else if w = "b" ∧ (x = "a" ∨ x = "c") then { q := true } else {} }

example : exDeps.Wf ∧ ∃ D', Deps.closure 13 exDeps = some D' ∧ D'.on "a" "a" = { q := true } ∧ D'.on "a" "c" = { q := true } ∧
    D'.on "b" "b" = { d := true } ∧ D'.on "a" "b" = { d := true } := by
  refine ⟨?_, _, rfl, by decide +kernel, by decide +kernel, by decide +kernel, by decide +kernel⟩
  intro w x h
  simp only [exDeps] at h ⊢
  by_cases h1 : w = "a" ∧ x = "b"
  · simp [h1.1, h1.2]
  · rw [if_neg h1] at h
    by_cases h2 : w = "b" ∧ (x = "a" ∨ x = "c")
    · rcases h2 with ⟨rfl, rfl | rfl⟩ <;> simp
    · rw [if_neg h2] at h
      simp at h

/-! ### Where it fails -/

/-- `b = a; c = 1; a = c; c = b;` -/
def exSpurious : List (List String × List String) := [(["a"], ["b"]), ([], ["c"]), (["c"], ["a"]), (["b"], ["c"])]

/-- With re-assignments, sequences without self-dependency may be rejected: the new value of `c` is the value `a` had in
the previous cycle, but `b` is taken to depend on whatever `a` has been given since. -/
theorem C29_counterexample_spurious : verdict (Deps.instrs 20 Deps.empty exSpurious) = some (some "c") ∧
    ∀ j, ¬ UsesTrans exSpurious (j, "c") (3, "c") := by
  refine ⟨by decide +kernel, ?_⟩
  intro j h
  obtain ⟨⟨j1, x1⟩, hr, ij, ik, h1, h2, h3, h4, h5, _, _⟩ := Relation.TransGen.tail'_iff.mp h
  simp only [exSpurious] at h1 h2 h3 h4 h5
  simp only [List.getElem?_cons_succ, List.getElem?_cons_zero, Option.some.injEq] at h2
  subst h2
  simp only [List.mem_singleton] at h5
  subst h5
  have hj1 : j1 = 0 := by
    interval_cases j1 <;> simp at h1 <;> subst h1 <;> simp at h4 ⊢
  subst hj1
  rcases Relation.ReflTransGen.cases_tail hr with h | ⟨p, _, _, _, _, _, h6, _⟩
  · simp at h
  · simp at h6

/-- `a = 1; switch (s) { case 0: b = a; case 1: c = 2; default: } d = b;` then `a` is not assigned again. -/
def exCond : DStm :=
  .seq (.ins [] ["a"]) (.seq (.branch (.cons (.ins ["a"] ["b"]) (.cons (.seq (.ins [] ["c"]) .stop) (.one .skip))))
    (.ins ["b"] ["d"]))

/-- The hypotheses of the theorems on conditionals hold, and with a final `a = d` there is an error. -/
example : exCond.MergeOk [] ∧ verdict (Deps.stm 30 Deps.empty exCond) = some none ∧
    exCond.Path [([], ["a"]), (["a"], ["b"]), (["b"], ["d"])] true ∧
    exCond.Path [([], ["a"]), ([], ["c"])] false ∧
    verdict (Deps.stm 30 Deps.empty (.seq exCond (.ins ["d"] ["a"]))) = some (some "a") :=
  ⟨by simp [exCond, DStm.MergeOk, DBrs.MergeOk, DStm.writes, DBrs.writes], by decide +kernel,
    .seq (p := [([], ["a"])]) .ins (.seq (p := [(["a"], ["b"])]) (.branch (.here .ins)) .ins),
    .seq (p := [([], ["a"])]) .ins (.seqStop (.branch (.next (.here (.seq (p := [([], ["c"])]) (q := []) .ins .stop))))),
    by decide +kernel⟩

/-- C29 does not extend to all conditionals: in `b = 0; a = 1; if (c) { b = a; } a = b;` the value of `a` may depend on the
value it was given before, and no error is raised: the dependencies of `b` in the branch are dropped by the merge. -/
theorem C29_counterexample_branch :
    verdict (Deps.stm 20 Deps.empty (.seq (.ins [] ["b"]) (.seq (.ins [] ["a"])
      (.seq (.branch (.cons (.ins ["a"] ["b"]) (.one .skip))) (.ins ["b"] ["a"]))))) = some none ∧
    UsesTrans [([], ["b"]), ([], ["a"]), (["a"], ["b"]), (["b"], ["a"])] (1, "a") (3, "a") := by
  refine ⟨by decide +kernel, ?_⟩
  refine .tail (b := (2, "b")) (.single ?_) ?_
  · exact ⟨_, _, rfl, rfl, by decide, by simp, by simp, by simp, fun m _ h1 h2 => by simp at h1 h2; omega⟩
  · exact ⟨_, _, rfl, rfl, by decide, by simp, by simp, by simp, fun m _ h1 h2 => by simp at h1 h2; omega⟩

/-- Same when a variable is assigned in two branches: in `a = 1; if (c) { b = 0; } else { b = a; } a = b;` only the
dependencies found in the first branch are kept. -/
theorem C29_counterexample_both :
    verdict (Deps.stm 20 Deps.empty (.seq (.ins [] ["a"])
      (.seq (.branch (.cons (.ins [] ["b"]) (.one (.ins ["a"] ["b"])))) (.ins ["b"] ["a"])))) = some none ∧
    UsesTrans [([], ["a"]), (["a"], ["b"]), (["b"], ["a"])] (0, "a") (2, "a") ∧
    verdict (Deps.stm 20 Deps.empty (.seq (.ins [] ["a"])
      (.seq (.branch (.cons (.ins ["a"] ["b"]) (.one (.ins [] ["b"])))) (.ins ["b"] ["a"])))) = some (some "a") := by
  refine ⟨by decide +kernel, ?_, by decide +kernel⟩
  refine .tail (b := (1, "b")) (.single ?_) ?_
  · exact ⟨_, _, rfl, rfl, by decide, by simp, by simp, by simp, fun m _ h1 h2 => by simp at h1 h2; omega⟩
  · exact ⟨_, _, rfl, rfl, by decide, by simp, by simp, by simp, fun m _ h1 h2 => by simp at h1 h2; omega⟩

/-- C29 does not extend to partial assignments: in `a = 1; b = a; b[0,1] = 0; a = b;` the dependencies of `b` are replaced by
those of the part select, although its other bits still come from `a`; no error is raised. -/
theorem C29_counterexample_part :
    verdict (Deps.instrs 20 Deps.empty [asgAccess (.whole "a") [], asgAccess (.whole "b") ["a"],
      asgAccess (.part "b" []) [], asgAccess (.whole "a") ["b"]]) = some none := by
  decide +kernel

end Silice
