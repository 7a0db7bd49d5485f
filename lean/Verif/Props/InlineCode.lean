import Verif.Lemmas.InlineCode
import Verif.Props.Inline

/-!
# C31 inlining keeps values, in code with conditionals
-/

set_option autoImplicit false

namespace Silice

section
variable {V : Type}

/-- C31: when the compiler replaces variables it found stable by the expressions assigned to them, every read on every path
through the code, by an assignment or by a test, yields the value the source gives, hence the same branches are taken, and
the variables that are kept end with the source values. The macros are those that come before in the text, whatever
branch is executed. The full statement has no condition on re-assignment; here a variable that is read where no path has
given it a value is assigned at most once on any path. -/
theorem C31_code_partial (c : ICode V) (fuel : Nat) (D : Deps) (st : Stable)
    (e : stableCode fuel Deps.empty (fun _ => none) c = some (.ok (D, st)))
    (inl : String → Bool) (hinl : ∀ t, inl t = true → st t = some true)
    (hset : c.ReadsSet inl fun _ => False) (honce : c.ReadFirstOnce)
    (q v0 : String → V) (hv0 : ∀ x, inl x = false → v0 x = q x) :
    ∃ hc r, inlCode q inl [] (fun _ => none) c = some (hc, r) ∧ (runH v0 hc).1 = (srcCode q c).1 ∧
      ∀ x, inl x = false → (runH v0 hc).2 x = (srcCode q c).2 x := by
  obtain ⟨hc, keys', defs', h1, _, _, h4, h5⟩ := code_same (q := q) (inl := inl) (total := fun x => c.times x) (fuel := fuel) c
    (fun _ => 0) Deps.empty (fun _ => none) (D, st) [] (fun _ => none) (fun _ => False) q v0
    ⟨empty_wf, by simp [Deps.empty], by simp [Deps.empty, QD.bit], by intro y x _; simp [Deps.empty, QD.bit], by simp [Deps.empty]⟩
    ⟨hv0, fun _ _ => rfl, fun _ h => h.elim, fun _ h => h.elim⟩
    (by simp) honce hset e (fun t ht => by simp [hinl t ht]) (by simp [Deps.empty])
  exact ⟨hc, (keys', defs'), h1, h4, h5.cur⟩

/-- C31 for the variables the compiler chooses: it found them stable and their previous value unused. No condition on where
they are read: the choice ensures that every path assigns them before. -/
theorem C31_chosen_partial (c : ICode V) (fuel : Nat) (D : Deps) (st : Stable)
    (e : stableCode fuel Deps.empty (fun _ => none) c = some (.ok (D, st)))
    (could : String → Bool) (honce : c.ReadFirstOnce)
    (q v0 : String → V) (hv0 : ∀ x, inlChosen could st c x = false → v0 x = q x) :
    ∃ hc r, inlCode q (inlChosen could st c) [] (fun _ => none) c = some (hc, r) ∧ (runH v0 hc).1 = (srcCode q c).1 ∧
      ∀ x, inlChosen could st c x = false → (runH v0 hc).2 x = (srcCode q c).2 x := by
  refine C31_code_partial c fuel D st e (inlChosen could st c) ?_ ?_ honce q v0 hv0
  · intro t ht
    simp only [inlChosen, Bool.and_eq_true, decide_eq_true_eq] at ht
    exact ht.1.2
  · apply ICode.readsSet_of_each
    intro x hx
    simp only [inlChosen, Bool.and_eq_true, Bool.not_eq_true'] at hx
    exact (c.readsSet_of_use rfl (fun _ => false) (fun _ => {}) (fun _ => by simp) hx.2 _ (by simp)).1

end

/-! ### Cases meeting the hypotheses -/

/-- `a = c + 1; if (a > 4) { t = a + b; b = t; } else { b = 7; }  u = b + 1;  s = u + a;` -/
def exCode : ICode Nat :=
  .seq (.asg (sumAsg "a" ["c"] 1))
  (.seq (.branch ["a"] (fun vs => if 4 < vs.sum then 0 else 1)
    (.cons (.seq (.asg (sumAsg "t" ["a", "b"] 0)) (.asg (sumAsg "b" ["t"] 0))) (.one (.asg (sumAsg "b" [] 7)))))
  (.seq (.asg (sumAsg "u" ["b"] 1)) (.asg (sumAsg "s" ["u", "a"] 0))))

/-- Stability and choice of the first pass for a name. -/
def codeOf {V : Type} (fuel : Nat) (c : ICode V) (x : String) : Option (Option Bool × Bool) :=
  match stableCode fuel Deps.empty (fun _ => none) c with
  | some (.ok (_, st)) => some (st x, inlChosen (fun _ => true) st c x)
  | _ => none

/-- All but `b` are replaced, `t` inside of one branch. -/
example : ["a", "t", "b", "u", "s"].map (codeOf 40 exCode) =
    [some (some true, true), some (some true, true), some (some false, false), some (some true, true),
      some (some true, true)] := by decide +kernel

example : exCode.ReadFirstOnce := by
  intro x h
  simp only [exCode, sumAsg, ICode.readsFirst, IBrs.readsFirst, ICode.times, IBrs.times] at h ⊢
  by_cases ha : x = "a"
  · subst ha; decide
  by_cases hb : x = "b"
  · subst hb; decide
  by_cases ht : x = "t"
  · subst ht; decide
  by_cases hu : x = "u"
  · subst hu; decide
  by_cases hs : x = "s"
  · subst hs; decide
  have h' : ∀ y ∈ ["a", "b", "t", "u", "s"], ¬ y = x := by
    intro y hy e
    simp only [List.mem_cons, List.not_mem_nil, or_false] at hy
    subst e
    tauto
  simp only [h' "a" (by simp), h' "b" (by simp), h' "t" (by simp), h' "u" (by simp), h' "s" (by simp), if_false]
  decide

/-- Registers: `b` holds 5, `c` holds the given value. -/
def exRegs (c : Nat) : String → Nat := fun x => if x = "b" then 5 else if x = "c" then c else 0

/-- Values read on the two paths. -/
def exCodeReads (c : Nat) : Option (List (List Nat)) :=
  (inlCode (exRegs c) (fun x => decide (x ∈ ["a", "t", "u", "s"])) [] (fun _ => none) exCode).map fun r => (runH (exRegs c) r.1).1

example : exCodeReads 9 = some [[9], [10], [10, 5], [15], [15], [16, 10]] ∧ exCodeReads 0 = some [[0], [1], [], [7], [8, 1]] := by
  decide +kernel

end Silice
