import Verif.Lemmas.Inline
import Mathlib.Tactic.IntervalCases
import Verif.Props.Arith

/-!
# C31 inlining keeps values
-/

set_option autoImplicit false

namespace Silice

section
variable {V : Type}

/-- C31: when the compiler replaces variables it found stable by the expressions assigned to them, every read in the
sequence yields the value the source gives, and the variables that are kept end with the source values. The full
statement has no condition on re-assignment; here a variable that is read before it gets a value is assigned at most
once. -/
theorem C31_inlined_reads_partial (is : List (Asg V)) (fuel : Nat) (st : Stable)
    (e : stableRun fuel Deps.empty (fun _ => none) is = some (.ok st))
    (inl : String → Bool) (hinl : ∀ t, inl t = true → st t = some true)
    (hfirst : AssignedFirst inl is) (honce : ReadFirstOnce is) (q v0 : String → V) :
    ∃ s, inlRun q inl [] ⟨v0, fun _ => none⟩ is = some ((srcRun q is).1, s) ∧
      ∀ x ∈ is.map Asg.target, inl x = false → s.v x = (srcRun q is).2 x := by
  refine inlRun_ok honce hfirst hinl is [] Deps.empty (fun _ => none) q ⟨v0, fun _ => none⟩ [] rfl ?_ (by simp [Deps.empty]) e
  constructor
  · exact empty_wf
  · simp [Deps.empty]
  · simp [Deps.empty]
  · simp
  · simp [Deps.empty]
  · intro x _ y
    simp [Deps.empty, QD.bit]
  · intro y x _
    simp [Deps.empty, QD.bit]
  · simp [Deps.empty]

end

/-- C31: an inlined literal has the value of the variable exactly when it fits the width of the variable. The full
statement has no such condition. -/
theorem C31_literal_partial (i w : Nat) (hi : 0 < i) : defineLiteral i = i % 2 ^ w ↔ i < 2 ^ w := by
  obtain ⟨k, hk, hle, _⟩ := C01_clog2_exact i hi
  have hlt : i < 2 ^ (1 + justHigherPow2 i).toNat := by
    rw [hk, show (1 + (k : Int)).toNat = k + 1 by omega, pow_succ]
    have : 0 < 2 ^ k := by exact Nat.two_pow_pos k
    omega
  unfold defineLiteral
  rw [Nat.mod_eq_of_lt hlt]
  constructor
  · intro h
    rw [h]
    exact Nat.mod_lt _ (Nat.two_pow_pos w)
  · intro h
    exact (Nat.mod_eq_of_lt h).symm

/-! ### Cases meeting the hypotheses -/

/-- `t = f(reads)` on numbers, by adding. -/
def sumAsg (t : String) (reads : List String) (c : Nat) : Asg Nat := ⟨t, reads, fun vs => vs.sum + c⟩

/-- `a = 1; t = a + b; u = t + 1; b = u; r = t + u;` with `t`, `u` inlined. -/
def exInl : List (Asg Nat) :=
  [sumAsg "a" [] 1, sumAsg "t" ["a", "b"] 0, sumAsg "u" ["t"] 1, sumAsg "b" ["u"] 0, sumAsg "r" ["t", "u"] 0]

/-- Stability found by the first pass for a name. -/
def stableOf {V : Type} (fuel : Nat) (is : List (Asg V)) (x : String) : Option Bool :=
  match stableRun fuel Deps.empty (fun _ => none) is with
  | some (.ok st) => st x
  | _ => none

example : stableOf 40 exInl "t" = some true ∧ stableOf 40 exInl "u" = some true := by decide +kernel

/-- Splits of a list by position. -/
theorem split_getElem {A : Type} {l done rest : List A} {i : A} (h : l = done ++ i :: rest) :
    l[done.length]? = some i ∧ done = l.take done.length := by
  subst h
  simp

example : ReadFirstOnce exInl ∧ AssignedFirst (fun x => decide (x = "t" ∨ x = "u")) exInl := by
  constructor
  · intro done i rest x _ _ _
    by_cases hx : x ∈ exInl.map Asg.target
    · have : ∀ y ∈ exInl.map Asg.target, (exInl.map Asg.target).count y ≤ 1 := by decide +kernel
      exact this x hx
    · rw [List.count_eq_zero_of_not_mem hx]
      omega
  · intro done i rest x h hr hx
    obtain ⟨h1, h2⟩ := split_getElem h
    have key : ∀ n < exInl.length, ∀ i, exInl[n]? = some i → ∀ x ∈ i.reads, x = "t" ∨ x = "u" → x ∈ (exInl.take n).map Asg.target := by
      intro n hn i hi
      have : i = exInl[n] := by
        rw [List.getElem?_eq_getElem hn] at hi
        exact (Option.some.inj hi).symm
      subst this
      revert n
      simp only [exInl, List.length_cons, List.length_nil]
      intro n hn _
      interval_cases n <;> simp [sumAsg]
    rw [h2]
    exact key done.length (List.getElem?_eq_some_iff.mp h1).1 i h1 x hr (by simpa using hx)

example : (inlRun (fun x => if x = "b" then 5 else 0) (fun x => decide (x = "u")) [] ⟨fun _ => 0, fun _ => none⟩ exInl).map (·.1)
    = some [[], [1, 5], [6], [7], [6, 7]] := by decide +kernel

example : 0 < 20 ∧ defineLiteral 20 = 20 ∧ 20 % 2 ^ 5 = 20 := by decide +kernel

/-! ### Where it fails -/

/-- `b = a; a = 1; t = a + b; a = 3; r = t;` -/
def exMixed : List (Asg Nat) :=
  [sumAsg "b" ["a"] 0, sumAsg "a" [] 1, sumAsg "t" ["a", "b"] 0, sumAsg "a" [] 3, sumAsg "r" ["t"] 0]

/-- C31 fails when a variable depends both on the current and on the previous value of another that is assigned again: `t` is
found stable, is replaced by `a + b`, and reads the later value of `a`. The last assignment reads 8 instead of 6. -/
theorem C31_counterexample_mixed : stableOf 40 exMixed "t" = some true ∧
    (inlRun (fun _ => 5) (fun x => decide (x = "t")) [] ⟨fun _ => 0, fun _ => none⟩ exMixed).map (·.1.getLast?) = some (some [8]) ∧
    (srcRun (fun _ => 5) exMixed).1.getLast? = some [6] := by
  refine ⟨?_, ?_, ?_⟩ <;> decide +kernel

/-- C31 fails for literals that do not fit: `uint4 a; a = 20; o = a;` gives 20, not 4. -/
theorem C31_counterexample_literal : defineLiteral 20 = 20 ∧ 20 % 2 ^ 4 = 4 := by decide +kernel

end Silice
