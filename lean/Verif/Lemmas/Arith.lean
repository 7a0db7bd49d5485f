import Verif.Model.Arith
/-! Helper lemmas for `Verif.Props.Arith`. -/
set_option autoImplicit false
namespace Silice

theorem log2_rec (n : Nat) (h : 2 ≤ n) : n.log2 = (n / 2).log2 + 1 := by
  rw [Nat.log2_def]; simp [h]

/-- Closed form of the loop for positive arguments. -/
theorem jhpLoop_eq (n : Nat) : ∀ (p2 : Nat) (b : Bool), 0 < n →
    jhpLoop n p2 b = (p2 + n.log2 + 1, b && decide (n = 2 ^ n.log2)) := by
  induction n using Nat.strongRecOn with
  | _ n ih =>
    intro p2 b hn
    rw [jhpLoop]
    simp only [hn, gt_iff_lt, if_true]
    by_cases h1 : n = 1
    · subst h1
      rw [jhpLoop]
      have : Nat.log2 1 = 0 := by decide +kernel
      simp [this]
    · have h2 : 2 ≤ n := by omega
      have hpos : 0 < n / 2 := by omega
      rw [ih (n / 2) (by omega) _ _ hpos, log2_rec n h2]
      have hpow : (2:Nat) ^ ((n/2).log2 + 1) = 2 * 2 ^ (n/2).log2 := by rw [Nat.pow_succ]; omega
      rw [hpow]
      apply Prod.ext
      · simp only; omega
      · simp only
        have hlt : 1 < n := by omega
        by_cases hodd : n % 2 = 1
        · simp only [hlt, hodd, and_self, if_true, Bool.false_and]
          have : ¬ n = 2 * 2 ^ (n/2).log2 := by omega
          simp [this]
        · simp only [hodd, and_false, if_false]
          congr 1
          apply decide_eq_decide.mpr
          omega

theorem justHigherPow2_pos (n : Nat) (hn : 0 < n) :
    justHigherPow2 n = if n = 2 ^ n.log2 then (n.log2 : Int) else n.log2 + 1 := by
  unfold justHigherPow2
  simp only [Int.toNat_natCast, jhpLoop_eq n 0 true hn, Bool.true_and, decide_eq_true_eq]
  split <;> simp <;> omega

theorem widthLoop_some (val : Nat) (hv : val ≤ 2 ^ 30) : ∀ (k w : Nat), 30 - w = k → w ≤ 30 →
    ∃ r, widthLoop val w = some r ∧ w ≤ r ∧ val ≤ 2 ^ r ∧ ∀ j, w ≤ j → val ≤ 2 ^ j → r ≤ j := by
  intro k
  induction k with
  | zero =>
    intro w hk hw
    have : w = 30 := by omega
    subst this
    refine ⟨30, ?_, Nat.le_refl _, hv, fun j hj _ => hj⟩
    rw [widthLoop]; simp; omega
  | succ k ih =>
    intro w hk hw
    rw [widthLoop]
    have h31 : ¬ w ≥ 31 := by omega
    simp only [h31, if_false]
    by_cases hgt : val > 2 ^ w
    · simp only [hgt, if_true]
      obtain ⟨r, h1, h2, h3, h4⟩ := ih (w + 1) (by omega) (by omega)
      refine ⟨r, h1, by omega, h3, fun j hj hv' => ?_⟩
      by_cases hjw : j = w
      · subst hjw; omega
      · exact h4 j (by omega) hv'
    · simp only [hgt, if_false]
      exact ⟨w, rfl, Nat.le_refl _, by omega, fun j hj _ => hj⟩

theorem widthLoop_none (val : Nat) (hv : 2 ^ 30 < val) : ∀ (k w : Nat), 31 - w = k → widthLoop val w = none := by
  intro k
  induction k with
  | zero => intro w hk; rw [widthLoop]; simp; omega
  | succ k ih =>
    intro w hk
    rw [widthLoop]
    split
    · rfl
    · have : (2:Nat) ^ w ≤ 2 ^ 30 := Nat.pow_le_pow_right (by omega) (by omega)
      rw [if_pos (by omega)]
      exact ih _ (by omega)

theorem width_some (val : Nat) (h1 : 2 ≤ val) (h2 : val ≤ 2 ^ 30) :
    ∃ r, width val = some r ∧ val ≤ 2 ^ r ∧ ∀ j, val ≤ 2 ^ j → r ≤ j := by
  obtain ⟨r, hr, _, h3, h4⟩ := widthLoop_some val h2 30 0 rfl (by omega)
  refine ⟨r, ?_, h3, fun j hj => h4 j (by omega) hj⟩
  unfold width
  rw [if_neg (by omega), if_neg (by omega), hr]

end Silice
