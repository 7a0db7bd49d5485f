import Verif.Prelude
import Verif.Model.Text
/-! Lemmas about decimal text and splitting. -/
set_option autoImplicit false
namespace Silice

theorem digitVal_digitChar : ∀ d, d < 10 → digitVal? (digitChar d) = some d := by decide

theorem natToDec_ne_nil (n : Nat) : natToDec n ≠ [] := by
  rw [natToDec]; split <;> simp

theorem natToDec_digits (n : Nat) : ∀ c ∈ natToDec n, ∃ d, d < 10 ∧ c = digitChar d := by
  induction n using Nat.strongRecOn with
  | _ n ih =>
    intro c hc
    rw [natToDec] at hc
    split at hc
    · simp at hc; exact ⟨n, by assumption, hc⟩
    · rw [List.mem_append] at hc
      rcases hc with hc | hc
      · exact ih (n / 10) (by omega) c hc
      · simp at hc; exact ⟨n % 10, by omega, hc⟩

theorem digitChar_ne (x : Char) (hx : digitVal? x = none) : ∀ d, d < 10 → digitChar d ≠ x := by
  intro d hd e
  have := digitVal_digitChar d hd
  rw [e, hx] at this
  simp at this

theorem natToDec_not_mem (x : Char) (hx : digitVal? x = none) (n : Nat) : x ∉ natToDec n := by
  intro h
  obtain ⟨d, hd, e⟩ := natToDec_digits n x h
  exact digitChar_ne x hx d hd e.symm

theorem decAcc_append_digits (l : List Char) (hl : ∀ c ∈ l, ∃ d, d < 10 ∧ c = digitChar d) :
    ∀ (acc : Nat) (r : List Char), decAcc acc (l ++ r) = decAcc (decAcc acc l) r := by
  induction l with
  | nil => intro acc r; rfl
  | cons c cs ih =>
    intro acc r
    obtain ⟨d, hd, e⟩ := hl c (by simp)
    subst e
    simp only [List.cons_append, decAcc, digitVal_digitChar d hd]
    exact ih (fun c hc => hl c (by simp [hc])) _ _

theorem decAcc_natToDec (n : Nat) : decAcc 0 (natToDec n) = n := by
  induction n using Nat.strongRecOn with
  | _ n ih =>
    rw [natToDec]
    split
    · rename_i h; simp [decAcc, digitVal_digitChar n h]
    · rw [decAcc_append_digits _ (natToDec_digits _), ih (n / 10) (by omega)]
      simp only [decAcc, digitVal_digitChar (n % 10) (by omega)]
      omega

theorem stoiDec_natToDec (n : Nat) : stoiDec (natToDec n) = some n := by
  have hne := natToDec_ne_nil n
  have hd := natToDec_digits n
  have hv := decAcc_natToDec n
  cases h : natToDec n with
  | nil => exact absurd h hne
  | cons c cs =>
    rw [h] at hd hv
    obtain ⟨d, hd10, e⟩ := hd c (by simp)
    subst e
    simp only [stoiDec, isDigitC, digitVal_digitChar d hd10, Option.isSome_some, if_true, hv]

theorem getlineC_found (d : Char) (p rest : List Char) (hp : d ∉ p) :
    getlineC d (p ++ d :: rest) = (p, some rest) := by
  induction p with
  | nil => simp [getlineC]
  | cons c cs ih =>
    simp at hp
    have hc : ¬ c = d := fun e => hp.1 e.symm
    simp [getlineC, hc, ih hp.2]

theorem getlineC_end (d : Char) (p : List Char) (hp : d ∉ p) : getlineC d p = (p, none) := by
  induction p with
  | nil => rfl
  | cons c cs ih =>
    simp at hp
    have hc : ¬ c = d := fun e => hp.1 e.symm
    simp [getlineC, hc, ih hp.2]

theorem getlines_cons (d : Char) (p rest : List Char) (hp : d ∉ p) :
    getlines d (p ++ d :: rest) = p :: getlines d rest := by
  have hne : p ++ d :: rest ≠ [] := by simp
  rw [getlines.eq_def]
  split
  · rename_i h; exact absurd h hne
  · rename_i c cs h
    have hg := getlineC_found d p rest hp
    rw [h] at hg
    split
    · rename_i h2; rw [hg] at h2; simp at h2
    · rename_i r h2
      rw [hg] at h2 ⊢; simp at h2; subst h2; rfl

theorem getlines_last (d : Char) (p : List Char) (hp : d ∉ p) (hne : p ≠ []) : getlines d p = [p] := by
  rw [getlines.eq_def]
  split
  · exact absurd rfl hne
  · rename_i c cs
    have hg := getlineC_end d (c :: cs) hp
    split
    · rw [hg]
    · rename_i r h2; rw [hg] at h2; simp at h2

end Silice
