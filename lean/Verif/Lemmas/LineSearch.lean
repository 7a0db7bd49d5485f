import Verif.Prelude
import Verif.Model.Include
set_option autoImplicit false
namespace Silice

def keysSorted (remap : List (Nat × Nat × Nat)) : Prop :=
  ∀ (i j : Nat) (a b : Nat × Nat × Nat), i ≤ j → remap[i]? = some a → remap[j]? = some b → a.1 ≤ b.1

theorem getElem?_of_lt {α : Type} {l : List α} {i : Nat} (h : i < l.length) : ∃ e, l[i]? = some e :=
  ⟨l[i], List.getElem?_eq_getElem h⟩

theorem search_finds {remap : List (Nat × Nat × Nat)} (hs : keysSorted remap) {line : Nat} {e : Nat × Nat × Nat}
    {j : Nat} (hj : remap[j]? = some e) (he : e.1 = line) : ∀ (d l r : Nat), r - l = d → l ≤ j → j ≤ r → r < remap.length →
    ∃ e', searchLoop remap line l r = some e' ∧ e' ∈ remap ∧ e'.1 = line := by
  intro d
  induction d using Nat.strongRecOn with
  | ind d ih =>
    intro l r hd hl hr hlen
    rw [searchLoop]
    by_cases h : l < r
    · rw [dif_pos h]
      obtain ⟨a, ha⟩ := getElem?_of_lt (l := remap) (i := (l + r) / 2) (by omega)
      simp only [ha]
      by_cases h1 : a.1 < line
      · rw [if_pos h1]
        have : (l + r) / 2 < j := by
          by_contra hc
          have := hs j _ e a (by omega) hj ha
          omega
        exact ih _ (by omega) _ _ rfl (by omega) hr hlen
      · rw [if_neg h1]
        by_cases h2 : line < a.1
        · rw [if_pos h2]
          have : j < (l + r) / 2 := by
            by_contra hc
            have := hs _ j a e (by omega) ha hj
            omega
          exact ih _ (by omega) _ _ rfl hl (by omega) (by omega)
        · rw [if_neg h2]
          exact ⟨a, rfl, List.mem_of_getElem? ha, by omega⟩
    · rw [dif_neg h]
      have : l = j := by omega
      subst this
      exact ⟨e, hj, List.mem_of_getElem? hj, he⟩

/-- Without an entry for the line, the search gives the first entry after it (or the last of the range). -/
theorem search_absent {remap : List (Nat × Nat × Nat)} (hs : keysSorted remap) {line : Nat}
    (hno : ∀ e ∈ remap, e.1 ≠ line) {j : Nat} : ∀ (d l r : Nat), r - l = d → l ≤ j → j ≤ r → r < remap.length →
    (∀ i a, i < j → remap[i]? = some a → a.1 < line) → (j = r ∨ ∀ a, remap[j]? = some a → line < a.1) →
    searchLoop remap line l r = remap[j]? := by
  intro d
  induction d using Nat.strongRecOn with
  | ind d ih =>
    intro l r hd hl hr hlen hlow hup
    rw [searchLoop]
    by_cases h : l < r
    · rw [dif_pos h]
      obtain ⟨a, ha⟩ := getElem?_of_lt (l := remap) (i := (l + r) / 2) (by omega)
      simp only [ha]
      by_cases h1 : a.1 < line
      · rw [if_pos h1]
        have : (l + r) / 2 < j := by
          by_contra hc
          rcases hup with rfl | hup
          · omega
          · obtain ⟨b, hb⟩ := getElem?_of_lt (l := remap) (i := j) (by omega)
            have h3 := hup b hb
            have := hs j _ b a (by omega) hb ha
            omega
        exact ih _ (by omega) _ _ rfl (by omega) hr hlen hlow hup
      · rw [if_neg h1]
        have h2 : line < a.1 := by
          have := hno a (List.mem_of_getElem? ha)
          omega
        rw [if_pos h2]
        have hj : j ≤ (l + r) / 2 := by
          by_contra hc
          have := hlow _ a (by omega) ha
          omega
        refine ih _ (by omega) _ _ rfl hl hj (by omega) hlow ?_
        rcases hup with rfl | hup
        · left; omega
        · exact .inr hup
    · rw [dif_neg h]
      have : l = j := by omega
      rw [this]

/-! First stage map -/

/-- First output line of each call. -/
def startOf : Nat → List OutCall → Nat → Nat
  | n, [], _ => n
  | n, _ :: _, 0 => n
  | n, c :: cs, j + 1 => startOf (n + c.num) cs j

theorem stage1_get (cs : List OutCall) : ∀ (n j : Nat), (stage1Map n cs)[j]? = (cs[j]?).map (fun c => (startOf n cs j, 0, c.src)) := by
  induction cs with
  | nil => intro n j; simp [stage1Map]
  | cons c cs ih =>
    intro n j
    cases j with
    | zero => simp [stage1Map, startOf]
    | succ j => simp [stage1Map, startOf, ih]

theorem startOf_succ (cs : List OutCall) : ∀ (n j : Nat) (c : OutCall), cs[j]? = some c → startOf n cs (j + 1) = startOf n cs j + c.num := by
  induction cs with
  | nil => intro n j c h; simp at h
  | cons d cs ih =>
    intro n j c h
    cases j with
    | zero =>
      simp at h; subst h
      cases cs <;> simp [startOf]
    | succ j =>
      simp only [startOf]
      exact ih _ j c (by simpa using h)

theorem stage1_length (cs : List OutCall) : ∀ n, (stage1Map n cs).length = cs.length := by
  induction cs with
  | nil => intro n; rfl
  | cons c cs ih => intro n; simp [stage1Map, ih]

theorem startOf_mono (cs : List OutCall) (n : Nat) : ∀ (d i : Nat), i + d ≤ cs.length → startOf n cs i ≤ startOf n cs (i + d) := by
  intro d
  induction d with
  | zero => intro i _; exact Nat.le_refl _
  | succ d ih =>
    intro i h
    obtain ⟨c, hc⟩ := getElem?_of_lt (l := cs) (i := i + d) (by omega)
    have := startOf_succ cs n (i + d) c hc
    have h2 := ih i (by omega)
    rw [show i + (d + 1) = i + d + 1 by omega]
    omega

theorem startOf_lt (cs : List OutCall) (n : Nat) (hpos : ∀ c ∈ cs, 0 < c.num) {i j : Nat} (h : i < j) (hj : j ≤ cs.length) :
    startOf n cs i < startOf n cs j := by
  obtain ⟨c, hc⟩ := getElem?_of_lt (l := cs) (i := i) (by omega)
  have h1 := startOf_succ cs n i c hc
  have h2 := hpos c (List.mem_of_getElem? hc)
  have h3 := startOf_mono cs n (j - (i + 1)) (i + 1) (by omega)
  rw [show i + 1 + (j - (i + 1)) = j by omega] at h3
  omega

theorem stage1_sorted (cs : List OutCall) (n : Nat) : keysSorted (stage1Map n cs) := by
  intro i j a b hij ha hb
  rw [stage1_get] at ha hb
  simp only [Option.map_eq_some_iff] at ha hb
  obtain ⟨c, hc, rfl⟩ := ha
  obtain ⟨d, hd, rfl⟩ := hb
  have hj : j < cs.length := by
    rcases Nat.lt_or_ge j cs.length with h | h
    · exact h
    · rw [List.getElem?_eq_none h] at hd; simp at hd
  have := startOf_mono cs n (j - i) i (by omega)
  rw [show i + (j - i) = j by omega] at this
  exact this

end Silice
