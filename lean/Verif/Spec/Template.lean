import Verif.Model.Text

/-!
Specification: all markers are replaced at once, reading from the left.
-/

set_option autoImplicit false

namespace Silice

/-- Characters of identifiers. -/
def identC (c : Char) : Bool := c.isAlphanum || c == '_'

def Ident (k : List Char) : Prop := ∀ c ∈ k, identC c = true

/-- The value of a marker and the text after it, if the text (after a percent sign) starts with the rest of a marker. -/
def markerAt (R : List (List Char × List Char)) (cs : List Char) : Option (List Char × List Char) :=
  match getlineC '%' cs with
  | (_, none) => none
  | (k, some rest) =>
    match R.lookup k with
    | none => none
    | some v => some (v, rest)

theorem markerAt_length {R : List (List Char × List Char)} {cs v rest : List Char} (h : markerAt R cs = some (v, rest)) :
    rest.length < cs.length := by
  unfold markerAt at h
  split at h
  · cases h
  · rename_i k rest' hg
    split at h
    · cases h
    · cases h
      exact getlineC_rest_length '%' cs rest (by rw [hg])

/-- All markers replaced. -/
def substAll (R : List (List Char × List Char)) : List Char → List Char
  | [] => []
  | c :: cs =>
    if c = '%' then
      match _h : markerAt R cs with
      | some (v, rest) => v ++ substAll R rest
      | none => c :: substAll R cs
    else c :: substAll R cs
termination_by l => l.length
decreasing_by
  · simp only [List.length_cons]
    have := markerAt_length _h
    omega
  · simp
  · simp

/-- Next to a marker, the text up to the next percent sign is not made of characters of identifiers only. -/
def Separated (K : List (List Char)) (text : List Char) : Prop :=
  ∀ p q1 q2 r : List Char, text = p ++ '%' :: (q1 ++ '%' :: (q2 ++ '%' :: r)) → '%' ∉ q1 → '%' ∉ q2 →
    (q1 ∈ K → ¬ Ident q2) ∧ (q2 ∈ K → ¬ Ident q1)

/-- A template made of texts, each followed by a marker, and of a last text. -/
def docText : List (List Char × List Char) → List Char → List Char
  | [], last => last
  | (t, k) :: d, last => t ++ '%' :: (k ++ '%' :: docText d last)

/-- What it should become. -/
def docResult (R : List (List Char × List Char)) : List (List Char × List Char) → List Char → List Char
  | [], last => last
  | (t, k) :: d, last =>
    match R.lookup k with
    | some v => t ++ v ++ docResult R d last
    | none => t ++ '%' :: (k ++ '%' :: docResult R d last)

end Silice
