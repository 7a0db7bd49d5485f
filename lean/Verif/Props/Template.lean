import Verif.Spec.Template
import Verif.Lemmas.Template

/-!
# C45: replacement of markers in templates
-/

set_option autoImplicit false

namespace Silice

/-- C45: in whatever order the keys are processed (`R'`), the result is the text with every marker of a key replaced by its value and everything else unchanged,
if keys are identifiers, values have neither `%` nor `$`, and markers are not stuck together: next to a marker, the text up to the next percent sign has a
character that is not one of identifiers. Without the latter two hypotheses this is false (`C45_counterexample_order`, `C45_counterexample_dollar`). -/
theorem C45_partial {R R' : Repl} (hp : R'.Perm R) (hn : (R.map Prod.fst).Nodup) (hk : ∀ k ∈ R.map Prod.fst, Ident k)
    (hv : ∀ v ∈ R.map Prod.snd, '%' ∉ v ∧ '$' ∉ v) {text : List Char} (hs : Separated (R.map Prod.fst) text) :
    fromString R' text = some (substAll R text) := by
  obtain ⟨a, l, rfl, ha, hl⟩ := exists_segs text
  have hfst : ∀ k, k ∈ R'.map Prod.fst ↔ k ∈ R.map Prod.fst := fun k => (hp.map Prod.fst).mem_iff
  have hsnd : ∀ k, k ∈ R'.map Prod.snd ↔ k ∈ R.map Prod.snd := fun k => (hp.map Prod.snd).mem_iff
  rw [fromString_segs hk R' a l (fun k h => (hfst k).mp h) (fun v h => hv v ((hsnd v).mp h)) ha hl (sepL_of_separated l a hl hs),
    substAll_segs R l a ha hl, simS_congr (lookup_perm hp hn)]

/-- C45: the result does not depend on the order in which the keys are processed. -/
theorem C45_order_partial {R R' : Repl} (hp : R'.Perm R) (hn : (R.map Prod.fst).Nodup) (hk : ∀ k ∈ R.map Prod.fst, Ident k)
    (hv : ∀ v ∈ R.map Prod.snd, '%' ∉ v ∧ '$' ∉ v) {text : List Char} (hs : Separated (R.map Prod.fst) text) :
    fromString R' text = fromString R text := by
  rw [C45_partial hp hn hk hv hs, C45_partial (List.Perm.refl R) hn hk hv hs]

/-- C45: no marker of a key is left. -/
theorem C45_none_left_partial {R : Repl} (hn : (R.map Prod.fst).Nodup) (hk : ∀ k ∈ R.map Prod.fst, Ident k)
    (hv : ∀ v ∈ R.map Prod.snd, '%' ∉ v ∧ '$' ∉ v) {text : List Char} (hs : Separated (R.map Prod.fst) text) {k p q out : List Char}
    (hkR : k ∈ R.map Prod.fst) (hout : fromString R text = some out) : out ≠ p ++ marker k ++ q := by
  rw [C45_partial (List.Perm.refl R) hn hk hv hs, Option.some.injEq] at hout
  obtain ⟨a, l, rfl, ha, hl⟩ := exists_segs text
  rw [substAll_segs R l a ha hl] at hout
  intro he
  have hkc := ident_clean (hk k hkR)
  obtain ⟨h, t, e, _⟩ := simS_prefix R [] l a
  have hcl := simS_clean (fun v h => (hv v h).1) l a ha hl
  -- segments of the result, seen from both sides
  obtain ⟨pa, pl, hp1, hp2, hp3⟩ := exists_segs p
  obtain ⟨qa, ql, hq1, hq2, hq3⟩ := exists_segs q
  have hout' : out = joinP pa (pl ++ k :: qa :: ql) := by
    rw [he, hp1, hq1, ← joinP_joinP pl (qa :: ql) pa k]
    simp [marker, joinP]
  rw [e] at hout hcl
  have := joinP_inj t (pl ++ k :: qa :: ql) h pa (hcl h (by simp)) hp2 (fun x hx => hcl x (by simp [hx])) (by
    intro x hx
    simp only [List.mem_append, List.mem_cons] at hx
    rcases hx with hx | rfl | rfl | hx
    · exact hp3 x hx
    · exact hkc
    · exact hq2
    · exact hq3 x hx) (by rw [← hout']; exact hout)
  refine simS_none_left hk (fun k h => h) l a (sepL_of_separated l a hl hs) h pl (qa :: ql) k ?_ (by simp) hkR
  rw [e, this.2]
  simp

/-- C45, as a template is read: made of texts without percent signs and of markers, the result has the values in place of the markers of keys, and the rest
as it was, in whatever order the keys are processed. Texts between two markers have a character that is not one of identifiers. -/
theorem C45_document {R R' : Repl} (hp : R'.Perm R) (hn : (R.map Prod.fst).Nodup) (hk : ∀ k ∈ R.map Prod.fst, Ident k)
    (hv : ∀ v ∈ R.map Prod.snd, '%' ∉ v ∧ '$' ∉ v) {d : List (List Char × List Char)} {last : List Char} (hl : '%' ∉ last)
    (hd : ∀ p ∈ d, '%' ∉ p.1 ∧ ¬ Ident p.1 ∧ Ident p.2) :
    fromString R' (docText d last) = some (docResult R d last) := by
  have hR' : ∀ k, k ∈ R'.map Prod.fst ↔ k ∈ R.map Prod.fst := fun k => (hp.map Prod.fst).mem_iff
  have hsnd : ∀ k, k ∈ R'.map Prod.snd ↔ k ∈ R.map Prod.snd := fun k => (hp.map Prod.snd).mem_iff
  -- the segments of the text
  have hsegs : ∀ (d : List (List Char × List Char)), (∀ p ∈ d, '%' ∉ p.1 ∧ ¬ Ident p.1 ∧ Ident p.2) →
      docText d last = joinP (docHead d last) (docSegs d last) ∧
      (∀ b ∈ docSegs d last, '%' ∉ b) ∧ SepL (R.map Prod.fst) (docSegs d last) := by
    intro d
    induction d with
    | nil => intro _; exact ⟨rfl, by simp [docSegs], trivial⟩
    | cons p d ih =>
      obtain ⟨t, k⟩ := p
      intro hd
      obtain ⟨h1, h2, h3⟩ := hd (t, k) (by simp)
      obtain ⟨g1, g2, g3⟩ := ih fun p hp => hd p (List.mem_cons_of_mem _ hp)
      cases d with
      | nil =>
        refine ⟨by simp [docText, docSegs, joinP, docHead], ?_, trivial⟩
        intro b hb
        simp only [docSegs, List.mem_cons, List.not_mem_nil, or_false] at hb
        rcases hb with rfl | rfl
        · exact ident_clean h3
        · exact hl
      | cons p' d =>
        obtain ⟨t', k'⟩ := p'
        obtain ⟨f1, f2, f3⟩ := hd (t', k') (by simp)
        refine ⟨?_, ?_, ?_⟩
        · rw [docText, g1]
          simp [docSegs, joinP, docHead]
        · intro b hb
          simp only [docSegs, List.mem_cons] at hb
          rcases hb with rfl | rfl | hb
          · exact ident_clean h3
          · exact f1
          · exact g2 b hb
        · have hnot : t' ∉ R.map Prod.fst := fun hc => f2 (hk t' hc)
          cases d with
          | nil => exact ⟨⟨fun _ => f2, fun hc => absurd hc hnot⟩, ⟨fun hc => absurd hc hnot, fun _ => f2⟩, trivial⟩
          | cons p'' d =>
            exact ⟨⟨fun _ => f2, fun hc => absurd hc hnot⟩, ⟨fun hc => absurd hc hnot, fun _ => f2⟩, g3⟩
  have hres : ∀ (d : List (List Char × List Char)) (x : List Char), (∀ p ∈ d, '%' ∉ p.1 ∧ ¬ Ident p.1 ∧ Ident p.2) →
      joinL (simS R (x ++ docHead d last) (docSegs d last)) = x ++ docResult R d last := by
    intro d
    induction d with
    | nil => intro x _; simp [docSegs, simS, joinL, joinP, docResult, docHead]
    | cons p d ih =>
      obtain ⟨t, k⟩ := p
      intro x hd
      have ih' := fun x => ih x fun p hp => hd p (List.mem_cons_of_mem _ hp)
      cases d with
      | nil =>
        simp only [docSegs, simS, docResult]
        cases R.lookup k with
        | none => simp [joinL, joinP, docHead]
        | some v => simp [joinL, joinP, docHead]
      | cons p' d =>
        obtain ⟨t', k'⟩ := p'
        obtain ⟨f1, f2, f3⟩ := hd (t', k') (by simp)
        have hnone : R.lookup t' = none := lookup_none_iff.mpr fun hc => f2 (hk t' hc)
        simp only [docSegs, simS]
        rw [docResult]
        cases R.lookup k with
        | some v =>
          simp only
          have := ih' (x ++ t ++ v)
          simp only [docHead] at this ⊢
          rw [this]
          simp
        | none =>
          simp only
          have := ih' []
          simp only [List.nil_append, docHead] at this ⊢
          have hne : docSegs ((t', k') :: d) last ≠ [] := by cases d <;> simp [docSegs]
          cases hds : docSegs ((t', k') :: d) last with
          | nil => exact absurd hds hne
          | cons y ys =>
            rw [hds] at this
            simp only [simS, hnone]
            rw [joinL_cons (by simp), joinL_cons (simS_ne_nil _ _ _), this]
            simp
  obtain ⟨g1, g2, g3⟩ := hsegs d hd
  have hhead : '%' ∉ (docHead d last) := by
    cases d with
    | nil => exact hl
    | cons p d => exact (hd p (by simp)).1
  rw [g1, fromString_segs hk R' _ _ (fun k h => (hR' k).mp h) (fun v h => hv v ((hsnd v).mp h)) hhead g2 g3,
    simS_congr (lookup_perm hp hn)]
  have := hres d [] hd
  simpa using this

/-- Replacements for a memory (some). -/
def exRepl : Repl :=
  [("MODULE".toList, "M_main_mem_tbl".toList), ("DATA_WIDTH".toList, "8".toList), ("DATA_TYPE".toList, "signed".toList)]

def exDoc : List (List Char × List Char) :=
  [("module ".toList, "MODULE".toList), ("(\ninput ".toList, "DATA_TYPE".toList), (" [".toList, "DATA_WIDTH".toList),
   ("-1:0] in, // ".toList, "OTHER".toList)]

example : (∀ p ∈ exDoc, '%' ∉ p.1 ∧ ¬ Ident p.1 ∧ Ident p.2) ∧ (∀ k ∈ exRepl.map Prod.fst, Ident k) ∧
    (∀ v ∈ exRepl.map Prod.snd, '%' ∉ v ∧ '$' ∉ v) ∧
    String.ofList (docText exDoc ");".toList) = "module %MODULE%(\ninput %DATA_TYPE% [%DATA_WIDTH%-1:0] in, // %OTHER%);" ∧
    String.ofList (docResult exRepl exDoc ");".toList) = "module M_main_mem_tbl(\ninput signed [8-1:0] in, // %OTHER%);" := by
  decide +kernel

/-- A text with other percent signs, that meets the hypothesis of `C45_partial`. -/
example : Separated (exRepl.map Prod.fst) "always %MODULE% a = b % c; % %DATA_WIDTH% x".toList := by
  have : "always %MODULE% a = b % c; % %DATA_WIDTH% x".toList =
      joinP "always ".toList ["MODULE".toList, " a = b ".toList, " c; ".toList, " ".toList, "DATA_WIDTH".toList, " x".toList] := by decide +kernel
  rw [this]
  exact separated_of_sepL _ _ (by decide +kernel) (by decide +kernel) (by decide +kernel)

/-- C45 fails for markers stuck together: the result depends on the order of the keys. -/
theorem C45_counterexample_order :
    fromString [("A".toList, "1".toList), ("B".toList, "2".toList)] "%A%B%".toList = some "1B%".toList ∧
    fromString [("B".toList, "2".toList), ("A".toList, "1".toList)] "%A%B%".toList = some "%A2".toList := by
  decide +kernel

/-- C45 fails for values with a dollar: `$&` gives back the marker, `$$` one dollar. -/
theorem C45_counterexample_dollar :
    fromString [("A".toList, "x$&y".toList)] "(%A%)".toList = some "(x%A%y)".toList ∧
    fromString [("A".toList, "$$display".toList)] "(%A%)".toList = some "($display)".toList := by
  decide +kernel

end Silice
