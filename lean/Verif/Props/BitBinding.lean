import Verif.Lemmas.BitBinding
/-! Property theorems C05, C44. -/
set_option autoImplicit false
namespace Silice

/-- C05. Part bindings: the recorded bindings are accepted, and a read of the variable is rewritten, unless some
bit is covered twice, in a concatenation in which every bit comes from the one range covering it
(at the right position in the output), bits covered by no range being 0. -/
theorem C05_parts_read_per_bit (bs : List PartBinding) (hne : bs ≠ []) (hn : ∀ b ∈ bs, b.NameOk) (width : Nat)
    (hdisj : ∀ i < width, ∀ j k : Nat, ∀ bj bk, bs[j]? = some bj → bs[k]? = some bk →
      bj.Covers i → bk.Covers i → j = k) :
    ∃ text l, recordBinds none (bs.map .part) = some (some text) ∧
      rewriteBinding text width = some (.concat l) ∧ l.length = width ∧
      ∀ (env : List Char → Nat → Bool) (i : Nat), i < width →
        (∀ b ∈ bs, b.Covers i → concatBit env l i = some (env b.wire (i - b.first))) ∧
        ((¬ ∃ b ∈ bs, b.Covers i) → concatBit env l i = some false) :=
  parts_read_per_bit bs hne hn width hdisj

/-- C05. A bit covered by two ranges stops the compilation as soon as the variable is read. -/
theorem C05_double_cover_is_error (bs : List PartBinding) (hn : ∀ b ∈ bs, b.NameOk) (width : Nat)
    (i j k : Nat) (bj bk : PartBinding) (hi : i < width) (hjk : j ≠ k)
    (hj : bs[j]? = some bj) (hk : bs[k]? = some bk) (cj : bj.Covers i) (ck : bk.Covers i) :
    ∃ text, recordBinds none (bs.map .part) = some (some text) ∧ rewriteBinding text width = none :=
  double_cover_error bs hn width i j k bj bk hi hjk hj hk cj ck

/-- C05. A variable bound as a whole reads the wire itself; binding it a second time as a whole, or
binding it as a whole after a part, is an error. -/
theorem C05_whole_binding (w : List Char) (hw : w ≠ []) (hs : ';' ∉ w) (width : Nat) :
    recordBinds none [.whole w] = some (some w) ∧ rewriteBinding w width = some (.verbatim w) ∧
    (∀ e w', recordBind (some e) (.whole w') = none) :=
  ⟨rfl, by
    cases w with
    | nil => exact absurd rfl hw
    | cons c cs =>
      simp at hs
      have : ¬ c = ';' := fun e => hs.1 e.symm
      simp [rewriteBinding, this], fun e w' => rfl⟩

/-- C05 (finding). Binding a variable as a whole and then a part of it is not detected: what is emitted is neither
the wire nor a concatenation, but a text containing the separator. -/
theorem C05_whole_then_part_undetected (w : List Char) (hw : w ≠ []) (hs : ';' ∉ w) (b : PartBinding) (width : Nat) :
    ∃ text, recordBinds none [.whole w, .part b] = some (some text) ∧
      rewriteBinding text width = some (.verbatim text) ∧ ';' ∈ text := by
  refine ⟨w ++ encodePart b, rfl, ?_, by simp [encodePart]⟩
  cases w with
  | nil => exact absurd rfl hw
  | cons c cs =>
    simp at hs
    have : ¬ c = ';' := fun e => hs.1 e.symm
    simp [rewriteBinding, this]

/-- C44. An accepted part binding has the width of the port (when known) and lies inside the variable. -/
theorem C44_accepted_part_inside (pw : Option Nat) (vw first num : Nat)
    (h : partAccepted pw vw first num = true) : (∀ p, pw = some p → num = p) ∧ first + num ≤ vw := by
  unfold partAccepted at h
  simp only [Bool.and_eq_true, decide_eq_true_eq] at h
  refine ⟨fun p hp => ?_, by omega⟩
  subst hp
  simp at h
  omega

/-- C44, partial (inouts). The overlap test raises no false alarm: if two or more parts of an inout are bound (no
whole binding) and an overlap is reported, then two distinct bound ranges do overlap.
Missing: the converse, which is false (`C44_inout_overlap_missed`). -/
theorem C44_inout_no_false_alarm_partial (binds : List InoutBind) (hpos : ∀ b ∈ binds, 0 ≤ b.first ∧ 0 < b.num)
    (e : Int) (h : verifyInout binds = some e) :
    ∃ a ∈ binds, ∃ b ∈ binds, a ≠ b ∧ a.isLeft = false ∧ b.isLeft = false ∧ a.Overlaps b :=
  inout_no_false_alarm binds hpos e h

/-- Driven ranges one after the other, without gap, from bit `a` to before bit `e`. -/
inductive Contiguous : Int → List InoutBind → Int → Prop where
  | nil (a) : Contiguous a [] a
  | cons {a x l e} : x.isLeft = false → x.first = a → 0 < x.num → Contiguous (a + x.num) l e → Contiguous a (x :: l) e

theorem insertRange_last (l : List InoutBind) (x : InoutBind) (h : ∀ y ∈ l, rangeLt y x = true) :
    insertRange x l = l ++ [x] := by
  induction l with
  | nil => rfl
  | cons y l ih =>
    have hy := h y (by simp)
    have hx : rangeLt x y = false := by
      simp only [rangeLt, Bool.or_eq_true, Bool.and_eq_true, decide_eq_true_eq, beq_iff_eq] at hy
      simp only [rangeLt, Bool.or_eq_false_iff, Bool.and_eq_false_iff, decide_eq_false_iff_not, beq_eq_false_iff_ne]
      omega
    simp [insertRange, hy, hx, ih (fun z hz => h z (by simp [hz]))]

theorem insertRanges_sorted (l : List InoutBind) (h : l.Pairwise (fun a b => rangeLt a b = true)) : insertRanges l = l := by
  have key : ∀ (l acc : List InoutBind), (acc ++ l).Pairwise (fun a b => rangeLt a b = true) →
      l.foldl (fun m x => insertRange x m) acc = acc ++ l := by
    intro l
    induction l with
    | nil => intro acc _; simp
    | cons x l ih =>
      intro acc h
      have hx : ∀ y ∈ acc, rangeLt y x = true := fun y hy => (List.pairwise_append.mp h).2.2 y hy x (by simp)
      rw [List.foldl_cons, insertRange_last acc x hx, ih _ (by simpa using h)]
      simp
  exact key l [] (by simpa using h)

theorem verifyLoop_contiguous {a e : Int} {pre : List InoutBind} (h : Contiguous a pre e) (hne : pre ≠ [])
    (x : InoutBind) (hx : x.isLeft = false) (hf : x.first = e - 1) (rest : List InoutBind) (prev : Int) (hp : prev = a - 1) :
    verifyLoop prev (pre ++ x :: rest) = some (e - 1) := by
  induction h generalizing prev with
  | nil a => exact absurd rfl hne
  | @cons a y l e hl hy hn hc ih =>
    have h1 : y.first ≠ prev := by omega
    simp only [List.cons_append, verifyLoop, hl, Bool.false_eq_true, if_false, h1]
    cases l with
    | nil =>
      cases hc
      have : x.first = prev + y.num := by omega
      simp only [List.nil_append, verifyLoop, hx, Bool.false_eq_true, if_false, this, if_true]
      congr 1; omega
    | cons z l => exact ih (by simp) hf (prev + y.num) (by omega)

/-- C44, partial (inouts). The overlap that is detected: ranges bound one after the other from bit 0, and one more starting on
the last bit of them, in order of position and whatever follows. Missing: all other overlaps
(`C44_inout_overlap_missed`). -/
theorem C44_inout_one_bit_overlap_reported_partial (pre rest : List InoutBind) (x : InoutBind) (e : Int)
    (hc : Contiguous 0 pre e) (hne : pre ≠ []) (hx : x.isLeft = false) (hf : x.first = e - 1)
    (hs : (pre ++ x :: rest).Pairwise (fun a b => rangeLt a b = true)) :
    verifyInout (pre ++ x :: rest) = some (e - 1) := by
  unfold verifyInout
  simp only [insertRanges_sorted _ hs]
  rw [verifyLoop_contiguous hc hne x hx hf rest (-1) rfl, if_neg]
  cases pre with
  | nil => exact absurd rfl hne
  | cons y l => simp only [List.length_append, List.length_cons]; omega

/-- C44 (negation, inouts). Overlapping driven ranges of an inout are accepted. -/
theorem C44_inout_overlap_missed :
    ∃ a b : InoutBind, a.isLeft = false ∧ b.isLeft = false ∧ a ≠ b ∧ a.Overlaps b ∧ verifyInout [a, b] = none :=
  ⟨⟨0, 4, "p", false⟩, ⟨2, 4, "q", false⟩, rfl, rfl, by decide, ⟨3, by decide⟩, by decide⟩

/-- C44 (negation, inouts). Two instances bound to the same range of an inout: no error, and the second one is
silently lost. -/
theorem C44_inout_same_range_lost (f n : Int) (p q : String) :
    verifyInout [⟨f, n, p, false⟩, ⟨f, n, q, false⟩] = none ∧
    insertRanges [⟨f, n, p, false⟩, ⟨f, n, q, false⟩] = [⟨f, n, p, false⟩] := by
  simp [verifyInout, insertRanges, insertRange, rangeLt]

/-! Non-vacuity -/
example : ∃ text, recordBinds none ([⟨"wa".toList, 0, 4⟩, ⟨"wb".toList, 6, 2⟩].map .part) = some (some text) ∧
    rewriteBinding text 8 = some (.concat
      [.wire "wb".toList 1, .wire "wb".toList 0, .zero, .zero,
       .wire "wa".toList 3, .wire "wa".toList 2, .wire "wa".toList 1, .wire "wa".toList 0]) :=
  ⟨";wa,0,4;wb,6,2".toList, by decide +kernel, by decide +kernel⟩
example : (⟨"wa".toList, 0, 4⟩ : PartBinding).NameOk ∧ (⟨"wa".toList, 0, 4⟩ : PartBinding).Covers 3 := by
  refine ⟨⟨by decide, by decide, by decide⟩, by decide, by decide⟩
example : verifyInout [⟨0, 4, "p", false⟩, ⟨3, 4, "q", false⟩] = some 3 := by decide
example : Contiguous 0 [⟨0, 4, "p", false⟩] 4 ∧
    ([(⟨0, 4, "p", false⟩ : InoutBind)] ++ (⟨3, 4, "q", false⟩ : InoutBind) :: []).Pairwise (fun a b => rangeLt a b = true) :=
  ⟨.cons rfl rfl (by decide) (.nil _), by decide⟩
example : partAccepted (some 4) 8 4 4 = true := by decide

end Silice
