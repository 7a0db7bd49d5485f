import Verif.Spec.BitBinding
import Verif.Lemmas.Text
/-! Helper lemmas for `Verif.Props.BitBinding`. -/
set_option autoImplicit false
namespace Silice

/-- Encoded text of a list of parts. -/
def encodeParts (bs : List PartBinding) : List Char := bs.flatMap encodePart

/-- Body of an encoded part (without the leading `;`). -/
def partBody (b : PartBinding) : List Char := b.wire ++ ',' :: (natToDec b.first ++ ',' :: natToDec b.num)

theorem encodeParts_cons (b : PartBinding) (bs : List PartBinding) :
    encodeParts (b :: bs) = ';' :: (partBody b ++ encodeParts bs) := by
  simp [encodeParts, encodePart, partBody]

theorem recordBinds_parts (bs : List PartBinding) : ∀ e : Option (List Char),
    recordBinds e (bs.map .part) = some (if bs = [] then e else some (e.getD [] ++ encodeParts bs)) := by
  induction bs with
  | nil => intro e; simp [recordBinds]
  | cons b bs ih =>
    intro e
    simp only [List.map_cons, recordBinds, recordBind, ih]
    by_cases h : bs = []
    · subst h; simp [encodeParts]
    · simp [h, encodeParts]

theorem partBody_no_semi (b : PartBinding) (h : b.NameOk) : ';' ∉ partBody b := by
  unfold partBody
  have h1 := natToDec_not_mem ';' (by decide) b.first
  have h2 := natToDec_not_mem ';' (by decide) b.num
  simp only [List.mem_append, List.mem_cons, not_or]
  exact ⟨h.2.1, by decide, h1, by decide, h2⟩

theorem partBody_ne_nil (b : PartBinding) : partBody b ≠ [] := by simp [partBody]

theorem splitBinding_body (b : PartBinding) (h : b.NameOk) : splitBinding (partBody b) = some b := by
  unfold splitBinding partBody
  rw [getlineC_found ',' _ _ h.2.2]
  simp only [Option.getD_some]
  rw [getlineC_found ',' _ _ (natToDec_not_mem ',' (by decide) _)]
  simp only [Option.getD_some]
  rw [getlineC_end ',' _ (natToDec_not_mem ',' (by decide) _)]
  simp [stoiDec_natToDec]

theorem getlines_parts (bs : List PartBinding) (hn : ∀ b ∈ bs, b.NameOk) : ∀ b : PartBinding, b.NameOk →
    getlines ';' (partBody b ++ encodeParts bs) = (b :: bs).map partBody := by
  induction bs with
  | nil =>
    intro b hb
    simp only [encodeParts, List.flatMap_nil, List.append_nil, List.map_cons, List.map_nil]
    exact getlines_last _ _ (partBody_no_semi b hb) (partBody_ne_nil b)
  | cons b' bs ih =>
    intro b hb
    rw [encodeParts_cons, getlines_cons _ _ _ (partBody_no_semi b hb),
      ih (fun x hx => hn x (by simp [hx])) b' (hn b' (by simp))]
    simp

theorem splitEach_bodies (bs : List PartBinding) (hn : ∀ b ∈ bs, b.NameOk) :
    splitEach (bs.map partBody) = some bs := by
  induction bs with
  | nil => rfl
  | cons b bs ih =>
    have he : (partBody b).isEmpty = false := by
      cases h : partBody b with
      | nil => exact absurd h (partBody_ne_nil b)
      | cons => rfl
    simp only [List.map_cons, splitEach, he, splitBinding_body b (hn b (by simp)),
      ih (fun x hx => hn x (by simp [hx]))]
    simp

theorem splitBitBindings_encode (bs : List PartBinding) (hn : ∀ b ∈ bs, b.NameOk) :
    splitBitBindings (encodeParts bs) = some bs := by
  unfold splitBitBindings
  cases bs with
  | nil => simp [encodeParts, getlines, splitEach]
  | cons b bs =>
    rw [encodeParts_cons]
    have := getlines_cons ';' [] (partBody b ++ encodeParts bs) (by simp)
    simp only [List.nil_append] at this
    rw [this, getlines_parts bs (fun x hx => hn x (by simp [hx])) b (hn b (by simp))]
    simp only [splitEach, List.isEmpty_nil, if_true]
    exact splitEach_bodies (b :: bs) hn

/-! Covering loop -/

instance (b : PartBinding) (i : Nat) : Decidable (b.Covers i) := by unfold PartBinding.Covers; infer_instance

theorem coverLoop_cons (bit : Nat) (r : PartBinding) (rest : List PartBinding) (acc : List Char × Nat) :
    coverLoop bit (r :: rest) acc =
      if r.Covers bit then (if acc.1.isEmpty then coverLoop bit rest (r.wire, bit - r.first) else none)
      else coverLoop bit rest acc := by
  simp only [coverLoop, PartBinding.Covers, Nat.lt_iff_add_one_le]

theorem coverLoop_set (bit : Nat) (bs : List PartBinding) (acc : List Char × Nat) (ha : acc.1 ≠ []) :
    ((∃ b ∈ bs, b.Covers bit) → coverLoop bit bs acc = none) ∧
    ((¬ ∃ b ∈ bs, b.Covers bit) → coverLoop bit bs acc = some acc) := by
  have hE : acc.1.isEmpty = false := by
    cases h : acc.1 with
    | nil => exact absurd h ha
    | cons => rfl
  induction bs with
  | nil => simp [coverLoop]
  | cons r rest ih =>
    rw [coverLoop_cons]
    by_cases hr : r.Covers bit
    · simp [hr, hE]
    · simp only [hr, if_false, List.mem_cons]
      constructor
      · rintro ⟨b, hb | hb, hc⟩
        · subst hb; exact absurd hc hr
        · exact ih.1 ⟨b, hb, hc⟩
      · intro hno
        exact ih.2 (fun ⟨b, hb, hc⟩ => hno ⟨b, .inr hb, hc⟩)

theorem coverLoop_unique (bit : Nat) (bs : List PartBinding) (hn : ∀ b ∈ bs, b.NameOk) (x : Nat)
    (hd : ∀ j k : Nat, ∀ bj bk, bs[j]? = some bj → bs[k]? = some bk → bj.Covers bit → bk.Covers bit → j = k) :
    ∃ w, coverLoop bit bs ([], x) = some w ∧
      (∀ b ∈ bs, b.Covers bit → w = (b.wire, bit - b.first)) ∧
      ((¬ ∃ b ∈ bs, b.Covers bit) → w = ([], x)) := by
  induction bs with
  | nil => exact ⟨([], x), rfl, by simp, by simp⟩
  | cons r rest ih =>
    rw [coverLoop_cons]
    by_cases hr : r.Covers bit
    · simp only [hr, if_true, List.isEmpty_nil]
      have hno : ¬ ∃ b ∈ rest, b.Covers bit := by
        rintro ⟨b, hb, hc⟩
        obtain ⟨k, hk, hk2⟩ := List.mem_iff_getElem.mp hb
        have := hd 0 (k + 1) r b (by simp) (by simp [hk, hk2]) hr hc
        omega
      refine ⟨(r.wire, bit - r.first), (coverLoop_set bit rest _ (hn r (by simp)).1).2 hno, ?_, ?_⟩
      · intro b hb hc
        simp only [List.mem_cons] at hb
        rcases hb with hb | hb
        · subst hb; rfl
        · exact absurd ⟨b, hb, hc⟩ hno
      · intro h; exact absurd ⟨r, by simp, hr⟩ h
    · simp only [hr, if_false]
      obtain ⟨w, h1, h2, h3⟩ := ih (fun b hb => hn b (by simp [hb])) (by
        intro j k bj bk hj hk cj ck
        have := hd (j + 1) (k + 1) bj bk (by simpa using hj) (by simpa using hk) cj ck
        omega)
      refine ⟨w, h1, ?_, ?_⟩
      · intro b hb hc
        simp only [List.mem_cons] at hb
        rcases hb with hb | hb
        · subst hb; exact absurd hc hr
        · exact h2 b hb hc
      · intro h
        exact h3 (fun ⟨b, hb, hc⟩ => h ⟨b, by simp [hb], hc⟩)

theorem coverLoop_double (bit : Nat) (bs : List PartBinding) (hn : ∀ b ∈ bs, b.NameOk) : ∀ (x j k : Nat)
    (bj bk : PartBinding), j < k → bs[j]? = some bj → bs[k]? = some bk → bj.Covers bit → bk.Covers bit →
    coverLoop bit bs ([], x) = none := by
  induction bs with
  | nil => intro x j k bj bk _ hj; simp at hj
  | cons r rest ih =>
    intro x j k bj bk hjk hj hk cj ck
    rw [coverLoop_cons]
    obtain ⟨k', rfl⟩ : ∃ k', k = k' + 1 := ⟨k - 1, by omega⟩
    have hk' : rest[k']? = some bk := by simpa using hk
    have hmem : bk ∈ rest := List.mem_of_getElem? hk'
    by_cases hr : r.Covers bit
    · simp only [hr, if_true, List.isEmpty_nil]
      exact (coverLoop_set bit rest _ (hn r (by simp)).1).1 ⟨bk, hmem, ck⟩
    · simp only [hr, if_false]
      cases j with
      | zero => simp at hj; subst hj; exact absurd cj hr
      | succ j' =>
        exact ih (fun b hb => hn b (by simp [hb])) x j' k' bj bk (by omega) (by simpa using hj) hk' cj ck

theorem bitsLoop_some (bs : List PartBinding) (f : Nat → BitSrc) : ∀ (n bit : Nat) (c : List BitSrc),
    (∀ i, bit ≤ i → i < bit + n → bitSource bs i = some (f i)) →
    bitsLoop bs n bit c = some (((List.range' bit n).map f).reverse ++ c) := by
  intro n
  induction n with
  | zero => intro bit c _; simp [bitsLoop]
  | succ n ih =>
    intro bit c h
    simp only [bitsLoop, h bit (by omega) (by omega)]
    rw [ih (bit + 1) _ (fun i h1 h2 => h i (by omega) (by omega))]
    simp [List.range'_succ]

theorem bitsLoop_none (bs : List PartBinding) : ∀ (n bit : Nat) (c : List BitSrc) (i : Nat),
    bit ≤ i → i < bit + n → bitSource bs i = none → bitsLoop bs n bit c = none := by
  intro n
  induction n with
  | zero => intro bit c i h1 h2; omega
  | succ n ih =>
    intro bit c i h1 h2 hnone
    simp only [bitsLoop]
    by_cases he : bit = i
    · subst he; simp [hnone]
    · split
      · rfl
      · exact ih (bit + 1) _ i (by omega) (by omega) hnone

theorem parts_read_per_bit (bs : List PartBinding) (hne : bs ≠ []) (hn : ∀ b ∈ bs, b.NameOk) (width : Nat)
    (hdisj : ∀ i < width, ∀ j k : Nat, ∀ bj bk, bs[j]? = some bj → bs[k]? = some bk →
      bj.Covers i → bk.Covers i → j = k) :
    ∃ text l, recordBinds none (bs.map .part) = some (some text) ∧
      rewriteBinding text width = some (.concat l) ∧ l.length = width ∧
      ∀ (env : List Char → Nat → Bool) (i : Nat), i < width →
        (∀ b ∈ bs, b.Covers i → concatBit env l i = some (env b.wire (i - b.first))) ∧
        ((¬ ∃ b ∈ bs, b.Covers i) → concatBit env l i = some false) := by
  classical
  -- source function
  have hsrc : ∀ i, i < width → ∃ s, bitSource bs i = some s ∧
      (∀ b ∈ bs, b.Covers i → s = .wire b.wire (i - b.first)) ∧ ((¬ ∃ b ∈ bs, b.Covers i) → s = .zero) := by
    intro i hi
    obtain ⟨w, h1, h2, h3⟩ := coverLoop_unique i bs hn 0 (hdisj i hi)
    unfold bitSource
    rw [h1]
    by_cases hc : ∃ b ∈ bs, b.Covers i
    · obtain ⟨b, hb, hcb⟩ := hc
      have hw := h2 b hb hcb
      subst hw
      have : b.wire.isEmpty = false := by
        cases h : b.wire with
        | nil => exact absurd h (hn b hb).1
        | cons => rfl
      refine ⟨.wire b.wire (i - b.first), by simp [this], ?_, fun h => absurd ⟨b, hb, hcb⟩ h⟩
      intro b' hb' hc'
      have := h2 b' hb' hc'
      simp at this
      simp [this]
    · have hw := h3 hc
      subst hw
      exact ⟨.zero, by simp, fun b hb h => absurd ⟨b, hb, h⟩ hc, fun _ => rfl⟩
  let f : Nat → BitSrc := fun i => if h : i < width then (hsrc i h).choose else .zero
  have hf : ∀ i, (h : i < width) → bitSource bs i = some (f i) ∧
      (∀ b ∈ bs, b.Covers i → f i = .wire b.wire (i - b.first)) ∧ ((¬ ∃ b ∈ bs, b.Covers i) → f i = .zero) := by
    intro i h
    have := (hsrc i h).choose_spec
    simp only [f, h, dif_pos]
    exact this
  obtain ⟨b0, bs0, rfl⟩ : ∃ b0 bs0, bs = b0 :: bs0 := by
    cases bs with
    | nil => exact absurd rfl hne
    | cons b bs => exact ⟨b, bs, rfl⟩
  refine ⟨encodeParts (b0 :: bs0), ((List.range' 0 width).map f).reverse, ?_, ?_, by simp, ?_⟩
  · rw [recordBinds_parts]; simp
  · have h1 := splitBitBindings_encode (b0 :: bs0) hn
    have h2 := bitsLoop_some (b0 :: bs0) f width 0 [] (fun i _ h => (hf i (by omega)).1)
    rw [encodeParts_cons] at *
    simp only [rewriteBinding, if_true, h1, h2]
    simp
  · intro env i hi
    have hget : ((List.range' 0 width).map f)[i]? = some (f i) := by
      simp [hi]
    obtain ⟨_, h2, h3⟩ := hf i hi
    constructor
    · intro b hb hc
      simp only [concatBit, List.reverse_reverse, hget, Option.map_some, h2 b hb hc]
    · intro hno
      simp only [concatBit, List.reverse_reverse, hget, Option.map_some, h3 hno]

theorem double_cover_error (bs : List PartBinding) (hn : ∀ b ∈ bs, b.NameOk) (width : Nat)
    (i j k : Nat) (bj bk : PartBinding) (hi : i < width) (hjk : j ≠ k)
    (hj : bs[j]? = some bj) (hk : bs[k]? = some bk) (cj : bj.Covers i) (ck : bk.Covers i) :
    ∃ text, recordBinds none (bs.map .part) = some (some text) ∧ rewriteBinding text width = none := by
  have hnone : bitSource bs i = none := by
    unfold bitSource
    rcases Nat.lt_or_ge j k with h | h
    · rw [coverLoop_double i bs hn 0 j k bj bk h hj hk cj ck]
    · rw [coverLoop_double i bs hn 0 k j bk bj (by omega) hk hj ck cj]
  obtain ⟨b0, bs0, rfl⟩ : ∃ b0 bs0, bs = b0 :: bs0 := by
    cases bs with
    | nil => simp at hj
    | cons b bs => exact ⟨b, bs, rfl⟩
  refine ⟨encodeParts (b0 :: bs0), by rw [recordBinds_parts]; simp, ?_⟩
  have h1 := splitBitBindings_encode (b0 :: bs0) hn
  have h2 := bitsLoop_none (b0 :: bs0) width 0 [] i (by omega) (by omega) hnone
  rw [encodeParts_cons] at *
  simp only [rewriteBinding, if_true, h1, h2]
  rfl

/-! Inout ranges -/

theorem insertRange_mem (x : InoutBind) : ∀ (l : List InoutBind) (y), y ∈ insertRange x l → y = x ∨ y ∈ l := by
  intro l
  induction l with
  | nil => intro y h; simp [insertRange] at h; exact .inl h
  | cons a as ih =>
    intro y h
    simp only [insertRange] at h
    split at h
    · simp only [List.mem_cons] at h ⊢; tauto
    · split at h
      · simp only [List.mem_cons] at h ⊢
        rcases h with h | h
        · tauto
        · rcases ih y h with h | h <;> tauto
      · exact .inr h

theorem rangeLt_trans (a b c : InoutBind) (h1 : rangeLt a b = true) (h2 : rangeLt b c = true) : rangeLt a c = true := by
  simp [rangeLt] at *; omega

theorem rangeLt_le (a b : InoutBind) (h : rangeLt a b = true) : a.first ≤ b.first := by
  simp [rangeLt] at h; omega

theorem rangeLt_ne (a b : InoutBind) (h : rangeLt a b = true) : a ≠ b := by
  rintro rfl; simp [rangeLt] at h

theorem insertRange_sorted (x : InoutBind) (l : List InoutBind)
    (h : l.Pairwise (fun a b => rangeLt a b = true)) : (insertRange x l).Pairwise (fun a b => rangeLt a b = true) := by
  induction l with
  | nil => simp [insertRange]
  | cons a as ih =>
    rw [List.pairwise_cons] at h
    simp only [insertRange]
    split
    · rename_i hlt
      rw [List.pairwise_cons]
      refine ⟨fun b hb => ?_, List.pairwise_cons.mpr h⟩
      simp only [List.mem_cons] at hb
      rcases hb with hb | hb
      · subst hb; exact hlt
      · exact rangeLt_trans _ _ _ hlt (h.1 b hb)
    · split
      · rename_i hlt
        rw [List.pairwise_cons]
        refine ⟨fun b hb => ?_, ih h.2⟩
        rcases insertRange_mem x as b hb with hb | hb
        · subst hb; exact hlt
        · exact h.1 b hb
      · exact List.pairwise_cons.mpr h

theorem insertRanges_props (l : List InoutBind) : ∀ acc : List InoutBind,
    acc.Pairwise (fun a b => rangeLt a b = true) →
    (l.foldl (fun m x => insertRange x m) acc).Pairwise (fun a b => rangeLt a b = true) ∧
    ∀ y ∈ l.foldl (fun m x => insertRange x m) acc, y ∈ acc ∨ y ∈ l := by
  induction l with
  | nil => intro acc h; exact ⟨h, fun y hy => .inl hy⟩
  | cons x xs ih =>
    intro acc h
    obtain ⟨h1, h2⟩ := ih (insertRange x acc) (insertRange_sorted x acc h)
    refine ⟨h1, fun y hy => ?_⟩
    rcases h2 y hy with hy | hy
    · rcases insertRange_mem x acc y hy with hy | hy
      · right; simp [hy]
      · exact .inl hy
    · right; simp [hy]

theorem verifyLoop_none (l : List InoutBind) : ∀ prev : Int,
    l.Pairwise (fun a b => rangeLt a b = true) → (∀ b ∈ l, 0 < b.num) →
    l.Pairwise (fun a b => a.isLeft = false → b.isLeft = false → ¬ a.Overlaps b) →
    (∀ x ∈ l, x.isLeft = false → prev + 1 ≤ x.first) → verifyLoop prev l = none := by
  induction l with
  | nil => intros; rfl
  | cons x xs ih =>
    intro prev hs hp hd hlow
    rw [List.pairwise_cons] at hs hd
    have hp' : ∀ b ∈ xs, 0 < b.num := fun b hb => hp b (by simp [hb])
    simp only [verifyLoop]
    split
    · exact ih prev hs.2 hp' hd.2 (fun y hy => hlow y (by simp [hy]))
    · rename_i hl
      have hl' : x.isLeft = false := by simpa using hl
      have hx := hlow x (by simp) hl'
      rw [if_neg (by omega)]
      refine ih _ hs.2 hp' hd.2 (fun y hy hyl => ?_)
      have h1 := rangeLt_le _ _ (hs.1 y hy)
      have h2 := hd.1 y hy hl' hyl
      have h3 := hp' y hy
      by_contra hc
      exact h2 ⟨y.first, h1, by omega, by omega, by omega⟩

theorem inout_no_false_alarm (binds : List InoutBind) (hpos : ∀ b ∈ binds, 0 ≤ b.first ∧ 0 < b.num)
    (e : Int) (h : verifyInout binds = some e) :
    ∃ a ∈ binds, ∃ b ∈ binds, a ≠ b ∧ a.isLeft = false ∧ b.isLeft = false ∧ a.Overlaps b := by
  by_contra hcon
  obtain ⟨hsort, hmem⟩ := insertRanges_props binds [] List.Pairwise.nil
  have hmem' : ∀ y ∈ insertRanges binds, y ∈ binds := by
    intro y hy
    rcases hmem y hy with h | h
    · simp at h
    · exact h
  have hnone : verifyLoop (-1) (insertRanges binds) = none := by
    apply verifyLoop_none _ _ hsort
    · exact fun b hb => (hpos b (hmem' b hb)).2
    · apply List.Pairwise.imp_of_mem _ hsort
      intro a b ha hb hlt hla hlb hov
      exact hcon ⟨a, hmem' a ha, b, hmem' b hb, rangeLt_ne a b hlt, hla, hlb, hov⟩
    · intro x hx _
      have := (hpos x (hmem' x hx)).1
      omega
  unfold verifyInout at h
  simp only [hnone] at h
  split at h <;> simp at h

end Silice
