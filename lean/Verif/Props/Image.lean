import Verif.Lemmas.Image

/-!
# C38: images and palettes packed in tables
-/

set_option autoImplicit false

namespace Silice

/-- **C38, images.** For every depth from 1 to 8 and every image of up to four bytes per pixel with all its bytes present, the
table has one row per image row and one number per pixel, and the number of pixel `(j, i)` packs exactly the bytes of that
pixel. -/
theorem C38_image {depth : Nat} (hd : depth ≤ 8) (im : Img) (hn : im.bitsPerPixel / 8 ≤ 4) (hb : ∀ b ∈ im.bytes, b < 256)
    (hl : im.height * im.width * (im.bitsPerPixel / 8) ≤ im.bytes.length) :
    ∃ rows, imageTable depth im = .table rows ∧ rows.length = im.height ∧
      ∀ j, j < im.height → ∃ row, rows[j]? = some row ∧ row.length = im.width ∧
        ∀ i, i < im.width → ∃ v, row[i]? = some v ∧
          Packs depth ((im.bytes.drop ((j * im.width + i) * (im.bitsPerPixel / 8))).take (im.bitsPerPixel / 8)) v := by
  obtain ⟨rows, hr⟩ := takeRows_total depth (im.bitsPerPixel / 8) im.width im.height im.bytes hl
  obtain ⟨h1, _, h3⟩ := takeRows_spec _ _ _ _ _ _ hr
  refine ⟨rows, ?_, h1, fun j hj => ?_⟩
  · unfold imageTable
    rw [if_neg (by omega)]
    simp [hr]
  · obtain ⟨row, k1, k2, k3⟩ := h3 j hj
    refine ⟨row, k1, k2, fun i hi => ⟨_, k3 i hi, packPixel_packs hd ?_ ?_⟩⟩
    · exact le_trans (List.length_take_le ..) hn
    · intro b hb'
      exact hb b (List.mem_of_mem_drop (List.mem_of_mem_take hb'))

/-- A packed number determines the top bits of every component, and is determined by them: two pixels have the same number
exactly when all their components agree on the bits kept. -/
theorem C38_packed_unique {depth : Nat} (hd : depth ≤ 8) {p q : List Nat} (hp : p.length ≤ 4) (hpq : p.length = q.length)
    (hbp : ∀ b ∈ p, b < 256) (hbq : ∀ b ∈ q, b < 256) :
    packPixel depth p = packPixel depth q ↔ p.map (topBits depth) = q.map (topBits depth) := by
  obtain ⟨_, h2⟩ := packPixel_packs hd hp hbp
  obtain ⟨_, h4⟩ := packPixel_packs hd (hpq ▸ hp) hbq
  constructor
  · intro h
    refine List.ext_getElem (by simpa using hpq) fun c hc hc' => ?_
    simp only [List.length_map] at hc hc'
    simp only [List.getElem_map]
    rw [← h2 c _ (List.getElem?_eq_getElem hc), ← h4 c _ (List.getElem?_eq_getElem hc'), h, hpq]
  · intro h
    unfold packPixel
    have key : ∀ (l : List Nat), (∀ b ∈ l, b < 256) → ∀ v,
        l.foldl (fun v b => (v <<< depth) % 2 ^ 32 ||| component depth b) v =
          (l.map (topBits depth)).foldl (fun v b => (v <<< depth) % 2 ^ 32 ||| b) v := by
      intro l
      induction l with
      | nil => intro _ _; rfl
      | cons b l ih =>
        intro hl v
        simp only [List.foldl_cons, List.map_cons]
        rw [component_eq hd (hl b (List.mem_cons_self ..)), ih fun x hx => hl x (List.mem_cons_of_mem _ hx)]
    rw [key p hbp, key q hbq, h]

/-- **C38, palettes.** For every depth up to 8 and every palette of three byte entries with all its bytes present, the table has
256 numbers; the one of an entry of the palette packs its three bytes, the others are 0. -/
theorem C38_palette {depth : Nat} (hd : depth ≤ 8) (p : Pal) (hc : p.chans = 3) (hb : ∀ b ∈ p.bytes, b < 256)
    (hl : p.size * 3 ≤ p.bytes.length) :
    ∃ t, paletteTable depth 8 p = .table t ∧ t.length = 256 ∧
      ∀ k, k < 256 → ∃ v, t[k]? = some v ∧
        (k < p.size → Packs depth ((p.bytes.drop (k * 3)).take 3) v) ∧ (p.size ≤ k → v = 0) := by
  obtain ⟨t, ht⟩ := palLoop_total depth p.size 256 0 p.bytes (by simpa using hl)
  obtain ⟨h1, h2⟩ := palLoop_spec _ _ _ _ _ _ ht
  refine ⟨t, ?_, h1, fun k hk => ?_⟩
  · unfold paletteTable
    rw [if_neg (by omega), if_neg (by simp [hc])]
    simp [ht]
  · refine ⟨_, h2 k hk, ?_, ?_⟩
    · intro hs
      rw [Nat.zero_add, if_pos hs]
      refine packPixel_packs hd (le_trans (List.length_take_le ..) (by omega)) ?_
      intro b hb'
      exact hb b (List.mem_of_mem_drop (List.mem_of_mem_take hb'))
    · intro hs
      rw [if_neg (by omega)]

/-- A depth out of 0 to 8 is refused, for images and palettes alike; so is a palette of an image that is not of 8 bits per pixel or
whose entries are not of three bytes. -/
theorem C38_refused {depth : Int} (h : depth < 0 ∨ 8 < depth) (im : Img) (p : Pal) (bpp : Nat) :
    imageTable depth im = .error ∧ paletteTable depth bpp p = .error := by
  unfold imageTable paletteTable
  rw [if_pos h, if_pos h]
  exact ⟨rfl, rfl⟩

theorem C38_palette_refused (depth : Int) {bpp : Nat} {p : Pal} (h : bpp ≠ 8 ∨ p.chans ≠ 3) :
    paletteTable depth bpp p = .error := by
  unfold paletteTable
  by_cases hd : depth < 0 ∨ depth > 8
  · rw [if_pos hd]
  · rw [if_neg hd, if_pos h]

/-- **Disagreement.** The message of the check says that the depth is in `]0,8]`, but 0 is accepted: every pixel of every image
becomes 0. -/
theorem C38_counterexample_zero (im : Img) (hn : im.bitsPerPixel / 8 ≤ 4) (hb : ∀ b ∈ im.bytes, b < 256)
    (hl : im.height * im.width * (im.bitsPerPixel / 8) ≤ im.bytes.length) :
    ∃ rows, imageTable 0 im = .table rows ∧ ∀ row ∈ rows, ∀ v ∈ row, v = 0 := by
  obtain ⟨rows, h1, h2, h3⟩ := C38_image (depth := 0) (by omega) im hn hb hl
  refine ⟨rows, by simpa using h1, fun row hrow v hv => ?_⟩
  obtain ⟨j, hj, rfl⟩ := List.getElem_of_mem hrow
  obtain ⟨row', k1, k2, k3⟩ := h3 j (by omega)
  rw [List.getElem?_eq_getElem hj, Option.some.injEq] at k1
  subst k1
  obtain ⟨i, hi, rfl⟩ := List.getElem_of_mem hv
  obtain ⟨v', e1, e2, _⟩ := k3 i (by omega)
  rw [List.getElem?_eq_getElem hi, Option.some.injEq] at e1
  subst e1
  simpa using e2

/-- **C38, saving.** Packing three bytes at depth 8 and saving the number gives the same three bytes in the reverse order: nothing is
lost, but the first component read is the last one written. -/
theorem C38_save_reverses {a b c : Nat} (ha : a < 256) (hb : b < 256) (hc : c < 256) :
    savedPixel (packPixel 8 [a, b, c]) = [c, b, a] := by
  have hm : ∀ x ∈ [a, b, c], x < 256 := by
    intro x hx
    simp only [List.mem_cons, List.not_mem_nil, or_false] at hx
    rcases hx with h | h | h <;> omega
  obtain ⟨_, h⟩ := packPixel_packs (depth := 8) (le_refl _) (bs := [a, b, c]) (by simp) hm
  have h0 := h 0 a rfl
  have h1 := h 1 b rfl
  have h2 := h 2 c rfl
  simp only [bitsAt, topBits, List.length_cons, List.length_nil] at h0 h1 h2
  have hand : ∀ x, x &&& 255 = x % 2 ^ 8 := fun x => Nat.and_two_pow_sub_one_eq_mod x 8
  unfold savedPixel
  rw [hand, hand, hand, Nat.shiftRight_eq_div_pow, Nat.shiftRight_eq_div_pow]
  simp only [Nat.reduceAdd, Nat.reduceSub, Nat.reduceMul, pow_zero, Nat.div_one, Nat.zero_mul] at h0 h1 h2
  rw [h0, h1, h2]

/-- **C38, saving a palette.** Packing the three bytes of an entry at depth 8 and saving it as an entry of a palette gives the same
three bytes in the same order. -/
theorem C38_palette_round_trip {a b c : Nat} (ha : a < 256) (hb : b < 256) (hc : c < 256) :
    savedEntry (packPixel 8 [a, b, c]) = [a, b, c] := by
  have h := C38_save_reverses ha hb hc
  simp only [savedPixel, List.cons.injEq, and_true] at h
  obtain ⟨h0, h1, h2⟩ := h
  have hand : ∀ x, x &&& 255 = x % 2 ^ 8 := fun x => Nat.and_two_pow_sub_one_eq_mod x 8
  have hlt : packPixel 8 [a, b, c] < 2 ^ 24 := by
    have := (packPixel_packs (depth := 8) (le_refl _) (bs := [a, b, c]) (by simp) (by
      intro x hx
      simp only [List.mem_cons, List.not_mem_nil, or_false] at hx
      rcases hx with h | h | h <;> omega)).1
    simpa using this
  have htop : packPixel 8 [a, b, c] >>> 16 = a := by
    rw [hand, Nat.shiftRight_eq_div_pow] at h2
    rw [Nat.shiftRight_eq_div_pow]
    omega
  unfold savedEntry
  simp only [h0, h1, htop]
  have e1 : a ||| b <<< 8 = b <<< 8 + a := by
    rw [Nat.or_comm]
    exact (Nat.shiftLeft_add_eq_or_of_lt (by simpa using ha) b).symm
  have e2 : a ||| b <<< 8 ||| c <<< 16 = c <<< 16 + (b <<< 8 + a) := by
    rw [e1, Nat.or_comm]
    refine (Nat.shiftLeft_add_eq_or_of_lt ?_ c).symm
    rw [Nat.shiftLeft_eq]
    omega
  rw [e2, hand, hand, hand, Nat.shiftRight_eq_div_pow, Nat.shiftRight_eq_div_pow, Nat.shiftLeft_eq, Nat.shiftLeft_eq]
  simp only [List.cons.injEq, and_true]
  omega

/-- A palette is saved only if it has 256 entries. -/
theorem C38_palette_entries (clrs : List Nat) : savedPalette clrs = .error ↔ clrs.length ≠ 256 := by
  unfold savedPalette
  by_cases h : clrs.length = 256 <;> simp [h]

/-- **C38, saving, shape.** A table is saved only if all its rows have the same number of columns, unless it begins with empty
rows. -/
theorem C38_save_rectangular {rows : List (List Nat)} {w k : Nat} (h : saveWidth k rows = some w) (hk : k ≠ 0)
    (hne : ∀ r ∈ rows, r ≠ []) : w = k ∧ ∀ r ∈ rows, r.length = k := by
  induction rows generalizing k with
  | nil => simp only [saveWidth, Option.some.injEq] at h; exact ⟨h.symm, by simp⟩
  | cons r rs ih =>
    simp only [saveWidth] at h
    by_cases hc : k ≠ 0 ∧ k ≠ r.length
    · rw [if_pos hc] at h; cases h
    · rw [if_neg hc] at h
      have hr : r.length = k := by
        by_contra hx
        exact hc ⟨hk, fun e => hx e.symm⟩
      rw [hr] at h
      obtain ⟨h1, h2⟩ := ih h hk fun x hx => hne x (List.mem_cons_of_mem _ hx)
      refine ⟨h1, fun x hx => ?_⟩
      rcases List.mem_cons.mp hx with rfl | hx
      · exact hr
      · exact h2 x hx

/-! Concrete cases. -/

/-- Two pixels of three bytes, on one row. -/
def exImg : Img := ⟨2, 1, 24, [0xFF, 0x80, 0x01, 0x12, 0x34, 0x56]⟩

example : exImg.bitsPerPixel / 8 ≤ 4 ∧ (∀ b ∈ exImg.bytes, b < 256) ∧
    exImg.height * exImg.width * (exImg.bitsPerPixel / 8) ≤ exImg.bytes.length := by decide

example : imageTable 8 exImg = .table [[0xFF8001, 0x123456]] := by decide +kernel

example : imageTable 4 exImg = .table [[0xF80, 0x135]] := by decide +kernel

example : imageTable (-1) exImg = .error := by decide

/-- Four bytes of eight bits fill the 32 bits. -/
example : packPixel 8 [0xFF, 0x01, 0x02, 0xFE] = 0xFF0102FE := by decide

def exPal : Pal := ⟨2, 3, [0xFF, 0x80, 0x01, 0x12, 0x34, 0x56]⟩

example : exPal.chans = 3 ∧ (∀ b ∈ exPal.bytes, b < 256) ∧ exPal.size * 3 ≤ exPal.bytes.length := by decide

example : (match paletteTable 6 8 exPal with | .table t => t[1]? | _ => none) = some ((0x12 / 4 * 64 + 0x34 / 4) * 64 + 0x56 / 4) := by
  decide +kernel

example : saveWidth 2 [[1, 2], [3, 4]] = some 2 := by decide

end Silice
