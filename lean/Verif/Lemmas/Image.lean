import Verif.Spec.Image

/-!
Lemmas about packed pixels.
-/

set_option autoImplicit false

namespace Silice

theorem component_eq {depth byte : Nat} (hd : depth ≤ 8) (hb : byte < 256) : component depth byte = topBits depth byte := by
  unfold component topBits
  rw [Nat.and_two_pow_sub_one_eq_mod, Nat.shiftRight_eq_div_pow]
  refine Nat.mod_eq_of_lt ?_
  rw [Nat.div_lt_iff_lt_mul (by positivity), ← pow_add]
  have : depth + (8 - depth) = 8 := by omega
  rw [this]
  simpa using hb

theorem topBits_lt {depth byte : Nat} (hd : depth ≤ 8) (hb : byte < 256) : topBits depth byte < 2 ^ depth := by
  unfold topBits
  rw [Nat.div_lt_iff_lt_mul (by positivity), ← pow_add]
  have : depth + (8 - depth) = 8 := by omega
  rw [this]
  simpa using hb

/-- The number with the given digits in base `2 ^ depth`, after `v`. -/
def digits (depth : Nat) : Nat → List Nat → Nat
  | v, [] => v
  | v, b :: bs => digits depth (v * 2 ^ depth + topBits depth b) bs

theorem digits_eq (depth : Nat) : ∀ (bs : List Nat) (v : Nat),
    digits depth v bs = v * 2 ^ (bs.length * depth) + digits depth 0 bs := by
  intro bs
  induction bs with
  | nil => intro v; simp [digits]
  | cons b bs ih =>
    intro v
    simp only [digits, Nat.zero_mul, Nat.zero_add]
    rw [ih, ih (topBits depth b)]
    simp only [List.length_cons, Nat.add_mul, Nat.one_mul, pow_add]
    ring

theorem digits_lt {depth : Nat} (hd : depth ≤ 8) : ∀ (bs : List Nat), (∀ b ∈ bs, b < 256) →
    digits depth 0 bs < 2 ^ (bs.length * depth) := by
  intro bs
  induction bs with
  | nil => intro _; simp [digits]
  | cons b bs ih =>
    intro hb
    have h1 := ih fun x hx => hb x (List.mem_cons_of_mem _ hx)
    have h2 := topBits_lt hd (hb b (List.mem_cons_self ..))
    simp only [digits, Nat.zero_mul, Nat.zero_add]
    rw [digits_eq]
    simp only [List.length_cons, Nat.add_mul, Nat.one_mul, pow_add]
    have h3 : (topBits depth b + 1) * 2 ^ (bs.length * depth) ≤ 2 ^ depth * 2 ^ (bs.length * depth) :=
      Nat.mul_le_mul_right _ h2
    rw [Nat.add_mul, Nat.one_mul] at h3
    rw [Nat.mul_comm (2 ^ (bs.length * depth))]
    omega

/-- The loop, while nothing falls off the 32 bits. -/
theorem pack_digits {depth : Nat} (hd : depth ≤ 8) : ∀ (bs : List Nat) (v k : Nat), (∀ b ∈ bs, b < 256) →
    v < 2 ^ (k * depth) → (k + bs.length) * depth ≤ 32 →
    bs.foldl (fun v b => (v <<< depth) % 2 ^ 32 ||| component depth b) v = digits depth v bs := by
  intro bs
  induction bs with
  | nil => intro v k _ _ _; rfl
  | cons b bs ih =>
    intro v k hb hv hk
    have hb0 := hb b (List.mem_cons_self ..)
    have hlt := topBits_lt hd hb0
    simp only [List.foldl_cons, digits]
    simp only [List.length_cons] at hk
    have hk1 : (k + 1) * depth ≤ 32 := le_trans (Nat.mul_le_mul_right _ (by omega)) hk
    have hshift : v * 2 ^ depth < 2 ^ ((k + 1) * depth) := by
      rw [Nat.add_mul, Nat.one_mul, pow_add]
      exact Nat.mul_lt_mul_of_pos_right hv (by positivity)
    have hmod : (v <<< depth) % 2 ^ 32 = v <<< depth := by
      refine Nat.mod_eq_of_lt ?_
      rw [Nat.shiftLeft_eq]
      exact lt_of_lt_of_le hshift (Nat.pow_le_pow_right (by omega) hk1)
    rw [hmod, component_eq hd hb0, ← Nat.shiftLeft_add_eq_or_of_lt hlt, Nat.shiftLeft_eq]
    refine ih _ (k + 1) (fun x hx => hb x (List.mem_cons_of_mem _ hx)) ?_ (by rw [show k + 1 + bs.length = k + (bs.length + 1) by omega]; exact hk)
    have h3 : (v + 1) * 2 ^ depth ≤ 2 ^ (k * depth) * 2 ^ depth := Nat.mul_le_mul_right _ hv
    rw [Nat.add_mul, Nat.one_mul, ← pow_add] at h3
    rw [Nat.add_mul, Nat.one_mul]
    omega

theorem digits_packs {depth : Nat} (hd : depth ≤ 8) : ∀ (bs : List Nat), (∀ b ∈ bs, b < 256) →
    Packs depth bs (digits depth 0 bs) := by
  intro bs
  induction bs with
  | nil => intro _; exact ⟨by simp [digits], by simp⟩
  | cons b bs ih =>
    intro hb
    refine ⟨digits_lt hd _ hb, ?_⟩
    have hb' : ∀ x ∈ bs, x < 256 := fun x hx => hb x (List.mem_cons_of_mem _ hx)
    obtain ⟨h1, h2⟩ := ih hb'
    have h3 := topBits_lt hd (hb b (List.mem_cons_self ..))
    intro c x hx
    simp only [digits, Nat.zero_mul, Nat.zero_add]
    rw [digits_eq]
    cases c with
    | zero =>
      simp only [List.getElem?_cons_zero, Option.some.injEq] at hx
      subst hx
      simp only [List.length_cons, bitsAt, Nat.add_sub_cancel, Nat.sub_zero]
      rw [Nat.mul_comm, Nat.mul_add_div (by positivity), Nat.div_eq_of_lt h1, Nat.add_zero]
      exact Nat.mod_eq_of_lt h3
    | succ c =>
      simp only [List.getElem?_cons_succ] at hx
      have hc : c < bs.length := (List.getElem?_eq_some_iff.mp hx).1
      rw [← h2 c x hx]
      simp only [List.length_cons, bitsAt]
      have hk : bs.length + 1 - 1 - (c + 1) = bs.length - 1 - c := by omega
      rw [hk]
      obtain ⟨e, he⟩ : ∃ e, bs.length = (bs.length - 1 - c) + (e + 1) := ⟨c, by omega⟩
      generalize bs.length - 1 - c = k at he ⊢
      rw [he, Nat.add_mul, pow_add, Nat.add_mul e 1, Nat.one_mul, pow_add]
      have hrw : topBits depth b * (2 ^ (k * depth) * (2 ^ (e * depth) * 2 ^ depth)) + digits depth 0 bs =
          2 ^ (k * depth) * (topBits depth b * 2 ^ (e * depth) * 2 ^ depth) + digits depth 0 bs := by ring
      rw [hrw, Nat.mul_add_div (by positivity), Nat.add_comm, Nat.add_mul_mod_self_right]

theorem packPixel_packs {depth : Nat} (hd : depth ≤ 8) {bs : List Nat} (hn : bs.length ≤ 4) (hb : ∀ b ∈ bs, b < 256) :
    Packs depth bs (packPixel depth bs) := by
  unfold packPixel
  rw [pack_digits hd bs 0 0 hb (by simp) (by
    rw [Nat.zero_add]
    calc bs.length * depth ≤ 4 * 8 := Nat.mul_le_mul hn hd
    _ = 32 := by norm_num)]
  exact digits_packs hd bs hb

theorem takeRow_spec (depth nc : Nat) : ∀ (w : Nat) (bytes row rest : List Nat),
    takeRow depth nc w bytes = some (row, rest) →
    row.length = w ∧ rest = bytes.drop (w * nc) ∧ w * nc ≤ bytes.length ∧
    ∀ i, i < w → row[i]? = some (packPixel depth ((bytes.drop (i * nc)).take nc)) := by
  intro w
  induction w with
  | zero =>
    intro bytes row rest h
    simp only [takeRow, Option.some.injEq, Prod.mk.injEq] at h
    obtain ⟨rfl, rfl⟩ := h
    simp
  | succ w ih =>
    intro bytes row rest h
    simp only [takeRow, takePixel] at h
    by_cases hl : nc ≤ bytes.length
    · rw [if_pos hl] at h
      simp only [Option.map_eq_some_iff] at h
      obtain ⟨⟨r, s⟩, hr, he⟩ := h
      simp only [Prod.mk.injEq] at he
      obtain ⟨rfl, rfl⟩ := he
      obtain ⟨h1, h2, h3, h4⟩ := ih _ _ _ hr
      rw [List.length_drop] at h3
      refine ⟨by simp [h1], ?_, ?_, ?_⟩
      · rw [h2, List.drop_drop, Nat.add_mul, Nat.one_mul, Nat.add_comm]
      · rw [Nat.add_mul, Nat.one_mul]; omega
      · intro i hi
        cases i with
        | zero => simp
        | succ i =>
          simp only [List.getElem?_cons_succ]
          rw [h4 i (by omega), List.drop_drop, Nat.add_mul, Nat.one_mul, Nat.add_comm]
    · rw [if_neg hl] at h
      simp at h

theorem takeRow_total (depth nc : Nat) : ∀ (w : Nat) (bytes : List Nat), w * nc ≤ bytes.length →
    ∃ row, takeRow depth nc w bytes = some (row, bytes.drop (w * nc)) := by
  intro w
  induction w with
  | zero => intro bytes _; exact ⟨[], by simp [takeRow]⟩
  | succ w ih =>
    intro bytes h
    rw [Nat.add_mul, Nat.one_mul] at h
    obtain ⟨row, hr⟩ := ih (bytes.drop nc) (by rw [List.length_drop]; omega)
    refine ⟨packPixel depth (bytes.take nc) :: row, ?_⟩
    have hl : nc ≤ bytes.length := by omega
    simp only [takeRow, takePixel, if_pos hl, hr, Option.map_some, List.drop_drop]
    rw [Nat.add_mul, Nat.one_mul, Nat.add_comm]

theorem takeRows_spec (depth nc w : Nat) : ∀ (h : Nat) (bytes : List Nat) (rows : List (List Nat)),
    takeRows depth nc w h bytes = some rows →
    rows.length = h ∧ h * w * nc ≤ bytes.length ∧
    ∀ j, j < h → ∃ row, rows[j]? = some row ∧ row.length = w ∧
      ∀ i, i < w → row[i]? = some (packPixel depth ((bytes.drop ((j * w + i) * nc)).take nc)) := by
  intro h
  induction h with
  | zero =>
    intro bytes rows e
    simp only [takeRows, Option.some.injEq] at e
    subst e
    simp
  | succ h ih =>
    intro bytes rows e
    simp only [takeRows] at e
    cases hr : takeRow depth nc w bytes with
    | none => rw [hr] at e; simp at e
    | some p =>
      obtain ⟨row, rest⟩ := p
      rw [hr] at e
      simp only [Option.map_eq_some_iff] at e
      obtain ⟨rs, hrs, rfl⟩ := e
      obtain ⟨h1, h2, h3, h4⟩ := takeRow_spec depth nc w bytes row rest hr
      obtain ⟨g1, g2, g3⟩ := ih rest rs hrs
      subst h2
      rw [List.length_drop] at g2
      refine ⟨by simp [g1], ?_, ?_⟩
      · rw [Nat.add_mul, Nat.one_mul, Nat.add_mul]; omega
      · intro j hj
        cases j with
        | zero => exact ⟨row, by simp, h1, fun i hi => by rw [h4 i hi, Nat.zero_mul, Nat.zero_add]⟩
        | succ j =>
          obtain ⟨row', k1, k2, k3⟩ := g3 j (by omega)
          refine ⟨row', by simpa using k1, k2, fun i hi => ?_⟩
          rw [k3 i hi, List.drop_drop]
          have he : w * nc + (j * w + i) * nc = ((j + 1) * w + i) * nc := by ring
          rw [he]

theorem takeRows_total (depth nc w : Nat) : ∀ (h : Nat) (bytes : List Nat), h * w * nc ≤ bytes.length →
    ∃ rows, takeRows depth nc w h bytes = some rows := by
  intro h
  induction h with
  | zero => intro bytes _; exact ⟨[], by simp [takeRows]⟩
  | succ h ih =>
    intro bytes hl
    rw [Nat.add_mul, Nat.one_mul, Nat.add_mul] at hl
    obtain ⟨row, hr⟩ := takeRow_total depth nc w bytes (by omega)
    obtain ⟨rows, hrs⟩ := ih (bytes.drop (w * nc)) (by rw [List.length_drop]; omega)
    exact ⟨row :: rows, by simp [takeRows, hr, hrs]⟩

theorem palLoop_spec (depth size : Nat) : ∀ (n idx : Nat) (bytes t : List Nat),
    palLoop depth size n idx bytes = some t →
    t.length = n ∧ ∀ k, k < n →
      t[k]? = some (if idx + k < size then packPixel depth ((bytes.drop (k * 3)).take 3) else 0) := by
  intro n
  induction n with
  | zero => intro idx bytes t h; simp only [palLoop, Option.some.injEq] at h; subst h; simp
  | succ n ih =>
    intro idx bytes t h
    simp only [palLoop, takePixel] at h
    by_cases hi : idx < size
    · rw [if_pos hi] at h
      by_cases hl : 3 ≤ bytes.length
      · rw [if_pos hl] at h
        simp only [Option.map_eq_some_iff] at h
        obtain ⟨r, hr, rfl⟩ := h
        obtain ⟨h1, h2⟩ := ih _ _ _ hr
        refine ⟨by simp [h1], fun k hk => ?_⟩
        cases k with
        | zero => simp [hi]
        | succ k =>
          simp only [List.getElem?_cons_succ]
          rw [h2 k (by omega), List.drop_drop, show idx + 1 + k = idx + (k + 1) by omega,
            show 3 + k * 3 = (k + 1) * 3 by omega]
      · rw [if_neg hl] at h
        simp at h
    · rw [if_neg hi] at h
      simp only [Option.map_eq_some_iff] at h
      obtain ⟨r, hr, rfl⟩ := h
      obtain ⟨h1, h2⟩ := ih _ _ _ hr
      refine ⟨by simp [h1], fun k hk => ?_⟩
      cases k with
      | zero => simp [hi]
      | succ k =>
        simp only [List.getElem?_cons_succ]
        rw [h2 k (by omega), if_neg (by omega), if_neg (by omega)]

theorem palLoop_total (depth size : Nat) : ∀ (n idx : Nat) (bytes : List Nat), (size - idx) * 3 ≤ bytes.length →
    ∃ t, palLoop depth size n idx bytes = some t := by
  intro n
  induction n with
  | zero => intro idx bytes _; exact ⟨[], rfl⟩
  | succ n ih =>
    intro idx bytes h
    simp only [palLoop, takePixel]
    by_cases hi : idx < size
    · have hl : 3 ≤ bytes.length := by omega
      obtain ⟨t, ht⟩ := ih (idx + 1) (bytes.drop 3) (by rw [List.length_drop]; omega)
      exact ⟨_, by simp only [if_pos hi, if_pos hl, ht, Option.map_some]; rfl⟩
    · obtain ⟨t, ht⟩ := ih (idx + 1) bytes (by omega)
      exact ⟨_, by simp only [if_neg hi, ht, Option.map_some]; rfl⟩

end Silice
