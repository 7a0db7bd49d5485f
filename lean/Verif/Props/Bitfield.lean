import Verif.Lemmas.Bitfield
/-! Property theorems C03, C04, C46. -/
set_option autoImplicit false
namespace Silice

/-- C03. Member accesses use the declared width and the most-significant-first offset. -/
theorem C03_member_layout (f : Bitfield) (hnd : (f.map Prod.fst).Nodup) (m : String) :
    bitfieldMember f m = (specWidth m f).bind (fun w => (specOffset m f).map (fun o => (w, o))) :=
  bitfieldMember_eq f hnd m

/-- C03. Every bit of the packed word belongs to exactly one member. -/
theorem C03_members_tile (f : Bitfield) (hnd : (f.map Prod.fst).Nodup) (i : Nat) (hi : i < bitfieldWidth f) :
    ∃! m : String, ∃ w o, bitfieldMember f m = some (w, o) ∧ o ≤ i ∧ i < o + w :=
  members_tile f hnd i hi

/-- C03. No member extends outside the packed word. -/
theorem C03_member_inside (f : Bitfield) (hnd : (f.map Prod.fst).Nodup) (m : String) (w o : Nat)
    (h : bitfieldMember f m = some (w, o)) : o + w ≤ bitfieldWidth f :=
  member_inside f hnd m w o h

/-- C03. The first declared member holds the most significant bits. -/
theorem C03_first_member_is_most_significant (m : String) (w : Nat) (f : Bitfield)
    (hnd : (((m, w) :: f).map Prod.fst).Nodup) :
    bitfieldMember ((m, w) :: f) m = some (w, bitfieldWidth ((m, w) :: f) - w) :=
  first_member_msb m w f hnd

/-- C03 (finding). The compiler does not refuse a repeated member name; then some bits belong to no reachable
member. -/
theorem C03_repeated_name_leaves_bits_unreachable :
    ∃ f : Bitfield, ∃ i, i < bitfieldWidth f ∧ ¬ ∃ m w o, bitfieldMember f m = some (w, o) ∧ o ≤ i ∧ i < o + w := by
  refine ⟨[("a", 4), ("a", 4)], 5, by decide, ?_⟩
  rintro ⟨m, w, o, h, h1, h2⟩
  simp only [bitfieldMember, List.reverse_cons, List.reverse_nil, List.nil_append, List.cons_append, memberLoop] at h
  split at h <;> simp at h
  omega

/-- C04. Reading back any member of an accepted initialiser gives the value it was given. -/
theorem C04_initialiser_roundtrip_partial (f : Bitfield) (hnd : (f.map Prod.fst).Nodup)
    (inits : List (String × Const)) (ps : List Piece) (hok : gatherBitfieldValue f inits = .ok ps)
    (val : String → Nat)
    (hfit : ∀ m w, (m, w) ∈ f → ∀ c, lastInit m inits = some c → c.Fits w (val m)) :
    ∃ word, concatValue ps = some (bitfieldWidth f, word) ∧
      ∀ m w o, bitfieldMember f m = some (w, o) → partSelect word o w = val m :=
  initialiser_roundtrip f hnd inits ps hok val hfit

/-- C04. Acceptance: exactly the initialisers naming all members, and only members. -/
theorem C04_accepted_iff (f : Bitfield) (hnd : (f.map Prod.fst).Nodup) (inits : List (String × Const)) :
    (∃ ps, gatherBitfieldValue f inits = .ok ps) ↔
      (∀ n c, (n, c) ∈ inits → ∃ w, (n, w) ∈ f) ∧ (∀ n w, (n, w) ∈ f → ∃ c, (n, c) ∈ inits) :=
  accepted_iff f hnd inits

/-- C04 (finding). A sized constant of another width than its member is accepted and shifts the other members. -/
theorem C04_sized_constant_of_wrong_width_corrupts :
    ∃ (f : Bitfield) (inits : List (String × Const)) (ps : List Piece) (tw word w o : Nat),
      (f.map Prod.fst).Nodup ∧ gatherBitfieldValue f inits = .ok ps ∧ concatValue ps = some (tw, word) ∧
      bitfieldMember f "a" = some (w, o) ∧ lastInit "a" inits = some (.unsized false 5) ∧ 5 < 2 ^ w ∧
      partSelect word o w ≠ 5 :=
  ⟨[("a", 4), ("b", 4)], [("a", .unsized false 5), ("b", .sized 8 false 1)], [.lit 4 false 5, .lit 8 false 1], 12,
    0x501, 4, 4, by decide +kernel⟩

/-- C04 (finding). A negative unsized constant is accepted but what is emitted is not a number. -/
theorem C04_negative_unsized_is_malformed :
    ∃ ps, gatherBitfieldValue [("a", 4)] [("a", .unsized true 5)] = .ok ps ∧ concatValue ps = none :=
  ⟨[.bad], by decide +kernel, rfl⟩

/-- C46. Accepted access to a member, no part select: exactly the bits of the member, inside the packed word. -/
theorem C46_member_access_bits (f : Bitfield) (m : String) (packed : Nat)
    (h : accessAccepted f m none packed = true) :
    ∃ w o, bitfieldMember f m = some (w, o) ∧ memberRange f m none = some (o, w) ∧ o + w ≤ packed := by
  unfold accessAccepted at h
  unfold memberRange
  cases hb : bitfieldMember f m with
  | none => simp [hb] at h
  | some p =>
    obtain ⟨w, o⟩ := p
    refine ⟨w, o, rfl, rfl, ?_⟩
    simp [hb] at h
    omega

/-- C46, partial. With a part select the accessed bits stay inside the member, provided the part lies inside the
member's width. Missing: the compiler does not check that proviso (see `C46_part_select_escapes_member`). -/
theorem C46_part_select_bits_partial (f : Bitfield) (m : String) (packed first num w o : Nat)
    (h : accessAccepted f m (some (first, num)) packed = true) (hb : bitfieldMember f m = some (w, o))
    (hin : first + num ≤ w) :
    ∃ a n, memberRange f m (some (first, num)) = some (a, n) ∧ o ≤ a ∧ a + n ≤ o + w ∧ 0 < n ∧ a + n ≤ packed := by
  refine ⟨o + first, num, by simp [memberRange, hb], by omega, by omega, ?_, ?_⟩ <;>
    simp [accessAccepted, hb] at h <;> omega

/-- C46 (negation). An accepted part select of a member can address bits of the neighbouring member. -/
theorem C46_part_select_escapes_member :
    ∃ (f : Bitfield) (packed first num a n : Nat), (f.map Prod.fst).Nodup ∧
      accessAccepted f "b" (some (first, num)) packed = true ∧
      memberRange f "b" (some (first, num)) = some (a, n) ∧
      ∃ i w o, a ≤ i ∧ i < a + n ∧ bitfieldMember f "a" = some (w, o) ∧ o ≤ i ∧ i < o + w :=
  ⟨[("a", 4), ("b", 4)], 8, 2, 4, 2, 4, by decide +kernel, by decide +kernel, by decide +kernel,
    5, 4, 4, by decide +kernel⟩

/-! Non-vacuity -/
example : (([("r", 5), ("g", 6), ("b", 5)] : Bitfield).map Prod.fst).Nodup ∧
    bitfieldWidth [("r", 5), ("g", 6), ("b", 5)] = 16 ∧
    bitfieldMember [("r", 5), ("g", 6), ("b", 5)] "g" = some (6, 5) := by decide +kernel
example : gatherBitfieldValue [("r", 5), ("g", 6)] [("g", .unsized false 7), ("r", .sized 5 false 3)]
      = .ok [.lit 5 false 3, .lit 6 false 7] ∧
    Const.Fits 6 7 (.unsized false 7) ∧ Const.Fits 5 3 (.sized 5 false 3) := by
  refine ⟨by decide +kernel, ?_, ?_⟩ <;> simp [Const.Fits, litValue]
example : accessAccepted [("r", 5), ("g", 6)] "g" (some (1, 3)) 16 = true ∧
    bitfieldMember [("r", 5), ("g", 6)] "g" = some (6, 0) ∧ 1 + 3 ≤ 6 := by decide +kernel

end Silice
