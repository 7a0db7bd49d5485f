import Verif.Prelude
import Verif.Spec.Bitfield
/-! Helper lemmas for `Verif.Props.Bitfield`. -/
set_option autoImplicit false
namespace Silice

theorem foldl_add_eq (f : Bitfield) : ∀ a : Nat,
    f.foldl (fun tot v => tot + v.2) a = a + (f.map Prod.snd).sum := by
  induction f with
  | nil => simp
  | cons x xs ih => intro a; simp [ih]; omega

theorem bitfieldWidth_eq (f : Bitfield) : bitfieldWidth f = (f.map Prod.snd).sum := by
  simp [bitfieldWidth, foldl_add_eq]

theorem bitfieldWidth_cons (n : String) (w : Nat) (f : Bitfield) :
    bitfieldWidth ((n, w) :: f) = w + bitfieldWidth f := by
  simp [bitfieldWidth_eq]

theorem memberLoop_append (m : String) (l1 l2 : Bitfield) : ∀ off,
    memberLoop m (l1 ++ l2) off =
      (memberLoop m l1 off).or (memberLoop m l2 (off + (l1.map Prod.snd).sum)) := by
  induction l1 with
  | nil => intro off; simp [memberLoop]
  | cons x xs ih =>
    intro off
    obtain ⟨n, w⟩ := x
    simp only [List.cons_append, memberLoop]
    split
    · simp
    · rw [ih]; simp [Nat.add_assoc]

/-- Recursive form of the member lookup. -/
theorem bitfieldMember_cons (n : String) (w : Nat) (f : Bitfield) (m : String) :
    bitfieldMember ((n, w) :: f) m =
      (bitfieldMember f m).or (if m = n then some (w, bitfieldWidth f) else none) := by
  unfold bitfieldMember
  rw [List.reverse_cons, memberLoop_append]
  simp only [memberLoop, bitfieldWidth_eq, List.map_reverse, List.sum_reverse, Nat.zero_add]

theorem bitfieldMember_nil (m : String) : bitfieldMember [] m = none := rfl

theorem bitfieldMember_none (f : Bitfield) (m : String) : bitfieldMember f m = none ↔ m ∉ f.map Prod.fst := by
  induction f with
  | nil => simp [bitfieldMember_nil]
  | cons x xs ih =>
    obtain ⟨n, w⟩ := x
    rw [bitfieldMember_cons, Option.or_eq_none_iff, ih]
    by_cases h : m = n <;> simp [h]

theorem bitfieldMember_eq (f : Bitfield) (hnd : (f.map Prod.fst).Nodup) (m : String) :
    bitfieldMember f m = (specWidth m f).bind (fun w => (specOffset m f).map (fun o => (w, o))) := by
  induction f with
  | nil => rfl
  | cons x xs ih =>
    obtain ⟨n, w⟩ := x
    rw [bitfieldMember_cons]
    simp only [List.map_cons, List.nodup_cons] at hnd
    by_cases h : m = n
    · subst h
      rw [(bitfieldMember_none xs m).mpr hnd.1]
      simp [specWidth, specOffset, bitfieldWidth_eq]
    · rw [ih hnd.2]
      have h' : ¬ n = m := fun e => h e.symm
      have hb : (m == n) = false := by simp [h]
      simp [specWidth, specOffset, h, h', List.lookup, hb]

theorem bitfieldMember_mem (f : Bitfield) (m : String) (w o : Nat) (h : bitfieldMember f m = some (w, o)) :
    (m, w) ∈ f := by
  induction f with
  | nil => simp [bitfieldMember_nil] at h
  | cons x xs ih =>
    obtain ⟨n, w'⟩ := x
    rw [bitfieldMember_cons, Option.or_eq_some_iff] at h
    rcases h with h | ⟨_, h⟩
    · exact List.mem_cons_of_mem _ (ih h)
    · split at h
      · rename_i e; simp at h; simp [e, h.1]
      · simp at h

theorem member_inside (f : Bitfield) (hnd : (f.map Prod.fst).Nodup) (m : String) (w o : Nat)
    (h : bitfieldMember f m = some (w, o)) : o + w ≤ bitfieldWidth f := by
  induction f with
  | nil => simp [bitfieldMember_nil] at h
  | cons x xs ih =>
    obtain ⟨n, w'⟩ := x
    rw [bitfieldMember_cons, Option.or_eq_some_iff] at h
    rw [bitfieldWidth_cons]
    simp only [List.map_cons, List.nodup_cons] at hnd
    rcases h with h | ⟨_, h⟩
    · have := ih hnd.2 h; omega
    · split at h
      · simp at h; omega
      · simp at h

theorem members_tile (f : Bitfield) (hnd : (f.map Prod.fst).Nodup) (i : Nat) (hi : i < bitfieldWidth f) :
    ∃! m : String, ∃ w o, bitfieldMember f m = some (w, o) ∧ o ≤ i ∧ i < o + w := by
  induction f with
  | nil => simp [bitfieldWidth] at hi
  | cons x xs ih =>
    obtain ⟨n, w'⟩ := x
    rw [bitfieldWidth_cons] at hi
    simp only [List.map_cons, List.nodup_cons] at hnd
    by_cases hlt : i < bitfieldWidth xs
    · obtain ⟨m, ⟨w, o, hm, h1, h2⟩, huniq⟩ := ih hnd.2 hlt
      refine ⟨m, ⟨w, o, by rw [bitfieldMember_cons, hm]; rfl, h1, h2⟩, ?_⟩
      rintro m' ⟨w2, o2, hm', h1', h2'⟩
      rw [bitfieldMember_cons, Option.or_eq_some_iff] at hm'
      rcases hm' with hm' | ⟨_, hm'⟩
      · exact huniq m' ⟨w2, o2, hm', h1', h2'⟩
      · split at hm'
        · simp at hm'; omega
        · simp at hm'
    · refine ⟨n, ⟨w', bitfieldWidth xs, ?_, by omega, by omega⟩, ?_⟩
      · rw [bitfieldMember_cons, (bitfieldMember_none xs n).mpr hnd.1]; simp
      · rintro m' ⟨w2, o2, hm', h1', h2'⟩
        rw [bitfieldMember_cons, Option.or_eq_some_iff] at hm'
        rcases hm' with hm' | ⟨_, hm'⟩
        · have := member_inside xs hnd.2 m' w2 o2 hm'; omega
        · split at hm'
          · assumption
          · simp at hm'

theorem first_member_msb (m : String) (w : Nat) (f : Bitfield)
    (hnd : (((m, w) :: f).map Prod.fst).Nodup) :
    bitfieldMember ((m, w) :: f) m = some (w, bitfieldWidth ((m, w) :: f) - w) := by
  simp only [List.map_cons, List.nodup_cons] at hnd
  rw [bitfieldMember_cons, (bitfieldMember_none f m).mpr hnd.1, bitfieldWidth_cons]
  simp

/-! Named values -/

theorem lookup_assignNamed (acc : List (String × Const)) (k : String) (v : Const) (n : String) :
    (assignNamed acc k v).lookup n = if n = k then some v else acc.lookup n := by
  unfold assignNamed
  split
  · rename_i h
    induction acc with
    | nil => simp at h
    | cons x xs ih =>
      obtain ⟨a, c⟩ := x
      simp only [List.map_cons]
      by_cases hak : a = k
      · subst hak
        by_cases hn : n = a
        · subst hn; simp [List.lookup]
        · have hb : (n == a) = false := by simp [hn]
          simp only [if_true, List.lookup, hb, hn, if_false]
          by_cases h2 : (xs.any fun e => decide (e.1 = a)) = true
          · have := ih h2; rw [this]; simp [hn]
          · have hid : xs.map (fun e => if e.1 = a then (a, v) else e) = xs := by
              have : ∀ e ∈ xs, (if e.1 = a then (a, v) else e) = e := by
                intro e he
                have : ¬ e.1 = a := by
                  intro hea; apply h2; simp; exact ⟨e.2, by rw [← hea]; exact he⟩
                simp [this]
              rw [List.map_congr_left this]; simp
            rw [hid]
      · have h2 : (xs.any fun e => decide (e.1 = k)) = true := by simpa [hak] using h
        simp only [hak, if_false, List.lookup]
        by_cases hn : n = a
        · subst hn
          simp [hak]
        · have hb : (n == a) = false := by simp [hn]
          simp only [hb]; rw [ih h2]
  · rename_i h
    rw [List.lookup_append]
    by_cases hn : n = k
    · subst hn
      have : acc.lookup n = none := by
        rw [List.lookup_eq_none_iff]
        intro p hp
        simp at h
        simp
        intro e
        exact h p.2 (by rw [e]; exact hp)
      simp [this]
    · have : (n == k) = false := by simp [hn]
      simp [List.lookup, this, hn]

theorem keys_assignNamed (acc : List (String × Const)) (k : String) (v : Const) :
    (assignNamed acc k v).map Prod.fst = if k ∈ acc.map Prod.fst then acc.map Prod.fst else acc.map Prod.fst ++ [k] := by
  unfold assignNamed
  by_cases h : k ∈ acc.map Prod.fst
  · have h' : (acc.any fun e => decide (e.1 = k)) = true := by
      simp at h ⊢; exact h
    rw [if_pos h', if_pos h, List.map_map]
    apply List.map_congr_left
    intro e _
    simp only [Function.comp]
    split
    · rename_i h; simp [h]
    · rfl
  · have h' : ¬ (acc.any fun e => decide (e.1 = k)) = true := by
      simpa using h
    rw [if_neg h', if_neg h]; simp

/-- What the gathering loop returns. -/
theorem gatherNamed_ok (f : Bitfield) : ∀ (inits acc named : List (String × Const)),
    (acc.map Prod.fst).Nodup → gatherNamed f acc inits = .ok named →
    (named.map Prod.fst).Nodup ∧
    (∀ n, named.lookup n = (lastInit n inits).or (acc.lookup n)) ∧
    (∀ n, n ∈ named.map Prod.fst ↔ n ∈ acc.map Prod.fst ∨ n ∈ inits.map Prod.fst) ∧
    (∀ n ∈ inits.map Prod.fst, n ∈ f.map Prod.fst) := by
  intro inits
  induction inits with
  | nil =>
    intro acc named hnd h
    simp [gatherNamed] at h
    subst h
    refine ⟨hnd, fun n => by simp [lastInit], fun n => by simp, by simp⟩
  | cons x xs ih =>
    intro acc named hnd h
    obtain ⟨k, v⟩ := x
    simp only [gatherNamed] at h
    split at h
    · rename_i hm
      have hnd' : ((assignNamed acc k v).map Prod.fst).Nodup := by
        rw [keys_assignNamed]
        split
        · exact hnd
        · rename_i hk
          rw [List.nodup_append]
          refine ⟨hnd, by simp, ?_⟩
          intro a ha b hb
          simp at hb
          subst hb
          intro e; subst e; exact hk ha
      obtain ⟨h1, h2, h3, h4⟩ := ih _ _ hnd' h
      refine ⟨h1, ?_, ?_, ?_⟩
      · intro n
        rw [h2 n, lookup_assignNamed]
        simp only [lastInit, List.reverse_cons, List.find?_append, List.find?_cons, List.find?_nil]
        by_cases hn : n = k
        · subst hn
          cases xs.reverse.find? (fun e => decide (e.1 = n)) <;> simp
        · have : ¬ k = n := fun e => hn e.symm
          simp [hn, this]
      · intro n
        rw [h3 n, keys_assignNamed]
        split
        · rename_i hk
          simp only [List.map_cons, List.mem_cons]
          constructor
          · rintro (h | h)
            · exact .inl h
            · exact .inr (.inr h)
          · rintro (h | h | h)
            · exact .inl h
            · subst h; exact .inl hk
            · exact .inr h
        · simp only [List.map_cons, List.mem_cons, List.mem_append, List.not_mem_nil, or_false]
          tauto
      · intro n hn
        simp only [List.map_cons, List.mem_cons] at hn
        rcases hn with hn | hn
        · subst hn
          simp [hasMember] at hm
          simpa using hm
        · exact h4 n hn
    · simp at h

theorem gatherNamed_exists (f : Bitfield) : ∀ (inits acc : List (String × Const)),
    (∀ n ∈ inits.map Prod.fst, n ∈ f.map Prod.fst) → ∃ named, gatherNamed f acc inits = .ok named := by
  intro inits
  induction inits with
  | nil => intro acc _; exact ⟨acc, rfl⟩
  | cons x xs ih =>
    intro acc h
    obtain ⟨k, v⟩ := x
    simp only [gatherNamed]
    have : hasMember f k = true := by
      have := h k (by simp)
      simpa [hasMember] using this
    rw [if_pos this]
    exact ih _ (fun n hn => h n (by simp only [List.map_cons, List.mem_cons]; exact .inr hn))

theorem emitPieces_ok (named : List (String × Const)) : ∀ f : Bitfield,
    (∀ n ∈ f.map Prod.fst, n ∈ named.map Prod.fst) → ∃ ps, emitPieces named f = .ok ps := by
  intro f
  induction f with
  | nil => intro _; exact ⟨[], rfl⟩
  | cons x xs ih =>
    intro h
    obtain ⟨n, w⟩ := x
    obtain ⟨ps, hps⟩ := ih (fun n hn => h n (by simp only [List.map_cons, List.mem_cons]; exact .inr hn))
    have hn : n ∈ named.map Prod.fst := h n (by simp)
    simp only [emitPieces, hps]
    cases hl : named.lookup n with
    | some c => exact ⟨_, rfl⟩
    | none =>
      rw [List.lookup_eq_none_iff] at hl
      simp at hn
      obtain ⟨c, hc⟩ := hn
      have := hl _ hc
      simp at this

theorem emitPieces_names (named : List (String × Const)) : ∀ (f : Bitfield) (ps : List Piece),
    emitPieces named f = .ok ps → ∀ n ∈ f.map Prod.fst, ∃ c, named.lookup n = some c := by
  intro f
  induction f with
  | nil => simp
  | cons x xs ih =>
    intro ps h n hn
    obtain ⟨k, w⟩ := x
    simp only [emitPieces] at h
    split at h
    · simp at h
    · rename_i c hc
      split at h
      · simp at h
      · rename_i ps' hps'
        simp only [List.map_cons, List.mem_cons] at hn
        rcases hn with hn | hn
        · subst hn; exact ⟨c, hc⟩
        · exact ih ps' hps' n hn

theorem litValue_lt (w : Nat) (neg : Bool) (mag : Nat) : litValue w neg mag < 2 ^ w := by
  unfold litValue
  split <;> exact Nat.mod_lt _ (Nat.two_pow_pos w)

/-- Value and layout of the emitted concatenation. -/
theorem emitPieces_value (named : List (String × Const)) (val : String → Nat) : ∀ (f : Bitfield) (ps : List Piece),
    (f.map Prod.fst).Nodup → emitPieces named f = .ok ps →
    (∀ m w, (m, w) ∈ f → ∀ c, named.lookup m = some c → c.Fits w (val m)) →
    ∃ word, concatValue ps = some (bitfieldWidth f, word) ∧ word < 2 ^ bitfieldWidth f ∧
      ∀ m w o, bitfieldMember f m = some (w, o) → partSelect word o w = val m := by
  intro f
  induction f with
  | nil =>
    intro ps _ h _
    simp [emitPieces] at h
    subst h
    exact ⟨0, rfl, by simp, fun m w o h => by simp [bitfieldMember_nil] at h⟩
  | cons x xs ih =>
    intro ps hnd h hfit
    obtain ⟨k, w⟩ := x
    simp only [List.map_cons, List.nodup_cons] at hnd
    simp only [emitPieces] at h
    split at h
    · simp at h
    · rename_i c hc
      split at h
      · simp at h
      · rename_i ps' hps'
        simp at h
        subst h
        obtain ⟨word, hv, hlt, hsel⟩ := ih ps' hnd.2 hps'
          (fun m w hm c hc => hfit m w (List.mem_cons_of_mem _ hm) c hc)
        have hf := hfit k w (by simp) c hc
        -- the piece
        obtain ⟨neg, mag, hp, hval⟩ : ∃ neg mag, emitPiece w c = .lit w neg mag ∧ litValue w neg mag = val k := by
          cases c with
          | sized lw neg mag =>
            obtain ⟨h1, h2⟩ := hf
            subst h1
            exact ⟨neg, mag, rfl, h2.symm⟩
          | unsized neg mag =>
            obtain ⟨h1, h2, h3⟩ := hf
            subst h1
            refine ⟨false, mag, rfl, ?_⟩
            simp [litValue, h2, Nat.mod_eq_of_lt h3]
        have hvlt : val k < 2 ^ w := by rw [← hval]; exact litValue_lt _ _ _
        refine ⟨val k * 2 ^ bitfieldWidth xs + word, ?_, ?_, ?_⟩
        · simp only [hp, concatValue, hv, hval, bitfieldWidth_cons]
        · rw [bitfieldWidth_cons, Nat.pow_add]
          calc val k * 2 ^ bitfieldWidth xs + word < val k * 2 ^ bitfieldWidth xs + 2 ^ bitfieldWidth xs := by omega
            _ = (val k + 1) * 2 ^ bitfieldWidth xs := by rw [Nat.add_mul]; omega
            _ ≤ 2 ^ w * 2 ^ bitfieldWidth xs := Nat.mul_le_mul_right _ (by omega)
        · intro m w2 o hm
          rw [bitfieldMember_cons, Option.or_eq_some_iff] at hm
          rcases hm with hm | ⟨_, hm⟩
          · rw [← hsel m w2 o hm]
            have hin := member_inside xs hnd.2 m w2 o hm
            unfold partSelect
            obtain ⟨d, hd⟩ : ∃ d, bitfieldWidth xs = o + w2 + d := ⟨bitfieldWidth xs - (o + w2), by omega⟩
            rw [hd]
            have e : val k * 2 ^ (o + w2 + d) + word = 2 ^ o * (2 ^ w2 * (val k * 2 ^ d)) + word := by
              rw [Nat.pow_add, Nat.pow_add]; ring
            rw [e, Nat.mul_add_div (Nat.two_pow_pos o), Nat.mul_add_mod]
          · split at hm
            · rename_i e
              subst e
              simp at hm
              obtain ⟨h1, h2⟩ := hm
              subst h1 h2
              unfold partSelect
              rw [Nat.mul_comm, Nat.mul_add_div (Nat.two_pow_pos _), Nat.div_eq_of_lt hlt, Nat.add_zero,
                Nat.mod_eq_of_lt hvlt]
            · simp at hm

theorem initialiser_roundtrip (f : Bitfield) (hnd : (f.map Prod.fst).Nodup)
    (inits : List (String × Const)) (ps : List Piece) (hok : gatherBitfieldValue f inits = .ok ps)
    (val : String → Nat)
    (hfit : ∀ m w, (m, w) ∈ f → ∀ c, lastInit m inits = some c → c.Fits w (val m)) :
    ∃ word, concatValue ps = some (bitfieldWidth f, word) ∧
      ∀ m w o, bitfieldMember f m = some (w, o) → partSelect word o w = val m := by
  unfold gatherBitfieldValue at hok
  split at hok
  · simp at hok
  · rename_i named hn
    split at hok
    · simp at hok
    · obtain ⟨_, h2, _, _⟩ := gatherNamed_ok f inits [] named (by simp) hn
      obtain ⟨word, h3, _, h4⟩ := emitPieces_value named val f ps hnd hok (by
        intro m w hm c hc
        rw [h2 m] at hc
        simp at hc
        exact hfit m w hm c hc)
      exact ⟨word, h3, h4⟩

theorem accepted_iff (f : Bitfield) (hnd : (f.map Prod.fst).Nodup) (inits : List (String × Const)) :
    (∃ ps, gatherBitfieldValue f inits = .ok ps) ↔
      (∀ n c, (n, c) ∈ inits → ∃ w, (n, w) ∈ f) ∧ (∀ n w, (n, w) ∈ f → ∃ c, (n, c) ∈ inits) := by
  constructor
  · rintro ⟨ps, hok⟩
    unfold gatherBitfieldValue at hok
    split at hok
    · simp at hok
    · rename_i named hn
      split at hok
      · simp at hok
      · obtain ⟨_, _, h3, h4⟩ := gatherNamed_ok f inits [] named (by simp) hn
        constructor
        · intro n c hnc
          have := h4 n (List.mem_map.mpr ⟨(n, c), hnc, rfl⟩)
          simpa using this
        · intro n w hnw
          obtain ⟨c, hc⟩ := emitPieces_names named f ps hok n (List.mem_map.mpr ⟨(n, w), hnw, rfl⟩)
          have hmem : n ∈ named.map Prod.fst := by
            by_contra hcon
            have : named.lookup n = none := by
              rw [List.lookup_eq_none_iff]
              intro p hp
              simp
              intro e
              exact hcon (List.mem_map.mpr ⟨p, hp, e.symm⟩)
            rw [this] at hc; simp at hc
          rw [h3 n] at hmem
          simpa using hmem
  · rintro ⟨h1, h2⟩
    obtain ⟨named, hn⟩ := gatherNamed_exists f inits [] (by
      intro n hn
      simp at hn
      obtain ⟨c, hc⟩ := hn
      simpa using h1 n c hc)
    obtain ⟨hnd', _, h3, h4⟩ := gatherNamed_ok f inits [] named (by simp) hn
    have hsame : ∀ n, n ∈ named.map Prod.fst ↔ n ∈ f.map Prod.fst := by
      intro n
      constructor
      · intro h
        rw [h3 n] at h
        simp only [List.map_nil, List.not_mem_nil, false_or] at h
        exact h4 n h
      · intro h
        rw [h3 n]
        right
        simp at h ⊢
        obtain ⟨w, hw⟩ := h
        exact h2 n w hw
    have hlen : named.length = f.length := by
      have hp : (named.map Prod.fst).Perm (f.map Prod.fst) :=
        (List.perm_ext_iff_of_nodup hnd' hnd).mpr hsame
      simpa using hp.length_eq
    obtain ⟨ps, hps⟩ := emitPieces_ok named f (fun n hn => (hsame n).mpr hn)
    refine ⟨ps, ?_⟩
    unfold gatherBitfieldValue
    rw [hn]
    simp [hlen, hps]

end Silice
