import Verif.Prelude
import Verif.Model.Number
import Verif.Spec.Number
import Verif.Lemmas.Text
import Verif.Props.Arith
/-! Helper lemmas for `Verif.Props.Number`. -/
set_option autoImplicit false
namespace Silice

theorem isDigitC_iff (c : Char) : isDigitC c = true ↔ ∃ d, d < 10 ∧ c = digitChar d := by
  constructor
  · intro h
    simp only [isDigitC, digitVal?] at h
    split at h
    · rename_i hr
      refine ⟨c.toNat - 48, by omega, ?_⟩
      have : 48 + (c.toNat - 48) = c.toNat := by omega
      simp only [digitChar, this]
      exact (Char.ofNat_toNat c).symm
    · simp at h
  · rintro ⟨d, hd, rfl⟩
    simp [isDigitC, digitVal_digitChar d hd]

theorem isValueC_iff (c : Char) : isValueC c = true ↔ c ∈ "0123456789abcdefABCDEFxz".toList := by
  have key : ∀ n, n < 128 → (isValueC (Char.ofNat n) = true ↔ Char.ofNat n ∈ "0123456789abcdefABCDEFxz".toList) := by
    decide +kernel
  by_cases hc : c.toNat < 128
  · have := key c.toNat hc
    rwa [Char.ofNat_toNat] at this
  · constructor
    · intro h
      exfalso
      simp only [isValueC, isDigitC, digitVal?, Bool.or_eq_true, Bool.and_eq_true, decide_eq_true_eq] at h
      rcases h with (((h | h) | h) | h) | h
      · split at h
        · omega
        · simp at h
      · omega
      · omega
      · subst h; exact hc (by decide)
      · subst h; exact hc (by decide)
    · intro h
      exfalso
      have h2 : ∀ x ∈ "0123456789abcdefABCDEFxz".toList, x.toNat < 128 := by decide +kernel
      exact hc (h2 c h)

theorem takeWhile_all (p : Char → Bool) (l r : List Char) (hl : ∀ c ∈ l, p c = true)
    (hr : r.head?.all (fun c => !p c) = true) :
    (l ++ r).takeWhile p = l ∧ (l ++ r).dropWhile p = r := by
  induction l with
  | nil =>
    cases r with
    | nil => simp
    | cons c cs => simp at hr; simp [hr]
  | cons c cs ih =>
    have h1 := hl c (by simp)
    have h2 := ih (fun x hx => hl x (by simp [hx]))
    simp [h1, h2.1, h2.2]

theorem base_not_digit (b : Char) (hb : b = 'b' ∨ b = 'd' ∨ b = 'h') : isDigitC b = false ∧ isBaseC b = true ∧ b ≠ '\'' ∧ b ≠ '-' := by
  rcases hb with rfl | rfl | rfl <;> decide

theorem digit_not_minus : isDigitC '-' = false ∧ isDigitC '\'' = false := by decide

/-- The parser reads back the parts of a literal. -/
theorem matchNumberAt_literal (sep : List Char) (hsep : sep = [] ∨ sep = ['\'']) (neg : Bool) (wd : List Char) (b : Char)
    (v : List Char) (h1 : wd ≠ []) (h2 : ∀ c ∈ wd, isDigitC c = true) (h3 : b = 'b' ∨ b = 'd' ∨ b = 'h') (h4 : v ≠ [])
    (h5 : ∀ c ∈ v, isValueC c = true) :
    matchNumberAt ((if neg then ['-'] else []) ++ wd ++ sep ++ [b] ++ v) = some (⟨neg, wd, b, v⟩, []) := by
  obtain ⟨b1, b2, b3, b4⟩ := base_not_digit b h3
  obtain ⟨w0, wr, rfl⟩ : ∃ w0 wr, wd = w0 :: wr := by
    cases wd with
    | nil => exact absurd rfl h1
    | cons a l => exact ⟨a, l, rfl⟩
  have hw0 : isDigitC w0 = true := h2 w0 (by simp)
  have hne : w0 ≠ '-' := by
    intro e; subst e; rw [digit_not_minus.1] at hw0; simp at hw0
  have hv := takeWhile_all isValueC v [] h5 (by simp)
  simp only [List.append_nil] at hv
  have hs : ∀ tl : List Char, tl.head?.all (fun c => !isDigitC c) = true →
      ((w0 :: wr) ++ tl).takeWhile isDigitC = w0 :: wr ∧ ((w0 :: wr) ++ tl).dropWhile isDigitC = tl :=
    fun tl ht => takeWhile_all isDigitC _ tl h2 ht
  have e1 : (if neg then ['-'] else []) ++ (w0 :: wr) ++ sep ++ [b] ++ v
      = (if neg then ['-'] else []) ++ ((w0 :: wr) ++ (sep ++ b :: v)) := by simp
  rw [e1]
  have hsep' : (sep ++ b :: v).head?.all (fun c => !isDigitC c) = true := by
    rcases hsep with rfl | rfl
    · simp [b1]
    · simp [digit_not_minus.2]
  obtain ⟨t1, t2⟩ := hs _ hsep'
  have e2 : (if ((sep ++ b :: v).head? == some '\'') = true then (sep ++ b :: v).tail else sep ++ b :: v) = b :: v := by
    rcases hsep with rfl | rfl
    · simp [b3]
    · simp
  have e3 : (((if neg then ['-'] else []) ++ ((w0 :: wr) ++ (sep ++ b :: v))).head? == some '-') = neg := by
    cases neg
    · simp [hne]
    · simp
  have e4 : (if neg then ((if neg then ['-'] else []) ++ ((w0 :: wr) ++ (sep ++ b :: v))).tail
      else (if neg then ['-'] else []) ++ ((w0 :: wr) ++ (sep ++ b :: v))) = (w0 :: wr) ++ (sep ++ b :: v) := by
    cases neg <;> simp
  unfold matchNumberAt
  simp only [e3, e4, t1, t2, e2]
  simp [b2, hv.1, hv.2, h4]

theorem literal_parts {sep s : List Char} {neg : Bool} {w : Nat} {b : Char} {v : List Char}
    (hsep : sep = [] ∨ sep = ['\'']) (h : IsLiteral sep s neg w b v) :
    ∃ wd, matchNumberAt s = some (⟨neg, wd, b, v⟩, []) ∧ decAcc 0 wd = w ∧ wd ≠ [] ∧ s ≠ [] := by
  obtain ⟨wd, h1, h2, h3, h4, h5, h6, h7⟩ := h
  refine ⟨wd, ?_, h3, h1, ?_⟩
  · rw [h7]
    exact matchNumberAt_literal sep hsep neg wd b v h1 (fun c hc => (isDigitC_iff c).mpr (h2 c hc)) h4 h5
      (fun c hc => (isValueC_iff c).mpr (h6 c hc))
  · rw [h7]; simp

theorem reading_unique (sep : List Char) (hsep : sep = [] ∨ sep = ['\'']) (s : List Char)
    (neg neg' : Bool) (w w' : Nat) (b b' : Char) (v v' : List Char)
    (h : IsLiteral sep s neg w b v) (h' : IsLiteral sep s neg' w' b' v') :
    neg = neg' ∧ w = w' ∧ b = b' ∧ v = v' := by
  obtain ⟨wd, h1, h2, _⟩ := literal_parts hsep h
  obtain ⟨wd', h1', h2', _⟩ := literal_parts hsep h'
  rw [h1] at h1'
  simp only [Option.some.injEq, Prod.mk.injEq, NumMatch.mk.injEq, and_true] at h1'
  obtain ⟨a1, a2, a3, a4⟩ := h1'
  subst a2
  exact ⟨a1, by rw [← h2, ← h2'], a3, a4⟩

theorem searchNumber_of_match (s : List Char) (m : NumMatch) (r : List Char) (hs : s ≠ [])
    (h : matchNumberAt s = some (m, r)) : searchNumber s = some m := by
  cases s with
  | nil => exact absurd rfl hs
  | cons c cs => simp [searchNumber, h]

theorem rewrite_eq {sep s : List Char} {neg : Bool} {w : Nat} {b : Char} {v : List Char}
    (hsep : sep = [] ∨ sep = ['\'']) (h : IsLiteral sep s neg w b v) :
    rewriteNumber s = some ((if neg then ['-'] else []) ++ natToDec w ++ ['\''] ++ [b] ++ v) := by
  obtain ⟨wd, h1, h2, _, h4⟩ := literal_parts hsep h
  simp [rewriteNumber, splitNumber, searchNumber_of_match s _ _ h4 h1, h2]

theorem literal_preserved (sep : List Char) (hsep : sep = [] ∨ sep = ['\'']) (s : List Char) (neg : Bool) (w : Nat)
    (b : Char) (v : List Char) (h : IsLiteral sep s neg w b v) :
    ∃ out, rewriteNumber s = some out ∧ IsLiteral ['\''] out neg w b v := by
  refine ⟨_, rewrite_eq hsep h, ?_⟩
  obtain ⟨wd, h1, h2, h3, h4, h5, h6, h7⟩ := h
  exact ⟨natToDec w, natToDec_ne_nil w, natToDec_digits w, decAcc_natToDec w, h4, h5, h6, rfl⟩

theorem rewrite_idempotent (s : List Char) (neg : Bool) (w : Nat) (b : Char) (v : List Char)
    (h : IsLiteral [] s neg w b v) (out : List Char) (ho : rewriteNumber s = some out) :
    rewriteNumber out = some out := by
  have e := rewrite_eq (Or.inl rfl) h
  obtain ⟨out', h1, h2⟩ := literal_preserved [] (Or.inl rfl) s neg w b v h
  rw [ho] at h1 e
  simp only [Option.some.injEq] at h1 e
  subst h1
  have e2 := rewrite_eq (Or.inr rfl) h2
  rw [e2]; exact congrArg some e.symm

/-- Conversely, a full match is a literal. -/
theorem literal_of_match (s : List Char) (m : NumMatch) (h : matchNumberAt s = some (m, [])) :
    ∃ sep, (sep = [] ∨ sep = ['\'']) ∧ IsLiteral sep s m.neg (decAcc 0 m.width) m.base m.value := by
  unfold matchNumberAt at h
  simp only at h
  set neg := s.head? == some '-' with hneg
  set s1 := if neg = true then s.tail else s with hs1
  have hs : s = (if neg then ['-'] else []) ++ s1 := by
    cases s with
    | nil => simp [hs1, hneg]
    | cons c cs =>
      by_cases hc : c = '-'
      · subst hc; simp [hs1, hneg]
      · simp [hs1, hneg, hc]
  set s2 := s1.dropWhile isDigitC with hs2
  set s3 := if (s2.head? == some '\'') = true then s2.tail else s2 with hs3
  have hq : s2 = (if s2.head? == some '\'' then ['\''] else []) ++ s3 := by
    rw [hs3]
    cases s2 with
    | nil => simp
    | cons c cs =>
      by_cases hc : c = '\''
      · subst hc; simp
      · simp [hc]
  have hw := List.takeWhile_append_dropWhile (p := isDigitC) (l := s1)
  clear_value s3
  cases s3 with
  | nil => simp at h
  | cons b s4 =>
    simp only at h
    split at h
    · simp at h
    · rename_i hwne
      split at h
      · simp at h
      · rename_i hbase
        split at h
        · simp at h
        · rename_i hvne
          simp only [Option.some.injEq, Prod.mk.injEq] at h
          obtain ⟨hm, hrest⟩ := h
          have hv := List.takeWhile_append_dropWhile (p := isValueC) (l := s4)
          rw [hrest, List.append_nil] at hv
          subst hm
          refine ⟨if s2.head? == some '\'' then ['\''] else [], by split <;> simp, s1.takeWhile isDigitC, hwne, ?_, rfl, ?_,
            hvne, ?_, ?_⟩
          · intro c hc
            rw [← isDigitC_iff]
            exact List.all_eq_true.mp (List.all_takeWhile) c hc
          · simp [isBaseC] at hbase
            simp only
            tauto
          · intro c hc
            rw [← isValueC_iff]
            exact List.all_eq_true.mp (List.all_takeWhile) c hc
          · simp only
            rw [hv]
            conv => lhs; rw [hs, ← hw, ← hs2, hq]
            simp

theorem isNumber_sized_iff (s : List Char) :
    isNumber s = (true, true) ↔ ∃ sep neg w b v, (sep = [] ∨ sep = ['\'']) ∧ IsLiteral sep s neg w b v ∧
      v.all (digitOfBase b) = true := by
  constructor
  · intro h
    unfold isNumber at h
    split at h
    · rename_i m hm
      simp only [Prod.mk.injEq, and_true] at h
      obtain ⟨sep, h1, h2⟩ := literal_of_match s m hm
      exact ⟨sep, _, _, _, _, h1, h2, h⟩
    · simp at h
  · rintro ⟨sep, neg, w, b, v, h1, h2, h3⟩
    obtain ⟨wd, h4, _⟩ := literal_parts h1 h2
    simp only [isNumber, h4, h3]

theorem digitIn_some (b : Char) (hb : b = 'b' ∨ b = 'd' ∨ b = 'h') (c : Char) (h : digitOfBase b c = true)
    (hx : c ≠ 'x') (hz : c ≠ 'z') : ∃ d, digitIn (baseOf b) c = some d := by
  have hv : isValueC c = true := by
    rcases hb with rfl | rfl | rfl
    · simp [digitOfBase] at h
      rcases h with ((rfl | rfl) | rfl) | rfl <;> decide
    · simp [digitOfBase] at h
      rcases h with (h | rfl) | rfl
      · simp [isValueC, h]
      · decide
      · decide
    · simpa [digitOfBase] using h
  rw [isValueC_iff] at hv
  have key : ∀ b ∈ ['b', 'd', 'h'], ∀ c ∈ "0123456789abcdefABCDEFxz".toList, digitOfBase b c = true → c ≠ 'x' → c ≠ 'z' →
      (digitIn (baseOf b) c).isSome = true := by decide +kernel
  exact Option.isSome_iff_exists.mp (key b (by simpa using hb) c hv h hx hz)

theorem accepted_digits_have_value (b : Char) (v : List Char) (hb : b = 'b' ∨ b = 'd' ∨ b = 'h')
    (h : v.all (digitOfBase b) = true) (hx : 'x' ∉ v ∧ 'z' ∉ v) : ∃ n, digitsValue (baseOf b) v = some n := by
  have gen : ∀ (v : List Char) (a : Nat), v.all (digitOfBase b) = true → 'x' ∉ v → 'z' ∉ v →
      ∃ n, v.foldl (fun acc c => acc.bind fun a => (digitIn (baseOf b) c).map fun d => a * baseOf b + d) (some a) = some n := by
    intro v
    induction v with
    | nil => intro a _ _ _; exact ⟨a, rfl⟩
    | cons c cs ih =>
      intro a h1 h2 h3
      simp only [List.all_cons, Bool.and_eq_true] at h1
      simp only [List.mem_cons, not_or] at h2 h3
      obtain ⟨d, hd⟩ := digitIn_some b hb c h1.1 (Ne.symm h2.1) (Ne.symm h3.1)
      simp only [List.foldl_cons, Option.bind_some, hd, Option.map_some]
      exact ih _ h1.2 h2.2 h3.2
  exact gen v 0 h hx.1 hx.2

theorem inlined_sized_constant (vw : Nat) (sep s : List Char) (hsep : sep = [] ∨ sep = ['\'']) (neg : Bool) (w : Nat)
    (b : Char) (v : List Char) (h : IsLiteral sep s neg w b v) (hd : v.all (digitOfBase b) = true) :
    ∃ out, vioAsDefine vw s = some ('(' :: out ++ [')']) ∧ IsLiteral ['\''] out neg w b v := by
  obtain ⟨out, h1, h2⟩ := literal_preserved sep hsep s neg w b v h
  refine ⟨out, ?_, h2⟩
  have : isNumber s = (true, true) := (isNumber_sized_iff s).mpr ⟨sep, neg, w, b, v, hsep, h, hd⟩
  simp [vioAsDefine, this, h1]

theorem digits_no_match (l : List Char) (hl : ∀ c ∈ l, isDigitC c = true) : matchNumberAt l = none := by
  have h1 : (l.head? == some '-') = false := by
    cases l with
    | nil => rfl
    | cons c cs =>
      have := hl c (by simp)
      have hc : c ≠ '-' := by intro e; subst e; rw [digit_not_minus.1] at this; simp at this
      simp [hc]
  have h2 := takeWhile_all isDigitC l [] hl (by simp)
  simp only [List.append_nil] at h2
  simp [matchNumberAt, h1, h2.2]

theorem digitIn_digitChar : ∀ d, d < 10 → digitIn 10 (digitChar d) = some d := by decide +kernel

theorem digitsValue_append (base : Nat) (l : List Char) (c : Char) : digitsValue base (l ++ [c]) =
    (digitsValue base l).bind fun a => (digitIn base c).map fun d => a * base + d := by
  simp [digitsValue]

theorem digitsValue_natToDec (n : Nat) : digitsValue 10 (natToDec n) = some n := by
  induction n using Nat.strongRecOn with
  | _ n ih =>
    rw [natToDec]
    split
    · rename_i h
      have := digitsValue_append 10 [] (digitChar n)
      simp only [List.nil_append] at this
      rw [this, digitIn_digitChar n h]
      simp [digitsValue]
    · rename_i h
      rw [digitsValue_append, ih (n / 10) (by omega), digitIn_digitChar (n % 10) (by omega)]
      simp; omega

theorem digitChar_value : ∀ d, d < 10 → isValueC (digitChar d) = true := by decide +kernel

theorem inlined_positive_constant (vw n : Nat) (hn : 0 < n) :
    ∃ out w, vioAsDefine vw (natToDec n) = some ('(' :: out ++ [')']) ∧
      IsLiteral ['\''] out false w 'd' (natToDec n) ∧ literalBits false w 'd' (natToDec n) = some n := by
  have hdig : ∀ c ∈ natToDec n, isDigitC c = true := fun c hc => (isDigitC_iff c).mpr (natToDec_digits n c hc)
  have hne := natToDec_ne_nil n
  have hhead : ((natToDec n).head? == some '-') = false := by
    cases h : natToDec n with
    | nil => rfl
    | cons c cs =>
      have := hdig c (by simp [h])
      have hc : c ≠ '-' := by intro e; subst e; rw [digit_not_minus.1] at this; simp at this
      simp [hc]
  have hall : (natToDec n).all isDigitC = true := List.all_eq_true.mpr hdig
  have hnum : isNumber (natToDec n) = (true, false) := by
    simp [isNumber, digits_no_match _ hdig, hhead, hne, hall]
  have hv : decAcc 0 (natToDec n) = n := decAcc_natToDec n
  obtain ⟨k, hk, hle⟩ := C01_inlined_constant_fits n hn
  refine ⟨natToDec k ++ ['\'', 'd'] ++ natToDec n, k, ?_, ?_, ?_⟩
  · have hn0 : n ≠ 0 := by omega
    have hk' : 1 + justHigherPow2 n = (k : Int) := by
      unfold defineConstWidth at hk
      rw [if_neg (by omega)] at hk
      simpa using hk
    simp [vioAsDefine, hnum, hhead, hv, hn0, hk']
  · refine ⟨natToDec k, natToDec_ne_nil _, natToDec_digits _, decAcc_natToDec _, by simp, hne, ?_, by simp⟩
    intro c hc
    obtain ⟨d, hd, rfl⟩ := natToDec_digits n c hc
    exact (isValueC_iff _).mp (digitChar_value d hd)
  · have : digitsValue (baseOf 'd') (natToDec n) = some n := digitsValue_natToDec n
    simp only [literalBits, this, Option.map_some]
    simp [Nat.mod_eq_of_lt hle]

end Silice
