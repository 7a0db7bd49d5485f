import Verif.Lemmas.ExprRead
import Verif.Lemmas.Number

/-!
Cutting the text of an expression into its tokens.
-/

set_option autoImplicit false

namespace Silice

/-! ### One token -/

theorem longest_aux (cs : List Char) (n : Nat) : ∀ (l : List String) (b : String), b.toList <+: cs → b.toList.length ≤ n →
    (∀ s ∈ l, s.toList <+: cs → s.toList.length ≤ n) →
    ∃ r, l.foldl (fun best s => if s.toList.isPrefixOf cs && best.toList.length < s.toList.length then s else best) b = r ∧
      r.toList <+: cs ∧ r.toList.length ≤ n ∧ b.toList.length ≤ r.toList.length ∧ ∀ s ∈ l, s.toList <+: cs → s.toList.length ≤ r.toList.length := by
  intro l
  induction l with
  | nil => exact fun b h1 h2 _ => ⟨b, rfl, h1, h2, Nat.le_refl _, fun s hs => by cases hs⟩
  | cons s l ih =>
    intro b h1 h2 h3
    rw [List.foldl_cons]
    by_cases hp : s.toList <+: cs
    · by_cases hl : b.toList.length < s.toList.length
      · obtain ⟨r, e, r1, r2, r3, r4⟩ := ih s hp (h3 s List.mem_cons_self hp) (fun x hx => h3 x (List.mem_cons_of_mem _ hx))
        refine ⟨r, ?_, r1, r2, by omega, ?_⟩
        · rw [if_pos (by simp [hp, hl])]; exact e
        · intro x hx hxp
          rcases List.mem_cons.mp hx with rfl | hx
          · exact r3
          · exact r4 x hx hxp
      · obtain ⟨r, e, r1, r2, r3, r4⟩ := ih b h1 h2 (fun x hx => h3 x (List.mem_cons_of_mem _ hx))
        refine ⟨r, ?_, r1, r2, r3, ?_⟩
        · rw [if_neg (by simp [hl])]; exact e
        · intro x hx hxp
          rcases List.mem_cons.mp hx with rfl | hx
          · omega
          · exact r4 x hx hxp
    · obtain ⟨r, e, r1, r2, r3, r4⟩ := ih b h1 h2 (fun x hx => h3 x (List.mem_cons_of_mem _ hx))
      refine ⟨r, ?_, r1, r2, r3, ?_⟩
      · rw [if_neg (by simp [hp])]; exact e
      · intro x hx hxp
        rcases List.mem_cons.mp hx with rfl | hx
        · exact absurd hxp hp
        · exact r4 x hx hxp

/-- No longer symbol starts like `s` followed by `rest`. -/
def Maximal (s : String) (rest : List Char) : Prop := ∀ s' ∈ vSymbols, s'.toList <+: s.toList ++ rest → s'.toList.length ≤ s.toList.length

theorem longest_eq {s : String} {rest : List Char} (hs : s ∈ vSymbols) (hm : Maximal s rest) : longest (s.toList ++ rest) = s := by
  obtain ⟨r, e, r1, r2, _, r4⟩ := longest_aux (s.toList ++ rest) s.toList.length vSymbols "" (List.nil_prefix) (Nat.zero_le _) hm
  have e' : longest (s.toList ++ rest) = r := e
  have hlen := r4 s hs (List.prefix_append _ _)
  rw [e']
  refine String.toList_injective ?_
  have h1 := List.prefix_of_prefix_length_le r1 (List.prefix_append s.toList rest) r2
  exact h1.eq_of_length (by omega)

theorem sym_shape : ∀ s ∈ vSymbols, s ≠ "" ∧ ∃ c, s.toList.head? = some c ∧ wordStart c = false ∧ isDigitC c = false := by decide +kernel

theorem lex_sym {s : String} {rest : List Char} {ts : List VTok} (hs : s ∈ vSymbols) (hm : Maximal s rest) (h : Lexes rest ts) :
    Lexes (s.toList ++ rest) (.sym s :: ts) := by
  obtain ⟨h0, c, h1, h2, h3⟩ := sym_shape s hs
  have hl := longest_eq hs hm
  refine .tok ?_ h
  obtain ⟨cs, hcs⟩ : ∃ cs, s.toList = c :: cs := by
    cases hx : s.toList with
    | nil => rw [hx] at h1; cases h1
    | cons d cs => rw [hx] at h1; cases h1; exact ⟨cs, rfl⟩
  have hd : (s.toList ++ rest).drop s.toList.length = rest := List.drop_left
  rw [hcs, List.cons_append] at hl hd ⊢
  simp only [nextTok, h2, h3, Bool.false_eq_true, if_false, hl, h0, hcs, hd]

/-- What may follow a name or a number. -/
def stopC (c : Char) : Bool := !(wordC c || basedC c || c = '\'' || c = '.')

/-- The text after an operand. -/
def OpEnds (rest : List Char) : Prop := ∀ c ∈ rest.head?, stopC c = true

theorem ends_nil : OpEnds [] := fun _ h => by cases h

theorem ends_cons {c : Char} (h : stopC c = true) (cs : List Char) : OpEnds (c :: cs) := fun d hd => by
  cases hd
  exact h

theorem ends_head {p : Char → Bool} (hp : ∀ c, stopC c = true → p c = false) {rest : List Char} (h : OpEnds rest) :
    rest.head?.all (fun c => !p c) = true := by
  cases rest with
  | nil => rfl
  | cons c cs => simp [hp c (h c rfl)]

theorem stop_word (c : Char) (h : stopC c = true) : wordC c = false := by
  simp only [stopC, Bool.not_eq_true', Bool.or_eq_false_iff] at h
  exact h.1.1.1

theorem stop_based (c : Char) (h : stopC c = true) : basedC c = false := by
  simp only [stopC, Bool.not_eq_true', Bool.or_eq_false_iff] at h
  exact h.1.1.2

theorem stop_digit (c : Char) (h : stopC c = true) : isDigitC c = false := by
  have := stop_word c h
  simp only [wordC, Bool.or_eq_false_iff] at this
  exact this.1.1.2

theorem stop_other (c : Char) (h : stopC c = true) : c ≠ '\'' ∧ c ≠ '.' := by
  simp only [stopC, Bool.not_eq_true', Bool.or_eq_false_iff, decide_eq_false_iff_not] at h
  exact ⟨h.1.2, h.2⟩

theorem lex_word {c : Char} {w rest : List Char} {ts : List VTok} (hc : wordStart c = true) (hw : ∀ d ∈ w, wordC d = true) (he : OpEnds rest)
    (h : Lexes rest ts) : Lexes ((c :: w) ++ rest) (.word (c :: w) :: ts) := by
  obtain ⟨h1, h2⟩ := takeWhile_all wordC w rest hw (ends_head stop_word he)
  refine .tok ?_ h
  rw [List.cons_append]
  simp only [nextTok, hc, if_true, h1, h2]

theorem digit_not_start (c : Char) (h : isDigitC c = true) : wordStart c = false := by
  simp only [isDigitC, digitVal?] at h
  split at h
  · rename_i hc
    simp only [wordStart, isLetterC, Bool.or_eq_false_iff, Bool.and_eq_false_iff, decide_eq_false_iff_not, not_le]
    refine ⟨⟨⟨⟨by omega, by omega⟩, ?_⟩, ?_⟩, ?_⟩ <;> (rintro rfl; revert hc; decide)
  · cases h

theorem lex_num {ds rest : List Char} {ts : List VTok} (hd : Digits ds) (he : OpEnds rest) (h : Lexes rest ts) : Lexes (ds ++ rest) (.num ds :: ts) := by
  obtain ⟨h0, hd⟩ := hd
  obtain ⟨h1, h2⟩ := takeWhile_all isDigitC ds rest hd (ends_head stop_digit he)
  refine .tok ?_ h
  cases ds with
  | nil => exact absurd rfl h0
  | cons c cs =>
    have hc := hd c List.mem_cons_self
    rw [List.cons_append] at h1 h2 ⊢
    simp only [nextTok, hc, digit_not_start c hc, Bool.false_eq_true, if_false, if_true, h1, h2]
    cases rest with
    | nil => rfl
    | cons d r =>
      have hs := he d rfl
      simp only [stop_word d hs, stop_other d hs, if_false, Bool.false_or, decide_false, Bool.false_eq_true]

theorem lex_based {ds v rest : List Char} {b : Char} {ts : List VTok} (hd : Digits ds) (hb : isBaseC b = true) (hv : v ≠ [])
    (hvc : ∀ c ∈ v, isValueC c = true) (he : OpEnds rest) (h : Lexes rest ts) :
    Lexes (ds ++ '\'' :: b :: v ++ rest) (.num (ds ++ '\'' :: b :: v) :: ts) := by
  obtain ⟨h0, hd⟩ := hd
  have hq : isDigitC '\'' = false := by decide
  obtain ⟨h1, h2⟩ := takeWhile_all isDigitC ds ('\'' :: b :: (v ++ rest)) hd (by simp [hq])
  obtain ⟨h3, h4⟩ := takeWhile_all basedC v rest (fun c hc => by simp [basedC, hvc c hc]) (ends_head stop_based he)
  refine .tok ?_ h
  cases ds with
  | nil => exact absurd rfl h0
  | cons c cs =>
    have hc := hd c List.mem_cons_self
    simp only [List.cons_append, List.append_assoc] at h1 h2 ⊢
    simp only [nextTok, hc, digit_not_start c hc, Bool.false_eq_true, if_false, if_true, h1, h2, h3, h4, hb]
    simp [hv]

/-! ### Symbols and what follows them -/

/-- First characters of operands without operator, and spaces. -/
def safeC (c : Char) : Bool := wordStart c || isDigitC c || c = '(' || c = '{' || c = ' '

theorem sym_tails : ∀ s ∈ vSymbols, ∀ c ∈ s.toList.tail, safeC c = false := by decide +kernel

/-- `s` followed by `u` is cut after `s`. -/
def FineAfter (s : String) (u : List Char) : Prop := ∀ s' ∈ vSymbols, s'.toList <+: s.toList ++ u → s'.toList.length ≤ s.toList.length

instance (s : String) (u : List Char) : Decidable (FineAfter s u) := inferInstanceAs (Decidable (∀ s' ∈ vSymbols, _))

theorem maximal_safe {s : String} {u : List Char} {c : Char} {cs : List Char} (hs : s ∈ vSymbols) (hu : FineAfter s u) (hc : safeC c = true) :
    Maximal s (u ++ c :: cs) := by
  intro s' hs' hp
  by_cases hl : s'.toList.length ≤ (s.toList ++ u).length
  · refine hu s' hs' (List.prefix_of_prefix_length_le hp ?_ hl)
    rw [← List.append_assoc]
    exact List.prefix_append _ _
  · exfalso
    obtain ⟨_, d, h1, _⟩ := sym_shape s hs
    have hp' : s.toList ++ u ++ [c] <+: s'.toList := by
      refine List.prefix_of_prefix_length_le (l₃ := s.toList ++ (u ++ c :: cs)) ?_ hp (by simp only [List.length_append, List.length_singleton] at hl ⊢; omega)
      refine ⟨cs, by simp⟩
    obtain ⟨t, ht⟩ := hp'
    have hmem : c ∈ s'.toList.tail := by
      cases hx : s.toList with
      | nil => rw [hx] at h1; cases h1
      | cons a l =>
        rw [← ht, hx]
        simp
    rw [sym_tails s' hs' c hmem] at hc
    cases hc

theorem fine_nil {s : String} : FineAfter s [] := fun s' _ hp => by
  rw [List.append_nil] at hp
  exact hp.length_le

theorem lex_safe {s : String} {c : Char} {cs : List Char} {ts : List VTok} (hs : s ∈ vSymbols) (hc : safeC c = true) (h : Lexes (c :: cs) ts) :
    Lexes (s.toList ++ c :: cs) (.sym s :: ts) := lex_sym hs (maximal_safe (u := []) hs fine_nil hc) h

theorem close_shape : ∀ s ∈ [")", "]", "}"], s ∈ vSymbols ∧ ∀ s' ∈ vSymbols, s'.toList.head? = s.toList.head? → s'.toList.length ≤ s.toList.length := by
  decide +kernel

theorem lex_close {s : String} {rest : List Char} {ts : List VTok} (hs : s ∈ [")", "]", "}"]) (h : Lexes rest ts) :
    Lexes (s.toList ++ rest) (.sym s :: ts) := by
  obtain ⟨h1, h2⟩ := close_shape s hs
  refine lex_sym h1 (fun s' hs' hp => h2 s' hs' ?_) h
  obtain ⟨_, c, hc, _⟩ := sym_shape s h1
  obtain ⟨_, c', hc', _⟩ := sym_shape s' hs'
  obtain ⟨t, ht⟩ := hp
  rw [hc, hc']
  cases hx : s.toList with
  | nil => rw [hx] at hc; cases hc
  | cons a l =>
    cases hx' : s'.toList with
    | nil => rw [hx'] at hc'; cases hc'
    | cons a' l' =>
      rw [hx] at hc ht; rw [hx'] at hc' ht
      simp only [List.cons_append, List.cons.injEq] at ht
      simp only [List.head?_cons, Option.some.injEq] at hc hc'
      rw [← hc, ← hc', ht.1]

/-! ### How expressions start -/

/-- The text of the leading operators. -/
def PExpr.leadText : PExpr → List Char
  | .un o a => o.toList ++ a.leadText
  | .sized true _ _ _ => ['-']
  | .bin _ l _ => l.leadText
  | .tern c _ _ => c.leadText
  | .one e => e.leadText
  | .more e _ => e.leadText
  | _ => []

theorem natToDec_Digits (n : Nat) : Digits (natToDec n) := by
  refine ⟨natToDec_ne_nil n, fun c hc => ?_⟩
  obtain ⟨d, hd, rfl⟩ := natToDec_digits n c hc
  simp [isDigitC, digitVal_digitChar d hd]

theorem Digits.safe {ds : List Char} (h : Digits ds) : ∃ c cs, ds = c :: cs ∧ safeC c = true := by
  obtain ⟨h0, h⟩ := h
  cases ds with
  | nil => exact absurd rfl h0
  | cons c cs => exact ⟨c, cs, rfl, by simp [safeC, h c List.mem_cons_self]⟩

theorem NameText.start {w : List Char} (h : NameText w) : ∃ c cs, w = c :: cs ∧ wordStart c = true ∧ ∀ d ∈ cs, wordC d = true := by
  obtain ⟨c, w', rfl, h1, h2⟩ := h
  refine ⟨c, w', rfl, ?_, fun d hd => ?_⟩
  · simp only [Bool.or_eq_true, beq_iff_eq] at h1
    simp only [wordStart, Bool.or_eq_true, decide_eq_true_eq]
    rcases h1 with h1 | h1
    · exact .inl (.inl (.inl h1))
    · exact .inl (.inl (.inr h1))
  · have := h2 d hd
    simp only [Bool.or_eq_true, beq_iff_eq] at this
    simp only [wordC, Bool.or_eq_true, decide_eq_true_eq]
    rcases this with (this | this) | this
    · exact .inl (.inl (.inl this))
    · exact .inl (.inl (.inr this))
    · exact .inl (.inr this)

theorem wordStart_safe {c : Char} (h : wordStart c = true) : safeC c = true := by simp [safeC, h]

/-- The text starts with the leading operator followed by a safe character. -/
def StartsSafe (lead text : List Char) : Prop := ∃ c cs, text = lead ++ c :: cs ∧ safeC c = true

theorem StartsSafe.append {l t : List Char} (h : StartsSafe l t) (r : List Char) : StartsSafe l (t ++ r) := by
  obtain ⟨c, cs, rfl, h⟩ := h
  exact ⟨c, cs ++ r, by simp, h⟩

/-- Leading operators: none, one, or one followed by the sign of a number. -/
theorem leadText_cases {nm : String → Ref} {s : Slot} {p : PExpr} (h : Gram nm s p) :
    (s = .atom ∨ s = .base → p.leadText = [] ∨ p.leadText = ['-'] ∧ p.lead = some "-") ∧ (s = .base → p.leadText = []) ∧
    (p.leadText = [] ∨ ∃ u, p.lead = some u ∧ u ∈ gramUnary ∧ (p.leadText = u.toList ∨ p.leadText = u.toList ++ ['-'])) := by
  induction h with
  | tern _ _ _ i1 _ _ => exact ⟨by simp, by simp, i1.2.2⟩
  | bin _ _ _ i1 _ => exact ⟨by simp, by simp, i1.2.2⟩
  | pass _ _ i1 => exact ⟨by simp, by simp, i1.2.2⟩
  | atom _ i1 => exact ⟨by simp, by simp, i1.2.2⟩
  | one _ i1 => exact ⟨by simp, by simp, i1.2.2⟩
  | more _ _ i1 _ => exact ⟨by simp, by simp, i1.2.2⟩
  | access _ i1 => exact ⟨fun _ => .inl (i1.2.1 rfl), by simp, i1.2.2⟩
  | @un o a ho _ i1 =>
    refine ⟨by simp, by simp, .inr ⟨o, rfl, ho, ?_⟩⟩
    rcases i1.1 (.inl rfl) with e | ⟨e, _⟩
    · exact .inl (by simp [PExpr.leadText, e])
    · exact .inr (by simp [PExpr.leadText, e])
  | @sized neg _ _ _ _ _ _ =>
    cases neg
    · simp [PExpr.leadText]
    · exact ⟨fun _ => .inr ⟨rfl, rfl⟩, by simp, .inr ⟨"-", rfl, by decide, .inl rfl⟩⟩
  | _ => simp [PExpr.leadText]

theorem wrap_safe {sg : Bool} {t : List Char} (h : StartsSafe [] t) : StartsSafe [] (wrapText sg t) := by
  cases sg
  · exact h
  · exact ⟨'$', "signed(".toList ++ t ++ [')'], by simp [wrapText], by decide⟩

theorem text_starts {nm : String → Ref} {s : Slot} {p : PExpr} (h : Gram nm s p) (hc : p.Clear) : StartsSafe p.leadText (p.text nm) := by
  induction h with
  | tern _ _ _ i1 _ _ =>
    simp only [PExpr.text, List.append_assoc]
    exact (i1 hc.2.1).append _
  | bin _ _ _ i1 _ =>
    simp only [PExpr.text, List.append_assoc]
    exact (i1 hc.1).append _
  | pass _ _ i1 => exact i1 hc
  | atom _ i1 => exact i1 hc
  | one _ i1 => exact i1 hc
  | more _ _ i1 _ => exact (i1 hc.1).append _
  | access _ i1 => exact i1 hc
  | @un o a ho ha i1 =>
    obtain ⟨c, cs, h1, h2⟩ := i1 hc.1
    exact ⟨c, cs, by simp [PExpr.text, PExpr.leadText, h1], h2⟩
  | @name x hx =>
    simp only [PExpr.text, PExpr.leadText]
    cases hn : nm x with
    | plain w =>
      rw [hn] at hx
      obtain ⟨c, cs, rfl, h, _⟩ := NameText.start hx
      exact ⟨c, cs, rfl, wordStart_safe h⟩
    | cst sg w =>
      cases sg
      · exact ⟨'$', "unsigned(".toList ++ '`' :: w ++ [')'], by simp [Ref.text], by decide⟩
      · exact ⟨'$', "signed(".toList ++ '`' :: w ++ [')'], by simp [Ref.text], by decide⟩
  | num hd => 
    obtain ⟨c, cs, rfl, h⟩ := hd.safe
    exact ⟨c, cs, rfl, h⟩
  | @sized neg w b v _ _ _ =>
    obtain ⟨c, cs, h1, h⟩ := (natToDec_Digits w).safe
    cases neg
    · exact ⟨c, cs ++ '\'' :: b :: v, by simp [PExpr.text, PExpr.leadText, h1], h⟩
    · exact ⟨c, cs ++ '\'' :: b :: v, by simp [PExpr.text, PExpr.leadText, h1], h⟩
  | @base x w hx hw =>
    obtain ⟨c, cs, rfl, h, _⟩ := NameText.start hw
    exact ⟨c, cs, by simp [PExpr.text, PExpr.leadText, hx, Ref.text], wordStart_safe h⟩
  | @idx a i ha _ i1 _ =>
    have := (i1 hc.1).append ('[' :: i.text nm ++ [']'])
    simp only [(leadText_cases ha).2.1 rfl] at this
    simpa only [PExpr.text, PExpr.leadText, List.append_assoc] using this
  | @sel a i n ha _ _ i1 _ =>
    have := (i1 hc.1).append ('[' :: i.text nm ++ ['+', ':'] ++ n ++ [']'])
    simp only [(leadText_cases ha).2.1 rfl] at this
    simpa only [PExpr.text, PExpr.leadText, List.append_assoc] using this
  | @field sg a off w ha i1 =>
    have := (i1 hc).append ('[' :: natToDec off ++ ['+', ':'] ++ natToDec w ++ [']'])
    simp only [(leadText_cases ha).2.1 rfl] at this
    simp only [PExpr.text, PExpr.leadText]
    refine wrap_safe ?_
    simpa only [List.append_assoc] using this
  | @fieldSel sg a i off n ha _ _ i1 _ =>
    have := (i1 hc.1).append (['[', '(', '('] ++ i.text nm ++ [')', '+', '('] ++ natToDec off ++ [')', ')', '+', ':'] ++ n ++ [']'])
    simp only [(leadText_cases ha).2.1 rfl] at this
    simp only [PExpr.text, PExpr.leadText]
    refine wrap_safe ?_
    simpa only [List.append_assoc] using this
  | @comb a ha i1 =>
    have := i1 hc
    simp only [(leadText_cases ha).2.1 rfl] at this
    exact this
  | paren _ _ => exact ⟨'(', _, rfl, by decide⟩
  | @cast sg e _ _ =>
    cases sg
    · exact ⟨'$', "unsigned".toList ++ '(' :: e.text nm ++ [')'], by simp [PExpr.text, PExpr.leadText], by decide⟩
    · exact ⟨'$', "signed".toList ++ '(' :: e.text nm ++ [')'], by simp [PExpr.text, PExpr.leadText], by decide⟩
  | widthof => exact ⟨'(', _, rfl, by decide⟩
  | isdone _ => exact ⟨'(', _, rfl, by decide⟩
  | cat _ _ => exact ⟨'{', _, rfl, by decide⟩
  | rep _ _ _ => exact ⟨'{', _, rfl, by decide⟩
  | rep' _ _ _ => exact ⟨'{', _, rfl, by decide⟩

/-! ### The text of an expression is cut into its tokens -/

theorem lex_before {nm : String → Ref} {sl : Slot} {p : PExpr} (h : Gram nm sl p) (hc : p.Clear) {s : String} (hs : s ∈ vSymbols)
    (hf : FineAfter s p.leadText) {rest : List Char} {ts : List VTok} (hl : Lexes (p.text nm ++ rest) ts) :
    Lexes (s.toList ++ (p.text nm ++ rest)) (.sym s :: ts) := by
  obtain ⟨c, cs, e, hsafe⟩ := (text_starts h hc).append rest
  refine lex_sym hs ?_ hl
  rw [e]
  exact maximal_safe hs hf hsafe

theorem open_fine : ∀ s ∈ ["(", "[", "{", ",", ":"], s ∈ vSymbols ∧ ∀ u ∈ gramUnary, FineAfter s u.toList ∧ FineAfter s (u.toList ++ ['-']) := by
  decide +kernel

theorem bin_fine : ∀ p ∈ gramLevels, p.1 ∈ vSymbols ∧ ∀ u ∈ gramUnary, (p.1, u) ∉ merging → FineAfter p.1 u.toList ∧ FineAfter p.1 (u.toList ++ ['-']) := by
  decide +kernel

theorem un_fine : ∀ o ∈ gramUnary, o ∈ vSymbols ∧ ((o, "-") ∉ merging → FineAfter o ['-']) := by
  decide +kernel

theorem lex_open {nm : String → Ref} {sl : Slot} {p : PExpr} (h : Gram nm sl p) (hc : p.Clear) {s : String} (hs : s ∈ ["(", "[", "{", ",", ":"])
    {rest : List Char} {ts : List VTok} (hl : Lexes (p.text nm ++ rest) ts) : Lexes (s.toList ++ (p.text nm ++ rest)) (.sym s :: ts) := by
  obtain ⟨h1, h2⟩ := open_fine s hs
  refine lex_before h hc h1 ?_ hl
  rcases (leadText_cases h).2.2 with e | ⟨u, _, hu, e | e⟩
  · rw [e]; exact fine_nil
  · rw [e]; exact (h2 u hu).1
  · rw [e]; exact (h2 u hu).2

theorem OpEnds.sym {c : Char} (h : c ∈ [')', ']', '}', ',', ':', '+', ' ', '['] := by decide) (cs : List Char) : OpEnds (c :: cs) :=
  ends_cons ((by decide +kernel : ∀ c ∈ [')', ']', '}', ',', ':', '+', ' ', '['], stopC c = true) c h) cs

theorem OpEnds.str {s : String} (h : s ∈ [")", "]", "}", ",", ":", "+:", "[", "{"]) (cs : List Char) : OpEnds (s.toList ++ cs) := by
  have ht : ∀ s ∈ [")", "]", "}", ",", ":", "+:", "[", "{"], s.toList ≠ [] ∧ ∀ c ∈ s.toList.head?, stopC c = true := by decide +kernel
  obtain ⟨h1, h2⟩ := ht _ h
  cases hx : s.toList with
  | nil => exact absurd hx h1
  | cons c l =>
    refine ends_cons (h2 c ?_) _
    show c ∈ s.toList.head?
    rw [hx]; rfl

theorem ends_bin {o : String} {k : Nat} (h : gramLevel o = some k) (cs : List Char) : OpEnds (o.toList ++ cs) := by
  have ht : ∀ p ∈ gramLevels, p.1.toList ≠ [] ∧ ∀ c ∈ p.1.toList.head?, stopC c = true := by decide +kernel
  obtain ⟨h1, h2⟩ := ht _ (lookup_pair h)
  cases hx : o.toList with
  | nil => exact absurd hx h1
  | cons c l =>
    refine ends_cons (h2 c ?_) _
    show c ∈ o.toList.head?
    rw [hx]; rfl

/-- Lexing of a text gives its tokens whatever follows. -/
def LexOk (text : List Char) (toks : List VTok) : Prop := ∀ rest ts, OpEnds rest → Lexes rest ts → Lexes (text ++ rest) (toks ++ ts)

theorem lexOk_num {ds : List Char} (h : Digits ds) : LexOk ds [.num ds] := fun _ _ he hl => lex_num h he hl

theorem lexOk_word {w : List Char} (h : NameText w) : LexOk w [.word w] := fun _ _ he hl => by
  obtain ⟨c, cs, rfl, h1, h2⟩ := h.start
  exact lex_word h1 h2 he hl

theorem lex_cast (sg : Bool) {rest : List Char} {ts : List VTok} (hl : Lexes ('(' :: rest) ts) :
    Lexes (castWord sg ++ '(' :: rest) (.word (castWord sg) :: ts) := by
  cases sg
  · exact lex_word (c := '$') (w := "unsigned".toList) (by decide) (by decide +kernel) (ends_cons (by decide) _) hl
  · exact lex_word (c := '$') (w := "signed".toList) (by decide) (by decide +kernel) (ends_cons (by decide) _) hl

theorem lex_par {s : String} (hs : s ∈ vSymbols) {ds rest : List Char} {ts : List VTok} (hd : Digits ds) (hl : Lexes (ds ++ rest) ts) :
    Lexes (s.toList ++ (ds ++ rest)) (.sym s :: ts) := by
  obtain ⟨c, cs, rfl, h⟩ := hd.safe
  exact lex_safe hs h hl

theorem lexOk_wrap {sg : Bool} {text : List Char} {toks : List VTok} (hs : StartsSafe [] text) (h : LexOk text toks) :
    LexOk (wrapText sg text) (wrapToks sg toks) := by
  cases sg
  · exact h
  · intro rest ts he hl
    have h1 : Lexes (text ++ ([')'] ++ rest)) (toks ++ ([.sym ")"] ++ ts)) := h _ _ (.sym (by decide) _) (lex_close (s := ")") (by decide) hl)
    obtain ⟨c, cs, e, hc⟩ := hs.append ([')'] ++ rest)
    have h2 : Lexes ("(".toList ++ (text ++ ([')'] ++ rest))) (.sym "(" :: (toks ++ ([.sym ")"] ++ ts))) := by
      rw [e] at h1 ⊢
      exact lex_safe (by decide +kernel) hc h1
    have h3 := lex_cast true h2
    simpa [wrapText, wrapToks, castWord] using h3

theorem lexes_text {nm : String → Ref} {s : Slot} {p : PExpr} (h : Gram nm s p) (hc : p.Clear) : LexOk (p.text nm) (p.toks nm) := by
  induction h with
  | @tern c a b hgc ha hb ic ia ib =>
    intro rest ts he hl
    obtain ⟨_, h2, h3, h4⟩ := hc
    have l1 := lex_open hb h4 (s := ":") (by decide) (ib h4 rest ts he hl)
    have l2 := ia h3 _ _ (.str (by decide) _) l1
    have l3 := lex_safe (s := "?") (c := ' ') (by decide +kernel) (by decide) (.space l2)
    have l4 := ic h2 _ _ (.sym (by decide) _) (.space l3)
    simpa [PExpr.text, PExpr.toks] using l4
  | @bin o k l r ho hgl hr il ir =>
    intro rest ts he hl
    obtain ⟨h1, h2, h3⟩ := hc
    obtain ⟨f1, f2⟩ := bin_fine _ (lookup_pair ho)
    have l1 := lex_before hr h2 f1 (by
      rcases (leadText_cases hr).2.2 with e | ⟨u, hu, hg, e | e⟩
      · rw [e]; exact fine_nil
      · rw [e]; exact (f2 u hg (h3 u hu)).1
      · rw [e]; exact (f2 u hg (h3 u hu)).2) (ir h2 rest ts he hl)
    have l2 := il h1 _ _ (ends_bin ho _) l1
    simpa [PExpr.text, PExpr.toks] using l2
  | pass _ _ i1 => exact i1 hc
  | atom _ i1 => exact i1 hc
  | one _ i1 => exact i1 hc
  | access _ i1 => exact i1 hc
  | comb _ i1 => exact i1 hc
  | @more e l he hl ie il =>
    intro rest ts hr hlx
    have l1 := lex_open hl hc.2 (s := ",") (by decide) (il hc.2 rest ts hr hlx)
    have l2 := ie hc.1 _ _ (.str (by decide) _) l1
    simpa [PExpr.text, PExpr.toks] using l2
  | @un o a ho ha i1 =>
    intro rest ts he hl
    obtain ⟨f1, f2⟩ := un_fine o ho
    have l1 := lex_before ha hc.1 f1 (by
      rcases (leadText_cases ha).1 (.inl rfl) with e | ⟨e, hu⟩
      · rw [e]; exact fine_nil
      · rw [e]; exact f2 (hc.2 _ hu)) (i1 hc.1 rest ts he hl)
    simpa [PExpr.text, PExpr.toks] using l1
  | @name x hx =>
    intro rest ts he hl
    simp only [PExpr.text, PExpr.toks]
    cases hn : nm x with
    | plain w => rw [hn] at hx; exact lexOk_word hx rest ts he hl
    | cst sg w =>
      rw [hn] at hx
      obtain ⟨c, cs, rfl, h1, h2⟩ := NameText.start hx
      have l1 := lex_close (s := ")") (by decide) hl
      have hw : ∀ d ∈ c :: cs, wordC d = true := by
        obtain ⟨c', w', e, h3, _⟩ := hx
        cases e
        intro d hd
        rcases List.mem_cons.mp hd with rfl | hd
        · simp only [Bool.or_eq_true, beq_iff_eq] at h3
          simp only [wordC, Bool.or_eq_true, decide_eq_true_eq]
          rcases h3 with h3 | h3
          · exact .inl (.inl (.inl h3))
          · exact .inl (.inr h3)
        · exact h2 d hd
      have l2 := lex_word (c := '`') (by decide) hw (.str (by decide) _) l1
      have l3 := lex_safe (s := "(") (by decide +kernel) (by decide) l2
      have l4 := lex_cast sg l3
      cases sg <;> simpa [Ref.text, castWord] using l4
  | num hd => exact lexOk_num hd
  | @sized neg w b v hb hv hvc =>
    intro rest ts he hl
    have l1 := lex_based (natToDec_Digits w) hb hv hvc he hl
    cases neg
    · simpa [PExpr.text, PExpr.toks] using l1
    · rw [List.append_assoc] at l1
      have l2 := lex_par (s := "-") (by decide +kernel) (natToDec_Digits w) l1
      simpa [PExpr.text, PExpr.toks] using l2
  | @base x w hx hw =>
    simp only [PExpr.text, PExpr.toks, hx, Ref.text]
    exact lexOk_word hw
  | @idx a i ha hi i1 i2 =>
    intro rest ts he hl
    have l1 := i2 hc.2 _ _ (.str (by decide) _) (lex_close (s := "]") (by decide) hl)
    have l2 := i1 hc.1 _ _ (.str (by decide) _) (lex_open hi hc.2 (s := "[") (by decide) l1)
    simpa [PExpr.text, PExpr.toks] using l2
  | @sel a i n ha hi hn i1 i2 =>
    intro rest ts he hl
    have l0 := lex_num hn (.str (by decide) _) (lex_close (s := "]") (by decide) hl)
    have l1 := i2 hc.2 _ _ (.str (by decide) _) (lex_par (s := "+:") (by decide +kernel) hn l0)
    have l2 := i1 hc.1 _ _ (.str (by decide) _) (lex_open hi hc.2 (s := "[") (by decide) l1)
    simpa [PExpr.text, PExpr.toks] using l2
  | @field sg a off w ha i1 =>
    have hst := (text_starts ha hc).append ('[' :: natToDec off ++ ['+', ':'] ++ natToDec w ++ [']'])
    simp only [(leadText_cases ha).2.1 rfl] at hst
    refine lexOk_wrap (by simpa only [List.append_assoc] using hst) ?_
    intro rest ts he hl
    have l0 := lex_num (natToDec_Digits w) (.str (by decide) _) (lex_close (s := "]") (by decide) hl)
    have l1 := lex_num (natToDec_Digits off) (.str (by decide) _) (lex_par (s := "+:") (by decide +kernel) (natToDec_Digits w) l0)
    have l2 := i1 hc _ _ (.str (by decide) _) (lex_par (s := "[") (by decide +kernel) (natToDec_Digits off) l1)
    simpa using l2
  | @fieldSel sg a i off n ha hi hn i1 i2 =>
    have hst := (text_starts ha hc.1).append (['[', '(', '('] ++ i.text nm ++ [')', '+', '('] ++ natToDec off ++ [')', ')', '+', ':'] ++ n ++ [']'])
    simp only [(leadText_cases ha).2.1 rfl] at hst
    refine lexOk_wrap (by simpa only [List.append_assoc] using hst) ?_
    intro rest ts he hl
    have l0 := lex_num hn (.str (by decide) _) (lex_close (s := "]") (by decide) hl)
    have l1 := lex_close (s := ")") (by decide) (lex_close (s := ")") (by decide) (lex_par (s := "+:") (by decide +kernel) hn l0))
    have l2 := lex_num (natToDec_Digits off) (.str (by decide) _) l1
    have l3 := lex_safe (s := "+") (c := '(') (by decide +kernel) (by decide) (lex_par (s := "(") (by decide +kernel) (natToDec_Digits off) l2)
    have l4 := i2 hc.2 _ _ (.str (by decide) _) (lex_close (s := ")") (by decide) l3)
    have l5 := lex_safe (s := "(") (c := '(') (by decide +kernel) (by decide) (lex_open hi hc.2 (s := "(") (by decide) l4)
    have l6 := i1 hc.1 _ _ (.str (by decide) _) (lex_safe (s := "[") (c := '(') (by decide +kernel) (by decide) l5)
    simpa using l6
  | @paren e he ih =>
    intro rest ts hr hl
    have l1 := ih hc _ _ (.str (by decide) _) (lex_close (s := ")") (by decide) hl)
    have l2 := lex_open he hc (s := "(") (by decide) l1
    simpa [PExpr.text, PExpr.toks] using l2
  | @cast sg e he ih =>
    intro rest ts hr hl
    have l1 := ih hc _ _ (.str (by decide) _) (lex_close (s := ")") (by decide) hl)
    have l2 := lex_cast sg (lex_open he hc (s := "(") (by decide) l1)
    cases sg <;> simpa [PExpr.text, PExpr.toks, castWord] using l2
  | @widthof w =>
    intro rest ts hr hl
    have l1 := lex_num (natToDec_Digits w) (.str (by decide) _) (lex_close (s := ")") (by decide) hl)
    have l2 := lex_par (s := "(") (by decide +kernel) (natToDec_Digits w) l1
    simpa [PExpr.text, PExpr.toks] using l2
  | @isdone w hw =>
    intro rest ts hr hl
    have l1 := lexOk_word hw _ _ (.str (by decide) _) (lex_close (s := ")") (by decide) hl)
    obtain ⟨c, cs, e, h1, _⟩ := hw.start
    subst e
    have l2 := lex_safe (s := "(") (by decide +kernel) (wordStart_safe h1) l1
    simpa [PExpr.text, PExpr.toks] using l2
  | @cat l hl ih =>
    intro rest ts hr hlx
    have l1 := ih hc _ _ (.str (by decide) _) (lex_close (s := "}") (by decide) hlx)
    have l2 := lex_open hl hc (s := "{") (by decide) l1
    simpa [PExpr.text, PExpr.toks] using l2
  | @rep n l hn hl ih =>
    intro rest ts hr hlx
    have l0 := lex_close (s := "}") (by decide) (lex_close (s := "}") (by decide) hlx)
    have l1 := lex_open hl hc.2 (s := "{") (by decide) (ih hc.2 _ _ (.str (by decide) _) l0)
    have l2 := lex_num hn (.str (by decide) _) l1
    have l3 := lex_par (s := "{") (by decide +kernel) hn l2
    simpa [PExpr.text, PExpr.toks] using l3
  | rep' _ _ _ => exact absurd hc.1 (by simp [PExpr.isRep])

end Silice
