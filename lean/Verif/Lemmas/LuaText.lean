import Verif.Spec.LuaText

set_option autoImplicit false

namespace Silice

theorem dropWhile_le (p : Char → Bool) (s : List Char) : (s.dropWhile p).length ≤ s.length := (List.dropWhile_suffix p).length_le

theorem skipB_le (s : List Char) : (skipB s).length ≤ s.length := dropWhile_le _ _

theorem skipB_head {s t : List Char} {c : Char} (h : skipB s = c :: t) : isBlank c = false := by
  have := List.head?_dropWhile_not isBlank s
  unfold skipB at h
  rw [h] at this
  simpa using this

theorem skipB_blank {b : List Char} (h : ∀ c ∈ b, isBlank c = true) (s : List Char) : skipB (b ++ s) = skipB s := by
  induction b with
  | nil => rfl
  | cons c b ih =>
    have h1 := h c (by simp)
    rw [List.cons_append, skipB, List.dropWhile_cons, if_pos h1]
    exact ih (fun d hd => h d (by simp [hd]))

theorem skipB_cons {c : Char} (h : isBlank c = false) (s : List Char) : skipB (c :: s) = c :: s := by
  rw [skipB, List.dropWhile_cons, if_neg (by simp [h])]

theorem mem_takeWhile_blank {s : List Char} {c : Char} (h : c ∈ s.takeWhile isBlank) : isBlank c = true := by
  induction s with
  | nil => cases h
  | cons d s ih =>
    rw [List.takeWhile_cons] at h
    split at h
    · rcases List.mem_cons.1 h with rfl | h
      · assumption
      · exact ih h
    · cases h

theorem readStr_le (lead : Bool) (seps s : List Char) : (readStr lead seps s).2.length ≤ s.length := by
  unfold readStr
  dsimp only
  refine le_trans (dropWhile_le _ _) ?_
  split
  · exact skipB_le s
  · exact le_refl _

theorem closeC_le (s : List Char) : ∀ star n r, closeC star s = some (n, r) → r.length ≤ s.length := by
  induction s with
  | nil => intro star n r h; cases star <;> simp [closeC] at h
  | cons c s ih =>
    intro star n r h
    rw [closeC] at h
    split at h
    · exact le_trans (ih _ _ _ h) (by simp)
    · split at h
      · simp only [Option.some.injEq, Prod.mk.injEq] at h
        rw [← h.2]
        simp
      · split at h
        · exact le_trans (ih _ _ _ h) (by simp)
        · rw [Option.map_eq_some_iff] at h
          obtain ⟨⟨m, t⟩, h1, h2⟩ := h
          simp only [Prod.mk.injEq] at h2
          rw [← h2.2]
          exact le_trans (ih _ _ _ h1) (by simp)

theorem jumpOverString_le (lead : Bool) (s : List Char) : ∀ at' x r, jumpOverString lead at' s = some (x, r) → r.length ≤ s.length := by
  induction s with
  | nil => intro at' x r h; cases at' <;> simp [jumpOverString] at h
  | cons c s ih =>
    intro at' x r h
    have key : ∀ (a : StrAt) (f : List Char × List Char → List Char × List Char), (∀ p, (f p).2 = p.2) →
        (jumpOverString lead a s).map f = some (x, r) → r.length ≤ (c :: s).length := by
      intro a f hf h
      rw [Option.map_eq_some_iff] at h
      obtain ⟨⟨y, t⟩, h1, h2⟩ := h
      have := hf (y, t)
      rw [h2] at this
      dsimp only at this
      rw [this]
      exact le_trans (ih _ _ _ h1) (by simp)
    have stay : ∀ a : StrAt, jumpOverString lead a s = some (x, r) → r.length ≤ (c :: s).length := fun a h => le_trans (ih _ _ _ h) (by simp)
    have fin : some (([] : List Char), s) = some (x, r) → r.length ≤ (c :: s).length := by
      intro h
      simp only [Option.some.injEq, Prod.mk.injEq] at h
      rw [← h.2]
      simp
    cases at' <;> rw [jumpOverString] at h
    · split at h
      · exact stay _ h
      · split at h
        · exact fin h
        · split at h
          · exact stay _ h
          · exact key _ (fun r => (c :: r.1, r.2)) (fun _ => rfl) h
    · split at h
      · exact fin h
      · split at h
        · exact stay _ h
        · exact key _ (fun r => (c :: r.1, r.2)) (fun _ => rfl) h
    · split at h
      · exact stay _ h
      · exact key _ (fun r => ('\\' :: '\\' :: c :: r.1, r.2)) (fun _ => rfl) h

/-- Every turn of the loop reads a character. -/
theorem splitStep_lt {lead : Bool} {s r : List Char} {cur cur' : List LElem} {line line' : Nat} {e : List LStm}
    (h : splitStep lead s cur line = .next r cur' line' e) : r.length < s.length := by
  have hs := skipB_le s
  unfold splitStep at h
  obtain ⟨t, ht⟩ : ∃ t, skipB s = t := ⟨_, rfl⟩
  rw [ht] at h hs
  split at h
  · cases h
  · rename_i t
    cases h
    simp at hs
    omega
  · rename_i t
    have := skipB_le t
    split at h
    · cases h
    · rename_i c t' ht'
      rw [ht'] at this
      cases h
      simp at hs this ⊢
      omega
  · rename_i t
    have h1 := skipB_le t
    unfold jumpOverComment at h
    split at h <;> rename_i hj
    · cases h
      split at hj
      · rename_i t2 h2
        cases hj
        rw [h2] at h1
        have := dropWhile_le (fun c => decide (c ≠ '\n')) t2
        simp at hs h1 this ⊢
        omega
      · rename_i t2 h2
        split at hj
        · rename_i n r' hc
          cases hj
          have := closeC_le _ _ _ _ hc
          rw [h2] at h1
          simp at hs h1 this ⊢
          omega
        · cases hj
      · cases hj
    · cases h
      split at hj
      · cases hj
      · split at hj <;> cases hj
      · cases hj
        simp at hs ⊢
        omega
    · cases h
  · rename_i t
    split at h
    · rename_i str r' hj
      have := jumpOverString_le _ _ _ _ _ hj
      cases h
      simp at hs ⊢
      omega
    · cases h
  · rename_i t
    have h1 := skipB_le t
    split at h
    · rename_i t' ht'
      have := readStr_le lead ['\n'] t'
      rw [ht'] at h1
      cases h
      simp at hs h1 ⊢
      omega
    · have := readStr_le lead ['$'] (skipB t)
      cases h
      simp at hs h1 ⊢
      omega
  · rename_i h1 h2 h3 h4 h5 h6
    cases h
    match t with
    | [] => exact absurd rfl h1
    | c :: t =>
      have hb := skipB_head ht
      have hc : c ∉ ['\\', '\r', '\n', '$', ' ', '"'] := by
        simp only [List.mem_cons, List.not_mem_nil, or_false, not_or]
        refine ⟨?_, ?_, ?_, ?_, ?_, ?_⟩ <;> rintro rfl
        · exact h3 _ rfl
        · exact absurd hb (by decide)
        · exact h2 _ rfl
        · exact h6 _ rfl
        · exact absurd hb (by decide)
        · exact h5 _ rfl
      unfold readStr
      dsimp only
      have : (if lead = true then skipB (c :: t) else c :: t) = c :: t := by
        split
        · exact skipB_cons hb t
        · rfl
      rw [this, List.dropWhile_cons, if_pos (by simpa using hc)]
      have := dropWhile_le (fun c => decide (c ∉ ['\\', '\r', '\n', '$', ' ', '"'])) t
      simp only [List.length_cons] at hs
      omega

theorem splitStep_eol {lead : Bool} {s t : List Char} (h : skipB s = '\n' :: t) (cur : List LElem) (line : Nat) :
    splitStep lead s cur line = .next t [] (line + 1) (emitCur cur line) := by
  unfold splitStep
  rw [h]
  rfl

theorem splitStep_slash {lead : Bool} {s t : List Char} (h : skipB s = '/' :: t) (cur : List LElem) (line : Nat) :
    splitStep lead s cur line = (match jumpOverComment t with
      | .comment n r => .next r cur (line + n) []
      | .notOne r => .next r (cur ++ [.ch '/']) line []
      | .fail => .fail) := by
  unfold splitStep
  rw [h]
  rfl

theorem splitStep_quote {lead : Bool} {s t : List Char} (h : skipB s = '"' :: t) (cur : List LElem) (line : Nat) :
    splitStep lead s cur line = (match jumpOverString lead .start t with
      | some (str, r) => .next r (cur ++ .ch '"' :: chars str ++ [.ch '"']) line []
      | none => .fail) := by
  unfold splitStep
  rw [h]
  rfl

theorem splitStep_code {lead : Bool} {s t u : List Char} (h : skipB s = '$' :: t) (h' : skipB t = '$' :: u) (cur : List LElem) (line : Nat) :
    splitStep lead s cur line = .next (readStr lead ['\n'] u).2 cur line [.code (readStr lead ['\n'] u).1] := by
  unfold splitStep
  rw [h]
  simp only [h']

theorem splitStep_ins {lead : Bool} {s t u : List Char} {c : Char} (h : skipB s = '$' :: t) (h' : skipB t = c :: u) (hc : c ≠ '$')
    (cur : List LElem) (line : Nat) :
    splitStep lead s cur line = .next ((readStr lead ['$'] (c :: u)).2.drop 1)
      (cur ++ .ins (readStr lead ['$'] (c :: u)).1 :: spaceAfter ((readStr lead ['$'] (c :: u)).2.drop 1)) line [] := by
  unfold splitStep
  rw [h]
  simp only [h']
  split
  · rename_i h; cases h; exact absurd rfl hc
  · rfl

theorem jumpOverComment_line {s t : List Char} (h : skipB s = '/' :: t) :
    jumpOverComment s = .comment 0 (t.dropWhile (fun c => decide (c ≠ '\n'))) := by
  unfold jumpOverComment
  rw [h]
  rfl

theorem jumpOverComment_block {s t r : List Char} {n : Nat} (h : skipB s = '*' :: t) (h' : closeC false t = some (n, r)) :
    jumpOverComment s = .comment n r := by
  unfold jumpOverComment
  rw [h]
  simp only [h']

theorem jumpOverComment_not {s : List Char} (h : ∀ c t, skipB s = c :: t → c ≠ '/' ∧ c ≠ '*') : jumpOverComment s = .notOne (skipB s) := by
  unfold jumpOverComment
  split
  · rename_i h'; exact absurd rfl (h _ _ h').1
  · rename_i h'; exact absurd rfl (h _ _ h').2
  · rfl

/-- The loop with enough turns. -/
def splitAll (lead : Bool) (s : List Char) (cur : List LElem) (line : Nat) : Option (List LStm × Nat) := splitRun lead (s.length + 1) s cur line

theorem splitRun_enough (lead : Bool) : ∀ (f g : Nat) (s : List Char) (cur : List LElem) (line : Nat), s.length < f → s.length < g →
    splitRun lead f s cur line = splitRun lead g s cur line := by
  intro f
  induction f with
  | zero => intro g s cur line h; omega
  | succ f ih =>
    intro g s cur line h1 h2
    match g, h2 with
    | g + 1, h2 =>
      rw [splitRun, splitRun]
      match h : splitStep lead s cur line with
      | .done => rfl
      | .fail => rfl
      | .next r cur' line' e =>
        have := splitStep_lt h
        dsimp only
        rw [ih g r cur' line' (by omega) (by omega)]

theorem splitAll_next {lead : Bool} {s r : List Char} {cur cur' : List LElem} {line line' : Nat} {e : List LStm}
    (h : splitStep lead s cur line = .next r cur' line' e) :
    splitAll lead s cur line = (splitAll lead r cur' line').map fun p => (e ++ p.1, p.2) := by
  unfold splitAll
  rw [splitRun, h]
  dsimp only
  rw [splitRun_enough lead _ (r.length + 1) r cur' line' (splitStep_lt h) (by omega)]

/-- Nothing is emitted in this turn. -/
theorem splitAll_on {lead : Bool} {s r : List Char} {cur cur' : List LElem} {line line' : Nat}
    (h : splitStep lead s cur line = .next r cur' line' []) : splitAll lead s cur line = splitAll lead r cur' line' := by
  rw [splitAll_next h]
  simp

/-- Blanks are skipped. -/
theorem splitAll_blanks {lead : Bool} {b : List Char} (hb : ∀ c ∈ b, isBlank c = true) (s : List Char) (cur : List LElem) (line : Nat) :
    splitAll lead (b ++ s) cur line = splitAll lead s cur line := by
  have h : splitStep lead (b ++ s) cur line = splitStep lead s cur line := by
    unfold splitStep
    rw [skipB_blank hb]
  match h' : splitStep lead s cur line with
  | .done => unfold splitAll; rw [splitRun, splitRun, h, h']
  | .fail => unfold splitAll; rw [splitRun, splitRun, h, h']
  | .next r cur' line' e => rw [splitAll_next (h.trans h'), splitAll_next h']

theorem readStr_cons {lead : Bool} {seps : List Char} {c : Char} {s : List Char} (h : isBlank c = false) :
    readStr lead seps (c :: s) = ((c :: s).takeWhile (fun c => decide (c ∉ seps)), (c :: s).dropWhile (fun c => decide (c ∉ seps))) := by
  unfold readStr
  dsimp only
  have : (if lead = true then skipB (c :: s) else c :: s) = c :: s := by
    split
    · exact skipB_cons h s
    · rfl
  rw [this]

/-- A piece of text that ends at a separator. -/
def StopsAt (seps rest : List Char) : Prop := rest = [] ∨ ∃ c s, rest = c :: s ∧ c ∈ seps

theorem takeWhile_stop {seps w rest : List Char} (hw : ∀ c ∈ w, c ∉ seps) (hr : StopsAt seps rest) :
    (w ++ rest).takeWhile (fun c => decide (c ∉ seps)) = w ∧ (w ++ rest).dropWhile (fun c => decide (c ∉ seps)) = rest := by
  have h1 : ∀ c ∈ w, (fun c => decide (c ∉ seps)) c = true := by simpa using hw
  rw [List.takeWhile_append_of_pos h1, List.dropWhile_append_of_pos h1]
  rcases hr with rfl | ⟨c, s, rfl, hc⟩
  · simp
  · rw [List.takeWhile_cons, List.dropWhile_cons, if_neg (by simpa using hc), if_neg (by simpa using hc)]
    simp

theorem splitAll_word {lead : Bool} {w : List Char} (hw : (TItem.word w).Fine lead) {rest : List Char} (hr : StopsAt wordEnds rest)
    (cur : List LElem) (line : Nat) :
    splitAll lead (w ++ rest) cur line = splitAll lead rest (cur ++ chars (luaProtect w) ++ spaceAfter rest) line := by
  obtain ⟨h1, c, s, rfl, hc, hb⟩ := hw
  apply splitAll_on
  have hcw := h1 c (by simp)
  simp only [wordEnds, List.mem_cons, List.not_mem_nil, or_false, not_or] at hcw
  unfold splitStep
  rw [List.cons_append, skipB_cons hb]
  split
  · rename_i h; cases h
  · rename_i h; cases h; exact absurd rfl hcw.2.2.1
  · rename_i h; cases h; exact absurd rfl hcw.1
  · rename_i h; cases h; exact absurd rfl hc
  · rename_i h; cases h; exact absurd rfl hcw.2.2.2.2.2
  · rename_i h; cases h; exact absurd rfl hcw.2.2.2.1
  · have := takeWhile_stop (w := c :: s) (rest := rest) h1 hr
    have he : readStr lead ['\\', '\r', '\n', '$', ' ', '"'] (c :: (s ++ rest)) = (c :: s, rest) := by
      rw [readStr_cons hb]
      exact Prod.ext this.1 this.2
    rw [he]

theorem splitAll_eol (lead : Bool) (rest : List Char) (cur : List LElem) (line : Nat) :
    splitAll lead ('\n' :: rest) cur line = (splitAll lead rest [] (line + 1)).map fun p => (emitCur cur line ++ p.1, p.2) := by
  exact splitAll_next (splitStep_eol (skipB_cons (by decide) rest) cur line)

theorem splitAll_end (lead : Bool) (cur : List LElem) (line : Nat) : splitAll lead [] cur line = some (emitCur cur line, line) := rfl

theorem splitAll_ins {lead : Bool} {e : List Char} (he : (TItem.ins e).Fine lead) (rest : List Char) (cur : List LElem) (line : Nat) :
    splitAll lead ('$' :: e ++ '$' :: rest) cur line = splitAll lead rest (cur ++ .ins e :: spaceAfter rest) line := by
  obtain ⟨h1, c, s, rfl, hb⟩ := he
  apply splitAll_on
  have hc : c ≠ '$' := fun h => h1 (by simp [h])
  have hr : readStr lead ['$'] (c :: (s ++ '$' :: rest)) = (c :: s, '$' :: rest) := by
    rw [readStr_cons hb]
    have := takeWhile_stop (seps := ['$']) (w := c :: s) (rest := '$' :: rest) (by
      intro d hd hd'
      rw [List.mem_singleton] at hd'
      exact h1 (hd' ▸ hd)) (.inr ⟨_, _, rfl, by simp⟩)
    exact Prod.ext this.1 this.2
  rw [List.cons_append, List.cons_append, splitStep_ins (skipB_cons (by decide) _) (skipB_cons hb _) hc, hr]
  rfl

theorem splitAll_lineC {lead : Bool} {c : List Char} (hc : '\n' ∉ c) {rest : List Char} (hr : StopsAt ['\n'] rest) (cur : List LElem) (line : Nat) :
    splitAll lead ('/' :: '/' :: c ++ rest) cur line = splitAll lead rest cur line := by
  apply splitAll_on
  have : (c ++ rest).dropWhile (fun x => decide (x ≠ '\n')) = rest := by
    have h := (takeWhile_stop (seps := ['\n']) (w := c) (rest := rest) (by
      intro d hd hd'
      rw [List.mem_singleton] at hd'
      exact hc (hd' ▸ hd)) hr).2
    simpa using h
  rw [List.cons_append, List.cons_append, splitStep_slash (skipB_cons (by decide) _), jumpOverComment_line (skipB_cons (by decide) _), this]
  rfl

theorem closeC_blanks (s : List Char) : closeC true s = closeC true (skipB s) := by
  induction s with
  | nil => rfl
  | cons c s ih =>
    by_cases hb : isBlank c = true
    · rw [closeC, if_pos (by simp [hb]), ih, skipB, skipB, List.dropWhile_cons, if_pos hb]
    · rw [skipB_cons (by simpa using hb)]

/-- A comment without misleading stars is left at its end. -/
theorem closeC_apart (rest : List Char) : ∀ (k : Nat) (c : List Char), c.length ≤ k → StarsApart c →
    closeC false (c ++ '*' :: '/' :: rest) = some (c.count '\n', rest) := by
  intro k
  induction k with
  | zero =>
    intro c hk _
    obtain rfl : c = [] := by simpa using hk
    rfl
  | succ k ih =>
    intro c hk hc
    match c with
    | [] => rfl
    | x :: c =>
      have hc' : ∀ a b, x :: c = a ++ b → StarsApart b := by
        intro a b h a' b' h'
        exact hc (a ++ a') b' (by rw [h, h']; simp)
      simp only [List.length_cons] at hk
      by_cases hx : x = '*'
      · subst hx
        obtain ⟨d, e, h1, h2, h3⟩ := hc [] c rfl
        have hd := skipB_head h1
        have hsplit : c = c.takeWhile isBlank ++ d :: e := by
          rw [← h1]; exact (List.takeWhile_append_dropWhile).symm
        have hbl : ∀ y ∈ c.takeWhile isBlank, isBlank y = true := fun y hy => mem_takeWhile_blank hy
        rw [List.cons_append, closeC, if_neg (by simp), if_neg (by simp), if_pos (by simp), closeC_blanks]
        have hs : skipB (c ++ '*' :: '/' :: rest) = d :: (e ++ '*' :: '/' :: rest) := by
          conv_lhs => rw [hsplit]
          rw [List.append_assoc, skipB_blank hbl, List.cons_append, skipB_cons hd]
        rw [hs, closeC, if_neg (by simp [hd]), if_neg (by simp [h3]), if_neg (by simp)]
        have heq : '*' :: c = ('*' :: c.takeWhile isBlank ++ [d]) ++ e := by
          conv_lhs => rw [hsplit]
          simp
        have hlen : e.length ≤ k := by
          have := congrArg List.length hsplit
          simp at this
          omega
        rw [ih e hlen (hc' ('*' :: c.takeWhile isBlank ++ [d]) e heq)]
        have hcount : List.count '\n' ('*' :: c) = List.count '\n' e + (if d = '\n' then 1 else 0) := by
          conv_lhs => rw [hsplit]
          have h0 : List.count '\n' (c.takeWhile isBlank) = 0 := by
            rw [List.count_eq_zero]
            intro hm
            exact absurd (hbl _ hm) (by decide)
          simp [List.count_cons, h0]
        rw [hcount]
        rfl
      · rw [List.cons_append, closeC, if_neg (by simp), if_neg (by simp), if_neg (by simpa using hx),
          ih c (by omega) (hc' [x] c rfl)]
        simp [List.count_cons]

theorem splitAll_blockC {lead : Bool} {c : List Char} (hc : StarsApart c) (rest : List Char) (cur : List LElem) (line : Nat) :
    splitAll lead ('/' :: '*' :: c ++ ('*' :: '/' :: rest)) cur line = splitAll lead rest cur (line + c.count '\n') := by
  apply splitAll_on
  rw [List.cons_append, List.cons_append, splitStep_slash (skipB_cons (by decide) _),
    jumpOverComment_block (skipB_cons (by decide) _) (closeC_apart rest _ c (le_refl _) hc)]

theorem splitAll_slash {lead : Bool} {rest : List Char} (hr : ∀ c s, skipB rest = c :: s → c ≠ '/' ∧ c ≠ '*') (cur : List LElem) (line : Nat) :
    splitAll lead ('/' :: rest) cur line = splitAll lead rest (cur ++ [.ch '/']) line := by
  have h : splitStep lead ('/' :: rest) cur line = .next (skipB rest) (cur ++ [.ch '/']) line [] := by
    rw [splitStep_slash (skipB_cons (by decide) _), jumpOverComment_not hr]
  rw [splitAll_on h]
  have hsplit : rest = rest.takeWhile isBlank ++ skipB rest := (List.takeWhile_append_dropWhile).symm
  conv_rhs => rw [hsplit]
  rw [splitAll_blanks (fun y hy => mem_takeWhile_blank hy)]

/-- Lua text of a string. -/
def strCode : List StrItem → List Char
  | [] => []
  | .raw c :: l => c :: strCode l
  | .esc c :: l => '\\' :: '\\' :: c :: strCode l

theorem jumpOverString_fine (lead : Bool) (rest : List Char) (l : List StrItem) : ∀ start, FineStr lead start l →
    jumpOverString lead (if start then .start else .chunk) (l.flatMap StrItem.src ++ '"' :: rest) = some (strCode l, rest) := by
  induction l with
  | nil =>
    intro start _
    cases start
    · rfl
    · simp only [List.flatMap_nil, List.nil_append, if_true, strCode]
      rw [jumpOverString, if_neg (by simp [isBlank]), if_pos rfl]
  | cons i l ih =>
    intro start h
    cases i with
    | raw c =>
      simp only [FineStr] at h
      obtain ⟨h1, h2, _, _, h5, h6⟩ := h
      have := ih false h6
      simp only [List.flatMap_cons, StrItem.src, List.cons_append, List.nil_append, strCode]
      cases start
      · simp only [Bool.false_eq_true, if_false] at this ⊢
        rw [jumpOverString, if_neg h1, if_neg h2, this]
        rfl
      · simp only [Bool.false_eq_true, if_false, if_true] at this ⊢
        have hb : ¬ (lead && isBlank c) = true := by
          intro hh
          rw [Bool.and_eq_true] at hh
          rw [h5 hh.1 rfl] at hh
          exact absurd hh.2 (by simp)
        rw [jumpOverString, if_neg hb, if_neg h1, if_neg h2, this]
        rfl
    | esc c =>
      simp only [FineStr] at h
      obtain ⟨h1, _, _, _, h6⟩ := h
      have := ih true h6
      simp only [if_true] at this
      simp only [List.flatMap_cons, StrItem.src, List.cons_append, List.nil_append, strCode]
      have hstep : jumpOverString lead .esc (c :: (l.flatMap StrItem.src ++ '"' :: rest)) = some ('\\' :: '\\' :: c :: strCode l, rest) := by
        rw [jumpOverString, if_neg (by simp [h1]), this]
        rfl
      cases start
      · simp only [Bool.false_eq_true, if_false]
        rw [jumpOverString, if_neg (by decide), if_pos rfl, hstep]
      · simp only [if_true]
        rw [jumpOverString, if_neg (by simp [isBlank]), if_neg (by decide), if_pos rfl, hstep]

theorem splitAll_str {lead : Bool} {l : List StrItem} (hl : FineStr lead true l) (rest : List Char) (cur : List LElem) (line : Nat) :
    splitAll lead ('"' :: l.flatMap StrItem.src ++ '"' :: rest) cur line =
      splitAll lead rest (cur ++ .ch '"' :: chars (strCode l) ++ [.ch '"']) line := by
  apply splitAll_on
  have := jumpOverString_fine lead rest l true hl
  simp only [if_true] at this
  rw [List.cons_append, splitStep_quote (skipB_cons (by decide) _), this]

theorem splitAll_lua {lead : Bool} {b l : List Char} (h : (SrcLine.lua b l).Fine lead) {rest : List Char} (hr : StopsAt ['\n'] rest) (line : Nat) :
    splitAll lead (b ++ '$' :: '$' :: l ++ rest) [] line = (splitAll lead rest [] line).map fun p => (.code l :: p.1, p.2) := by
  obtain ⟨h1, h2, h3⟩ := h
  rw [List.append_assoc, splitAll_blanks h1, List.cons_append]
  have hs : splitStep lead ('$' :: ('$' :: l ++ rest)) [] line = .next rest [] line [.code l] := by
    rw [List.cons_append, splitStep_code (skipB_cons (by decide) _) (skipB_cons (by decide) _)]
    have hl : (if lead = true then skipB (l ++ rest) else l ++ rest) = l ++ rest := by
      split
      · rename_i hlead
        have := h3 hlead
        match l with
        | [] =>
          rcases hr with rfl | ⟨c, s, rfl, hc⟩
          · rfl
          · rw [List.mem_singleton] at hc
            subst hc
            exact skipB_cons (by decide) s
        | c :: l =>
          exact skipB_cons (skipB_head this) _
      · rfl
    have := takeWhile_stop (seps := ['\n']) (w := l) (rest := rest) (by
      intro d hd hd'
      rw [List.mem_singleton] at hd'
      exact h2 (hd' ▸ hd)) hr
    unfold readStr
    dsimp only
    rw [hl, this.1, this.2]
  rw [splitAll_next hs]
  rfl

/-- The Lua text of a line. -/
def lineCode : Bool → List TItem → List LElem
  | _, [] => []
  | _, .word w :: l => chars (luaProtect w) ++ lineCode true l
  | after, .blanks b :: l => (if after && b.head? == some ' ' then [.ch ' '] else []) ++ lineCode false l
  | _, .lineC _ :: l => lineCode false l
  | _, .blockC _ :: l => lineCode false l
  | _, .str i :: l => .ch '"' :: chars (strCode i) ++ .ch '"' :: lineCode false l
  | _, .ins e :: l => .ins e :: lineCode true l
  | _, .slash :: l => .ch '/' :: lineCode false l

theorem spaceAfter_blank {b : List Char} (hb : b ≠ []) (s : List Char) : spaceAfter (b ++ s) = if b.head? == some ' ' then [.ch ' '] else [] := by
  match b, hb with
  | c :: b, _ =>
    by_cases hc : c = ' '
    · subst hc; rfl
    · rw [List.cons_append, spaceAfter]
      · simp [hc]
      · intro t h; cases h; exact hc rfl

theorem spaceAfter_other {c : Char} (hc : c ≠ ' ') (s : List Char) : spaceAfter (c :: s) = [] := by
  rw [spaceAfter]
  intro t h; cases h; exact hc rfl

/-- A line of text is read part by part. -/
theorem splitAll_text {lead : Bool} {tail : List Char} (ht : StopsAt ['\n'] tail) : ∀ (l : List TItem), FineLine lead l → ∀ (after : Bool) (cur : List LElem) (line : Nat),
    splitAll lead (l.flatMap TItem.src ++ tail) (cur ++ if after then spaceAfter (l.flatMap TItem.src ++ tail) else []) line =
      splitAll lead tail (cur ++ lineCode after l) (line + breaks l) := by
  intro l
  induction l with
  | nil =>
    intro _ after cur line
    have : spaceAfter tail = [] := by
      rcases ht with rfl | ⟨c, s, rfl, hc⟩
      · rfl
      · rw [List.mem_singleton] at hc
        subst hc
        exact spaceAfter_other (by decide) s
    simp [this, lineCode, breaks]
  | cons i l ih =>
    intro h after cur line
    obtain ⟨h1, h2, h3, h4, h5⟩ := h
    have ihn : ∀ cur line, splitAll lead (l.flatMap TItem.src ++ tail) cur line =
        splitAll lead tail (cur ++ lineCode false l) (line + breaks l) := by
      intro cur line
      have := ih h2 false cur line
      simpa using this
    have iha : ∀ cur line, splitAll lead (l.flatMap TItem.src ++ tail) (cur ++ spaceAfter (l.flatMap TItem.src ++ tail)) line =
        splitAll lead tail (cur ++ lineCode true l) (line + breaks l) := by
      intro cur line
      have := ih h2 true cur line
      simpa using this
    have hno : ∀ (c : Char) (s : List Char), c ≠ ' ' → (i :: l).flatMap TItem.src ++ tail = c :: s →
        (if after = true then spaceAfter ((i :: l).flatMap TItem.src ++ tail) else []) = [] := by
      intro c s hc hs
      rw [hs, spaceAfter_other hc]
      simp
    rw [List.flatMap_cons, List.append_assoc] at *
    cases i with
    | word w =>
      obtain ⟨hw, c, s, rfl, hc, hb⟩ := h1
      have hcs : c ≠ ' ' := by rintro rfl; exact absurd hb (by decide)
      rw [hno c _ hcs rfl, List.append_nil]
      have hr : StopsAt wordEnds (l.flatMap TItem.src ++ tail) := by
        match l, h2 with
        | [], _ =>
          rcases ht with rfl | ⟨c, s, rfl, hc⟩
          · exact .inl rfl
          · rw [List.mem_singleton] at hc
            subst hc
            exact .inr ⟨_, s, rfl, by decide⟩
        | j :: l', h2 =>
          have := h3 _ rfl j l' rfl
          cases j with
          | blanks b =>
            match b, this with
            | x :: b, this =>
              simp only [afterWord, List.head?_cons, Option.some.injEq] at this
              subst this
              exact .inr ⟨_, _, rfl, by decide⟩
          | str i => exact .inr ⟨_, _, rfl, by decide⟩
          | ins e => exact .inr ⟨_, _, rfl, by decide⟩
          | word _ => exact this.elim
          | lineC _ => exact this.elim
          | blockC _ => exact this.elim
          | slash => exact this.elim
      rw [TItem.src, splitAll_word ⟨hw, c, s, rfl, hc, hb⟩ hr, iha]
      simp [lineCode, breaks]
    | blanks b =>
      obtain ⟨hb, hbl⟩ := h1
      rw [TItem.src, splitAll_blanks hbl, ihn, spaceAfter_blank hb]
      simp only [lineCode, breaks, List.append_assoc]
      cases after <;> simp
    | lineC c =>
      obtain rfl := h5 c rfl
      rw [hno '/' _ (by decide) rfl, List.append_nil]
      have := splitAll_lineC (lead := lead) h1 ht cur line
      simpa [TItem.src, lineCode, breaks] using this
    | blockC c =>
      rw [hno '/' _ (by decide) rfl, List.append_nil]
      have := splitAll_blockC (lead := lead) h1 (l.flatMap TItem.src ++ tail) cur line
      rw [ihn] at this
      simpa [TItem.src, lineCode, breaks, Nat.add_assoc] using this
    | str s =>
      rw [hno '"' _ (by decide) rfl, List.append_nil]
      have := splitAll_str (lead := lead) h1 (l.flatMap TItem.src ++ tail) cur line
      rw [ihn] at this
      simpa [TItem.src, lineCode, breaks] using this
    | ins e =>
      rw [hno '$' _ (by decide) rfl, List.append_nil]
      have := splitAll_ins (lead := lead) h1 (l.flatMap TItem.src ++ tail) cur line
      have h := iha (cur ++ [.ins e]) line
      simp only [List.append_assoc, List.singleton_append] at h
      rw [h] at this
      simpa [TItem.src, lineCode, breaks] using this
    | slash =>
      rw [hno '/' _ (by decide) rfl, List.append_nil]
      have := splitAll_slash (lead := lead) (rest := l.flatMap TItem.src ++ tail) (by
        intro c s hs
        match hl : skipB (l.flatMap TItem.src) with
        | d :: t =>
          have hd := skipB_head hl
          have hsp : l.flatMap TItem.src = (l.flatMap TItem.src).takeWhile isBlank ++ d :: t := by
            rw [← hl]; exact (List.takeWhile_append_dropWhile).symm
          rw [hsp, List.append_assoc, skipB_blank (fun y hy => mem_takeWhile_blank hy), List.cons_append, skipB_cons hd] at hs
          cases hs
          exact h4 rfl _ _ hl
        | [] =>
          have hall : ∀ x ∈ l.flatMap TItem.src, isBlank x = true := by
            intro x hx
            have hsp : (l.flatMap TItem.src).takeWhile isBlank ++ skipB (l.flatMap TItem.src) = l.flatMap TItem.src := List.takeWhile_append_dropWhile
            rw [hl, List.append_nil] at hsp
            rw [← hsp] at hx
            exact mem_takeWhile_blank hx
          rw [skipB_blank hall] at hs
          rcases ht with rfl | ⟨x, y, rfl, hx⟩
          · cases hs
          · rw [List.mem_singleton] at hx
            subst hx
            rw [skipB_cons (by decide)] at hs
            cases hs
            exact ⟨by decide, by decide⟩) cur line
      rw [ihn] at this
      simpa [TItem.src, lineCode, breaks] using this

theorem luaText_plain {c : Char} (h1 : c ≠ '\\') (h2 : c ≠ '\'') (h3 : c ≠ '\n') (s : List LElem) :
    luaText (.ch c :: s) = (luaText s).map (.ch c :: ·) := by
  conv_lhs => unfold luaText
  rw [if_neg h1, if_neg (by simp [h2, h3])]

theorem luaText_word {w : List Char} (hw : ∀ c ∈ w, c ∉ wordEnds) (s : List LElem) :
    luaText (chars (luaProtect w) ++ s) = (luaText s).map (w.map .ch ++ ·) := by
  induction w with
  | nil => simp [luaProtect, chars]
  | cons c w ih =>
    have hc := hw c (by simp)
    simp only [wordEnds, List.mem_cons, List.not_mem_nil, or_false, not_or] at hc
    have ih := ih (fun d hd => hw d (by simp [hd]))
    rw [luaProtect]
    split
    · rename_i h
      subst h
      simp only [chars, List.map_cons, List.cons_append] at ih ⊢
      rw [luaText, if_pos rfl]
      simp only [luaEscape, Option.bind_some]
      rw [ih, Option.map_map]
      rfl
    · rename_i h
      simp only [chars, List.map_cons, List.cons_append] at ih ⊢
      rw [luaText_plain hc.1 h hc.2.2.1, ih, Option.map_map]
      rfl

theorem luaText_strCode (lead : Bool) (l : List StrItem) : ∀ start, FineStr lead start l → ∀ s,
    luaText (chars (strCode l) ++ s) = (luaText s).map ((l.flatMap StrItem.src).map .ch ++ ·) := by
  induction l with
  | nil => intro _ _ s; simp [strCode, chars]
  | cons i l ih =>
    intro start h s
    cases i with
    | raw c =>
      simp only [FineStr] at h
      obtain ⟨_, h2, h3, h4, _, h6⟩ := h
      have := ih _ h6 s
      simp only [strCode, chars, List.map_cons, List.cons_append] at this ⊢
      rw [luaText_plain h2 h3 h4, this, Option.map_map]
      rfl
    | esc c =>
      simp only [FineStr] at h
      obtain ⟨_, h2, h3, h4, h6⟩ := h
      have := ih _ h6 s
      simp only [strCode, chars, List.map_cons, List.cons_append] at this ⊢
      rw [luaText, if_pos rfl]
      simp only [luaEscape, Option.bind_some]
      rw [luaText_plain h2 h3 h4, this, Option.map_map, Option.map_map]
      rfl

/-- Lua reads back the line. -/
theorem luaText_line (lead : Bool) (l : List TItem) : FineLine lead l → ∀ after s,
    luaText (lineCode after l ++ s) = (luaText s).map (shownLine after l ++ ·) := by
  induction l with
  | nil => intro _ after s; simp [lineCode, shownLine]
  | cons i l ih =>
    intro h after s
    have ih := ih h.2.1
    have h1 := h.1
    cases i with
    | word w =>
      rw [lineCode, List.append_assoc, luaText_word h1.1, ih, Option.map_map, shownLine]
      simp [Function.comp_def]
    | blanks b =>
      rw [lineCode, List.append_assoc, shownLine]
      split
      · rw [List.singleton_append, luaText_plain (by decide) (by decide) (by decide), ih, Option.map_map]
        rfl
      · simpa using ih false s
    | lineC c => exact ih false s
    | blockC c => exact ih false s
    | str x =>
      rw [lineCode, List.append_assoc, List.cons_append, luaText_plain (by decide) (by decide) (by decide),
        luaText_strCode lead x true h1, List.cons_append, luaText_plain (by decide) (by decide) (by decide), ih,
        Option.map_map, Option.map_map, Option.map_map, shownLine]
      simp [Function.comp_def, TItem.src]
    | ins e =>
      rw [lineCode, List.cons_append, luaText, ih, Option.map_map]
      rfl
    | slash =>
      rw [lineCode, List.cons_append, luaText_plain (by decide) (by decide) (by decide), ih, Option.map_map]
      rfl

theorem lineCode_nil {lead : Bool} (l : List TItem) : FineLine lead l → ∀ after, lineCode after l = [] ↔ shownLine after l = [] := by
  induction l with
  | nil => intro _ after; simp [lineCode, shownLine]
  | cons i l ih =>
    intro h after
    have ih := ih h.2.1
    have h1 := h.1
    cases i with
    | word w =>
      obtain ⟨_, c, s, rfl, _, _⟩ := h1
      simp only [lineCode, shownLine, luaProtect]
      split <;> simp [chars]
    | blanks b =>
      rw [lineCode, shownLine]
      split
      · simp
      · simpa using ih false
    | lineC c => exact ih false
    | blockC c => exact ih false
    | str x => simp [lineCode, shownLine, TItem.src]
    | ins e => simp [lineCode, shownLine]
    | slash => simp [lineCode, shownLine]

theorem read_emit {lead : Bool} {l : List TItem} (h : FineLine lead l) (n : Nat) :
    (emitCur (lineCode false l) (n + breaks l)).map LStm.read = (expectText l n).map some := by
  unfold emitCur expectText
  by_cases hs : shownLine false l = []
  · rw [if_pos ((lineCode_nil l h false).2 hs), if_pos hs]
    rfl
  · rw [if_neg (fun h' => hs ((lineCode_nil l h false).1 h')), if_neg hs]
    simp only [List.map_cons, List.map_nil, LStm.read]
    rw [luaText_line lead l h]
    rfl

theorem splitAll_source {lead : Bool} {last : List TItem} (hl : FineLine lead last) : ∀ (lines : List SrcLine), (∀ l ∈ lines, l.Fine lead) → ∀ n,
    ∃ stms m, splitAll lead (sourceText lines last) [] n = some (stms, m) ∧ stms.map LStm.read = (expectSource n lines last).map some := by
  intro lines
  induction lines with
  | nil =>
    intro _ n
    have := splitAll_text (lead := lead) (tail := []) (.inl rfl) last hl false [] n
    simp only [List.append_nil, Bool.false_eq_true, if_false, List.nil_append] at this
    refine ⟨emitCur (lineCode false last) (n + breaks last), n + breaks last, ?_, read_emit hl n⟩
    simp only [sourceText, List.flatMap_nil, List.nil_append]
    rw [this, splitAll_end]
  | cons x lines ih =>
    intro h n
    have ih := ih (fun l hl => h l (by simp [hl]))
    have hx := h x (by simp)
    have hsrc : sourceText (x :: lines) last = x.src ++ '\n' :: sourceText lines last := by
      simp [sourceText]
    rw [hsrc]
    cases x with
    | text l =>
      obtain ⟨stms, m, h1, h2⟩ := ih (n + breaks l + 1)
      have := splitAll_text (lead := lead) (tail := '\n' :: sourceText lines last) (.inr ⟨_, _, rfl, by simp⟩) l hx false [] n
      simp only [List.append_nil, Bool.false_eq_true, if_false, List.nil_append] at this
      rw [SrcLine.src, this, splitAll_eol, h1]
      refine ⟨_, _, rfl, ?_⟩
      rw [List.map_append, read_emit hx, h2]
      simp [expectSource]
    | lua b l =>
      obtain ⟨stms, m, h1, h2⟩ := ih (n + 1)
      rw [SrcLine.src, splitAll_lua hx (.inr ⟨_, _, rfl, by simp⟩), splitAll_eol, h1]
      refine ⟨_, _, rfl, ?_⟩
      simp [expectSource, h2, LStm.read, emitCur]

end Silice
