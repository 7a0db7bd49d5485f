import Verif.Spec.LuaUnits
import Verif.Lemmas.LuaText
import Verif.Props.LuaPath

set_option autoImplicit false

namespace Silice

section Loop

variable {σ α : Type} {step : σ → Turn σ α} {m : σ → Nat}

theorem loop_enough (dec : ∀ s s', step s = .next s' → m s' < m s) : ∀ (f g : Nat) (s : σ), m s < f → m s < g → loopRun step f s = loopRun step g s := by
  intro f
  induction f with
  | zero => intro g s h; omega
  | succ f ih =>
    intro g s h1 h2
    match g, h2 with
    | g + 1, h2 =>
      rw [loopRun, loopRun]
      match h : step s with
      | .stop a => rfl
      | .fail => rfl
      | .next s' =>
        have := dec _ _ h
        exact ih g s' (by omega) (by omega)

theorem loop_next (dec : ∀ s s', step s = .next s' → m s' < m s) {s s' : σ} (h : step s = .next s') :
    loopRun step (m s + 1) s = loopRun step (m s' + 1) s' := by
  rw [loopRun, h]
  exact loop_enough dec _ _ s' (dec _ _ h) (by omega)

theorem loop_stop {s : σ} {a : α} (f : Nat) (h : step s = .stop a) : loopRun step (f + 1) s = some a := by
  rw [loopRun, h]

/-- What every turn keeps holds at the end. -/
theorem loop_inv {P : σ → Prop} {Q : α → Prop} (hn : ∀ s s', P s → step s = .next s' → P s') (hs : ∀ s a, P s → step s = .stop a → Q a) :
    ∀ (f : Nat) (s : σ) (a : α), P s → loopRun step f s = some a → Q a := by
  intro f
  induction f with
  | zero => intro s a _ h; cases h
  | succ f ih =>
    intro s a hp h
    rw [loopRun] at h
    split at h
    · rename_i h'; cases h; exact hs _ _ hp h'
    · cases h
    · rename_i h'; exact ih _ _ (hn _ _ hp h') h

end Loop

theorem reach_le (c : Char) (s : List Char) : (reach c s).length ≤ s.length := by
  unfold reach
  rw [List.length_drop]
  have := dropWhile_le (fun x => decide (x ≠ c)) s
  omega

theorem reach_stop {c : Char} {t : List Char} (h : c ∉ t) (rest : List Char) : reach c (t ++ c :: rest) = rest := by
  have := (takeWhile_stop (seps := [c]) (w := t) (rest := c :: rest) (by
    intro d hd hd'
    rw [List.mem_singleton] at hd'
    exact h (hd' ▸ hd)) (.inr ⟨_, _, rfl, by simp⟩)).2
  unfold reach
  have h2 : (t ++ c :: rest).dropWhile (fun x => decide (x ≠ c)) = c :: rest := by simpa using this
  rw [h2]
  rfl

theorem readStr_split {lead : Bool} {seps : List Char} {c : Char} {t : List Char} (h : isBlank c = false) :
    (readStr lead seps (c :: t)).1 ++ (readStr lead seps (c :: t)).2 = c :: t := by
  rw [readStr_cons h]
  exact List.takeWhile_append_dropWhile

theorem readStr_lt {lead : Bool} {seps : List Char} {c : Char} {t : List Char} (h : isBlank c = false) (h' : (readStr lead seps (c :: t)).1 ≠ []) :
    (readStr lead seps (c :: t)).2.length < (c :: t).length := by
  have := congrArg List.length (readStr_split (lead := lead) (seps := seps) (t := t) h)
  rw [List.length_append] at this
  have h1 : 0 < (readStr lead seps (c :: t)).1.length := List.length_pos_iff.2 h'
  omega

theorem readStr_ne {lead : Bool} {seps : List Char} {c : Char} {t : List Char} (h : isBlank c = false) (h' : c ∉ seps) : (readStr lead seps (c :: t)).1 ≠ [] := by
  rw [readStr_cons h]
  simp [h']

theorem updateStep_dec (x x' : LuaAt) (h : updateStep x = .next x') : x'.2.length < x.2.length := by
  unfold updateStep at h
  obtain ⟨t, ht⟩ : ∃ t, skipB x.2 = t := ⟨_, rfl⟩
  have hle := skipB_le x.2
  rw [ht] at h hle
  match t, ht with
  | [], _ => cases h
  | c :: t, ht =>
    have hb := skipB_head ht
    simp only [List.length_cons] at hle
    dsimp only at h
    split at h
    · cases h
    · rename_i h1
      split at h
      · cases h
        have := reach_le c t
        dsimp only
        omega
      · rename_i h2
        split at h
        · cases h
        · split at h
          · cases h
          · cases h
            have := readStr_lt (lead := true) (seps := [' ', '\t', '\r', '\n', '\'', '"']) (t := t) hb (readStr_ne hb (by
              rintro hc
              simp only [List.mem_cons, List.not_mem_nil, or_false] at hc
              rcases hc with rfl | rfl | rfl | rfl | rfl | rfl <;> simp_all [isBlank]))
            simp only [List.length_cons] at this
            dsimp only
            omega

theorem updateStep_stop (x a : LuaAt) (h : updateStep x = .stop a) : a.2.length ≤ x.2.length := by
  unfold updateStep at h
  obtain ⟨t, ht⟩ : ∃ t, skipB x.2 = t := ⟨_, rfl⟩
  have hle := skipB_le x.2
  rw [ht] at h hle
  match t, ht with
  | [], _ => cases h; simp
  | c :: t, ht =>
    have hb := skipB_head ht
    simp only [List.length_cons] at hle
    dsimp only at h
    split at h
    · cases h; dsimp only; omega
    · split at h
      · cases h
      · split at h
        · cases h
          have := readStr_le true [' ', '\t', '\r', '\n', '\'', '"'] (c :: t)
          simp only [List.length_cons] at this
          dsimp only
          omega
        · split at h <;> cases h

theorem luaUpdate_le {x a : LuaAt} (h : luaUpdate x = some a) : a.2.length ≤ x.2.length := by
  refine loop_inv (P := fun y => y.2.length ≤ x.2.length) (Q := fun y => y.2.length ≤ x.2.length) ?_ ?_ _ x a (le_refl _) h
  · intro s s' hp hs
    have := updateStep_dec _ _ hs
    omega
  · intro s b hp hs
    exact le_trans (updateStep_stop _ _ hs) hp

theorem processLua_le {x a : LuaAt} (h : processLua x = some a) : a.2.length ≤ x.2.length := by
  unfold processLua at h
  have hle := skipB_le x.2
  split at h
  · rename_i t ht
    have := luaUpdate_le h
    rw [ht] at hle
    simp only [List.length_cons] at hle
    dsimp only at this
    omega
  · cases h
    exact le_trans (reach_le _ _) hle

theorem jumpOverComment_le {s r : List Char} {n : Nat} (h : jumpOverComment s = .comment n r ∨ jumpOverComment s = .notOne r) : r.length ≤ s.length := by
  unfold jumpOverComment at h
  have hle := skipB_le s
  split at h
  · rename_i t ht
    rcases h with h | h
    · cases h
      have := dropWhile_le (fun x => decide (x ≠ '\n')) t
      rw [ht] at hle
      simp only [List.length_cons] at hle
      omega
    · cases h
  · rename_i t ht
    rw [ht] at hle
    simp only [List.length_cons] at hle
    split at h
    · rename_i hc
      have := closeC_le _ _ _ _ hc
      rcases h with h | h
      · cases h; omega
      · cases h
    · rcases h with h | h <;> cases h
  · rcases h with h | h
    · cases h
    · cases h; exact hle

theorem nestStep_dec (cin cout : Char) (x x' : NestAt) (h : nestStep cin cout x = .next x') : x'.rest.length < x.rest.length := by
  unfold nestStep at h
  obtain ⟨t, ht⟩ : ∃ t, skipB x.rest = t := ⟨_, rfl⟩
  have hle := skipB_le x.rest
  rw [ht] at h hle
  match t, ht with
  | [], _ => cases h
  | c :: t, ht =>
    simp only [List.length_cons] at hle
    dsimp only at h
    split at h
    · cases h; dsimp only; omega
    split at h
    · split at h
      · cases h
      · rename_i h'
        have h2 := skipB_le t
        rw [h'] at h2
        simp only [List.length_cons] at h2
        cases h; dsimp only; omega
    split at h
    · split at h
      · cases h
      · rename_i h'
        have := processLua_le h'
        cases h; dsimp only at *; omega
    split at h
    · split at h
      · rename_i h'
        have := jumpOverComment_le (.inl h')
        cases h; dsimp only; omega
      · rename_i h'
        have := jumpOverComment_le (n := 0) (.inr h')
        cases h; dsimp only; omega
      · cases h
    split at h
    · split at h
      · rename_i h'
        have := jumpOverString_le _ _ _ _ _ h'
        cases h; dsimp only; omega
      · cases h
    split at h
    · cases h; dsimp only; omega
    split at h
    · generalize (if consider x.lcp = true then x.inside - 1 else x.inside) = k at h
      split at h
      · cases h
      · cases h; dsimp only; omega
    · cases h; dsimp only; omega

theorem nestStep_stop (cin cout : Char) (x : NestAt) (a : LuaAt) (h : nestStep cin cout x = .stop a) : a.2.length ≤ x.rest.length := by
  unfold nestStep at h
  obtain ⟨t, ht⟩ : ∃ t, skipB x.rest = t := ⟨_, rfl⟩
  have hle := skipB_le x.rest
  rw [ht] at h hle
  match t, ht with
  | [], _ => cases h
  | c :: t, ht =>
    simp only [List.length_cons] at hle
    dsimp only at h
    split at h
    · cases h
    split at h
    · split at h <;> cases h
    split at h
    · split at h <;> cases h
    split at h
    · split at h <;> cases h
    split at h
    · split at h <;> cases h
    split at h
    · cases h
    split at h
    · generalize (if consider x.lcp = true then x.inside - 1 else x.inside) = k at h
      split at h
      · cases h; dsimp only; omega
      · cases h
    · cases h

theorem jumpOverNested_le {cin cout : Char} {x a : LuaAt} (h : jumpOverNested cin cout x = some a) : a.2.length ≤ x.2.length := by
  refine loop_inv (P := fun y => y.rest.length ≤ x.2.length) (Q := fun y => y.2.length ≤ x.2.length) ?_ ?_ _ _ a (le_refl _) h
  · intro s s' hp hs
    have := nestStep_dec _ _ _ _ hs
    omega
  · intro s b hp hs
    exact le_trans (nestStep_stop _ _ _ _ hs) hp

theorem jumpOverUnit_le {s io io' e : List Char} (h : jumpOverUnit s = some (io, io', e)) : e.length ≤ io'.length ∧ io'.length ≤ io.length ∧ io.length ≤ s.length := by
  unfold jumpOverUnit at h
  dsimp only at h
  split at h
  · cases h
  · rename_i x hx
    split at h
    · cases h
    · split at h
      · cases h
      · rename_i y hy
        split at h
        · cases h
        · cases h
          exact ⟨jumpOverNested_le hy, jumpOverNested_le hx, skipB_le s⟩

theorem topStep_dec (len : Nat) (x x' : TopAt) (h : topStep len x = .next x') : x'.rest.length < x.rest.length := by
  unfold topStep at h
  obtain ⟨t, ht⟩ : ∃ t, skipB x.rest = t := ⟨_, rfl⟩
  have hle := skipB_le x.rest
  rw [ht] at h hle
  match t, ht with
  | [], _ => cases h
  | c :: t, ht =>
    have hb := skipB_head ht
    simp only [List.length_cons] at hle
    dsimp only at h
    split at h
    · cases h; dsimp only; omega
    split at h
    · split at h
      · cases h
      · rename_i h'
        have := processLua_le h'
        cases h; dsimp only at *; omega
    split at h
    · split at h
      · rename_i h'
        have := jumpOverComment_le (.inl h')
        cases h; dsimp only; omega
      · rename_i h'
        have := jumpOverComment_le (n := 0) (.inr h')
        cases h; dsimp only; omega
      · cases h
    split at h
    · rename_i hu
      have h1 := readStr_lt (lead := true) (seps := [' ', '\t', '\r', '/', '*']) (t := t) hb (by
        intro h0
        rw [h0] at hu
        exact absurd hu (by decide))
      split at h
      · cases h
      · split at h
        · cases h
        · rename_i h'
          have h2 := jumpOverUnit_le h'
          have h3 := readStr_le true ['(', ' ', '\t', '\r'] (readStr true [' ', '\t', '\r', '/', '*'] (c :: t)).2
          simp only [List.length_cons] at h1
          cases h; dsimp only; omega
    split at h
    · cases h; dsimp only; omega
    · rename_i h'
      have h1 := readStr_lt (lead := true) (seps := [' ', '\t', '\r', '/', '*']) (t := t) hb h'
      simp only [List.length_cons] at h1
      cases h; dsimp only; omega

/-- Order of the units found up to a position. -/
def OrderedTo : List UnitLoc → Nat → Nat → Prop
  | [], prev, p => prev ≤ p
  | u :: us, prev, p => prev ≤ u.start ∧ u.start ≤ u.ioStart ∧ u.ioStart ≤ u.ioEnd ∧ u.ioEnd ≤ u.fin ∧ OrderedTo us u.fin p

theorem OrderedTo.mono {us : List UnitLoc} : ∀ {prev p p' : Nat}, OrderedTo us prev p → p ≤ p' → OrderedTo us prev p' := by
  induction us with
  | nil => intro prev p p' h h'; exact le_trans h h'
  | cons u us ih => intro prev p p' h h'; exact ⟨h.1, h.2.1, h.2.2.1, h.2.2.2.1, ih h.2.2.2.2 h'⟩

theorem OrderedTo.snoc {us : List UnitLoc} {u : UnitLoc} (h1 : u.start ≤ u.ioStart) (h2 : u.ioStart ≤ u.ioEnd) (h3 : u.ioEnd ≤ u.fin) :
    ∀ {prev p : Nat}, OrderedTo us prev p → p ≤ u.start → OrderedTo (us ++ [u]) prev u.fin := by
  induction us with
  | nil => intro prev p h h'; exact ⟨le_trans h h', h1, h2, h3, le_refl _⟩
  | cons v us ih => intro prev p h h'; exact ⟨h.1, h.2.1, h.2.2.1, h.2.2.2.1, ih h.2.2.2.2 h'⟩

theorem orderedTo_inOrder {us : List UnitLoc} : ∀ {prev p len : Nat}, OrderedTo us prev p → p ≤ len → InOrder len us prev := by
  induction us with
  | nil => intro prev p len h h'; exact le_trans h h'
  | cons u us ih => intro prev p len h h'; exact ⟨h.1, h.2.1, h.2.2.1, h.2.2.2.1, ih h.2.2.2.2 h'⟩

theorem decompose_ordered {s : List Char} {us : List UnitLoc} (h : decomposeSource s = some us) : InOrder s.length us 0 := by
  refine loop_inv (P := fun x => x.rest.length ≤ s.length ∧ OrderedTo x.units 0 (s.length - x.rest.length)) (Q := fun us => InOrder s.length us 0)
    ?_ ?_ _ _ us ⟨le_refl _, by simp [OrderedTo]⟩ h
  · intro x x' hp hs
    have hdec := topStep_dec _ _ _ hs
    refine ⟨by omega, ?_⟩
    have hmono := hp.2.mono (p' := s.length - x'.rest.length) (by omega)
    unfold topStep at hs
    obtain ⟨t, ht⟩ : ∃ t, skipB x.rest = t := ⟨_, rfl⟩
    have hle := skipB_le x.rest
    rw [ht] at hs hle
    match t, ht with
    | [], _ => cases hs
    | c :: t, ht =>
      have hb := skipB_head ht
      dsimp only at hs
      split at hs
      · cases hs; exact hmono
      split at hs
      · split at hs
        · cases hs
        · cases hs; exact hmono
      split at hs
      · split at hs
        · cases hs; exact hmono
        · cases hs; exact hmono
        · cases hs
      split at hs
      · split at hs
        · cases hs
        · split at hs
          · cases hs
          · rename_i h'
            have h2 := jumpOverUnit_le h'
            have h3 := readStr_le true ['(', ' ', '\t', '\r'] (readStr true [' ', '\t', '\r', '/', '*'] (c :: t)).2
            have h4 := readStr_le true [' ', '\t', '\r', '/', '*'] (c :: t)
            cases hs
            exact hp.2.snoc (by dsimp only; omega) (by dsimp only; omega) (by dsimp only; omega) (by dsimp only; omega)
      split at hs
      · cases hs; exact hmono
      · cases hs; exact hmono
  · intro x a hp hs
    unfold topStep at hs
    split at hs
    · cases hs
      exact orderedTo_inOrder hp.2 (by omega)
    · dsimp only at hs
      split at hs
      · cases hs
      split at hs
      · split at hs <;> cases hs
      split at hs
      · split at hs <;> cases hs
      split at hs
      · split at hs
        · cases hs
        · split at hs <;> cases hs
      split at hs <;> cases hs

theorem pieces_flatten (s : List Char) : ∀ (us : List UnitLoc) (prev : Nat), InOrder s.length us prev → (pieces s us prev).flatten = s.drop prev := by
  intro us
  induction us with
  | nil => intro prev _; simp [pieces]
  | cons u us ih =>
    intro prev h
    obtain ⟨h1, h2, h3, h4, h5⟩ := h
    rw [pieces, List.flatten_cons, List.flatten_cons, ih _ h5]
    unfold cut
    have e1 : s.drop u.start = (s.drop prev).drop (u.start - prev) := by rw [List.drop_drop]; congr 1; omega
    have e2 : s.drop u.fin = (s.drop u.start).drop (u.fin - u.start) := by rw [List.drop_drop]; congr 1; omega
    rw [e2, List.take_append_drop, e1, List.take_append_drop]

theorem blank_sep {c : Char} (h : isBlank c = true) : c ∈ luaSeps ∧ c ∈ [' ', '\t', '\r', '/', '*'] ∧ c ∈ ['(', ' ', '\t', '\r'] := by
  simp only [isBlank, Bool.or_eq_true, beq_iff_eq] at h
  rcases h with (rfl | rfl) | rfl <;> decide

theorem lcpStep_branch (π : List Nat) (k : Kw) : lcpStep (sideStack π) k = (branchStep π k).map sideStack := by
  cases k with
  | other => cases π <;> rfl
  | opn => cases π with
    | nil => rfl
    | cons i π => simp [lcpStep, branchStep, sideStack, consider]
  | els => cases π with
    | nil => rfl
    | cons i π => simp [lcpStep, branchStep, sideStack]
  | fin => cases π with
    | nil => rfl
    | cons i π => rfl

theorem consider_all (π : List Nat) : consider (sideStack π) = π.all (· == 0) := by
  have := consider_sideStack π
  rw [Bool.eq_iff_iff, this]
  simp

theorem luaUpdate_next {x x' : LuaAt} (h : updateStep x = .next x') : luaUpdate x = luaUpdate x' :=
  loop_next (m := fun x : LuaAt => x.2.length) (fun s s' => updateStep_dec s s') h

theorem luaUpdate_blanks {b : List Char} (hb : ∀ c ∈ b, isBlank c = true) (st : List Bool) (s : List Char) : luaUpdate (st, b ++ s) = luaUpdate (st, s) := by
  have h : updateStep (st, b ++ s) = updateStep (st, s) := by
    unfold updateStep
    dsimp only
    rw [skipB_blank hb]
  unfold luaUpdate
  match h' : updateStep (st, s) with
  | .stop a => rw [loop_stop _ (h.trans h'), loop_stop _ h']
  | .fail => rw [loopRun, loopRun, h, h']
  | .next x => exact (luaUpdate_next (h.trans h')).trans (luaUpdate_next h').symm

theorem luaUpdate_quoted {q : Char} {t : List Char} (hq : q = '"' ∨ q = '\'') (ht : q ∉ t) (st : List Bool) (s : List Char) :
    luaUpdate (st, q :: t ++ q :: s) = luaUpdate (st, s) := by
  apply luaUpdate_next
  unfold updateStep
  dsimp only
  have hb : isBlank q = false := by rcases hq with rfl | rfl <;> decide
  have hn : q ≠ '\n' := by rcases hq with rfl | rfl <;> decide
  rw [List.cons_append, skipB_cons hb]
  dsimp only
  rw [if_neg hn, if_pos hq, reach_stop ht]

theorem luaUpdate_word {w : List Char} (hw : (LuaWord.word w).Fine) {rest : List Char} (hr : StopsAt luaSeps rest) {π π' : List Nat}
    (h : branchStep π (kwOf (String.ofList w)) = some π') : luaUpdate (sideStack π, w ++ rest) = luaUpdate (sideStack π', rest) := by
  obtain ⟨h1, h2, h3⟩ := hw
  match w, h1 with
  | c :: w, _ =>
    have hc := h2 c (by simp)
    have hb : isBlank c = false := by
      cases h' : isBlank c with
      | false => rfl
      | true => exact absurd (blank_sep h').1 hc
    simp only [luaSeps, List.mem_cons, List.not_mem_nil, or_false, not_or] at hc
    apply luaUpdate_next
    unfold updateStep
    dsimp only
    rw [List.cons_append, skipB_cons hb]
    dsimp only
    rw [if_neg hc.2.2.2.1, if_neg (by simp [hc])]
    have hrd : readStr true [' ', '\t', '\r', '\n', '\'', '"'] (c :: (w ++ rest)) = (c :: w, rest) := by
      rw [readStr_cons hb]
      have := takeWhile_stop (seps := luaSeps) (w := c :: w) (rest := rest) h2 hr
      exact Prod.ext this.1 this.2
    rw [hrd]
    dsimp only
    rw [if_neg h3, lcpStep_branch, h]
    rfl

theorem branchRun_append (a b : List Kw) : ∀ π, branchRun π (a ++ b) = (branchRun π a).bind (branchRun · b) := by
  induction a with
  | nil => intro π; rfl
  | cons k a ih =>
    intro π
    simp only [List.cons_append, branchRun]
    cases branchStep π k with
    | none => rfl
    | some π' => exact ih π'

/-- A Lua line, up to its end or to a comment. -/
theorem luaUpdate_line {tail : List Char} : ∀ (l : List LuaWord), FineLua l → (StopsAt luaSeps tail ∨ l = [] ∨ ∃ l' b, l = l' ++ [.blanks b] ∧ b ≠ []) →
    ∀ π π', branchRun π (l.flatMap LuaWord.kws) = some π' → luaUpdate (sideStack π, l.flatMap LuaWord.src ++ tail) = luaUpdate (sideStack π', tail) := by
  intro l
  induction l with
  | nil => intro _ _ π π' h; cases h; rfl
  | cons i l ih =>
    intro hf ht π π' h
    obtain ⟨h1, h2, h3⟩ := hf
    have ht' : StopsAt luaSeps tail ∨ l = [] ∨ ∃ l' b, l = l' ++ [.blanks b] ∧ b ≠ [] := by
      rcases ht with ht | ht | ⟨l', b, hl, hb⟩
      · exact .inl ht
      · cases ht
      · match l' with
        | [] => cases hl; exact .inr (.inl rfl)
        | x :: l' => cases hl; exact .inr (.inr ⟨l', b, rfl, hb⟩)
    have ih := ih h2 ht'
    rw [List.flatMap_cons, branchRun_append] at h
    rw [List.flatMap_cons, List.append_assoc]
    cases i with
    | word w =>
      simp only [LuaWord.kws, branchRun, Option.bind_eq_some_iff] at h
      obtain ⟨π1, ⟨π2, h4, h5⟩, h6⟩ := h
      cases h5
      have hr : StopsAt luaSeps (l.flatMap LuaWord.src ++ tail) := by
        match l, h3, ht, ht' with
        | [], _, ht, _ =>
          rcases ht with ht | ht | ⟨l', b, hl, hb⟩
          · exact ht
          · cases ht
          · match l' with
            | [] => cases hl
            | x :: l' =>
              have := congrArg List.length hl
              simp at this
        | j :: l', h3, _, _ =>
          obtain ⟨h7, h8⟩ := h3 ⟨w, rfl⟩ j l' rfl
          have hj := h2.1
          cases j with
          | word w => exact absurd ⟨w, rfl⟩ h8
          | blanks b =>
            match b, h7 with
            | c :: b, _ => exact .inr ⟨c, _, rfl, (blank_sep (hj c (by simp))).1⟩
            | [], h7 => exact absurd rfl h7
          | quoted q t =>
            refine .inr ⟨q, _, rfl, ?_⟩
            rcases hj.1 with rfl | rfl <;> decide
      rw [LuaWord.src, luaUpdate_word h1 hr h4]
      exact ih _ _ h6
    | blanks b =>
      rw [LuaWord.src, luaUpdate_blanks h1]
      exact ih _ _ h
    | quoted q t =>
      have := luaUpdate_quoted h1.1 h1.2 (sideStack π) (l.flatMap LuaWord.src ++ tail)
      simp only [LuaWord.src, List.append_assoc, List.cons_append, List.nil_append] at this ⊢
      rw [this]
      exact ih _ _ h

theorem luaUpdate_eol (st : List Bool) (rest : List Char) : luaUpdate (st, '\n' :: rest) = some (st, rest) := by
  apply loop_stop
  unfold updateStep
  dsimp only
  rw [skipB_cons (by decide)]
  rfl

theorem luaUpdate_comment (st : List Bool) {rest : List Char} (hr : StopsAt luaSeps rest) : luaUpdate (st, '-' :: '-' :: rest) = some (st, rest) := by
  apply loop_stop
  unfold updateStep
  dsimp only
  rw [skipB_cons (by decide)]
  dsimp only
  rw [if_neg (by decide), if_neg (by decide)]
  have hrd : readStr true [' ', '\t', '\r', '\n', '\'', '"'] ('-' :: '-' :: rest) = (['-', '-'], rest) := by
    rw [readStr_cons (by decide)]
    have := takeWhile_stop (seps := luaSeps) (w := ['-', '-']) (rest := rest) (by decide) hr
    exact Prod.ext this.1 this.2
  rw [hrd]
  rfl

theorem processLua_lua {l : List LuaWord} (hl : FineLua l) {π π' : List Nat} (h : branchRun π (l.flatMap LuaWord.kws) = some π') (rest : List Char) :
    processLua (sideStack π, '$' :: (l.flatMap LuaWord.src ++ '\n' :: rest)) = some (sideStack π', rest) := by
  have : processLua (sideStack π, '$' :: (l.flatMap LuaWord.src ++ '\n' :: rest)) = luaUpdate (sideStack π, l.flatMap LuaWord.src ++ '\n' :: rest) := by
    unfold processLua
    dsimp only
    rw [skipB_cons (by decide)]
    rfl
  rw [this, luaUpdate_line l hl (.inl (.inr ⟨_, _, rfl, by decide⟩)) _ _ h, luaUpdate_eol]

theorem processLua_luaC {l : List LuaWord} (hl : FineLuaC l) {π π' : List Nat} (h : branchRun π (l.flatMap LuaWord.kws) = some π') {rest : List Char}
    (hr : StopsAt luaSeps rest) : processLua (sideStack π, '$' :: (l.flatMap LuaWord.src ++ '-' :: '-' :: rest)) = some (sideStack π', rest) := by
  have : processLua (sideStack π, '$' :: (l.flatMap LuaWord.src ++ '-' :: '-' :: rest)) =
      luaUpdate (sideStack π, l.flatMap LuaWord.src ++ '-' :: '-' :: rest) := by
    unfold processLua
    dsimp only
    rw [skipB_cons (by decide)]
    rfl
  rw [this, luaUpdate_line l hl.1 (.inr hl.2) _ _ h, luaUpdate_comment _ hr]

theorem skipB_some {e : List Char} (h : ∃ c ∈ e, isBlank c = false) : ∃ c s, skipB e = c :: s ∧ (∀ d ∈ c :: s, d ∈ e) ∧ ∀ r, skipB (e ++ r) = c :: (s ++ r) := by
  match hs : skipB e with
  | [] =>
    obtain ⟨c, hc, hb⟩ := h
    have hsp : e.takeWhile isBlank ++ skipB e = e := List.takeWhile_append_dropWhile
    rw [hs, List.append_nil] at hsp
    rw [← hsp] at hc
    rw [mem_takeWhile_blank hc] at hb
    cases hb
  | c :: s =>
    have hsp : e.takeWhile isBlank ++ skipB e = e := List.takeWhile_append_dropWhile
    rw [hs] at hsp
    refine ⟨c, s, rfl, ?_, ?_⟩
    · intro d hd
      rw [← hsp]
      exact List.mem_append_right _ hd
    · intro r
      rw [← hsp, List.append_assoc, skipB_blank (fun y hy => mem_takeWhile_blank hy), List.cons_append, skipB_cons (skipB_head hs)]

theorem processLua_ins {e : List Char} (he : FineIns e) (st : List Bool) (rest : List Char) : processLua (st, e ++ '$' :: rest) = some (st, rest) := by
  obtain ⟨h1, h2⟩ := he
  obtain ⟨c, s, h3, h4, h5⟩ := skipB_some h2
  unfold processLua
  dsimp only
  rw [h5]
  have hc : c ≠ '$' := fun h => h1 (h4 _ (by simp [h]))
  split
  · rename_i h; cases h; exact absurd rfl hc
  · rw [← List.cons_append, reach_stop]
    intro h
    exact h1 (h4 _ h)

/-- `jumpOverNestedBlocks` under way. -/
def nest (cin cout : Char) (x : NestAt) : Option LuaAt := loopRun (nestStep cin cout) (x.rest.length + 1) x

theorem nest_next {cin cout : Char} {x x' : NestAt} (h : nestStep cin cout x = .next x') : nest cin cout x = nest cin cout x' :=
  loop_next (m := fun x : NestAt => x.rest.length) (fun s s' => nestStep_dec cin cout s s') h

theorem nest_blanks {cin cout : Char} {b : List Char} (hb : ∀ c ∈ b, isBlank c = true) (st : List Bool) (k : Int) (s : List Char) :
    nest cin cout ⟨st, k, b ++ s⟩ = nest cin cout ⟨st, k, s⟩ := by
  have h : nestStep cin cout ⟨st, k, b ++ s⟩ = nestStep cin cout ⟨st, k, s⟩ := by
    unfold nestStep
    dsimp only
    rw [skipB_blank hb]
  match h' : nestStep cin cout ⟨st, k, s⟩ with
  | .stop a => unfold nest; rw [loop_stop _ (h.trans h'), loop_stop _ h']
  | .fail => unfold nest; rw [loopRun, loopRun, h, h']
  | .next x => exact (nest_next (h.trans h')).trans (nest_next h').symm

/-- Two different characters without other meaning. -/
def Pair (cin cout : Char) : Prop := (∀ c, c = cin ∨ c = cout → c ∉ ['\n', '\\', '$', '/', '"', ' ', '\t', '\r', '*']) ∧ cin ≠ cout

theorem jumpOverString_end (rest : List Char) : ∀ (l : List StrItem), (UItem.str l).Fine '(' ')' → ∀ a, a ≠ StrAt.esc →
    ∃ x, jumpOverString true a (l.flatMap StrItem.src ++ '"' :: rest) = some (x, rest) := by
  intro l
  induction l with
  | nil =>
    intro _ a ha
    cases a with
    | start => exact ⟨[], by rw [List.flatMap_nil, List.nil_append, jumpOverString, if_neg (by simp [isBlank]), if_pos rfl]⟩
    | chunk => exact ⟨[], by rw [List.flatMap_nil, List.nil_append, jumpOverString, if_pos rfl]⟩
    | esc => exact absurd rfl ha
  | cons i l ih =>
    intro h a ha
    have ih := ih (fun j hj => h j (by simp [hj]))
    obtain ⟨h1, h2⟩ := h i (by simp)
    cases i with
    | raw c =>
      obtain ⟨h3, h4⟩ := h1 c rfl
      simp only [List.flatMap_cons, StrItem.src, List.cons_append, List.nil_append]
      cases a with
      | start =>
        rw [jumpOverString]
        split
        · exact ih .start (by simp)
        · obtain ⟨x, hx⟩ := ih .chunk (by simp)
          exact ⟨c :: x, by simp [hx]⟩
      | chunk =>
        obtain ⟨x, hx⟩ := ih .chunk (by simp)
        exact ⟨c :: x, by rw [jumpOverString, if_neg h3, if_neg h4, hx]; rfl⟩
      | esc => exact absurd rfl ha
    | esc c =>
      have h3 := h2 c rfl
      obtain ⟨x, hx⟩ := ih .start (by simp)
      simp only [List.flatMap_cons, StrItem.src, List.cons_append, List.nil_append]
      have he : jumpOverString true .esc (c :: (l.flatMap StrItem.src ++ '"' :: rest)) = some ('\\' :: '\\' :: c :: x, rest) := by
        rw [jumpOverString, if_neg (by simp [h3]), hx]
        rfl
      refine ⟨'\\' :: '\\' :: c :: x, ?_⟩
      cases a with
      | start => rw [jumpOverString, if_neg (by simp [isBlank]), if_neg (by decide), if_pos rfl, he]
      | chunk => rw [jumpOverString, if_neg (by decide), if_pos rfl, he]
      | esc => exact absurd rfl ha

/-- Depth after some brackets. -/
def height (k : Int) : List Bool → Int
  | [] => k
  | true :: b => height (k + 1) b
  | false :: b => height (k - 1) b

/-- The depth stays positive. -/
def Above (k : Int) : List Bool → Prop
  | [] => True
  | true :: b => Above (k + 1) b
  | false :: b => 1 ≤ k - 1 ∧ Above (k - 1) b

theorem above_append (a b : List Bool) : ∀ k, Above k (a ++ b) ↔ Above k a ∧ Above (height k a) b := by
  induction a with
  | nil => intro k; simp [Above, height]
  | cons x a ih =>
    intro k
    cases x
    · simp only [List.cons_append, Above, height, ih, and_assoc]
    · simp only [List.cons_append, Above, height, ih]

theorem height_append (a b : List Bool) : ∀ k, height k (a ++ b) = height (height k a) b := by
  induction a with
  | nil => intro k; rfl
  | cons x a ih => intro k; cases x <;> simp only [List.cons_append, height, ih]

theorem Nested.level {b : List Bool} (h : Nested b) : ∀ k, height k b = k ∧ (1 ≤ k → Above k b) := by
  induction h with
  | nil => intro k; exact ⟨rfl, fun _ => trivial⟩
  | @block a b _ _ iha ihb =>
    intro k
    have h1 : (height k (true :: a ++ false :: b)) = k := by
      rw [List.cons_append, height, height_append, (iha (k + 1)).1, height]
      rw [show k + 1 - 1 = k by omega, (ihb k).1]
    refine ⟨h1, fun hk => ?_⟩
    rw [List.cons_append, Above, above_append, (iha (k + 1)).1]
    refine ⟨(iha (k + 1)).2 (by omega), ?_⟩
    rw [Above, show k + 1 - 1 = k by omega]
    exact ⟨hk, (ihb k).2 hk⟩

theorem itemsSrc_cons (cin cout : Char) (i : UItem) (l : List UItem) : itemsSrc cin cout (i :: l) = i.src cin cout ++ itemsSrc cin cout l := rfl

/-- `jumpOverNestedBlocks` goes over the parts of a unit. -/
theorem nest_items {cin cout : Char} (hp : Pair cin cout) {tail : List Char} (htail : ∃ c t, tail = c :: t ∧ isBlank c = false ∧ c ≠ '/' ∧ c ≠ '*') :
    ∀ (l : List UItem), FineItems cin cout l → ∀ (π π' : List Nat) (brs : List Bool) (k : Int), pathBrackets π l = some (brs, π') → Above k brs →
      (1 ≤ k ∨ (UItem.opn ∉ l ∧ UItem.cls ∉ l)) →
      nest cin cout ⟨sideStack π, k, itemsSrc cin cout l ++ tail⟩ = nest cin cout ⟨sideStack π', height k brs, tail⟩ := by
  intro l
  induction l with
  | nil => intro _ π π' brs k h _ _; cases h; rfl
  | cons i l ih =>
    intro hf π π' brs k h ha hk
    obtain ⟨h1, h2, h3, h4, h5⟩ := hf
    have hk' : 1 ≤ k ∨ (UItem.opn ∉ l ∧ UItem.cls ∉ l) := by
      rcases hk with hk | ⟨hk1, hk2⟩
      · exact .inl hk
      · exact .inr ⟨fun h => hk1 (by simp [h]), fun h => hk2 (by simp [h])⟩
    have ihn : pathBrackets π l = some (brs, π') → nest cin cout ⟨sideStack π, k, itemsSrc cin cout l ++ tail⟩ = nest cin cout ⟨sideStack π', height k brs, tail⟩ :=
      fun h => ih h2 π π' brs k h ha hk'
    rw [itemsSrc_cons, List.append_assoc]
    cases i with
    | ch c =>
      have hc : c ≠ '\\' ∧ c ≠ '$' ∧ c ≠ '/' ∧ c ≠ '"' ∧ c ≠ cin ∧ c ≠ cout := by
        simpa [UItem.Fine] using h1
      refine Eq.trans ?_ (ihn h)
      by_cases hb : isBlank c = true
      · exact nest_blanks (b := [c]) (by simpa using hb) _ _ _
      · apply nest_next
        unfold nestStep
        dsimp only [UItem.src, List.cons_append, List.nil_append]
        rw [skipB_cons (by simpa using hb)]
        dsimp only
        split
        · rfl
        · rw [if_neg hc.1, if_neg hc.2.1, if_neg hc.2.2.1, if_neg hc.2.2.2.1, if_neg hc.2.2.2.2.1, if_neg hc.2.2.2.2.2]
    | esc c =>
      refine Eq.trans ?_ (ihn h)
      apply nest_next
      unfold nestStep
      dsimp only [UItem.src, List.cons_append, List.nil_append]
      rw [skipB_cons (by decide)]
      dsimp only
      rw [if_neg (by decide), if_pos rfl, skipB_cons h1]
    | lineC c =>
      obtain ⟨l', hl'⟩ := h3 c rfl
      refine Eq.trans ?_ (ihn h)
      apply nest_next
      unfold nestStep
      dsimp only [UItem.src, List.cons_append, List.nil_append]
      rw [skipB_cons (by decide)]
      dsimp only
      rw [if_neg (by decide), if_neg (by decide), if_neg (by decide), if_pos rfl, jumpOverComment_line (skipB_cons (by decide) _)]
      have : (c ++ (itemsSrc cin cout l ++ tail)).dropWhile (fun x => decide (x ≠ '\n')) = itemsSrc cin cout l ++ tail := by
        have hh := (takeWhile_stop (seps := ['\n']) (w := c) (rest := itemsSrc cin cout l ++ tail) (by
          intro d hd hd'
          rw [List.mem_singleton] at hd'
          exact h1 (hd' ▸ hd)) (.inr ⟨'\n', itemsSrc cin cout l' ++ tail, by rw [hl', itemsSrc_cons]; rfl, by simp⟩)).2
        simpa using hh
      rw [this]
    | blockC c =>
      refine Eq.trans ?_ (ihn h)
      apply nest_next
      unfold nestStep
      dsimp only [UItem.src, List.cons_append, List.nil_append]
      rw [skipB_cons (by decide)]
      dsimp only
      rw [if_neg (by decide), if_neg (by decide), if_neg (by decide), if_pos rfl,
        jumpOverComment_block (n := c.count '\n') (r := itemsSrc cin cout l ++ tail) (skipB_cons (by decide) _) (by
          rw [List.append_assoc]
          exact closeC_apart _ _ c (le_refl _) h1)]
    | str s =>
      refine Eq.trans ?_ (ihn h)
      apply nest_next
      unfold nestStep
      dsimp only [UItem.src, List.cons_append, List.nil_append]
      rw [skipB_cons (by decide)]
      dsimp only
      obtain ⟨x, hx⟩ := jumpOverString_end (itemsSrc cin cout l ++ tail) s h1 .start (by simp)
      rw [if_neg (by decide), if_neg (by decide), if_neg (by decide), if_neg (by decide), if_pos rfl, List.append_assoc, List.singleton_append, hx]
    | ins e =>
      refine Eq.trans ?_ (ihn h)
      apply nest_next
      unfold nestStep
      dsimp only [UItem.src, List.cons_append, List.nil_append]
      rw [skipB_cons (by decide)]
      dsimp only
      rw [if_neg (by decide), if_neg (by decide), if_pos rfl, List.append_assoc, List.singleton_append, processLua_ins h1]
    | slash =>
      refine Eq.trans ?_ (ihn h)
      have hno : ∀ c s, skipB (itemsSrc cin cout l ++ tail) = c :: s → c ≠ '/' ∧ c ≠ '*' := by
        intro c s hs
        by_cases he : ∃ c ∈ itemsSrc cin cout l, isBlank c = false
        · obtain ⟨d, t, h6, _, h7⟩ := skipB_some he
          rw [h7] at hs
          cases hs
          exact h5 rfl _ _ h6
        · have : ∀ c ∈ itemsSrc cin cout l, isBlank c = true := by
            intro c hc
            cases hb : isBlank c with
            | true => rfl
            | false => exact absurd ⟨c, hc, hb⟩ he
          rw [skipB_blank this] at hs
          obtain ⟨d, t, rfl, hb, hd⟩ := htail
          rw [skipB_cons hb] at hs
          cases hs
          exact hd
      have hstep : nestStep cin cout ⟨sideStack π, k, UItem.slash.src cin cout ++ (itemsSrc cin cout l ++ tail)⟩ =
          .next ⟨sideStack π, k, skipB (itemsSrc cin cout l ++ tail)⟩ := by
        unfold nestStep
        dsimp only [UItem.src, List.cons_append, List.nil_append]
        rw [skipB_cons (by decide)]
        dsimp only
        rw [if_neg (by decide), if_neg (by decide), if_neg (by decide), if_pos rfl, jumpOverComment_not hno]
      rw [nest_next hstep]
      have hsp : (itemsSrc cin cout l ++ tail).takeWhile isBlank ++ skipB (itemsSrc cin cout l ++ tail) = itemsSrc cin cout l ++ tail :=
        List.takeWhile_append_dropWhile
      conv_rhs => rw [← hsp]
      rw [nest_blanks (fun y hy => mem_takeWhile_blank hy)]
    | lua w =>
      simp only [pathBrackets, Option.bind_eq_some_iff] at h
      obtain ⟨π1, h6, h7⟩ := h
      refine Eq.trans ?_ (ih h2 π1 π' brs k h7 ha hk')
      apply nest_next
      unfold nestStep
      dsimp only [UItem.src, List.cons_append, List.nil_append]
      rw [skipB_cons (by decide)]
      dsimp only
      rw [if_neg (by decide), if_neg (by decide), if_pos rfl, List.append_assoc, List.singleton_append, processLua_lua h1 h6]
    | luaC w =>
      simp only [pathBrackets, Option.bind_eq_some_iff] at h
      obtain ⟨π1, h6, h7⟩ := h
      obtain ⟨c, l', hl', hc⟩ := h4 w rfl
      refine Eq.trans ?_ (ih h2 π1 π' brs k h7 ha hk')
      apply nest_next
      unfold nestStep
      dsimp only [UItem.src, List.cons_append, List.nil_append]
      rw [skipB_cons (by decide)]
      dsimp only
      rw [if_neg (by decide), if_neg (by decide), if_pos rfl, List.append_assoc]
      have := processLua_luaC h1 h6 (rest := itemsSrc cin cout l ++ tail) (.inr ⟨c, itemsSrc cin cout l' ++ tail, by rw [hl', itemsSrc_cons]; rfl, hc⟩)
      simp only [List.cons_append, List.nil_append]
      rw [this]
    | opn =>
      have hk1 : 1 ≤ k := by
        rcases hk with hk | hk
        · exact hk
        · exact absurd (by simp) hk.1
      have hc := hp.1 cin (.inl rfl)
      simp only [List.mem_cons, List.not_mem_nil, or_false, not_or] at hc
      simp only [pathBrackets, Option.map_eq_some_iff, Prod.mk.injEq] at h
      obtain ⟨⟨b1, π1⟩, h6, h7, h8⟩ := h
      dsimp only at h7 h8
      subst h8
      have hstep : nestStep cin cout ⟨sideStack π, k, UItem.opn.src cin cout ++ (itemsSrc cin cout l ++ tail)⟩ =
          .next ⟨sideStack π, if π.all (· == 0) then k + 1 else k, itemsSrc cin cout l ++ tail⟩ := by
        unfold nestStep
        dsimp only [UItem.src, List.cons_append, List.nil_append]
        rw [skipB_cons (by simp [isBlank, hc])]
        dsimp only
        rw [if_neg hc.1, if_neg hc.2.1, if_neg hc.2.2.1, if_neg hc.2.2.2.1, if_neg hc.2.2.2.2.1, if_pos rfl, consider_all]
      rw [nest_next hstep]
      split at h7
      · rename_i hall
        subst h7
        rw [if_pos hall]
        exact ih h2 π π1 b1 (k + 1) h6 ha (.inl (by omega))
      · rename_i hall
        subst h7
        rw [if_neg hall]
        exact ih h2 π π1 b1 k h6 ha (.inl hk1)
    | cls =>
      have hk1 : 1 ≤ k := by
        rcases hk with hk | hk
        · exact hk
        · exact absurd (by simp) hk.2
      have hc := hp.1 cout (.inr rfl)
      simp only [List.mem_cons, List.not_mem_nil, or_false, not_or] at hc
      simp only [pathBrackets, Option.map_eq_some_iff, Prod.mk.injEq] at h
      obtain ⟨⟨b1, π1⟩, h6, h7, h8⟩ := h
      dsimp only at h7 h8
      subst h8
      have hstep : (if π.all (· == 0) then k - 1 else k) ≠ 0 →
          nestStep cin cout ⟨sideStack π, k, UItem.cls.src cin cout ++ (itemsSrc cin cout l ++ tail)⟩ =
          .next ⟨sideStack π, if π.all (· == 0) then k - 1 else k, itemsSrc cin cout l ++ tail⟩ := by
        intro hz
        unfold nestStep
        dsimp only [UItem.src, List.cons_append, List.nil_append]
        rw [skipB_cons (by simp [isBlank, hc])]
        dsimp only
        rw [if_neg hc.1, if_neg hc.2.1, if_neg hc.2.2.1, if_neg hc.2.2.2.1, if_neg hc.2.2.2.2.1, if_neg (fun h => hp.2 h.symm), if_pos rfl, consider_all,
          if_neg hz]
      split at h7
      · rename_i hall
        subst h7
        rw [if_pos hall] at hstep
        obtain ⟨ha1, ha2⟩ := ha
        rw [nest_next (hstep (by omega))]
        exact ih h2 π π1 b1 (k - 1) h6 ha2 (.inl ha1)
      · rename_i hall
        subst h7
        rw [if_neg hall] at hstep
        rw [nest_next (hstep (by omega))]
        exact ih h2 π π1 b1 k h6 ha (.inl hk1)

theorem pair_paren : Pair '(' ')' := ⟨by rintro c (rfl | rfl) <;> decide, by decide⟩

theorem pair_brace : Pair '{' '}' := ⟨by rintro c (rfl | rfl) <;> decide, by decide⟩

/-- A block with well nested content. -/
theorem nest_block {cin cout : Char} (hp : Pair cin cout) {l : List UItem} (hl : FineItems cin cout l) {brs : List Bool} (h : pathBrackets [] l = some (brs, []))
    (hn : Nested brs) (rest : List Char) : nest cin cout ⟨[], 0, cin :: itemsSrc cin cout l ++ cout :: rest⟩ = some ([], rest) := by
  have hc := hp.1 cin (.inl rfl)
  have hd := hp.1 cout (.inr rfl)
  simp only [List.mem_cons, List.not_mem_nil, or_false, not_or] at hc hd
  have h1 : nestStep cin cout ⟨[], 0, cin :: (itemsSrc cin cout l ++ cout :: rest)⟩ = .next ⟨[], 1, itemsSrc cin cout l ++ cout :: rest⟩ := by
    unfold nestStep
    dsimp only
    rw [skipB_cons (by simp [isBlank, hc])]
    dsimp only
    rw [if_neg hc.1, if_neg hc.2.1, if_neg hc.2.2.1, if_neg hc.2.2.2.1, if_neg hc.2.2.2.2.1, if_pos rfl]
    rfl
  rw [List.cons_append, nest_next h1]
  have h2 := nest_items hp (tail := cout :: rest) ⟨cout, rest, rfl, by simp [isBlank, hd], hd.2.2.2.1, hd.2.2.2.2.2.2.2.2⟩ l hl [] [] brs 1 h
    ((hn.level 1).2 (le_refl _)) (.inl (le_refl _))
  rw [(hn.level 1).1] at h2
  refine h2.trans ?_
  apply loop_stop
  unfold nestStep
  dsimp only
  rw [skipB_cons (by simp [isBlank, hd])]
  dsimp only
  rw [if_neg hd.1, if_neg hd.2.1, if_neg hd.2.2.1, if_neg hd.2.2.2.1, if_neg hd.2.2.2.2.1, if_neg (fun h => hp.2 h.symm), if_pos rfl]
  rfl

/-- The source of a unit after its name. -/
def SrcUnit.after (u : SrcUnit) (rest : List Char) : List Char :=
  '(' :: u.ioSrc ++ ')' :: (itemsSrc '{' '}' u.pre ++ ('{' :: itemsSrc '{' '}' u.body ++ '}' :: rest))

theorem jumpOverUnit_fine {u : SrcUnit} (hu : u.Fine) (rest : List Char) :
    jumpOverUnit (u.b2 ++ u.after rest) =
      some (u.after rest, itemsSrc '{' '}' u.pre ++ ('{' :: itemsSrc '{' '}' u.body ++ '}' :: rest), rest) := by
  obtain ⟨b1, h1, h1'⟩ := hu.ioNested
  obtain ⟨b2, h2, h2'⟩ := hu.bodyNested
  have hio : skipB (u.b2 ++ u.after rest) = u.after rest := by
    rw [skipB_blank hu.b2]
    exact skipB_cons (by decide) _
  have e1 : jumpOverNested '(' ')' ([], u.after rest) = some ([], itemsSrc '{' '}' u.pre ++ ('{' :: itemsSrc '{' '}' u.body ++ '}' :: rest)) :=
    nest_block pair_paren hu.io h1 h1' _
  have e2 : jumpOverNested '{' '}' ([], itemsSrc '{' '}' u.pre ++ ('{' :: itemsSrc '{' '}' u.body ++ '}' :: rest)) = some ([], rest) := by
    have h3 := nest_items pair_brace (tail := '{' :: itemsSrc '{' '}' u.body ++ '}' :: rest) ⟨'{', _, rfl, by decide, by decide, by decide⟩ u.pre hu.pre [] [] [] 0
      hu.preNone.1 trivial (.inr hu.preNone.2)
    exact h3.trans (nest_block pair_brace hu.body h2 h2' rest)
  unfold jumpOverUnit
  dsimp only
  rw [hio, e1]
  dsimp only
  rw [if_neg (by simp), e2]
  rfl

/-- `decomposeSource` under way. -/
def top (len : Nat) (x : TopAt) : Option (List UnitLoc) := loopRun (topStep len) (x.rest.length + 1) x

theorem top_next {len : Nat} {x x' : TopAt} (h : topStep len x = .next x') : top len x = top len x' :=
  loop_next (m := fun x : TopAt => x.rest.length) (fun s s' => topStep_dec len s s') h

theorem top_blanks {len : Nat} {b : List Char} (hb : ∀ c ∈ b, isBlank c = true) (st : List Bool) (us : List UnitLoc) (s : List Char) :
    top len ⟨st, us, b ++ s⟩ = top len ⟨st, us, s⟩ := by
  have h : topStep len ⟨st, us, b ++ s⟩ = topStep len ⟨st, us, s⟩ := by
    unfold topStep
    dsimp only
    rw [skipB_blank hb]
  match h' : topStep len ⟨st, us, s⟩ with
  | .stop a => unfold top; rw [loop_stop _ (h.trans h'), loop_stop _ h']
  | .fail => unfold top; rw [loopRun, loopRun, h, h']
  | .next x => exact (top_next (h.trans h')).trans (top_next h').symm

theorem readStr_stop {lead : Bool} {seps w rest : List Char} {c : Char} {s : List Char} (hw : w = c :: s) (hb : isBlank c = false) (h : ∀ d ∈ w, d ∉ seps)
    (hr : StopsAt seps rest) : readStr lead seps (w ++ rest) = (w, rest) := by
  have := takeWhile_stop h hr
  rw [hw, List.cons_append, readStr_cons hb]
  rw [hw, List.cons_append] at this
  exact Prod.ext this.1 this.2

theorem SrcUnit.src_eq (u : SrcUnit) (rest : List Char) : u.src ++ rest = u.kw ++ (u.b1 ++ (u.name ++ (u.b2 ++ u.after rest))) := by
  simp [SrcUnit.src, SrcUnit.after]

theorem top_unit {len : Nat} {u : SrcUnit} (hu : u.Fine) (st : List Bool) (us : List UnitLoc) (rest : List Char) :
    top len ⟨st, us, u.src ++ rest⟩ = top len ⟨st, us ++ [{
      name := u.name
      start := len - (u.src ++ rest).length
      ioStart := len - (u.after rest).length
      ioEnd := len - (itemsSrc '{' '}' u.pre ++ ('{' :: itemsSrc '{' '}' u.body ++ '}' :: rest)).length
      fin := len - rest.length }], rest⟩ := by
  apply top_next
  obtain ⟨b, b', hb⟩ := List.exists_cons_of_ne_nil hu.b1.1
  obtain ⟨n, n', hn⟩ := List.exists_cons_of_ne_nil hu.name.1
  have hbb : isBlank b = true := hu.b1.2 b (by simp [hb])
  have hnb : isBlank n = false := by
    cases h : isBlank n with
    | false => rfl
    | true => exact absurd (blank_sep h).2.2 (hu.name.2 n (by simp [hn]))
  have hkw : ∃ c s, u.kw = c :: s ∧ isBlank c = false ∧ c ≠ '\n' ∧ c ≠ '$' ∧ c ≠ '/' ∧ ∀ d ∈ u.kw, d ∉ [' ', '\t', '\r', '/', '*'] := by
    have := hu.kw
    simp only [unitWords, List.mem_cons, List.not_mem_nil, or_false] at this
    rcases this with h | h | h | h <;> rw [h]
    · exact ⟨'u', "nit".toList, rfl, by decide, by decide, by decide, by decide, by decide⟩
    · exact ⟨'a', "lgorithm".toList, rfl, by decide, by decide, by decide, by decide, by decide⟩
    · exact ⟨'a', "lgorithm#".toList, rfl, by decide, by decide, by decide, by decide, by decide⟩
    · exact ⟨'c', "ircuitry".toList, rfl, by decide, by decide, by decide, by decide, by decide⟩
  obtain ⟨c, s, hcs, h1, h2, h3, h4, h5⟩ := hkw
  have e0 : u.src ++ rest = c :: (s ++ (u.b1 ++ (u.name ++ (u.b2 ++ u.after rest)))) := by
    rw [u.src_eq, hcs]
    rfl
  have e1 : readStr true [' ', '\t', '\r', '/', '*'] (c :: (s ++ (u.b1 ++ (u.name ++ (u.b2 ++ u.after rest))))) =
      (u.kw, u.b1 ++ (u.name ++ (u.b2 ++ u.after rest))) := by
    have := readStr_stop (lead := true) hcs h1 h5 (rest := u.b1 ++ (u.name ++ (u.b2 ++ u.after rest)))
      (.inr ⟨b, b' ++ (u.name ++ (u.b2 ++ u.after rest)), by rw [hb]; rfl, (blank_sep hbb).2.1⟩)
    rw [hcs] at this ⊢
    exact this
  have e2 : readStr true ['(', ' ', '\t', '\r'] (u.b1 ++ (u.name ++ (u.b2 ++ u.after rest))) = (u.name, u.b2 ++ u.after rest) := by
    have hs : readStr true ['(', ' ', '\t', '\r'] (u.b1 ++ (u.name ++ (u.b2 ++ u.after rest))) =
        readStr true ['(', ' ', '\t', '\r'] (u.name ++ (u.b2 ++ u.after rest)) := by
      unfold readStr
      dsimp only
      rw [if_pos rfl, if_pos rfl, skipB_blank hu.b1.2]
    rw [hs]
    refine readStr_stop (lead := true) hn hnb hu.name.2 ?_
    match hb2 : u.b2 with
    | [] => exact .inr ⟨'(', _, rfl, by simp⟩
    | x :: y => exact .inr ⟨x, _, rfl, (blank_sep (hu.b2 x (by simp [hb2]))).2.2⟩
  unfold topStep
  dsimp only
  rw [e0, skipB_cons h1]
  dsimp only
  rw [if_neg h2, if_neg h3, if_neg h4, e1]
  dsimp only
  rw [if_pos hu.kw, e2]
  dsimp only
  rw [if_neg hu.name.1, jumpOverUnit_fine hu]

theorem topSrc_cons (i : TopItem) (l : List TopItem) : topSrc (i :: l) = i.src ++ topSrc l := rfl

/-- Text between units is read without finding any. `tail`: the next unit, or nothing. -/
theorem top_text {len : Nat} {last : Bool} {tail : List Char} (htail : (last = true ∧ tail = []) ∨ (last = false ∧ ∃ c t, tail = c :: t ∧ isBlank c = false ∧ c ≠ '/' ∧ c ≠ '*')) :
    ∀ (l : List TopItem), FineTop last l → ∀ (π π' : List Nat) (us : List UnitLoc), topBranches π l = some π' →
      top len ⟨sideStack π, us, topSrc l ++ tail⟩ = top len ⟨sideStack π', us, tail⟩ := by
  intro l
  induction l with
  | nil => intro _ π π' us h; cases h; rfl
  | cons i l ih =>
    intro hf π π' us h
    obtain ⟨h1, h2, h3, h4, h5, h6⟩ := hf
    have hstop : ∀ seps, FineTop.StopsHere last seps (topSrc l) → StopsAt seps (topSrc l ++ tail) := by
      rintro seps (⟨ha, hb⟩ | ⟨c, t, ha, hb⟩)
      · rcases htail with ⟨_, ht⟩ | ⟨ht, _⟩
        · rw [ha, ht]; exact .inl rfl
        · rw [hb] at ht; cases ht
      · rw [ha]; exact .inr ⟨c, t ++ tail, rfl, hb⟩
    rw [topSrc_cons, List.append_assoc]
    cases i with
    | nl =>
      refine Eq.trans ?_ (ih h2 π π' us h)
      apply top_next
      unfold topStep
      dsimp only [TopItem.src, List.cons_append, List.nil_append]
      rw [skipB_cons (by decide)]
      rfl
    | blanks b =>
      refine Eq.trans ?_ (ih h2 π π' us h)
      exact top_blanks h1 _ _ _
    | word w =>
      obtain ⟨h7, h8, c, s, hcs, h9, h10⟩ := h1
      refine Eq.trans ?_ (ih h2 π π' us h)
      apply top_next
      have hb : isBlank c = false := by
        cases hb : isBlank c with
        | false => rfl
        | true => exact absurd (blank_sep hb).2.1 (h7 c (by simp [hcs]))
      have hc := h7 c (by simp [hcs])
      simp only [List.mem_cons, List.not_mem_nil, or_false, not_or] at hc
      have e1 := readStr_stop (lead := true) hcs hb h7 (hstop _ (h3 ⟨w, rfl⟩))
      unfold topStep
      dsimp only [TopItem.src]
      rw [hcs] at e1 ⊢
      rw [List.cons_append] at e1 ⊢
      rw [skipB_cons hb]
      dsimp only
      rw [if_neg h9, if_neg h10, if_neg hc.2.2.2.1, e1]
      dsimp only
      rw [if_neg (hcs ▸ h8), if_neg (by simp)]
    | lineC c =>
      refine Eq.trans ?_ (ih h2 π π' us h)
      apply top_next
      unfold topStep
      dsimp only [TopItem.src, List.cons_append, List.nil_append]
      rw [skipB_cons (by decide)]
      dsimp only
      rw [if_neg (by decide), if_neg (by decide), if_pos rfl, jumpOverComment_line (skipB_cons (by decide) _)]
      have : (c ++ (topSrc l ++ tail)).dropWhile (fun x => decide (x ≠ '\n')) = topSrc l ++ tail := by
        have hh := (takeWhile_stop (seps := ['\n']) (w := c) (rest := topSrc l ++ tail) (by
          intro d hd hd'
          rw [List.mem_singleton] at hd'
          exact h1 (hd' ▸ hd)) (hstop _ (h4 ⟨c, rfl⟩))).2
        simpa using hh
      rw [this]
    | blockC c =>
      refine Eq.trans ?_ (ih h2 π π' us h)
      apply top_next
      unfold topStep
      dsimp only [TopItem.src, List.cons_append, List.nil_append]
      rw [skipB_cons (by decide)]
      dsimp only
      rw [if_neg (by decide), if_neg (by decide), if_pos rfl,
        jumpOverComment_block (n := c.count '\n') (r := topSrc l ++ tail) (skipB_cons (by decide) _) (by
          rw [List.append_assoc]
          exact closeC_apart _ _ c (le_refl _) h1)]
    | ins e =>
      refine Eq.trans ?_ (ih h2 π π' us h)
      apply top_next
      unfold topStep
      dsimp only [TopItem.src, List.cons_append, List.nil_append]
      rw [skipB_cons (by decide)]
      dsimp only
      rw [if_neg (by decide), if_pos rfl, List.append_assoc, List.singleton_append, processLua_ins h1]
    | slash =>
      refine Eq.trans ?_ (ih h2 π π' us h)
      have hno : ∀ c s, skipB (topSrc l ++ tail) = c :: s → c ≠ '/' ∧ c ≠ '*' := by
        intro c s hs
        by_cases he : ∃ c ∈ topSrc l, isBlank c = false
        · obtain ⟨d, t, h7, _, h8⟩ := skipB_some he
          rw [h8] at hs
          cases hs
          exact h6 rfl _ _ h7
        · have : ∀ c ∈ topSrc l, isBlank c = true := by
            intro c hc
            cases hb : isBlank c with
            | true => rfl
            | false => exact absurd ⟨c, hc, hb⟩ he
          rw [skipB_blank this] at hs
          rcases htail with ⟨_, rfl⟩ | ⟨_, d, t, rfl, hb, hd⟩
          · cases hs
          · rw [skipB_cons hb] at hs
            cases hs
            exact hd
      have hstep : topStep len ⟨sideStack π, us, TopItem.slash.src ++ (topSrc l ++ tail)⟩ = .next ⟨sideStack π, us, skipB (topSrc l ++ tail)⟩ := by
        unfold topStep
        dsimp only [TopItem.src, List.cons_append, List.nil_append]
        rw [skipB_cons (by decide)]
        dsimp only
        rw [if_neg (by decide), if_neg (by decide), if_pos rfl, jumpOverComment_not hno]
      rw [top_next hstep]
      have hsp : (topSrc l ++ tail).takeWhile isBlank ++ skipB (topSrc l ++ tail) = topSrc l ++ tail := List.takeWhile_append_dropWhile
      conv_rhs => rw [← hsp]
      rw [top_blanks (fun y hy => mem_takeWhile_blank hy)]
    | star =>
      refine Eq.trans ?_ (ih h2 π π' us h)
      apply top_next
      unfold topStep
      dsimp only [TopItem.src, List.cons_append, List.nil_append]
      rw [skipB_cons (by decide)]
      dsimp only
      have e1 : (readStr true [' ', '\t', '\r', '/', '*'] ('*' :: (topSrc l ++ tail))).1 = [] := by
        rw [readStr_cons (by decide)]
        rfl
      rw [if_neg (by decide), if_neg (by decide), if_neg (by decide), e1, if_neg (by decide), if_pos rfl]
    | lua w =>
      simp only [topBranches, Option.bind_eq_some_iff] at h
      obtain ⟨π1, h7, h8⟩ := h
      refine Eq.trans ?_ (ih h2 π1 π' us h8)
      apply top_next
      unfold topStep
      dsimp only [TopItem.src, List.cons_append, List.nil_append]
      rw [skipB_cons (by decide)]
      dsimp only
      rw [if_neg (by decide), if_pos rfl, List.append_assoc, List.singleton_append, processLua_lua h1 h7]
    | luaC w =>
      simp only [topBranches, Option.bind_eq_some_iff] at h
      obtain ⟨π1, h7, h8⟩ := h
      refine Eq.trans ?_ (ih h2 π1 π' us h8)
      apply top_next
      unfold topStep
      dsimp only [TopItem.src, List.cons_append, List.nil_append]
      rw [skipB_cons (by decide)]
      dsimp only
      rw [if_neg (by decide), if_pos rfl, List.append_assoc]
      have := processLua_luaC h1 h7 (hstop _ (h5 ⟨w, rfl⟩))
      simp only [List.cons_append, List.nil_append]
      rw [this]

/-- Where the units are. -/
def unitLocs : Nat → List (List TopItem × SrcUnit) → List UnitLoc
  | _, [] => []
  | off, (t, u) :: ps =>
    { name := u.name
      start := off + (topSrc t).length
      ioStart := off + (topSrc t).length + (u.kw ++ u.b1 ++ u.name ++ u.b2).length
      ioEnd := off + (topSrc t).length + (u.kw ++ u.b1 ++ u.name ++ u.b2).length + u.ioSrc.length + 2
      fin := off + (topSrc t).length + u.src.length } :: unitLocs (off + (topSrc t).length + u.src.length) ps

theorem SrcUnit.src_head {u : SrcUnit} (hu : u.Fine) (rest : List Char) : ∃ c t, u.src ++ rest = c :: t ∧ isBlank c = false ∧ c ≠ '/' ∧ c ≠ '*' := by
  rw [u.src_eq]
  have := hu.kw
  simp only [unitWords, List.mem_cons, List.not_mem_nil, or_false] at this
  rcases this with h | h | h | h <;> rw [h] <;> exact ⟨_, _, rfl, by decide, by decide, by decide⟩

theorem wholeSource_cons (t : List TopItem) (u : SrcUnit) (ps : List (List TopItem × SrcUnit)) (last : List TopItem) :
    wholeSource ((t, u) :: ps) last = topSrc t ++ (u.src ++ wholeSource ps last) := by
  simp [wholeSource]

theorem top_source {len : Nat} {last : List TopItem} (hl : FineTop true last) : ∀ (ps : List (List TopItem × SrcUnit)),
    (∀ p ∈ ps, FineTop false p.1 ∧ p.2.Fine) → ∀ (π π' : List Nat) (us : List UnitLoc) (off : Nat), sourceBranches last π ps = some π' →
      len = off + (wholeSource ps last).length → top len ⟨sideStack π, us, wholeSource ps last⟩ = some (us ++ unitLocs off ps) := by
  intro ps
  induction ps with
  | nil =>
    intro _ π π' us off h hlen
    have := top_text (len := len) (tail := []) (.inl ⟨rfl, rfl⟩) last hl π π' us h
    simp only [wholeSource, List.flatMap_nil, List.nil_append, unitLocs, List.append_nil] at this ⊢
    rw [this]
    rfl
  | cons p ps ih =>
    intro hp π π' us off h hlen
    obtain ⟨t, u⟩ := p
    obtain ⟨h1, h2⟩ := hp (t, u) (by simp)
    have ih := ih (fun q hq => hp q (by simp [hq]))
    simp only [sourceBranches, Option.bind_eq_some_iff] at h
    obtain ⟨π1, h3, h4⟩ := h
    rw [wholeSource_cons, List.length_append, List.length_append] at hlen
    rw [wholeSource_cons, top_text (.inr ⟨rfl, u.src_head h2 _⟩) t h1 π π1 us h3, top_unit h2,
      ih π1 π' _ (off + (topSrc t).length + u.src.length) h4 (by omega), unitLocs, List.append_assoc]
    congr 1
    simp only [List.singleton_append]
    have hsrc := congrArg List.length (u.src_eq (wholeSource ps last))
    have hsrc0 := congrArg List.length (u.src_eq [])
    simp only [SrcUnit.after, List.length_append, List.length_cons, List.length_nil] at hsrc hsrc0
    congr 2
    simp only [UnitLoc.mk.injEq, true_and, SrcUnit.after, List.length_append, List.length_cons]
    refine ⟨by omega, by omega, by omega, by omega⟩

theorem decompose_source {last : List TopItem} (hl : FineTop true last) {ps : List (List TopItem × SrcUnit)} (hp : ∀ p ∈ ps, FineTop false p.1 ∧ p.2.Fine)
    {π : List Nat} (h : sourceBranches last [] ps = some π) : decomposeSource (wholeSource ps last) = some (unitLocs 0 ps) :=
  top_source hl ps hp [] π [] 0 h (by omega)

theorem cut_mid (a b c : List Char) {x y : Nat} (hx : x = a.length) (hy : y = a.length + b.length) : cut (a ++ (b ++ c)) x y = b := by
  subst hx hy
  unfold cut
  rw [List.drop_left, Nat.add_sub_cancel_left, List.take_left]

theorem prepare_source (last : List TopItem) (s : List Char) : ∀ (ps : List (List TopItem × SrcUnit)) (p : List Char) (n : Nat),
    s = p ++ wholeSource ps last → prepareFrom s (unitLocs p.length ps) p.length n = programOf last ps n := by
  intro ps
  induction ps with
  | nil =>
    intro p n h
    have : s.drop p.length = topSrc last := by rw [h, List.drop_left]; rfl
    simp only [unitLocs, prepareFrom, programOf, this]
    cases luaCodeSplit true (topSrc last) n <;> rfl
  | cons q ps ih =>
    intro p n h
    obtain ⟨t, u⟩ := q
    rw [wholeSource_cons] at h
    have e1 : cut s p.length (p.length + (topSrc t).length) = topSrc t := by
      rw [h]
      exact cut_mid _ _ _ rfl rfl
    have e2 : cut s (p.length + (topSrc t).length) (p.length + (topSrc t).length + u.src.length) = u.src := by
      rw [h, ← List.append_assoc]
      exact cut_mid _ _ _ (by simp) (by simp)
    have e3 : cut s (p.length + (topSrc t).length + (u.kw ++ u.b1 ++ u.name ++ u.b2).length + 1)
        (p.length + (topSrc t).length + (u.kw ++ u.b1 ++ u.name ++ u.b2).length + u.ioSrc.length + 2 - 1) = u.ioSrc := by
      have : s = (p ++ topSrc t ++ (u.kw ++ u.b1 ++ u.name ++ u.b2) ++ ['(']) ++ (u.ioSrc ++
          (')' :: itemsSrc '{' '}' u.pre ++ '{' :: itemsSrc '{' '}' u.body ++ ['}'] ++ wholeSource ps last)) := by
        rw [h]
        simp [SrcUnit.src]
      rw [this]
      refine cut_mid _ _ _ ?_ ?_
      · simp only [List.length_append, List.length_cons, List.length_nil]
      · simp only [List.length_append, List.length_cons, List.length_nil]
        omega
    have ih := ih (p ++ topSrc t ++ u.src)
    simp only [unitLocs, prepareFrom, programOf, e1, e2, e3]
    cases h1 : luaCodeSplit true (topSrc t) n with
    | none => rfl
    | some l =>
      dsimp only [Option.bind_some]
      cases nameToLua u.name with
      | none => rfl
      | some name =>
        cases luaCodeSplit true u.ioSrc l.2 with
        | none => rfl
        | some io =>
          cases luaCodeSplit true u.src l.2 with
          | none => rfl
          | some b =>
            have := ih b.2 (by rw [h]; simp)
            simp only [List.length_append] at this
            simp only [Option.bind_some]
            rw [this]

theorem nameStep_dec (x x' : List NamePart × List Char) (h : nameStep x = .next x') : x'.2.length < x.2.length := by
  unfold nameStep at h
  obtain ⟨t, ht⟩ : ∃ t, skipB x.2 = t := ⟨_, rfl⟩
  have hle := skipB_le x.2
  rw [ht] at h hle
  match t, ht with
  | [], _ => cases h
  | c :: t, ht =>
    have hb := skipB_head ht
    simp only [List.length_cons] at hle
    dsimp only at h
    split at h
    · cases h
    split at h
    · cases h
      have := readStr_le true ['$'] t
      dsimp only
      rw [List.length_drop]
      omega
    · rename_i hc
      cases h
      have := readStr_lt (lead := true) (seps := ['$']) (t := t) hb (readStr_ne hb (by simpa using hc))
      simp only [List.length_cons] at this
      dsimp only
      omega

theorem name_parts : ∀ (l : List NamePart), FineName l → ∀ acc, loopRun nameStep ((l.flatMap NamePart.src).length + 1) (acc, l.flatMap NamePart.src) = some (acc ++ l) := by
  intro l
  induction l with
  | nil => intro _ acc; simp [loopRun, nameStep, skipB]
  | cons i l ih =>
    intro h acc
    obtain ⟨h1, h2, h3⟩ := h
    have key : ∀ s', nameStep (acc, (i :: l).flatMap NamePart.src) = .next s' →
        loopRun nameStep (((i :: l).flatMap NamePart.src).length + 1) (acc, (i :: l).flatMap NamePart.src) = loopRun nameStep (s'.2.length + 1) s' :=
      fun s' hs => loop_next (m := fun x : List NamePart × List Char => x.2.length) nameStep_dec hs
    cases i with
    | expr e =>
      obtain ⟨he, c, s, rfl, hb⟩ := h1
      rw [key (acc ++ [.expr (c :: s)], l.flatMap NamePart.src), ih h2]
      · simp
      · have e1 : readStr true ['$'] ((c :: s) ++ '$' :: l.flatMap NamePart.src) = (c :: s, '$' :: l.flatMap NamePart.src) :=
          readStr_stop rfl hb (by
            intro d hd hd'
            rw [List.mem_singleton] at hd'
            exact he (hd' ▸ hd)) (.inr ⟨_, _, rfl, by simp⟩)
        unfold nameStep
        dsimp only
        rw [List.flatMap_cons]
        simp only [NamePart.src, List.append_assoc, List.cons_append, List.nil_append] at e1 ⊢
        rw [skipB_cons (by decide)]
        dsimp only
        rw [if_neg (by decide), if_pos rfl, e1]
        rfl
    | text t =>
      obtain ⟨ht, c, s, rfl, hb, hn⟩ := h1
      have hc : c ≠ '$' := fun h => ht (by simp [h])
      rw [key (acc ++ [.text (c :: s)], l.flatMap NamePart.src), ih h2]
      · simp
      · have hr : StopsAt ['$'] (l.flatMap NamePart.src) := by
          match l, h3 with
          | [], _ => exact .inl rfl
          | .expr e :: l, _ => exact .inr ⟨'$', _, rfl, by simp⟩
          | .text t :: l, h3 => exact absurd rfl (h3 ⟨_, rfl⟩ t l)
        have e1 : readStr true ['$'] ((c :: s) ++ l.flatMap NamePart.src) = (c :: s, l.flatMap NamePart.src) :=
          readStr_stop rfl hb (by
            intro d hd hd'
            rw [List.mem_singleton] at hd'
            exact ht (hd' ▸ hd)) hr
        unfold nameStep
        dsimp only
        rw [List.flatMap_cons]
        simp only [NamePart.src, List.cons_append] at e1 ⊢
        rw [skipB_cons hb]
        dsimp only
        rw [if_neg hn, if_neg hc, e1]

theorem fine_chs {cin cout : Char} {l : List UItem} (hl : FineItems cin cout l) : ∀ s : List Char, (∀ c ∈ s, c ∉ ['\\', '$', '/', '"', cin, cout]) →
    FineItems cin cout (s.map UItem.ch ++ l) := by
  intro s
  induction s with
  | nil => intro _; exact hl
  | cons c s ih =>
    intro h
    exact ⟨h c (by simp), ih (fun d hd => h d (by simp [hd])), by simp, by simp, by simp⟩

end Silice
