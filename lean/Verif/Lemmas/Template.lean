import Verif.Prelude
import Verif.Model.Template
import Verif.Spec.Template

set_option autoImplicit false

namespace Silice

abbrev Repl := List (List Char × List Char)

/-! ## Texts as segments between percent signs -/

def joinP (a : List Char) : List (List Char) → List Char
  | [] => a
  | b :: l => a ++ '%' :: joinP b l

theorem joinP_append (x a : List Char) (l : List (List Char)) : joinP (x ++ a) l = x ++ joinP a l := by
  cases l <;> simp [joinP]

theorem exists_segs (t : List Char) : ∃ a l, t = joinP a l ∧ '%' ∉ a ∧ ∀ b ∈ l, '%' ∉ b := by
  induction t with
  | nil => exact ⟨[], [], rfl, by simp, by simp⟩
  | cons c t ih =>
    obtain ⟨a, l, h1, h2, h3⟩ := ih
    by_cases hc : c = '%'
    · exact ⟨[], a :: l, by rw [hc, h1]; rfl, by simp, fun b hb => by
        rcases List.mem_cons.mp hb with rfl | hb
        · exact h2
        · exact h3 b hb⟩
    · exact ⟨c :: a, l, by rw [h1]; simpa using (joinP_append [c] a l).symm, by
        simp only [List.mem_cons, not_or]; exact ⟨fun e => hc e.symm, h2⟩, h3⟩

/-- Simultaneous replacement on segments. -/
def simS (R : Repl) (a : List Char) : List (List Char) → List (List Char)
  | [] => [a]
  | [b] => [a, b]
  | b :: c :: r =>
    match R.lookup b with
    | some v => simS R (a ++ v ++ c) r
    | none => a :: simS R b (c :: r)
termination_by l => l.length

theorem simS_prefix (R : Repl) (x : List Char) : ∀ (l : List (List Char)) (a : List Char), ∃ h t,
    simS R a l = h :: t ∧ simS R (x ++ a) l = (x ++ h) :: t := by
  intro l
  induction hn : l.length using Nat.strong_induction_on generalizing l with
  | _ n ih =>
    intro a
    match l, hn with
    | [], _ => exact ⟨a, [], by simp [simS], by simp [simS]⟩
    | [b], _ => exact ⟨a, [b], by simp [simS], by simp [simS]⟩
    | b :: c :: r, hn =>
      simp only [simS]
      cases R.lookup b with
      | none => exact ⟨a, _, rfl, rfl⟩
      | some v =>
        obtain ⟨h, t, h1, h2⟩ := ih r.length (by simp at hn; omega) r rfl (a ++ v ++ c)
        exact ⟨h, t, h1, by simpa using h2⟩

theorem simS_ne_nil (R : Repl) (a : List Char) (l : List (List Char)) : simS R a l ≠ [] := by
  obtain ⟨h, t, e, _⟩ := simS_prefix R [] l a
  rw [e]; simp

/-- Joined again. -/
def joinL : List (List Char) → List Char
  | [] => []
  | a :: l => joinP a l

theorem joinL_prefix (R : Repl) (x a : List Char) (l : List (List Char)) : joinL (simS R (x ++ a) l) = x ++ joinL (simS R a l) := by
  obtain ⟨h, t, h1, h2⟩ := simS_prefix R x l a
  rw [h1, h2]
  exact joinP_append x h t

theorem joinL_cons {a : List Char} {l : List (List Char)} (h : l ≠ []) : joinL (a :: l) = a ++ '%' :: joinL l := by
  cases l with
  | nil => exact absurd rfl h
  | cons b l => rfl

/-! ## Texts and segments -/

theorem getlineC_joinP {b : List Char} (hb : '%' ∉ b) (l : List (List Char)) :
    getlineC '%' (joinP b l) = match l with | [] => (b, none) | c :: r => (b, some (joinP c r)) := by
  induction b with
  | nil => cases l <;> simp [joinP, getlineC]
  | cons x b ih =>
    simp only [List.mem_cons, not_or] at hb
    have hx : x ≠ '%' := fun e => hb.1 e.symm
    have : joinP (x :: b) l = x :: joinP b l := by
      have := joinP_append [x] b l
      simpa using this
    rw [this, getlineC, if_neg hx, ih hb.2]
    cases l <;> rfl

theorem substAll_pre (R : Repl) {a : List Char} (ha : '%' ∉ a) (t : List Char) : substAll R (a ++ t) = a ++ substAll R t := by
  induction a with
  | nil => rfl
  | cons x a ih =>
    simp only [List.mem_cons, not_or] at ha
    rw [List.cons_append, substAll, if_neg fun e => ha.1 e.symm, ih ha.2]
    rfl

theorem substAll_percent (R : Repl) {b : List Char} (hb : '%' ∉ b) (l : List (List Char)) :
    substAll R ('%' :: joinP b l) =
      match l with
      | [] => '%' :: substAll R b
      | c :: r => match R.lookup b with | some v => v ++ substAll R (joinP c r) | none => '%' :: substAll R (joinP b (c :: r)) := by
  rw [substAll, if_pos rfl]
  cases l with
  | nil =>
    have : markerAt R (joinP b []) = none := by unfold markerAt; rw [getlineC_joinP hb]
    split
    · rename_i h; rw [this] at h; cases h
    · rfl
  | cons c r =>
    cases hl : R.lookup b with
    | none =>
      have : markerAt R (joinP b (c :: r)) = none := by unfold markerAt; rw [getlineC_joinP hb]; simp [hl]
      split
      · rename_i h; rw [this] at h; cases h
      · rfl
    | some v =>
      have : markerAt R (joinP b (c :: r)) = some (v, joinP c r) := by unfold markerAt; rw [getlineC_joinP hb]; simp [hl]
      split
      · rename_i h; rw [this] at h; cases h; rfl
      · rename_i h; rw [this] at h; cases h

theorem substAll_segs (R : Repl) : ∀ (l : List (List Char)) (a : List Char), '%' ∉ a → (∀ b ∈ l, '%' ∉ b) →
    substAll R (joinP a l) = joinL (simS R a l) := by
  intro l
  induction hn : l.length using Nat.strong_induction_on generalizing l with
  | _ n ih =>
    intro a ha hl
    match l, hn with
    | [], _ =>
      have := substAll_pre R ha []
      simpa [simS, joinL, joinP, substAll] using this
    | [b], hn =>
      have hb := hl b (by simp)
      have h1 : substAll R b = b := by simpa [substAll] using substAll_pre R hb []
      rw [joinP, substAll_pre R ha, substAll_percent R hb]
      simp [simS, joinL, joinP, h1]
    | b :: c :: r, hn =>
      have hb := hl b (by simp)
      rw [joinP, substAll_pre R ha, substAll_percent R hb]
      simp only [simS]
      cases R.lookup b with
      | none =>
        simp only
        rw [ih (c :: r).length (by simp at hn ⊢; omega) (c :: r) rfl b hb fun d hd => hl d (List.mem_cons_of_mem _ hd)]
        rw [joinL_cons (simS_ne_nil _ _ _)]
      | some v =>
        simp only
        rw [ih r.length (by simp at hn; omega) r rfl c (hl c (by simp)) fun d hd => hl d (by simp [hd])]
        rw [joinL_prefix, List.append_assoc]

theorem replaceAll_pre (k v : List Char) {a : List Char} (ha : '%' ∉ a) (t : List Char) :
    replaceAll k v (a ++ t) = a ++ replaceAll k v t := by
  induction a with
  | nil => rfl
  | cons x a ih =>
    simp only [List.mem_cons, not_or] at ha
    rw [List.cons_append, replaceAll, if_neg, ih ha.2]
    · rfl
    · intro h
      simp only [marker, List.cons_prefix_cons] at h
      exact ha.1 h.1

theorem prefix_joinP {k : List Char} (hk : '%' ∉ k) : ∀ {b : List Char}, '%' ∉ b → ∀ (l : List (List Char)),
    (k ++ ['%'] <+: joinP b l ↔ l ≠ [] ∧ b = k) := by
  induction k with
  | nil =>
    intro b hb l
    cases b with
    | nil =>
      cases l with
      | nil => simp [joinP]
      | cons c r => simp [joinP]
    | cons x b =>
      simp only [List.mem_cons, not_or] at hb
      have : joinP (x :: b) l = x :: joinP b l := by simpa using joinP_append [x] b l
      rw [this]
      simp only [List.nil_append, List.cons_prefix_cons, List.nil_prefix, and_true]
      constructor
      · intro h; exact absurd h hb.1
      · intro h; simp at h
  | cons y k ih =>
    intro b hb l
    simp only [List.mem_cons, not_or] at hk
    cases b with
    | nil =>
      cases l with
      | nil => simp [joinP]
      | cons c r =>
        simp only [joinP, List.nil_append, List.cons_append, List.cons_prefix_cons]
        constructor
        · intro h; exact absurd h.1.symm hk.1
        · intro h; simp at h
    | cons x b =>
      simp only [List.mem_cons, not_or] at hb
      have : joinP (x :: b) l = x :: joinP b l := by simpa using joinP_append [x] b l
      rw [this]
      simp only [List.cons_append, List.cons_prefix_cons, ih hk.2 hb.2 l, List.cons.injEq]
      constructor
      · rintro ⟨h1, h2, h3⟩; exact ⟨h2, h1.symm, h3⟩
      · rintro ⟨h1, h2, h3⟩; exact ⟨h2.symm, h1, h3⟩

theorem replaceAll_percent {k : List Char} (hk : '%' ∉ k) (v : List Char) {b : List Char} (hb : '%' ∉ b) (l : List (List Char)) :
    replaceAll k v ('%' :: joinP b l) =
      match l with
      | [] => '%' :: replaceAll k v b
      | c :: r => if b = k then v ++ replaceAll k v (joinP c r) else '%' :: replaceAll k v (joinP b (c :: r)) := by
  rw [replaceAll]
  have hiff : marker k <+: '%' :: joinP b l ↔ l ≠ [] ∧ b = k := by
    simp only [marker, List.cons_prefix_cons, true_and]
    exact prefix_joinP hk hb l
  cases l with
  | nil => rw [if_neg (by rw [hiff]; simp)]; rfl
  | cons c r =>
    by_cases h : b = k
    · rw [if_pos (hiff.mpr ⟨by simp, h⟩)]
      simp only [if_pos h]
      have : (joinP b (c :: r)).drop (k.length + 1) = joinP c r := by
        rw [joinP, h, show k.length + 1 = (k ++ ['%']).length by simp, show k ++ '%' :: joinP c r = (k ++ ['%']) ++ joinP c r by simp,
          List.drop_left]
      rw [this]
    · rw [if_neg (by rw [hiff]; exact fun e => h e.2)]
      simp only [if_neg h]

theorem lookup_one (k v b : List Char) : ([(k, v)] : Repl).lookup b = if b = k then some v else none := by
  simp only [List.lookup]
  by_cases h : b = k
  · simp [h]
  · rw [if_neg h]
    have : (b == k) = false := by simpa using h
    rw [this]

theorem replaceAll_segs {k : List Char} (hk : '%' ∉ k) (v : List Char) : ∀ (l : List (List Char)) (a : List Char), '%' ∉ a →
    (∀ b ∈ l, '%' ∉ b) → replaceAll k v (joinP a l) = joinL (simS [(k, v)] a l) := by
  intro l
  induction hn : l.length using Nat.strong_induction_on generalizing l with
  | _ n ih =>
    intro a ha hl
    match l, hn with
    | [], _ =>
      have := replaceAll_pre k v ha []
      simpa [simS, joinL, joinP, replaceAll] using this
    | [b], hn =>
      have hb := hl b (by simp)
      have h1 : replaceAll k v b = b := by simpa [replaceAll] using replaceAll_pre k v hb []
      rw [joinP, replaceAll_pre k v ha, replaceAll_percent hk v hb]
      simp [simS, joinL, joinP, h1]
    | b :: c :: r, hn =>
      have hb := hl b (by simp)
      rw [joinP, replaceAll_pre k v ha, replaceAll_percent hk v hb]
      simp only [simS, lookup_one]
      by_cases h : b = k
      · rw [if_pos h, if_pos h]
        simp only
        rw [ih r.length (by simp at hn; omega) r rfl c (hl c (by simp)) fun d hd => hl d (by simp [hd])]
        rw [joinL_prefix, List.append_assoc]
      · rw [if_neg h, if_neg h]
        simp only
        rw [ih (c :: r).length (by simp at hn ⊢; omega) (c :: r) rfl b hb fun d hd => hl d (List.mem_cons_of_mem _ hd)]
        rw [joinL_cons (simS_ne_nil _ _ _)]

/-! ## Separation on segments -/

def CondS (K : List (List Char)) (b c : List Char) : Prop := (b ∈ K → ¬ Ident c) ∧ (c ∈ K → ¬ Ident b)

/-- The segments but the first and the last are those that can be keys. -/
def SepL (K : List (List Char)) : List (List Char) → Prop
  | b :: c :: d :: r => CondS K b c ∧ SepL K (c :: d :: r)
  | _ => True

theorem sepL_tail {K : List (List Char)} {b : List Char} {l : List (List Char)} (h : SepL K (b :: l)) : SepL K l := by
  match l, h with
  | [], _ => trivial
  | [_], _ => trivial
  | _ :: _ :: _, h => exact h.2

theorem sepL_of_separated {K : List (List Char)} : ∀ (l : List (List Char)) (a : List Char), (∀ b ∈ l, '%' ∉ b) →
    Separated K (joinP a l) → SepL K l := by
  intro l
  induction l with
  | nil => intro a _ _; trivial
  | cons b l ih =>
    intro a hl hs
    match l, ih, hl, hs with
    | [], _, _, _ => trivial
    | [c], _, _, _ => trivial
    | c :: d :: r, ih, hl, hs =>
      refine ⟨?_, ih b (fun x hx => hl x (List.mem_cons_of_mem _ hx)) fun p q1 q2 r' e h1 h2 => ?_⟩
      · exact hs a b c (joinP d r) rfl (hl b (by simp)) (hl c (by simp))
      · exact hs (a ++ '%' :: p) q1 q2 r' (by rw [joinP, e]; simp) h1 h2

theorem joinP_joinP : ∀ (l l' : List (List Char)) (a b : List Char), joinP a l ++ '%' :: joinP b l' = joinP a (l ++ b :: l') := by
  intro l
  induction l with
  | nil => intro l' a b; rfl
  | cons c l ih => intro l' a b; simp only [joinP, List.cons_append, List.append_assoc]; rw [ih]

theorem joinP_inj : ∀ (l l' : List (List Char)) (a b : List Char), '%' ∉ a → '%' ∉ b → (∀ x ∈ l, '%' ∉ x) → (∀ x ∈ l', '%' ∉ x) →
    joinP a l = joinP b l' → a = b ∧ l = l' := by
  intro l
  induction l with
  | nil =>
    intro l' a b h1 h2 h3 h4 h5
    have := getlineC_joinP h1 []
    rw [h5, getlineC_joinP h2] at this
    cases l' with
    | nil => simp only [Prod.mk.injEq] at this; exact ⟨this.1.symm, rfl⟩
    | cons c r => simp at this
  | cons c r ih =>
    intro l' a b h1 h2 h3 h4 h5
    have := getlineC_joinP h1 (c :: r)
    rw [h5, getlineC_joinP h2] at this
    cases l' with
    | nil => simp at this
    | cons d r' =>
      simp only [Prod.mk.injEq, Option.some.injEq] at this
      obtain ⟨g1, g2⟩ := ih r' c d (h3 c (by simp)) (h4 d (by simp)) (fun x hx => h3 x (by simp [hx])) (fun x hx => h4 x (by simp [hx]))
        this.2.symm
      exact ⟨this.1.symm, by rw [g1, g2]⟩

theorem separated_of_sepL {K : List (List Char)} (l : List (List Char)) (a : List Char) (ha : '%' ∉ a) (hl : ∀ b ∈ l, '%' ∉ b)
    (h : SepL K l) : Separated K (joinP a l) := by
  intro p q1 q2 r e h1 h2
  obtain ⟨pa, pl, hp1, hp2, hp3⟩ := exists_segs p
  obtain ⟨ra, rl, hr1, hr2, hr3⟩ := exists_segs r
  have : joinP a l = joinP pa (pl ++ q1 :: q2 :: ra :: rl) := by
    rw [e, hp1, hr1, ← joinP_joinP]
    rfl
  obtain ⟨_, rfl⟩ := joinP_inj l _ a pa ha hp2 hl (by
    intro x hx
    simp only [List.mem_append, List.mem_cons] at hx
    rcases hx with hx | rfl | rfl | rfl | hx
    · exact hp3 x hx
    · exact h1
    · exact h2
    · exact hr2
    · exact hr3 x hx) this
  clear e this hp1 hl hp3
  induction pl with
  | nil => exact h.1
  | cons x pl ih => exact ih (sepL_tail h)

instance (k : List Char) : Decidable (Ident k) := inferInstanceAs (Decidable (∀ c ∈ k, identC c = true))

instance (K : List (List Char)) (b c : List Char) : Decidable (CondS K b c) := inferInstanceAs (Decidable (_ ∧ _))

instance SepL.dec (K : List (List Char)) : ∀ l, Decidable (SepL K l)
  | _ :: c :: d :: r => @instDecidableAnd _ _ _ (SepL.dec K (c :: d :: r))
  | [] => isTrue trivial
  | [_] => isTrue trivial
  | [_, _] => isTrue trivial

theorem not_ident_append {a : List Char} (h : ¬ Ident a) (x y : List Char) : ¬ Ident (x ++ a ++ y) :=
  fun hc => h fun c hc' => hc c (by simp [hc'])

theorem not_mem_of {K : List (List Char)} (hK : ∀ k ∈ K, Ident k) {a : List Char} (h : ¬ Ident a) : a ∉ K := fun hc => h (hK a hc)

theorem lookup_mem {R : Repl} {b v : List Char} (h : R.lookup b = some v) : b ∈ R.map Prod.fst ∧ v ∈ R.map Prod.snd := by
  induction R with
  | nil => simp at h
  | cons p R ih =>
    obtain ⟨k, w⟩ := p
    simp only [List.lookup] at h
    cases hb : b == k with
    | true =>
      rw [hb] at h
      simp only [Option.some.injEq] at h
      rw [beq_iff_eq] at hb
      simp [hb, h]
    | false =>
      rw [hb] at h
      obtain ⟨h1, h2⟩ := ih h
      exact ⟨by simp only [List.map_cons, List.mem_cons]; exact Or.inr h1, by simp only [List.map_cons, List.mem_cons]; exact Or.inr h2⟩

theorem lookup_none_iff {R : Repl} {b : List Char} : R.lookup b = none ↔ b ∉ R.map Prod.fst := by
  induction R with
  | nil => simp
  | cons p R ih =>
    obtain ⟨k, w⟩ := p
    simp only [List.lookup, List.map_cons, List.mem_cons, not_or]
    cases hb : b == k with
    | true => rw [beq_iff_eq] at hb; simp [hb]
    | false =>
      have : b ≠ k := by simpa using hb
      simp [ih, this]

/-- The head of the result: the first segment, or a segment that is not a key when a marker follows. -/
theorem simS_head {K : List (List Char)} {R : Repl} (hR : ∀ k ∈ R.map Prod.fst, k ∈ K)
    {b c : List Char} {r : List (List Char)} (hs : SepL K (b :: c :: r)) :
    ∃ h t, simS R b (c :: r) = h :: t ∧ ((h = b ∧ t = simS R c r) ∨ (¬ Ident h ∧ ¬ Ident b)) := by
  cases r with
  | nil => exact ⟨b, [c], by simp [simS], Or.inl ⟨rfl, by simp [simS]⟩⟩
  | cons d r =>
    simp only [simS]
    cases hl : R.lookup c with
    | none => exact ⟨b, _, rfl, Or.inl ⟨rfl, rfl⟩⟩
    | some v =>
      obtain ⟨h, t, h1, h2⟩ := simS_prefix R (b ++ v) r d
      have hb : ¬ Ident b := hs.1.2 (hR c (lookup_mem hl).1)
      refine ⟨b ++ v ++ h, t, h2, Or.inr ⟨?_, hb⟩⟩
      have := not_ident_append hb [] (v ++ h)
      simpa using this

/-- Replacing one marker then others is replacing all. -/
theorem simS_step {K : List (List Char)} (hK : ∀ k ∈ K, Ident k) {k v : List Char} {R : Repl} (hk : k ∈ K)
    (hR : ∀ k ∈ R.map Prod.fst, k ∈ K) : ∀ (l : List (List Char)) (a : List Char), SepL K l →
    (∃ h t, simS [(k, v)] a l = h :: t ∧ simS R h t = simS ((k, v) :: R) a l ∧ SepL K t) := by
  have hR1 : ∀ x ∈ ([(k, v)] : Repl).map Prod.fst, x ∈ K := by simpa using hk
  intro l
  induction hn : l.length using Nat.strong_induction_on generalizing l with
  | _ n ih =>
    intro a hs
    match l, hn, hs with
    | [], _, _ => exact ⟨a, [], by simp [simS], by simp [simS], trivial⟩
    | [b], _, _ => exact ⟨a, [b], by simp [simS], by simp [simS], trivial⟩
    | b :: c :: r, hn, hs =>
      have hlen : (c :: r).length < n := by simp at hn ⊢; omega
      have hlen' : r.length < n := by simp at hn; omega
      by_cases hbk : b = k
      · have e1 : simS [(k, v)] a (b :: c :: r) = simS [(k, v)] (a ++ v ++ c) r := by
          simp only [simS, lookup_one, if_pos hbk]
        have e2 : simS ((k, v) :: R) a (b :: c :: r) = simS ((k, v) :: R) (a ++ v ++ c) r := by
          simp only [simS, List.lookup, hbk, beq_self_eq_true]
        rw [e1, e2]
        exact ih r.length hlen' r rfl _ (sepL_tail (sepL_tail hs))
      · have e1 : simS [(k, v)] a (b :: c :: r) = a :: simS [(k, v)] b (c :: r) := by
          simp only [simS, lookup_one, if_neg hbk]
        have hbk' : (b == k) = false := by simpa using hbk
        obtain ⟨h1, t1, g1, g2, g3⟩ := ih (c :: r).length hlen (c :: r) rfl b (sepL_tail hs)
        obtain ⟨h2, t2, g4, g5⟩ := simS_head hR1 hs
        rw [g1] at g4
        cases g4
        refine ⟨a, h1 :: t1, by rw [e1, g1], ?_, ?_⟩
        · rcases g5 with ⟨rfl, g6⟩ | ⟨g6, g7⟩
          · -- the next segment is unchanged
            obtain ⟨h3, t3, g8, g9⟩ := simS_prefix [(k, v)] [] r c
            rw [g8] at g6
            subst g6
            simp only [simS]
            cases hl : R.lookup h1 with
            | none =>
              rw [List.lookup, hbk', hl]
              simp only
              rw [← g2]
            | some w =>
              rw [List.lookup, hbk', hl]
              simp only
              obtain ⟨h4, t4, g10, g11⟩ := simS_prefix [(k, v)] (a ++ w) r c
              rw [g8] at g10
              cases g10
              obtain ⟨h5, t5, g12, g13, _⟩ := ih r.length hlen' r rfl (a ++ w ++ c) (sepL_tail (sepL_tail hs))
              rw [g11] at g12
              cases g12
              exact g13
          · -- it is not a key, before nor after
            have n1 : R.lookup h1 = none := lookup_none_iff.mpr fun hc => not_mem_of hK g6 (hR _ hc)
            have n2 : R.lookup b = none := lookup_none_iff.mpr fun hc => not_mem_of hK g7 (hR _ hc)
            have e2 : simS ((k, v) :: R) a (b :: c :: r) = a :: simS ((k, v) :: R) b (c :: r) := by
              simp only [simS, List.lookup, hbk', n2]
            rw [e2, ← g2]
            cases t1 with
            | nil => simp [simS]
            | cons x t1 => simp only [simS, n1]
        · -- separation
          match t1, g3, g1, g5 with
          | [], _, _, _ => trivial
          | [x], _, _, _ => trivial
          | x :: y :: t1, g3, g1, g5 =>
            refine ⟨?_, g3⟩
            rcases g5 with ⟨rfl, g6⟩ | ⟨g6, g7⟩
            · cases r with
              | nil => simp [simS] at g6
              | cons d r =>
                obtain ⟨h3, t3, g8, g9⟩ := simS_head hR1 (sepL_tail hs)
                rw [← g6] at g8
                cases g8
                rcases g9 with ⟨rfl, _⟩ | ⟨g9, g10⟩
                · exact hs.1
                · exact ⟨fun _ => g9, fun hc => absurd hc (not_mem_of hK g9)⟩
            · exact ⟨fun hc => absurd hc (not_mem_of hK g6), fun _ => g6⟩

/-- Segments of the result are without percent signs. -/
theorem simS_clean {R : Repl} (hv : ∀ v ∈ R.map Prod.snd, '%' ∉ v) : ∀ (l : List (List Char)) (a : List Char), '%' ∉ a →
    (∀ b ∈ l, '%' ∉ b) → ∀ b ∈ simS R a l, '%' ∉ b := by
  intro l
  induction hn : l.length using Nat.strong_induction_on generalizing l with
  | _ n ih =>
    intro a ha hl b hb
    match l, hn with
    | [], _ => simp only [simS, List.mem_singleton] at hb; rw [hb]; exact ha
    | [c], _ =>
      simp only [simS, List.mem_cons, List.not_mem_nil, or_false] at hb
      rcases hb with rfl | rfl
      · exact ha
      · exact hl _ (by simp)
    | c :: d :: r, hn =>
      simp only [simS] at hb
      cases h : R.lookup c with
      | none =>
        rw [h] at hb
        simp only at hb
        rcases List.mem_cons.mp hb with rfl | hb
        · exact ha
        · exact ih (d :: r).length (by simp at hn ⊢; omega) (d :: r) rfl c (hl c (by simp)) (fun x hx => hl x (List.mem_cons_of_mem _ hx)) b hb
      | some v =>
        rw [h] at hb
        simp only at hb
        have h1 := hl d (by simp)
        have h2 := hv v (lookup_mem h).2
        exact ih r.length (by simp at hn; omega) r rfl (a ++ v ++ d) (by simp [ha, h1, h2]) (fun x hx => hl x (by simp [hx])) b hb

/-- The segments of the result that can be keys are not. -/
theorem simS_none_left {K : List (List Char)} (hK : ∀ k ∈ K, Ident k) {R : Repl} (hR : ∀ k ∈ R.map Prod.fst, k ∈ K) :
    ∀ (l : List (List Char)) (a : List Char), SepL K l → ∀ h t u b, simS R a l = h :: (t ++ [b] ++ u) → u ≠ [] → b ∉ R.map Prod.fst := by
  intro l
  induction hn : l.length using Nat.strong_induction_on generalizing l with
  | _ n ih =>
    intro a hs h t u b he hu
    match l, hn, hs with
    | [], _, _ =>
      simp only [simS, List.cons.injEq] at he
      have := congrArg List.length he.2
      simp at this
    | [c], _, _ =>
      simp only [simS, List.cons.injEq] at he
      have h1 := congrArg List.length he.2
      have h2 : 0 < u.length := List.length_pos_iff.mpr hu
      simp at h1
      omega
    | c :: d :: r, hn, hs =>
      simp only [simS] at he
      cases hl : R.lookup c with
      | some v =>
        rw [hl] at he
        exact ih r.length (by simp at hn; omega) r rfl _ (sepL_tail (sepL_tail hs)) h t u b he hu
      | none =>
        rw [hl] at he
        simp only [List.cons.injEq] at he
        obtain ⟨h1, t1, g1, g2⟩ := simS_head hR hs
        cases t with
        | cons x t =>
          exact ih (d :: r).length (by simp at hn ⊢; omega) (d :: r) rfl c (sepL_tail hs) x t u b (by rw [he.2]; rfl) hu
        | nil =>
          rw [g1] at he
          simp only [List.nil_append, List.singleton_append, List.cons.injEq] at he
          rw [← he.2.1]
          rcases g2 with ⟨rfl, _⟩ | ⟨g2, _⟩
          · exact lookup_none_iff.mp hl
          · exact fun hc => not_mem_of hK g2 (hR _ hc)

/-! ## Passes -/

theorem formatValue_plain (m : List Char) {v : List Char} (h : '$' ∉ v) : formatValue m v = some v := by
  induction v with
  | nil => rw [formatValue]
  | cons c v ih =>
    simp only [List.mem_cons, not_or] at h
    rw [formatValue, ih h.2]
    · rfl
    all_goals (intros; subst_vars; simp at h)

theorem ident_clean {k : List Char} (h : Ident k) : '%' ∉ k := fun hc => absurd (h '%' hc) (by decide)

theorem fromString_segs {K : List (List Char)} (hK : ∀ k ∈ K, Ident k) : ∀ (R : Repl) (a : List Char) (l : List (List Char)),
    (∀ k ∈ R.map Prod.fst, k ∈ K) → (∀ v ∈ R.map Prod.snd, '%' ∉ v ∧ '$' ∉ v) → '%' ∉ a → (∀ b ∈ l, '%' ∉ b) → SepL K l →
    fromString R (joinP a l) = some (joinL (simS R a l)) := by
  intro R
  induction R with
  | nil =>
    intro a l _ _ ha hl _
    have : ∀ (l : List (List Char)) (a : List Char), simS [] a l = a :: l := by
      intro l
      induction l with
      | nil => intro a; simp [simS]
      | cons b l ih =>
        intro a
        cases l with
        | nil => simp [simS]
        | cons c r => simp only [simS, List.lookup]; rw [ih b]
    rw [this]
    rfl
  | cons p R ih =>
    obtain ⟨k, v⟩ := p
    intro a l hR hv ha hl hs
    have hk : k ∈ K := hR k (by simp)
    have hv1 := hv v (by simp)
    simp only [fromString, formatValue_plain _ hv1.2]
    rw [replaceAll_segs (ident_clean (hK k hk)) v l a ha hl]
    obtain ⟨h, t, g1, g2, g3⟩ := simS_step hK (v := v) (R := R) hk (fun x hx => hR x (by simp only [List.map_cons, List.mem_cons]; exact Or.inr hx)) l a hs
    have hcl := simS_clean (R := [(k, v)]) (by simpa using hv1.1) l a ha hl
    rw [g1] at hcl ⊢
    show fromString R (joinP h t) = _
    rw [ih h t (fun x hx => hR x (by simp only [List.map_cons, List.mem_cons]; exact Or.inr hx))
      (fun x hx => hv x (by simp only [List.map_cons, List.mem_cons]; exact Or.inr hx)) (hcl h (by simp))
      (fun b hb => hcl b (by simp [hb])) g3, g2]

theorem lookup_perm {R R' : Repl} (hp : R'.Perm R) (hn : (R.map Prod.fst).Nodup) (b : List Char) : R'.lookup b = R.lookup b := by
  induction hp with
  | nil => rfl
  | cons x h ih =>
    obtain ⟨k, v⟩ := x
    simp only [List.map_cons, List.nodup_cons] at hn
    simp only [List.lookup, ih hn.2]
  | swap x y l =>
    obtain ⟨k, v⟩ := x
    obtain ⟨j, w⟩ := y
    simp only [List.map_cons, List.nodup_cons, List.mem_cons, not_or] at hn
    simp only [List.lookup]
    cases h1 : b == k with
    | false => rfl
    | true =>
      cases h2 : b == j with
      | false => rfl
      | true =>
        rw [beq_iff_eq] at h1 h2
        exact absurd (h1.symm.trans h2) hn.1.1
  | trans h1 h2 ih1 ih2 => rw [ih1 ((h2.map Prod.fst).nodup_iff.mpr hn), ih2 hn]

theorem simS_congr {R R' : Repl} (h : ∀ b, R'.lookup b = R.lookup b) : ∀ (l : List (List Char)) (a : List Char), simS R' a l = simS R a l := by
  intro l
  induction hn : l.length using Nat.strong_induction_on generalizing l with
  | _ n ih =>
    intro a
    match l, hn with
    | [], _ => simp [simS]
    | [c], _ => simp [simS]
    | c :: d :: r, hn =>
      simp only [simS, h]
      cases R.lookup c with
      | none => simp only; rw [ih (d :: r).length (by simp at hn ⊢; omega) (d :: r) rfl c]
      | some v => simp only; rw [ih r.length (by simp at hn; omega) r rfl]

/-! ## Documents -/

def docHead : List (List Char × List Char) → List Char → List Char
  | [], last => last
  | (t, _) :: _, _ => t

def docSegs : List (List Char × List Char) → List Char → List (List Char)
  | [], _ => []
  | (_, k) :: [], last => [k, last]
  | (_, k) :: (t, k') :: d, last => k :: t :: docSegs ((t, k') :: d) last

end Silice
