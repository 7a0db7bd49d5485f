import Verif.Spec.TopPins
import Verif.Lemmas.Text
import Verif.Prelude

/-!
Lemmas about pins and the top module.
-/

set_option autoImplicit false

namespace Silice

theorem lookupT_append {A : Type} (l m : List (Txt × A)) (n : Txt) (a : A) (h : lookupT l n = some a) :
    lookupT (l ++ m) n = some a := by
  induction l with
  | nil => simp [lookupT] at h
  | cons x l ih =>
    obtain ⟨k, b⟩ := x
    simp only [List.cons_append, lookupT] at h ⊢
    by_cases hk : k = n
    · rw [if_pos hk] at h ⊢; exact h
    · rw [if_neg hk] at h ⊢; exact ih h

theorem lookupT_mem {A : Type} {l : List (Txt × A)} {n : Txt} {a : A} (h : lookupT l n = some a) : (n, a) ∈ l := by
  induction l with
  | nil => simp [lookupT] at h
  | cons x l ih =>
    obtain ⟨k, b⟩ := x
    simp only [lookupT] at h
    by_cases hk : k = n
    · rw [if_pos hk, Option.some.injEq] at h; subst hk; subst h; exact List.mem_cons_self ..
    · rw [if_neg hk] at h; exact List.mem_cons_of_mem _ (ih h)

theorem plain_not_mem {n : Txt} (h : PlainName n) {c : Char} (hc : c.isAlphanum = false) (hu : c ≠ '_') : c ∉ n := by
  intro hm
  rcases h.2 c hm with e | e
  · rw [hc] at e; cases e
  · exact hu e

/-- An element that refers to declared pins, within their width. -/
def SelOk (env : PinEnv) : PinSel → Prop
  | .unused => True
  | .whole n => ∃ w, lookupT env.pins n = some w
  | .bit n b => ∃ w, lookupT env.pins n = some w ∧ b < w

/-- Groups refer to declared pins. -/
structure PinsOk (env : PinEnv) : Prop where
  names : ∀ (n : Txt) (w : Nat), (n, w) ∈ env.pins → PlainName n
  groups : ∀ (k : Txt) (ps : List PinSel), (k, ps) ∈ env.groups → ∀ s ∈ ps, SelOk env s

theorem SelOk.mono {env : PinEnv} {m : List (Txt × Nat)} {g : List (Txt × List PinSel)} {s : PinSel} (h : SelOk env s) :
    SelOk ⟨env.pins ++ m, g⟩ s := by
  cases s with
  | unused => trivial
  | whole n => obtain ⟨w, hw⟩ := h; exact ⟨w, lookupT_append _ _ _ _ hw⟩
  | bit n b => obtain ⟨w, hw, hb⟩ := h; exact ⟨w, lookupT_append _ _ _ _ hw, hb⟩

theorem splitBit_bitText {n : Txt} (h : PlainName n) (b : Nat) : splitBit (bitText n b) = some (.bit n b) := by
  unfold splitBit bitText
  rw [getlineC_found ':' n _ (plain_not_mem h (by decide) (by decide))]
  simp only [decAcc_natToDec]

/-- The elements the framework wrote, without the bits out of range. -/
def meant (env : PinEnv) : List LuaPin → List PinSel
  | [] => []
  | .bit n b :: r =>
    match lookupT env.pins n with
    | some w => if b < w then .bit n b :: meant env r else meant env r
    | none => meant env r
  | .whole n :: r => .whole n :: meant env r
  | .num _ :: r => .unused :: meant env r

theorem groupPins_ok {env : PinEnv} (hn : ∀ (n : Txt) (w : Nat), (n, w) ∈ env.pins → PlainName n) :
    ∀ (l : List LuaPin) (ps : List PinSel), groupPins env l = .ok ps → ps = meant env l ∧ ∀ s ∈ ps, SelOk env s := by
  intro l
  induction l with
  | nil => intro ps h; simp only [groupPins, Except.ok.injEq] at h; subst h; simp [meant]
  | cons x l ih =>
    intro ps h
    cases x with
    | bit n b =>
      simp only [groupPins] at h
      cases hl : lookupT env.pins n with
      | none => rw [hl] at h; cases h
      | some w =>
        rw [hl] at h
        simp only at h
        by_cases hb : b < w
        · rw [if_pos hb, splitBit_bitText (hn n w (lookupT_mem hl))] at h
          simp only at h
          cases hr : groupPins env l with
          | error e => rw [hr] at h; cases h
          | ok qs =>
            rw [hr] at h
            simp only [Except.ok.injEq] at h
            subst h
            obtain ⟨h1, h2⟩ := ih qs hr
            refine ⟨by simp only [meant, hl, if_pos hb, h1], fun s hs => ?_⟩
            rcases List.mem_cons.mp hs with rfl | hs
            · exact ⟨w, hl, hb⟩
            · exact h2 s hs
        · rw [if_neg hb] at h
          obtain ⟨h1, h2⟩ := ih ps h
          exact ⟨by simp only [meant, hl, if_neg hb, h1], h2⟩
    | whole n =>
      simp only [groupPins] at h
      cases hl : lookupT env.pins n with
      | none => rw [hl] at h; cases h
      | some w =>
        rw [hl] at h
        simp only at h
        cases hr : groupPins env l with
        | error e => rw [hr] at h; cases h
        | ok qs =>
          rw [hr] at h
          simp only [Except.ok.injEq] at h
          subst h
          obtain ⟨h1, h2⟩ := ih qs hr
          refine ⟨by simp only [meant, h1], fun s hs => ?_⟩
          rcases List.mem_cons.mp hs with rfl | hs
          · exact ⟨w, hl⟩
          · exact h2 s hs
    | num v =>
      simp only [groupPins] at h
      by_cases hv : v = 0
      · rw [if_pos hv] at h
        cases hr : groupPins env l with
        | error e => rw [hr] at h; cases h
        | ok qs =>
          rw [hr] at h
          simp only [Except.ok.injEq] at h
          subst h
          obtain ⟨h1, h2⟩ := ih qs hr
          refine ⟨by simp only [meant, h1], fun s hs => ?_⟩
          rcases List.mem_cons.mp hs with rfl | hs
          · trivial
          · exact h2 s hs
      · rw [if_neg hv] at h; cases h

theorem declarePin_ok {env env' : PinEnv} (he : PinsOk env) {k : Txt} (hk : PlainName k) {v : LuaVal}
    (h : declarePin env k v = .ok env') : PinsOk env' := by
  cases v with
  | num w =>
    simp only [declarePin, Except.ok.injEq] at h
    subst h
    refine ⟨fun n w' hm => ?_, fun j ps hm s hs => SelOk.mono (he.groups j ps hm s hs)⟩
    rcases List.mem_append.mp hm with hm | hm
    · exact he.names n w' hm
    · simp only [List.mem_singleton, Prod.mk.injEq] at hm
      rw [hm.1]; exact hk
  | whole n =>
    simp only [declarePin] at h
    cases hl : lookupT env.pins n with
    | none => rw [hl] at h; cases h
    | some w =>
      rw [hl] at h
      simp only [Except.ok.injEq] at h
      subst h
      refine ⟨he.names, fun j ps hm s hs => ?_⟩
      rcases List.mem_append.mp hm with hm | hm
      · exact he.groups j ps hm s hs
      · simp only [List.mem_singleton, Prod.mk.injEq] at hm
        rw [hm.2] at hs
        simp only [List.mem_singleton] at hs
        subst hs
        exact ⟨w, hl⟩
  | group l =>
    simp only [declarePin] at h
    cases hr : groupPins env l with
    | error e => rw [hr] at h; cases h
    | ok qs =>
      rw [hr] at h
      simp only [Except.ok.injEq] at h
      subst h
      refine ⟨he.names, fun j ps hm s hs => ?_⟩
      rcases List.mem_append.mp hm with hm | hm
      · exact he.groups j ps hm s hs
      · simp only [List.mem_singleton, Prod.mk.injEq] at hm
        rw [hm.2] at hs
        exact (groupPins_ok he.names l qs hr).2 s hs

theorem declarePins_ok : ∀ (l : List (Txt × LuaVal)) (env env' : PinEnv), PinsOk env → (∀ a ∈ l, PlainName a.1) →
    declarePins env l = .ok env' → PinsOk env' := by
  intro l
  induction l with
  | nil => intro env env' he _ h; simp only [declarePins, Except.ok.injEq] at h; subst h; exact he
  | cons a l ih =>
    obtain ⟨k, v⟩ := a
    intro env env' he hn h
    simp only [declarePins] at h
    cases hd : declarePin env k v with
    | error e => rw [hd] at h; cases h
    | ok env1 =>
      rw [hd] at h
      exact ih env1 env' (declarePin_ok he (hn (k, v) (List.mem_cons_self ..)) hd)
        (fun a ha => hn a (List.mem_cons_of_mem _ ha)) h

theorem pinsOk_empty : PinsOk ⟨[], []⟩ := ⟨by simp, by simp⟩

theorem pinsOf_ok {env : PinEnv} (he : PinsOk env) {port : Txt} {ps : List PinSel} (h : pinsOf env port = some ps) :
    ∀ s ∈ ps, SelOk env s := by
  unfold pinsOf at h
  cases hl : lookupT env.pins port with
  | some w =>
    rw [hl] at h
    simp only [Option.some.injEq] at h
    subst h
    intro s hs
    simp only [List.mem_singleton] at hs
    subst hs
    exact ⟨w, hl⟩
  | none =>
    rw [hl] at h
    exact he.groups port ps (lookupT_mem h)

/-! ## Double use -/

/-- The later element is a whole pin already given to the earlier one. -/
def Repeats (a b : PinSel) : Prop := ∃ n, b = .whole n ∧ a.pin = some n

theorem usePins_ok (ty : PortType) : ∀ (ps : List PinSel) (used used' : List (Txt × PortType)),
    usePins ty ps used = .ok used' →
    (ps.Pairwise fun a b => ¬ Repeats a b) ∧ (∀ n, PinSel.whole n ∈ ps → n ∉ used.map (·.1)) ∧
    ∀ n, n ∈ used'.map (·.1) ↔ n ∈ used.map (·.1) ∨ ∃ s ∈ ps, s.pin = some n := by
  intro ps
  induction ps with
  | nil => intro used used' h; simp only [usePins, Except.ok.injEq] at h; subst h; simp
  | cons s ps ih =>
    intro used used' h
    cases s with
    | unused =>
      simp only [usePins] at h
      obtain ⟨h1, h2, h3⟩ := ih used used' h
      refine ⟨List.pairwise_cons.mpr ⟨?_, h1⟩, ?_, ?_⟩
      · rintro b _ ⟨n, _, hn⟩; cases hn
      · intro n hn
        rcases List.mem_cons.mp hn with e | hn
        · cases e
        · exact h2 n hn
      · intro n
        rw [h3]
        constructor
        · rintro (h | ⟨x, hx, e⟩)
          · exact Or.inl h
          · exact Or.inr ⟨x, List.mem_cons_of_mem _ hx, e⟩
        · rintro (h | ⟨x, hx, e⟩)
          · exact Or.inl h
          · rcases List.mem_cons.mp hx with rfl | hx
            · cases e
            · exact Or.inr ⟨x, hx, e⟩
    | whole m =>
      simp only [usePins] at h
      by_cases hm : m ∈ used.map (·.1)
      · rw [if_pos hm] at h; cases h
      · rw [if_neg hm] at h
        obtain ⟨h1, h2, h3⟩ := ih _ used' h
        simp only [List.map_append, List.map_cons, List.map_nil, List.mem_append, List.mem_singleton] at h2 h3
        refine ⟨List.pairwise_cons.mpr ⟨?_, h1⟩, ?_, ?_⟩
        · rintro b hb ⟨n, rfl, hn⟩
          simp only [PinSel.pin, Option.some.injEq] at hn
          exact h2 n hb (Or.inr hn.symm)
        · intro n hn
          rcases List.mem_cons.mp hn with e | hn
          · cases e; exact hm
          · intro hc; exact h2 n hn (Or.inl hc)
        · intro n
          rw [h3]
          constructor
          · rintro ((h | h) | ⟨x, hx, e⟩)
            · exact Or.inl h
            · exact Or.inr ⟨_, List.mem_cons_self .., by simp [PinSel.pin, h]⟩
            · exact Or.inr ⟨x, List.mem_cons_of_mem _ hx, e⟩
          · rintro (h | ⟨x, hx, e⟩)
            · exact Or.inl (Or.inl h)
            · rcases List.mem_cons.mp hx with rfl | hx
              · simp only [PinSel.pin, Option.some.injEq] at e
                exact Or.inl (Or.inr e.symm)
              · exact Or.inr ⟨x, hx, e⟩
    | bit m b =>
      simp only [usePins] at h
      obtain ⟨h1, h2, h3⟩ := ih _ used' h
      have hin : ∀ n, n ∈ (if m ∈ used.map (·.1) then used else used ++ [(m, ty)]).map (·.1) ↔ n ∈ used.map (·.1) ∨ n = m := by
        intro n
        by_cases hm : m ∈ used.map (·.1)
        · rw [if_pos hm]
          constructor
          · exact Or.inl
          · rintro (h | rfl)
            · exact h
            · exact hm
        · rw [if_neg hm]
          simp
      refine ⟨List.pairwise_cons.mpr ⟨?_, h1⟩, ?_, ?_⟩
      · rintro c hc ⟨n, rfl, hn⟩
        simp only [PinSel.pin, Option.some.injEq] at hn
        exact h2 n hc ((hin n).mpr (Or.inr hn.symm))
      · intro n hn
        rcases List.mem_cons.mp hn with e | hn
        · cases e
        · intro hc; exact h2 n hn ((hin n).mpr (Or.inl hc))
      · intro n
        rw [h3, hin]
        constructor
        · rintro ((h | h) | ⟨x, hx, e⟩)
          · exact Or.inl h
          · exact Or.inr ⟨_, List.mem_cons_self .., by simp [PinSel.pin, h]⟩
          · exact Or.inr ⟨x, List.mem_cons_of_mem _ hx, e⟩
        · rintro (h | ⟨x, hx, e⟩)
          · exact Or.inl (Or.inl h)
          · rcases List.mem_cons.mp hx with rfl | hx
            · simp only [PinSel.pin, Option.some.injEq] at e
              exact Or.inl (Or.inr e.symm)
            · exact Or.inr ⟨x, hx, e⟩

theorem usePins_error (ty : PortType) : ∀ (ps : List PinSel) (used : List (Txt × PortType)) (e : TopErr),
    usePins ty ps used = .error e → e = .usedTwice ∧
    ((∃ n, PinSel.whole n ∈ ps ∧ n ∈ used.map (·.1)) ∨ ¬ ps.Pairwise fun a b => ¬ Repeats a b) := by
  intro ps
  induction ps with
  | nil => intro used e h; simp only [usePins] at h; cases h
  | cons s ps ih =>
    intro used e h
    have lift : (¬ ps.Pairwise fun a b => ¬ Repeats a b) → ¬ (s :: ps).Pairwise fun a b => ¬ Repeats a b := by
      intro h hc; exact h (List.pairwise_cons.mp hc).2
    cases s with
    | unused =>
      simp only [usePins] at h
      obtain ⟨h1, h2⟩ := ih used e h
      refine ⟨h1, h2.imp ?_ lift⟩
      rintro ⟨n, hn, hu⟩
      exact ⟨n, List.mem_cons_of_mem _ hn, hu⟩
    | whole m =>
      simp only [usePins] at h
      by_cases hm : m ∈ used.map (·.1)
      · rw [if_pos hm] at h
        cases h
        exact ⟨rfl, Or.inl ⟨m, List.mem_cons_self .., hm⟩⟩
      · rw [if_neg hm] at h
        obtain ⟨h1, h2⟩ := ih _ e h
        refine ⟨h1, ?_⟩
        rcases h2 with ⟨n, hn, hu⟩ | h2
        · simp only [List.map_append, List.map_cons, List.map_nil, List.mem_append, List.mem_singleton] at hu
          rcases hu with hu | hu
          · exact Or.inl ⟨n, List.mem_cons_of_mem _ hn, hu⟩
          · right
            intro hc
            exact (List.pairwise_cons.mp hc).1 _ hn ⟨n, rfl, by simp [PinSel.pin, hu]⟩
        · exact Or.inr (lift h2)
    | bit m b =>
      simp only [usePins] at h
      obtain ⟨h1, h2⟩ := ih _ e h
      refine ⟨h1, ?_⟩
      rcases h2 with ⟨n, hn, hu⟩ | h2
      · by_cases hm : m ∈ used.map (·.1)
        · rw [if_pos hm] at hu
          exact Or.inl ⟨n, List.mem_cons_of_mem _ hn, hu⟩
        · rw [if_neg hm] at hu
          simp only [List.map_append, List.map_cons, List.map_nil, List.mem_append, List.mem_singleton] at hu
          rcases hu with hu | hu
          · exact Or.inl ⟨n, List.mem_cons_of_mem _ hn, hu⟩
          · right
            intro hc
            exact (List.pairwise_cons.mp hc).1 _ hn ⟨n, rfl, by simp [PinSel.pin, hu]⟩
      · exact Or.inr (lift h2)

theorem topPorts_ok (env : PinEnv) (strict : Bool) : ∀ (l used ports pins : List (Txt × PortType)),
    topPorts env strict l used = .ok (ports, pins) →
    ((allSels env l).Pairwise fun a b => ¬ Repeats a b) ∧ (∀ n, PinSel.whole n ∈ allSels env l → n ∉ used.map (·.1)) ∧
    (∀ n, n ∈ pins.map (·.1) ↔ n ∈ used.map (·.1) ∨ ∃ s ∈ allSels env l, s.pin = some n) ∧
    (∀ P, P ∈ ports ↔ P ∈ l ∧ ∃ ps, pinsOf env P.1 = some ps) ∧ (∀ P ∈ ports, pinsOf env P.1 ≠ some []) ∧
    (strict = true → ports = l) := by
  intro l
  induction l with
  | nil =>
    intro used ports pins h
    simp only [topPorts, Except.ok.injEq, Prod.mk.injEq] at h
    obtain ⟨rfl, rfl⟩ := h
    simp [allSels]
  | cons P l ih =>
    obtain ⟨port, ty⟩ := P
    intro used ports pins h
    simp only [topPorts] at h
    cases hp : pinsOf env port with
    | none =>
      rw [hp] at h
      simp only at h
      cases strict with
      | true => simp at h
      | false =>
        simp only [Bool.false_eq_true, if_false] at h
        obtain ⟨h1, h2, h3, h4, h5, _⟩ := ih used ports pins h
        simp only [allSels, hp, List.nil_append]
        refine ⟨h1, h2, h3, fun Q => ?_, h5, by simp⟩
        rw [h4]
        constructor
        · rintro ⟨a, b⟩; exact ⟨List.mem_cons_of_mem _ a, b⟩
        · rintro ⟨a, b⟩
          rcases List.mem_cons.mp a with rfl | a
          · obtain ⟨ps, e⟩ := b; rw [hp] at e; cases e
          · exact ⟨a, b⟩
    | some ps =>
      rw [hp] at h
      simp only at h
      by_cases hne : ps = []
      · rw [if_pos hne] at h; cases h
      · rw [if_neg hne] at h
        cases hu : usePins ty ps used with
        | error e => rw [hu] at h; cases h
        | ok used' =>
          rw [hu] at h
          simp only at h
          cases hr : topPorts env strict l used' with
          | error e => rw [hr] at h; cases h
          | ok r =>
            obtain ⟨ports', pins'⟩ := r
            rw [hr] at h
            simp only [Except.ok.injEq, Prod.mk.injEq] at h
            obtain ⟨rfl, rfl⟩ := h
            obtain ⟨h1, h2, h3, h4, h5, h6⟩ := ih used' ports' pins' hr
            obtain ⟨g1, g2, g3⟩ := usePins_ok ty ps used used' hu
            simp only [allSels, hp]
            refine ⟨?_, ?_, ?_, ?_, ?_, ?_⟩
            · rw [List.pairwise_append]
              refine ⟨g1, h1, ?_⟩
              rintro a ha b hb ⟨n, rfl, hn⟩
              exact h2 n hb ((g3 n).mpr (Or.inr ⟨a, ha, hn⟩))
            · intro n hn
              rcases List.mem_append.mp hn with hn | hn
              · exact g2 n hn
              · intro hc; exact h2 n hn ((g3 n).mpr (Or.inl hc))
            · intro n
              rw [h3, g3]
              constructor
              · rintro ((h | ⟨s, hs, e⟩) | ⟨s, hs, e⟩)
                · exact Or.inl h
                · exact Or.inr ⟨s, List.mem_append_left _ hs, e⟩
                · exact Or.inr ⟨s, List.mem_append_right _ hs, e⟩
              · rintro (h | ⟨s, hs, e⟩)
                · exact Or.inl (Or.inl h)
                · rcases List.mem_append.mp hs with hs | hs
                  · exact Or.inl (Or.inr ⟨s, hs, e⟩)
                  · exact Or.inr ⟨s, hs, e⟩
            · intro Q
              constructor
              · intro hQ
                rcases List.mem_cons.mp hQ with rfl | hQ
                · exact ⟨List.mem_cons_self .., ps, hp⟩
                · exact ⟨List.mem_cons_of_mem _ ((h4 Q).mp hQ).1, ((h4 Q).mp hQ).2⟩
              · rintro ⟨a, b⟩
                rcases List.mem_cons.mp a with rfl | a
                · exact List.mem_cons_self ..
                · exact List.mem_cons_of_mem _ ((h4 Q).mpr ⟨a, b⟩)
            · intro Q hQ
              rcases List.mem_cons.mp hQ with rfl | hQ
              · simp only [hp, ne_eq, Option.some.injEq]; exact hne
              · exact h5 Q hQ
            · intro hs; rw [h6 hs]

theorem topPorts_error (env : PinEnv) (strict : Bool) : ∀ (l used : List (Txt × PortType)),
    topPorts env strict l used = .error .usedTwice →
    (∃ n, PinSel.whole n ∈ allSels env l ∧ n ∈ used.map (·.1)) ∨ ¬ (allSels env l).Pairwise fun a b => ¬ Repeats a b := by
  intro l
  induction l with
  | nil => intro used h; simp only [topPorts] at h; cases h
  | cons P l ih =>
    obtain ⟨port, ty⟩ := P
    intro used h
    simp only [topPorts] at h
    cases hp : pinsOf env port with
    | none =>
      rw [hp] at h
      simp only at h
      cases strict with
      | true => simp at h
      | false =>
        simp only [Bool.false_eq_true, if_false] at h
        simpa only [allSels, hp, List.nil_append] using ih used h
    | some ps =>
      rw [hp] at h
      simp only at h
      simp only [allSels, hp]
      by_cases hne : ps = []
      · rw [if_pos hne] at h; cases h
      · rw [if_neg hne] at h
        cases hu : usePins ty ps used with
        | error e =>
          obtain ⟨_, h2⟩ := usePins_error ty ps used e hu
          refine h2.imp ?_ ?_
          · rintro ⟨n, hn, hc⟩; exact ⟨n, List.mem_append_left _ hn, hc⟩
          · intro h hc; exact h (List.pairwise_append.mp hc).1
        | ok used' =>
          rw [hu] at h
          simp only at h
          cases hr : topPorts env strict l used' with
          | ok r => rw [hr] at h; cases h
          | error e =>
            rw [hr] at h
            simp only [Except.error.injEq] at h
            subst h
            rcases ih used' hr with ⟨n, hn, hc⟩ | h2
            · rcases ((usePins_ok ty ps used used' hu).2.2 n).mp hc with hc | ⟨s, hs, e⟩
              · exact Or.inl ⟨n, List.mem_append_right _ hn, hc⟩
              · right
                intro hc
                exact (List.pairwise_append.mp hc).2.2 s hs _ hn ⟨n, rfl, e⟩
            · right
              intro hc
              exact h2 (List.pairwise_append.mp hc).2.1

/-! ## Glue -/

/-- Text of an element without its comma. -/
def itemText (port : Txt) (p : Nat) : PinSel → Txt
  | .unused => unusedName port p
  | .whole n => n
  | .bit n b => n ++ '[' :: natToDec b ++ [']']

def itemTexts (port : Txt) : Nat → List PinSel → List Txt
  | _, [] => []
  | p, s :: r => itemText port p s :: itemTexts port (p + 1) r

/-- Elements separated by commas. -/
def joinC : List Txt → Txt
  | [] => []
  | [a] => a
  | a :: b :: r => a ++ ',' :: joinC (b :: r)

theorem selText_eq (port : Txt) (p : Nat) (s : PinSel) : selText port p s = itemText port p s ++ [','] := by
  cases s <;> simp [selText, itemText]

theorem selTexts_join (port : Txt) : ∀ (ps : List PinSel) (p : Nat), ps ≠ [] →
    selTexts port p ps = joinC (itemTexts port p ps) ++ [','] := by
  intro ps
  induction ps with
  | nil => intro p h; exact absurd rfl h
  | cons s r ih =>
    intro p _
    rw [selTexts, selText_eq]
    cases r with
    | nil => simp [selTexts, itemTexts, joinC]
    | cons s' r' =>
      rw [ih (p + 1) (by simp)]
      simp [itemTexts, joinC]

theorem glueVector_eq (port : Txt) {ps : List PinSel} (h : ps ≠ []) :
    glueVector port ps = '{' :: joinC (itemTexts port 0 ps) ++ ['}'] := by
  unfold glueVector
  rw [selTexts_join port ps 0 h, ← List.cons_append, List.dropLast_concat]

theorem getlines_join : ∀ (l : List Txt), (∀ a ∈ l, ',' ∉ a ∧ a ≠ []) → getlines ',' (joinC l) = l := by
  intro l
  induction l with
  | nil => intro _; rw [joinC, getlines]
  | cons a l ih =>
    intro h
    have ha := h a (List.mem_cons_self ..)
    cases l with
    | nil => rw [joinC]; exact getlines_last ',' a ha.1 ha.2
    | cons b r =>
      rw [joinC, getlines_cons ',' a _ ha.1, ih fun x hx => h x (List.mem_cons_of_mem _ hx)]

theorem join_not_mem {c : Char} (hc : c ≠ ',') : ∀ (l : List Txt), (∀ a ∈ l, c ∉ a) → c ∉ joinC l := by
  intro l
  induction l with
  | nil => intro _; simp [joinC]
  | cons a l ih =>
    intro h
    cases l with
    | nil => rw [joinC]; exact h a (List.mem_cons_self ..)
    | cons b r =>
      rw [joinC]
      simp only [List.mem_append, List.mem_cons, not_or]
      exact ⟨h a (List.mem_cons_self ..), hc, ih fun x hx => h x (List.mem_cons_of_mem _ hx)⟩

theorem unusedName_not_mem {port : Txt} (hp : PlainName port) (p : Nat) {c : Char} (hc : c.isAlphanum = false) (hu : c ≠ '_')
    (hd : digitVal? c = none) : c ∉ unusedName port p := by
  unfold unusedName
  simp only [List.mem_append, List.mem_cons, not_or]
  refine ⟨⟨?_, plain_not_mem hp hc hu⟩, hu, natToDec_not_mem c hd p⟩
  intro hm
  have : ∀ x ∈ "__unused_".toList, x.isAlphanum = true ∨ x = '_' := by decide
  rcases this c hm with e | e
  · rw [hc] at e; cases e
  · exact hu e

theorem unusedName_inj {a b : Txt} {p q : Nat} (h : unusedName a p = unusedName b q) : a = b ∧ p = q := by
  unfold unusedName at h
  have hr := congrArg List.reverse h
  simp only [List.reverse_append, List.reverse_cons, List.append_assoc, List.cons_append, List.nil_append] at hr
  have hn : ∀ n, '_' ∉ (natToDec n).reverse := fun n => by
    rw [List.mem_reverse]; exact natToDec_not_mem '_' (by decide) n
  have h1 := getlineC_found '_' (natToDec p).reverse (a.reverse ++ "__unused_".toList.reverse) (hn p)
  have h2 := getlineC_found '_' (natToDec q).reverse (b.reverse ++ "__unused_".toList.reverse) (hn q)
  rw [hr, h2] at h1
  simp only [Prod.mk.injEq, Option.some.injEq, List.reverse_inj] at h1
  obtain ⟨e1, e2⟩ := h1
  refine ⟨?_, ?_⟩
  · have := List.append_cancel_right e2
    exact (List.reverse_inj.mp this).symm
  · have := congrArg (decAcc 0) e1
    rw [decAcc_natToDec, decAcc_natToDec] at this
    exact this.symm

/-- What is needed of an element for its text to be read back. -/
def ElemOk (nets : Nets) (env : PinEnv) (port : Txt) (p : Nat) : PinSel → Prop
  | .unused => nets (unusedName port p) = some none
  | .whole n => PlainName n ∧ ∃ w, 0 < w ∧ lookupT env.pins n = some w ∧ nets n = some (if w > 1 then some (w - 1) else none)
  | .bit n b => PlainName n ∧ ∃ m, nets n = some (some m) ∧ b ≤ m

theorem itemText_chars {nets : Nets} {env : PinEnv} {port : Txt} (hp : PlainName port) {p : Nat} {s : PinSel}
    (h : ElemOk nets env port p s) : ',' ∉ itemText port p s ∧ '}' ∉ itemText port p s ∧ itemText port p s ≠ [] := by
  cases s with
  | unused =>
    have h1 : ',' ∉ unusedName port p := unusedName_not_mem hp p (by decide) (by decide) (by decide)
    have h2 : '}' ∉ unusedName port p := unusedName_not_mem hp p (by decide) (by decide) (by decide)
    refine ⟨h1, h2, fun e => ?_⟩
    have e' : unusedName port p = [] := e
    unfold unusedName at e'
    exact absurd (List.append_eq_nil_iff.mp e').2 (by simp)
  | whole n =>
    exact ⟨plain_not_mem h.1 (by decide) (by decide), plain_not_mem h.1 (by decide) (by decide), h.1.1⟩
  | bit n b =>
    have h1 : ∀ c : Char, c.isAlphanum = false → c ≠ '_' → digitVal? c = none → c ≠ '[' → c ≠ ']' →
        c ∉ itemText port p (.bit n b) := by
      intro c e1 e2 e3 e4 e5
      simp only [itemText, List.mem_append, List.mem_cons, List.not_mem_nil, not_or, or_false]
      exact ⟨⟨plain_not_mem h.1 e1 e2, e4, natToDec_not_mem c e3 b⟩, e5⟩
    refine ⟨h1 _ (by decide) (by decide) (by decide) (by decide) (by decide),
      h1 _ (by decide) (by decide) (by decide) (by decide) (by decide), ?_⟩
    simp [itemText]

theorem itemBits_text {nets : Nets} {env : PinEnv} {port : Txt} (hp : PlainName port) {p : Nat} {s : PinSel}
    (h : ElemOk nets env port p s) : itemBits nets (itemText port p s) = some (selBits env port p s) := by
  unfold itemBits
  cases s with
  | unused =>
    simp only [itemText, selBits]
    rw [getlineC_end '[' _ (unusedName_not_mem hp p (by decide) (by decide) (by decide))]
    simp only [ElemOk] at h
    simp only [h]
  | whole n =>
    obtain ⟨h1, w, hw, hl, hn⟩ := h
    simp only [itemText, selBits, hl]
    rw [getlineC_end '[' _ (plain_not_mem h1 (by decide) (by decide))]
    simp only [hn]
    by_cases hw1 : w > 1
    · rw [if_pos hw1]
      simp only
      rw [show w - 1 + 1 = w by omega]
    · rw [if_neg hw1]
      have : w = 1 := by omega
      subst this
      rfl
  | bit n b =>
    obtain ⟨h1, m, hn, hb⟩ := h
    simp only [itemText, selBits, List.cons_append, List.append_assoc]
    rw [getlineC_found '[' n _ (plain_not_mem h1 (by decide) (by decide))]
    simp only
    rw [getlineC_found ']' (natToDec b) [] (natToDec_not_mem ']' (by decide) b)]
    simp only [hn, stoiDec_natToDec, if_pos hb]

theorem groupBits_text {nets : Nets} {env : PinEnv} {port : Txt} (hp : PlainName port) : ∀ (ps : List PinSel) (p : Nat),
    (∀ (i : Nat) (s : PinSel), ps[i]? = some s → ElemOk nets env port (p + i) s) →
    ∃ L, (itemTexts port p ps).mapM (itemBits nets) = some L ∧ L.reverse.flatten = groupBits env port p ps := by
  intro ps
  induction ps with
  | nil => intro p _; exact ⟨[], rfl, rfl⟩
  | cons s r ih =>
    intro p h
    obtain ⟨L, h1, h2⟩ := ih (p + 1) fun i x hx => by
      have := h (i + 1) x (by simpa using hx)
      rwa [show p + (i + 1) = p + 1 + i by omega] at this
    have h0 := h 0 s (by simp)
    rw [Nat.add_zero] at h0
    refine ⟨selBits env port p s :: L, ?_, ?_⟩
    · simp [itemTexts, itemBits_text hp h0, h1]
    · simp [groupBits, h2]

theorem itemTexts_mem {port : Txt} : ∀ (ps : List PinSel) (p : Nat) (t : Txt), t ∈ itemTexts port p ps →
    ∃ i s, ps[i]? = some s ∧ t = itemText port (p + i) s := by
  intro ps
  induction ps with
  | nil => intro p t h; simp [itemTexts] at h
  | cons s r ih =>
    intro p t h
    rcases List.mem_cons.mp h with rfl | h
    · exact ⟨0, s, by simp, rfl⟩
    · obtain ⟨i, x, hx, e⟩ := ih (p + 1) t h
      exact ⟨i + 1, x, by simpa using hx, by rw [e, show p + 1 + i = p + (i + 1) by omega]⟩

theorem glue_bits {nets : Nets} {env : PinEnv} {port : Txt} (hp : PlainName port) {ps : List PinSel} (hne : ps ≠ [])
    (h : ∀ (i : Nat) (s : PinSel), ps[i]? = some s → ElemOk nets env port i s) :
    concatBits nets (glueVector port ps) = some (groupBits env port 0 ps) := by
  have hch : ∀ t ∈ itemTexts port 0 ps, ',' ∉ t ∧ '}' ∉ t ∧ t ≠ [] := by
    intro t ht
    obtain ⟨i, s, hs, rfl⟩ := itemTexts_mem ps 0 t ht
    rw [Nat.zero_add]
    exact itemText_chars hp (h i s hs)
  rw [glueVector_eq port hne]
  simp only [concatBits, List.cons_append]
  rw [getlineC_found '}' _ [] (join_not_mem (by decide) _ fun t ht => (hch t ht).2.1)]
  simp only
  rw [getlines_join _ fun t ht => ⟨(hch t ht).1, (hch t ht).2.2⟩]
  obtain ⟨L, h1, h2⟩ := groupBits_text hp ps 0 (fun i s hs => by rw [Nat.zero_add]; exact h i s hs)
  rw [h1, Option.map_some, h2]

theorem unusedWires_mem {port : Txt} : ∀ (ps : List PinSel) (p : Nat) (t : Txt),
    t ∈ unusedWires port p ps ↔ ∃ i, ps[i]? = some .unused ∧ t = unusedName port (p + i) := by
  intro ps
  induction ps with
  | nil => intro p t; simp [unusedWires]
  | cons s r ih =>
    intro p t
    have key : (∃ i, (s :: r)[i]? = some .unused ∧ t = unusedName port (p + i)) ↔
        (s = .unused ∧ t = unusedName port p) ∨ ∃ i, r[i]? = some .unused ∧ t = unusedName port (p + 1 + i) := by
      constructor
      · rintro ⟨i, h, e⟩
        cases i with
        | zero => exact Or.inl ⟨by simpa using h, e⟩
        | succ i => exact Or.inr ⟨i, by simpa using h, by rw [e, show p + 1 + i = p + (i + 1) by omega]⟩
      · rintro (⟨h, e⟩ | ⟨i, h, e⟩)
        · exact ⟨0, by simp [h], e⟩
        · exact ⟨i + 1, by simpa using h, by rw [e, show p + 1 + i = p + (i + 1) by omega]⟩
    rw [key]
    cases s with
    | unused => simp only [unusedWires, List.mem_cons, ih, true_and]
    | whole n => simp only [unusedWires, ih, reduceCtorEq, false_and, false_or]
    | bit n b => simp only [unusedWires, ih, reduceCtorEq, false_and, false_or]

theorem unusedWires_nodup {port : Txt} : ∀ (ps : List PinSel) (p : Nat), (unusedWires port p ps).Nodup := by
  intro ps
  induction ps with
  | nil => intro p; simp [unusedWires]
  | cons s r ih =>
    intro p
    cases s with
    | unused =>
      simp only [unusedWires, List.nodup_cons]
      refine ⟨fun hm => ?_, ih (p + 1)⟩
      obtain ⟨i, _, e⟩ := (unusedWires_mem r (p + 1) _).mp hm
      have := (unusedName_inj e).2
      omega
    | whole n => simpa only [unusedWires] using ih (p + 1)
    | bit n b => simpa only [unusedWires] using ih (p + 1)

theorem allWires_mem {env : PinEnv} {t : Txt} : ∀ (l : List (Txt × PortType)),
    t ∈ allWires env l ↔ ∃ P ∈ l, ∃ ps, pinsOf env P.1 = some ps ∧ ∃ i, ps[i]? = some PinSel.unused ∧ t = unusedName P.1 i := by
  intro l
  induction l with
  | nil => simp [allWires]
  | cons P l ih =>
    obtain ⟨port, ty⟩ := P
    simp only [allWires, List.mem_append, ih, List.mem_cons, exists_eq_or_imp]
    refine or_congr ?_ Iff.rfl
    cases hp : pinsOf env port with
    | none => simp
    | some ps =>
      simp only [unusedWires_mem, Nat.zero_add, Option.some.injEq, exists_eq_left']

theorem allWires_nodup {env : PinEnv} : ∀ (l : List (Txt × PortType)), (l.map (·.1)).Nodup → (allWires env l).Nodup := by
  intro l
  induction l with
  | nil => intro _; simp [allWires]
  | cons P l ih =>
    obtain ⟨port, ty⟩ := P
    intro h
    simp only [List.map_cons, List.nodup_cons] at h
    simp only [allWires]
    rw [List.nodup_append]
    refine ⟨?_, ih h.2, ?_⟩
    · cases hp : pinsOf env port with
      | none => simp
      | some ps => exact unusedWires_nodup ps 0
    · intro a ha b hb e
      subst e
      obtain ⟨Q, hQ, qs, _, j, _, e2⟩ := (allWires_mem l).mp hb
      cases hp : pinsOf env port with
      | none => rw [hp] at ha; simp at ha
      | some ps =>
        rw [hp] at ha
        obtain ⟨i, _, e1⟩ := (unusedWires_mem ps 0 a).mp ha
        have := (unusedName_inj (e1.symm.trans e2)).1
        exact h.1 (List.mem_map.mpr ⟨Q, hQ, this.symm⟩)

theorem topPorts_fails (env : PinEnv) (strict : Bool) : ∀ (l used : List (Txt × PortType)) (e : TopErr),
    topPorts env strict l used = .error e →
    (e = .undeclaredPort ∧ strict = true ∧ ∃ P ∈ l, pinsOf env P.1 = none) ∨ (e = .emptyGroup ∧ ∃ P ∈ l, pinsOf env P.1 = some []) ∨
    e = .usedTwice := by
  intro l
  induction l with
  | nil => intro used e h; simp only [topPorts] at h; cases h
  | cons P l ih =>
    obtain ⟨port, ty⟩ := P
    intro used e h
    have lift : ((e = .undeclaredPort ∧ strict = true ∧ ∃ P ∈ l, pinsOf env P.1 = none) ∨
        (e = .emptyGroup ∧ ∃ P ∈ l, pinsOf env P.1 = some []) ∨ e = .usedTwice) →
        (e = .undeclaredPort ∧ strict = true ∧ ∃ P ∈ (port, ty) :: l, pinsOf env P.1 = none) ∨
        (e = .emptyGroup ∧ ∃ P ∈ (port, ty) :: l, pinsOf env P.1 = some []) ∨ e = .usedTwice := by
      rintro (⟨a, b, P, hP, c⟩ | ⟨a, P, hP, c⟩ | a)
      · exact Or.inl ⟨a, b, P, List.mem_cons_of_mem _ hP, c⟩
      · exact Or.inr (Or.inl ⟨a, P, List.mem_cons_of_mem _ hP, c⟩)
      · exact Or.inr (Or.inr a)
    simp only [topPorts] at h
    cases hp : pinsOf env port with
    | none =>
      rw [hp] at h
      simp only at h
      cases strict with
      | true =>
        simp only [if_true, Except.error.injEq] at h
        exact Or.inl ⟨h.symm, rfl, (port, ty), List.mem_cons_self .., hp⟩
      | false =>
        simp only [Bool.false_eq_true, if_false] at h
        exact lift (ih used e h)
    | some ps =>
      rw [hp] at h
      simp only at h
      by_cases hne : ps = []
      · rw [if_pos hne, Except.error.injEq] at h
        exact Or.inr (Or.inl ⟨h.symm, (port, ty), List.mem_cons_self .., by rw [← hne]; exact hp⟩)
      · rw [if_neg hne] at h
        cases hu : usePins ty ps used with
        | error e' =>
          rw [hu] at h
          simp only [Except.error.injEq] at h
          exact Or.inr (Or.inr (h.symm.trans (usePins_error ty ps used e' hu).1))
        | ok used' =>
          rw [hu] at h
          simp only at h
          cases hr : topPorts env strict l used' with
          | ok r => rw [hr] at h; cases h
          | error e' =>
            rw [hr] at h
            simp only [Except.error.injEq] at h
            subst h
            exact lift (ih used' e' hr)

theorem usePins_nodup (ty : PortType) : ∀ (ps : List PinSel) (used used' : List (Txt × PortType)),
    usePins ty ps used = .ok used' → (used.map (·.1)).Nodup → (used'.map (·.1)).Nodup := by
  intro ps
  induction ps with
  | nil => intro used used' h hn; simp only [usePins, Except.ok.injEq] at h; subst h; exact hn
  | cons s ps ih =>
    intro used used' h hn
    have ext : ∀ m, m ∉ used.map (·.1) → ((used ++ [(m, ty)]).map (·.1)).Nodup := by
      intro m hm
      rw [List.map_append, List.nodup_append]
      refine ⟨hn, by simp, fun a ha b hb e => ?_⟩
      simp only [List.map_cons, List.map_nil, List.mem_singleton] at hb
      subst e; subst hb; exact hm ha
    cases s with
    | unused => simp only [usePins] at h; exact ih used used' h hn
    | whole m =>
      simp only [usePins] at h
      by_cases hm : m ∈ used.map (·.1)
      · rw [if_pos hm] at h; cases h
      · rw [if_neg hm] at h
        exact ih _ used' h (ext m hm)
    | bit m b =>
      simp only [usePins] at h
      by_cases hm : m ∈ used.map (·.1)
      · rw [if_pos hm] at h; exact ih _ used' h hn
      · rw [if_neg hm] at h; exact ih _ used' h (ext m hm)

theorem topPorts_nodup (env : PinEnv) (strict : Bool) : ∀ (l used ports pins : List (Txt × PortType)),
    topPorts env strict l used = .ok (ports, pins) → (used.map (·.1)).Nodup → (pins.map (·.1)).Nodup := by
  intro l
  induction l with
  | nil =>
    intro used ports pins h hn
    simp only [topPorts, Except.ok.injEq, Prod.mk.injEq] at h
    rw [← h.2]; exact hn
  | cons P l ih =>
    obtain ⟨port, ty⟩ := P
    intro used ports pins h hn
    simp only [topPorts] at h
    cases hp : pinsOf env port with
    | none =>
      rw [hp] at h
      simp only at h
      cases strict with
      | true => simp at h
      | false =>
        simp only [Bool.false_eq_true, if_false] at h
        exact ih used ports pins h hn
    | some ps =>
      rw [hp] at h
      simp only at h
      by_cases hne : ps = []
      · rw [if_pos hne] at h; cases h
      · rw [if_neg hne] at h
        cases hu : usePins ty ps used with
        | error e => rw [hu] at h; cases h
        | ok used' =>
          rw [hu] at h
          simp only at h
          cases hr : topPorts env strict l used' with
          | error e => rw [hr] at h; cases h
          | ok r =>
            obtain ⟨ports', pins'⟩ := r
            rw [hr] at h
            simp only [Except.ok.injEq, Prod.mk.injEq] at h
            obtain ⟨rfl, rfl⟩ := h
            exact ih used' ports' pins' hr (usePins_nodup ty ps used used' hu hn)

theorem allSels_mem {env : PinEnv} {s : PinSel} : ∀ (l : List (Txt × PortType)),
    s ∈ allSels env l ↔ ∃ P ∈ l, ∃ ps, pinsOf env P.1 = some ps ∧ s ∈ ps := by
  intro l
  induction l with
  | nil => simp [allSels]
  | cons P l ih =>
    obtain ⟨port, ty⟩ := P
    simp only [allSels, List.mem_append, ih, List.mem_cons, exists_eq_or_imp]
    refine or_congr ?_ Iff.rfl
    cases hp : pinsOf env port with
    | none => simp
    | some ps => simp

theorem clash_pin {a b : PinSel} (h : a.Clash b) : ∃ n, a.pin = some n ∧ b.pin = some n := by
  cases a <;> cases b <;> simp_all [PinSel.Clash, PinSel.pin]

theorem groupBits_length_one {env : PinEnv} {port : Txt} : ∀ (ps : List PinSel) (p : Nat) ,
    (∀ (i : Nat) (s : PinSel), ps[i]? = some s → (selBits env port (p + i) s).length = 1) →
    (groupBits env port p ps).length = ps.length ∧
    ∀ (i : Nat) (s : PinSel), ps[i]? = some s → ∀ x, selBits env port (p + i) s = [x] →
      (groupBits env port p ps)[ps.length - 1 - i]? = some x := by
  intro ps
  induction ps with
  | nil => intro p _; simp [groupBits]
  | cons s r ih =>
    intro p h
    obtain ⟨h1, h2⟩ := ih (p + 1) fun i x hx => by
      have := h (i + 1) x (by simpa using hx)
      rwa [show p + (i + 1) = p + 1 + i by omega] at this
    have h0 := h 0 s (by simp)
    rw [Nat.add_zero] at h0
    refine ⟨by simp [groupBits, h1, h0], ?_⟩
    intro i t ht x hx
    rw [groupBits]
    cases i with
    | zero =>
      simp only [List.getElem?_cons_zero, Option.some.injEq] at ht
      subst ht
      rw [Nat.add_zero] at hx
      rw [hx, List.getElem?_append_right (by rw [h1]; simp)]
      rw [h1]
      simp
    | succ i =>
      simp only [List.getElem?_cons_succ] at ht
      have hi : i < r.length := (List.getElem?_eq_some_iff.mp ht).1
      rw [show (s :: r).length - 1 - (i + 1) = r.length - 1 - i by simp only [List.length_cons]; omega,
        List.getElem?_append_left (by rw [h1]; omega)]
      refine h2 i t ht x ?_
      rw [show p + 1 + i = p + (i + 1) by omega]
      exact hx

theorem meant_all {env : PinEnv} {l : List LuaPin} {ps : List PinSel} (h : groupPins env l = .ok ps)
    (hn : ∀ (n : Txt) (w : Nat), (n, w) ∈ env.pins → PlainName n)
    (hr : ∀ n b w, LuaPin.bit n b ∈ l → lookupT env.pins n = some w → b < w) : ps = l.map written := by
  have h1 := (groupPins_ok hn l ps h).1
  have hd : ∀ n b, LuaPin.bit n b ∈ l → ∃ w, lookupT env.pins n = some w := by
    clear hr h1
    induction l generalizing ps with
    | nil => intro n b hm; simp at hm
    | cons x l ih =>
      intro n b hm
      cases x with
      | bit m c =>
        simp only [groupPins] at h
        cases hl : lookupT env.pins m with
        | none => rw [hl] at h; cases h
        | some w =>
          rw [hl] at h
          simp only at h
          rcases List.mem_cons.mp hm with e | hm
          · cases e; exact ⟨w, hl⟩
          · by_cases hc : c < w
            · rw [if_pos hc, splitBit_bitText (hn m w (lookupT_mem hl))] at h
              simp only at h
              cases hr : groupPins env l with
              | error e => rw [hr] at h; cases h
              | ok qs => exact ih hr n b hm
            · rw [if_neg hc] at h; exact ih h n b hm
      | whole m =>
        simp only [groupPins] at h
        cases hl : lookupT env.pins m with
        | none => rw [hl] at h; cases h
        | some w =>
          rw [hl] at h
          simp only at h
          rcases List.mem_cons.mp hm with e | hm
          · cases e
          · cases hr : groupPins env l with
            | error e => rw [hr] at h; cases h
            | ok qs => exact ih hr n b hm
      | num v =>
        simp only [groupPins] at h
        rcases List.mem_cons.mp hm with e | hm
        · cases e
        · by_cases hv : v = 0
          · rw [if_pos hv] at h
            cases hr : groupPins env l with
            | error e => rw [hr] at h; cases h
            | ok qs => exact ih hr n b hm
          · rw [if_neg hv] at h; cases h
  rw [h1]
  clear h h1
  induction l with
  | nil => rfl
  | cons x l ih =>
    have ih' := ih (fun n b w hm hw => hr n b w (List.mem_cons_of_mem _ hm) hw) (fun n b hm => hd n b (List.mem_cons_of_mem _ hm))
    cases x with
    | bit n b =>
      obtain ⟨w, hw⟩ := hd n b (List.mem_cons_self ..)
      simp only [meant, hw, if_pos (hr n b w (List.mem_cons_self ..) hw), List.map_cons, written, ih']
    | whole n => simp only [meant, List.map_cons, written, ih']
    | num v => simp only [meant, List.map_cons, written, ih']

end Silice
