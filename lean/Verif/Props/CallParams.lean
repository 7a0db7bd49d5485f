import Verif.Prelude
import Verif.Model.CallParams
/-! Property theorem C14. -/
set_option autoImplicit false
namespace Silice

/-- Specification: parameter `p` is named after member `m` of a group. -/
def NamedAfter (p m : List Char) : Prop := ∃ pre, p = pre ++ '_' :: m

/-- Specification: the arguments consume the parameters from left to right. A plain argument takes one parameter; a
group takes the longest run of parameters named after its members (possibly empty); a group may be last. -/
inductive Consumes : List Arg → List (List Char) → List Matched → Prop where
  | done : Consumes [] [] []
  | plain {e gs p ps r} : Consumes gs ps r → Consumes (.plain e :: gs) (p :: ps) (.plain e :: r)
  | member {b ms gs p m ps r} : m ∈ ms → NamedAfter p m → Consumes (.group b ms :: gs) ps r →
      Consumes (.group b ms :: gs) (p :: ps) (.member (b ++ '_' :: m) :: r)
  | skip {b ms gs p ps r} : (∀ m ∈ ms, ¬ NamedAfter p m) → Consumes gs (p :: ps) r →
      Consumes (.group b ms :: gs) (p :: ps) r
  | last {b ms} : Consumes [.group b ms] [] []

/-- Members are identifiers without underscore. -/
def Arg.MembersOk : Arg → Prop
  | .plain _ => True
  | .group _ ms => ∀ m ∈ ms, m ≠ [] ∧ '_' ∉ m

theorem takeWhile_all_append (l r : List Char) (h : '_' ∉ l) :
    (l ++ '_' :: r).takeWhile (fun c => c ≠ '_') = l := by
  induction l with
  | nil => simp
  | cons c l ih =>
    simp only [List.mem_cons, not_or] at h
    have hc : c ≠ '_' := fun e => h.1 e.symm
    simp only [List.cons_append]
    rw [List.takeWhile_cons_of_pos (by simp [hc]), ih h.2]

theorem postfix_of_named (pre m : List Char) (h : '_' ∉ m) : memberPostfix (pre ++ '_' :: m) = m := by
  unfold memberPostfix
  rw [if_pos (by simp)]
  have : (pre ++ '_' :: m).reverse = m.reverse ++ '_' :: pre.reverse := by simp
  rw [this, takeWhile_all_append _ _ (by simpa using h), List.reverse_reverse]

theorem takeWhile_split (l : List Char) (h : '_' ∈ l) :
    ∃ r, l = l.takeWhile (fun c => c ≠ '_') ++ '_' :: r := by
  induction l with
  | nil => simp at h
  | cons c l ih =>
    by_cases hc : c = '_'
    · subst hc
      exact ⟨l, by simp⟩
    · rw [List.takeWhile_cons_of_pos (by simp [hc])]
      obtain ⟨r, hr⟩ := ih (by simpa [Ne.symm hc] using h)
      exact ⟨r, by rw [List.cons_append, ← hr]⟩

theorem postfix_split (p : List Char) (h : '_' ∈ p) : NamedAfter p (memberPostfix p) := by
  unfold memberPostfix NamedAfter
  rw [if_pos h]
  obtain ⟨r, hr⟩ := takeWhile_split p.reverse (by simpa using h)
  refine ⟨r.reverse, ?_⟩
  have := congrArg List.reverse hr
  simpa using this

theorem named_iff (p m : List Char) (hm : m ≠ [] ∧ '_' ∉ m) : NamedAfter p m ↔ memberPostfix p = m := by
  constructor
  · rintro ⟨pre, rfl⟩
    exact postfix_of_named pre m hm.2
  · intro h
    by_cases hp : '_' ∈ p
    · rw [← h]; exact postfix_split p hp
    · unfold memberPostfix at h
      rw [if_neg hp] at h
      exact absurd h.symm hm.1

/-- Accepting ends of the loop. -/
def LoopEnd (gs : List Arg) : Prop := gs = [] ∨ ∃ b ms, gs = [.group b ms]

theorem loop_acc (gs : List Arg) (ps : List (List Char)) (acc : List Matched) :
    matchLoop gs ps acc = (matchLoop gs ps []).map (fun r => (r.1, acc ++ r.2)) := by
  suffices H : ∀ n gs ps acc acc', gs.length + ps.length = n →
      matchLoop gs ps (acc ++ acc') = (matchLoop gs ps acc').map (fun r => (r.1, acc ++ r.2)) by
    have := H _ gs ps acc [] rfl
    simpa using this
  intro n
  induction n using Nat.strongRecOn with
  | ind n ih =>
    intro gs ps acc acc' hn
    cases ps with
    | nil => simp [matchLoop]
    | cons p ps =>
      cases gs with
      | nil => simp [matchLoop]
      | cons g gs =>
        cases g with
        | plain e =>
          simp only [matchLoop]
          rw [List.append_assoc]
          exact ih _ (by simp at hn; omega) gs ps acc _ rfl
        | group b ms =>
          simp only [matchLoop]
          split
          · rw [List.append_assoc]
            exact ih _ (by simp at hn ⊢; omega) _ ps acc _ rfl
          · exact ih _ (by simp at hn ⊢; omega) gs (p :: ps) acc _ rfl

theorem loop_iff : ∀ (n : Nat) (gs : List Arg) (ps : List (List Char)), gs.length + ps.length = n →
    (∀ g ∈ gs, g.MembersOk) → ∀ r, ((∃ rest, LoopEnd rest ∧ matchLoop gs ps [] = some (rest, r)) ↔ Consumes gs ps r) := by
  intro n
  induction n using Nat.strongRecOn with
  | ind n ih =>
    intro gs ps hn hok r
    cases ps with
    | nil =>
      simp only [matchLoop]
      constructor
      · rintro ⟨rest, he, h⟩
        simp only [Option.some.injEq, Prod.mk.injEq] at h
        obtain ⟨rfl, rfl⟩ := h
        rcases he with rfl | ⟨b, ms, rfl⟩
        · exact .done
        · exact .last
      · intro h
        cases h with
        | done => exact ⟨[], .inl rfl, rfl⟩
        | last => exact ⟨_, .inr ⟨_, _, rfl⟩, rfl⟩
    | cons p ps =>
      cases gs with
      | nil =>
        simp only [matchLoop]
        constructor
        · rintro ⟨_, _, h⟩; simp at h
        · intro h; cases h
      | cons g gs =>
        cases g with
        | plain e =>
          simp only [matchLoop]
          rw [loop_acc]
          have ih' := ih _ (by simp at hn; omega) gs ps rfl (fun g hg => hok g (by simp [hg]))
          constructor
          · rintro ⟨rest, he, h⟩
            simp only [Option.map_eq_some_iff, Prod.mk.injEq] at h
            obtain ⟨⟨a, b⟩, h1, rfl, rfl⟩ := h
            exact .plain ((ih' b).mp ⟨a, he, h1⟩)
          · intro h
            cases h with
            | plain h =>
              obtain ⟨rest, he, h1⟩ := (ih' _).mpr h
              exact ⟨rest, he, by rw [h1]; rfl⟩
        | group b ms =>
          have hmem : ∀ m ∈ ms, m ≠ [] ∧ '_' ∉ m := hok (.group b ms) (by simp)
          simp only [matchLoop]
          by_cases hin : memberPostfix p ∈ ms
          · rw [if_pos hin, loop_acc]
            have ih' := ih _ (by simp at hn ⊢; omega) (.group b ms :: gs) ps rfl hok
            have hnm : NamedAfter p (memberPostfix p) := (named_iff p _ (hmem _ hin)).mpr rfl
            constructor
            · rintro ⟨rest, he, h⟩
              simp only [Option.map_eq_some_iff, Prod.mk.injEq] at h
              obtain ⟨⟨a, c⟩, h1, rfl, rfl⟩ := h
              exact .member hin hnm ((ih' c).mp ⟨a, he, h1⟩)
            · intro h
              cases h with
              | member hm hna h =>
                have e := (named_iff p _ (hmem _ hm)).mp hna
                obtain ⟨rest, he, h1⟩ := (ih' _).mpr h
                exact ⟨rest, he, by rw [h1, e]; rfl⟩
              | skip hno _ => exact absurd hnm (hno _ hin)
          · rw [if_neg hin]
            have ih' := ih _ (by simp at hn ⊢; omega) gs (p :: ps) rfl (fun g hg => hok g (by simp [hg]))
            constructor
            · intro h
              refine .skip ?_ ((ih' r).mp h)
              intro m hm hna
              rw [named_iff p m (hmem m hm)] at hna
              exact hin (hna ▸ hm)
            · intro h
              cases h with
              | member hm hna _ =>
                have e := (named_iff p _ (hmem _ hm)).mp hna
                exact absurd (e ▸ hm) hin
              | skip _ h => exact (ih' r).mpr h

/-- C14, partial. For group members without underscore, a non-empty argument list is accepted for a non-empty parameter
list exactly when it consumes it from left to right, and the result is that of the consumption. Missing: members
with an underscore in their name, never matched (see below). -/
theorem C14_accepted_iff_partial (given : List Arg) (expected : List (List Char)) (hok : ∀ g ∈ given, g.MembersOk)
    (he : expected ≠ []) (r : List Matched) :
    matchCallParams given expected = some r ↔ Consumes given expected r := by
  unfold matchCallParams
  rw [if_neg (by simp [he])]
  by_cases hg : given = []
  · subst hg
    simp only [true_or, if_true]
    constructor
    · intro h; simp at h
    · intro h
      cases h
      exact absurd rfl he
  · rw [if_neg (by simp [he, hg]), ← loop_iff _ given expected rfl hok r]
    cases hl : matchLoop given expected [] with
    | none => simp
    | some x =>
      obtain ⟨rest, m⟩ := x
      constructor
      · intro h
        match rest, h with
        | [], h => exact ⟨[], .inl rfl, by simpa using h⟩
        | [.group b ms], h => exact ⟨_, .inr ⟨b, ms, rfl⟩, by simpa using h⟩
      · rintro ⟨rest', hend, h⟩
        simp only [Option.some.injEq, Prod.mk.injEq] at h
        obtain ⟨rfl, rfl⟩ := h
        rcases hend with rfl | ⟨b, ms, rfl⟩ <;> rfl

/-- C14. Without parameters only the empty argument list is accepted. -/
theorem C14_no_parameters (given : List Arg) (r : List Matched) :
    matchCallParams given [] = some r ↔ given = [] ∧ r = [] := by
  unfold matchCallParams
  by_cases h : given = []
  · simp [h, eq_comm]
  · simp [h]

/-- Arguments that are not groups. -/
def plainArgs (gs : List Arg) : List Nat := gs.filterMap (fun g => match g with | .plain e => some e | _ => none)
def plainMatched (ms : List Matched) : List Nat := ms.filterMap (fun g => match g with | .plain e => some e | _ => none)

theorem consumes_facts {gs ps r} (h : Consumes gs ps r) :
    r.length = ps.length ∧ plainMatched r = plainArgs gs ∧
    ∀ (i : Nat) (id : List Char), r[i]? = some (.member id) → ∃ b ms m p, Arg.group b ms ∈ gs ∧ m ∈ ms ∧ ps[i]? = some p ∧
      NamedAfter p m ∧ id = b ++ '_' :: m := by
  induction h with
  | done => exact ⟨rfl, rfl, by simp⟩
  | plain h ih =>
    obtain ⟨a, b, c⟩ := ih
    refine ⟨by simp [a], by simpa [plainMatched, plainArgs] using b, ?_⟩
    intro i id hi
    cases i with
    | zero => simp at hi
    | succ i =>
      obtain ⟨b, ms, m, p, h1, h2⟩ := c i id (by simpa using hi)
      exact ⟨b, ms, m, p, by simp [h1], by simpa using h2⟩
  | member hm hna h ih =>
    obtain ⟨a, b, c⟩ := ih
    refine ⟨by simp [a], by simpa [plainMatched, plainArgs] using b, ?_⟩
    intro i id hi
    cases i with
    | zero =>
      simp at hi
      exact ⟨_, _, _, _, List.mem_cons_self .., hm, rfl, hna, hi.symm⟩
    | succ i =>
      obtain ⟨b, ms, m, p, h1, h2⟩ := c i id (by simpa using hi)
      exact ⟨b, ms, m, p, h1, by simpa using h2⟩
  | skip hno h ih =>
    obtain ⟨a, b, c⟩ := ih
    refine ⟨a, by simpa [plainMatched, plainArgs] using b, ?_⟩
    intro i id hi
    obtain ⟨b, ms, m, p, h1, h2⟩ := c i id hi
    exact ⟨b, ms, m, p, by simp [h1], h2⟩
  | last => exact ⟨rfl, rfl, by simp⟩

/-- C14. On success every parameter is matched exactly once, plain arguments are all used, once and in order, and
a parameter matched with a group is matched with the member it is named after. -/
theorem C14_matches_complete (given : List Arg) (expected : List (List Char)) (hok : ∀ g ∈ given, g.MembersOk)
    (r : List Matched) (h : matchCallParams given expected = some r) :
    r.length = expected.length ∧ plainMatched r = plainArgs given ∧
    ∀ (i : Nat) (id : List Char), r[i]? = some (.member id) → ∃ b ms m p, Arg.group b ms ∈ given ∧ m ∈ ms ∧
      expected[i]? = some p ∧ NamedAfter p m ∧ id = b ++ '_' :: m := by
  by_cases he : expected = []
  · subst he
    obtain ⟨rfl, rfl⟩ := (C14_no_parameters given r).mp h
    exact ⟨rfl, rfl, by simp⟩
  · exact consumes_facts ((C14_accepted_iff_partial given expected hok he r).mp h)

theorem plains_iff (es : List Nat) : ∀ (ps : List (List Char)) (r : List Matched), Consumes (es.map .plain) ps r ↔
    es.length = ps.length ∧ r = es.map .plain := by
  induction es with
  | nil =>
    intro ps r
    constructor
    · intro h; cases h; simp
    · rintro ⟨h, rfl⟩
      cases ps with
      | nil => exact .done
      | cons => simp at h
  | cons e es ih =>
    intro ps r
    constructor
    · intro h
      cases h with
      | plain h => obtain ⟨h1, rfl⟩ := (ih _ _).mp h; simp [h1]
    · rintro ⟨h, rfl⟩
      cases ps with
      | nil => simp at h
      | cons p ps => exact .plain ((ih ps _).mpr ⟨by simpa using h, rfl⟩)

/-- C14. Without groups, a call is accepted exactly when it has as many arguments as there are parameters, matched
position by position. -/
theorem C14_plain_arguments (es : List Nat) (expected : List (List Char)) (r : List Matched) :
    matchCallParams (es.map .plain) expected = some r ↔ es.length = expected.length ∧ r = es.map .plain := by
  by_cases he : expected = []
  · subst he
    rw [C14_no_parameters]
    cases es <;> simp
  · rw [C14_accepted_iff_partial _ _ (by intro g hg; obtain ⟨e, _, rfl⟩ := List.mem_map.mp hg; trivial) he, plains_iff]

/-- C14 (finding). A member whose name has an underscore is never matched, although the parameter is named after it. -/
theorem C14_underscore_member_not_matched :
    ∃ b m p, NamedAfter p m ∧ matchCallParams [.group b [m]] [p] = none :=
  ⟨"g".toList, "wr_en".toList, "p_wr_en".toList, ⟨"p".toList, by decide⟩, by decide +kernel⟩

/-- C14 (finding). One member may be used for several parameters. -/
theorem C14_member_used_twice :
    matchCallParams [.group "g".toList ["x".toList]] ["p_x".toList, "q_x".toList] =
      some [.member "g_x".toList, .member "g_x".toList] := by decide +kernel

/-! Non-vacuity -/
example : matchCallParams [.plain 3, .group "g".toList ["x".toList, "y".toList], .plain 5]
    ["a".toList, "p_y".toList, "p_x".toList, "b".toList] =
    some [.plain 3, .member "g_y".toList, .member "g_x".toList, .plain 5] := by decide +kernel
example : ∀ g ∈ [Arg.plain 3, .group "g".toList ["x".toList, "y".toList]], g.MembersOk := by
  intro g hg
  simp at hg
  rcases hg with rfl | rfl
  · trivial
  · intro m hm
    simp at hm
    rcases hm with rfl | rfl <;> decide
example : matchCallParams [.plain 1] ["a".toList, "b".toList] = none := by decide +kernel

end Silice
