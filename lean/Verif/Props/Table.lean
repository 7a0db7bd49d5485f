import Verif.Prelude
import Verif.Model.Table
/-! Property theorem C09. -/
set_option autoImplicit false
namespace Silice

/-- The value the user expects in entry `i` of a table of `n` entries: the value written at that position, else the
padding value; a string is followed by zeros. `none`: left uninitialised. -/
def expectedEntry {α : Type} (zero : α) : TableInit α → Nat → Option α
  | .list vs pad, i => if h : i < vs.length then some vs[i] else (match pad with | .value v => some v | _ => none)
  | .string cs, i => if h : i < cs.length then some cs[i] else some zero
  | _, _ => none

/-- Number of entries written in the initialiser. -/
def writtenCount {α : Type} : TableInit α → Nat
  | .list vs _ => vs.length
  | .string cs => cs.length + 1
  | _ => 0

theorem readInitList_list {α : Type} (zero : α) (declared : Option Nat) (vs : List α) (pad : Pad α) (t : TableNfo α)
    (h : readInitList zero declared (.list vs pad) = .ok t) :
    t.doNotInit = false ∧
    ((declared = none ∧ t.size = vs.length ∧ t.init = vs) ∨
     (∃ n, declared = some n ∧ 0 < n ∧ t.size = n ∧ vs.length ≤ n ∧
        ((vs.length = n ∧ t.init = vs) ∨ (vs.length < n ∧
          ((∃ v, pad = .value v ∧ t.init = vs ++ List.replicate (n - vs.length) v) ∨
           (pad = .uninitialized ∧ t.init = vs)))))) := by
  unfold readInitList at h
  cases declared with
  | none =>
    simp [initValues] at h
    subst h
    exact ⟨rfl, Or.inl ⟨rfl, rfl, rfl⟩⟩
  | some n =>
    by_cases hn : n = 0
    · subst hn; simp at h
    · by_cases he : vs.length = n
      · have : n ≠ 0 := hn
        simp [initValues, he, hn] at h; subst h
        exact ⟨rfl, Or.inr ⟨n, rfl, by omega, rfl, by omega, Or.inl ⟨he, rfl⟩⟩⟩
      · by_cases hlt : vs.length < n
        · cases pad with
          | none => simp [initValues, hn, he, hlt] at h
          | value v =>
            simp [initValues, hn, he, hlt, resizeWith] at h; subst h
            exact ⟨rfl, Or.inr ⟨n, rfl, by omega, rfl, by omega, Or.inr ⟨hlt, Or.inl ⟨v, rfl, rfl⟩⟩⟩⟩
          | uninitialized =>
            simp [initValues, hn, he, hlt] at h; subst h
            exact ⟨rfl, Or.inr ⟨n, rfl, by omega, rfl, by omega, Or.inr ⟨hlt, Or.inr ⟨rfl, rfl⟩⟩⟩⟩
        · simp [initValues, hn, he, hlt] at h

theorem readInitList_string {α : Type} (zero : α) (declared : Option Nat) (cs : List α) (t : TableNfo α)
    (h : readInitList zero declared (.string cs) = .ok t) :
    t.doNotInit = false ∧ t.init = cs ++ [zero] ∧
    ((declared = none ∧ t.size = cs.length + 1) ∨ (∃ n, declared = some n ∧ t.size = n ∧ cs.length + 1 ≤ n)) := by
  unfold readInitList at h
  cases declared with
  | none =>
    simp [initValues] at h
    subst h
    exact ⟨rfl, rfl, Or.inl ⟨rfl, rfl⟩⟩
  | some n =>
    by_cases hn : n = 0
    · subst hn; simp at h
    · simp only [Option.some.injEq, hn, if_false, Option.getD_some, initValues, List.length_append, List.length_singleton] at h
      split at h
      · simp at h; subst h
        exact ⟨rfl, rfl, Or.inr ⟨n, rfl, rfl, by omega⟩⟩
      · split at h
        · simp at h; subst h
          exact ⟨rfl, rfl, Or.inr ⟨n, rfl, rfl, by omega⟩⟩
        · simp at h

/-- C09. Size: an accepted table has the declared number of entries, or exactly as many as values when no size is
given; it never has fewer entries than values. -/
theorem C09_accepted_size {α : Type} (zero : α) (declared : Option Nat) (init : TableInit α) (t : TableNfo α)
    (h : readInitList zero declared init = .ok t) :
    (∀ n, declared = some n → t.size = n ∧ 0 < n) ∧ (declared = none → t.size = writtenCount init) ∧
    writtenCount init ≤ t.size ∧ t.init.length ≤ t.size := by
  cases init with
  | list vs pad =>
    obtain ⟨_, h1⟩ := readInitList_list zero declared vs pad t h
    rcases h1 with ⟨rfl, h2, h3⟩ | ⟨n, rfl, hpos, h2, h3, h4⟩
    · exact ⟨by simp, fun _ => h2, by simp [writtenCount, h2], by simp [h2, h3]⟩
    · refine ⟨by simp; omega, by simp, by simp [writtenCount]; omega, ?_⟩
      rcases h4 with ⟨_, h5⟩ | ⟨_, ⟨v, _, h5⟩ | ⟨_, h5⟩⟩ <;> simp [h5, h2] <;> omega
  | string cs =>
    obtain ⟨_, h0, h1⟩ := readInitList_string zero declared cs t h
    rcases h1 with ⟨rfl, h2⟩ | ⟨n, rfl, h2, h3⟩
    · exact ⟨by simp, fun _ => h2, by simp [writtenCount, h2], by simp [h0, h2]⟩
    · exact ⟨by simp; omega, by simp, by simp [writtenCount]; omega, by simp [h0, h2]; omega⟩
  | uninitialized =>
    cases declared with
    | none => simp [readInitList] at h
    | some n =>
      by_cases hn : n = 0
      · subst hn; simp [readInitList] at h
      · simp [readInitList, hn] at h; subst h
        simp [writtenCount]; omega
  | missing =>
    cases declared with
    | none => simp [readInitList] at h
    | some n => simp [readInitList] at h; split at h <;> simp at h

/-- C09. Contents at startup: every entry of an accepted list initialiser holds the value written at its position,
the entries beyond hold the padding value (or nothing for `pad(uninitialized)`), and nothing is assigned past
the end. -/
theorem C09_list_entries {α : Type} (zero : α) (declared : Option Nat) (vs : List α) (pad : Pad α) (t : TableNfo α)
    (h : readInitList zero declared (.list vs pad) = .ok t) (i : Nat) :
    (i < t.size → startupEntry t i = expectedEntry zero (.list vs pad) i) ∧ (t.size ≤ i → startupEntry t i = none) := by
  obtain ⟨h0, h1⟩ := readInitList_list zero declared vs pad t h
  simp only [startupEntry, h0, Bool.false_eq_true, if_false, expectedEntry]
  rcases h1 with ⟨rfl, h2, h3⟩ | ⟨n, rfl, hpos, h2, h3, h4⟩
  · rw [h2, h3]
    exact ⟨fun hi => by simp [hi], fun hi => by simp; omega⟩
  · rw [h2]
    rcases h4 with ⟨h5, h6⟩ | ⟨h5, ⟨v, rfl, h6⟩ | ⟨rfl, h6⟩⟩
    · rw [h6]
      exact ⟨fun hi => by simp [show i < vs.length by omega], fun hi => by simp; omega⟩
    · rw [h6]
      constructor
      · intro hi
        by_cases hlt : i < vs.length
        · rw [List.getElem?_append_left hlt]; simp [hlt]
        · rw [List.getElem?_append_right (by omega)]
          have : i - vs.length < n - vs.length := by omega
          simp [hlt, this]
      · intro hi
        rw [List.getElem?_eq_none]
        simp; omega
    · rw [h6]
      constructor
      · intro hi
        by_cases hlt : i < vs.length
        · simp [hlt]
        · simp [hlt]
      · intro hi; simp; omega

/-- C09. Rejection: too many values, or too few without padding, or no way to know the size, is an error; everything
else is accepted. -/
theorem C09_accepted_iff {α : Type} (zero : α) (declared : Option Nat) (init : TableInit α) :
    (∃ t, readInitList zero declared init = .ok t) ↔
      (match declared, init with
       | some 0, _ => False
       | none, .list _ _ => True
       | none, .string _ => True
       | none, _ => False
       | some n, .list vs .none => vs.length = n
       | some n, .list vs _ => vs.length ≤ n
       | some n, .string cs => cs.length + 1 ≤ n
       | some _, .uninitialized => True
       | some _, .missing => False) := by
  cases declared with
  | none => cases init <;> simp [readInitList]
  | some n =>
    cases n with
    | zero => simp [readInitList]
    | succ n =>
      cases init with
      | list vs pad =>
        by_cases h1 : vs.length = n + 1
        · cases pad <;> simp [readInitList, initValues, h1]
        · by_cases h2 : vs.length < n + 1
          · cases pad <;> simp [readInitList, initValues, h1, h2] <;> omega
          · cases pad <;> simp [readInitList, initValues, h1, h2] <;> omega
      | string cs =>
        by_cases h1 : cs.length = n
        · simp [readInitList, initValues, h1]
        · by_cases h2 : cs.length < n
          · simp [readInitList, initValues, h1, h2]
            first | done | omega
          · simp [readInitList, initValues, h1, h2]
            first | done | omega
      | uninitialized => simp [readInitList]
      | missing => simp [readInitList]

theorem mapM_getElem_range {α : Type} (l : List α) : ∀ n, n ≤ l.length →
    (List.range n).mapM (fun i => l[i]?) = some (l.take n) := by
  intro n
  induction n with
  | zero => intro _; rfl
  | succ n ih =>
    intro hn
    rw [List.range_succ, List.mapM_append, ih (by omega)]
    have : l[n]? = some l[n] := by simp
    simp [this]

theorem mapM_getElem_range_none {α : Type} (l : List α) (n : Nat) (hn : l.length < n) :
    (List.range n).mapM (fun i => l[i]?) = none := by
  induction n with
  | zero => omega
  | succ n ih =>
    rw [List.range_succ, List.mapM_append]
    by_cases h : l.length < n
    · simp [ih h]
    · have e : l.length = n := by omega
      have : l[n]? = none := by simp; omega
      rw [mapM_getElem_range l n (by omega)]
      simp [this]

/-- C09, partial. Reset of a table of flip-flops: if the initialiser is complete (as many values as entries, or padded
with a value, or a string filling the table), every entry is reset to its value. Missing: strings shorter than
the table and `pad(uninitialized)`, see the next theorem. -/
theorem C09_reset_values_partial {α : Type} (zero : α) (declared : Option Nat) (init : TableInit α) (t : TableNfo α)
    (h : readInitList zero declared init = .ok t) (hinit : t.doNotInit = false)
    (hfull : writtenCount init = t.size ∨ ∃ vs v, init = .list vs (.value v)) :
    ∃ r, resetValues t = some r ∧ r.length = t.size ∧ ∀ i, i < t.size → r[i]? = expectedEntry zero init i := by
  have hlen : t.init.length = t.size := by
    cases init with
    | list vs pad =>
      obtain ⟨_, h1⟩ := readInitList_list zero declared vs pad t h
      rcases h1 with ⟨rfl, h2, h3⟩ | ⟨n, rfl, hpos, h2, h3, h4⟩
      · simp [h2, h3]
      · rcases h4 with ⟨h5, h6⟩ | ⟨h5, ⟨v, rfl, h6⟩ | ⟨rfl, h6⟩⟩
        · simp [h6, h2, h5]
        · simp [h6, h2]; omega
        · rcases hfull with hf | ⟨_, _, hf⟩
          · simp [writtenCount] at hf; omega
          · simp at hf
    | string cs =>
      obtain ⟨_, h0, h1⟩ := readInitList_string zero declared cs t h
      rcases hfull with hf | ⟨_, _, hf⟩
      · simp [writtenCount] at hf; simp [h0, hf]
      · simp at hf
    | uninitialized =>
      cases declared with
      | none => simp [readInitList] at h
      | some n =>
        simp [readInitList] at h
        split at h <;> simp at h
        subst h; simp at hinit
    | missing =>
      cases declared with
      | none => simp [readInitList] at h
      | some n => simp [readInitList] at h; split at h <;> simp at h
  refine ⟨t.init, ?_, hlen, ?_⟩
  · simp only [resetValues, hinit, Bool.false_eq_true, if_false]
    rw [mapM_getElem_range _ _ (by omega), ← hlen, List.take_length]
  · intro i hi
    cases init with
    | list vs pad =>
      have := (C09_list_entries zero declared vs pad t h i).1 hi
      simpa [startupEntry, hinit] using this
    | string cs =>
      obtain ⟨_, h0, _⟩ := readInitList_string zero declared cs t h
      have hl : cs.length + 1 = t.size := by rw [h0] at hlen; simpa using hlen
      simp only [expectedEntry, h0]
      by_cases hc : i < cs.length
      · rw [List.getElem?_append_left hc]; simp [hc]
      · have : i = cs.length := by omega
        subst this; simp
    | uninitialized => 
      cases declared with
      | none => simp [readInitList] at h
      | some n =>
        simp [readInitList] at h
        split at h <;> simp at h
        subst h; simp at hinit
    | missing =>
      cases declared with
      | none => simp [readInitList] at h
      | some n => simp [readInitList] at h; split at h <;> simp at h

/-- C09 (negation). A string shorter than its table, or a list ended by `pad(uninitialized)`, is accepted, and the
generation of the reset then reads past the end of the values (undefined behaviour), for every such size. -/
theorem C09_short_init_reset_undefined {α : Type} (zero : α) (n : Nat) (cs : List α) (h : cs.length + 1 < n) :
    ∃ t, readInitList zero (some n) (.string cs) = .ok t ∧ resetValues t = none := by
  refine ⟨⟨n, cs ++ [zero], false⟩, ?_, ?_⟩
  · have h0 : n ≠ 0 := by omega
    have h1 : cs.length + 1 ≠ n := by omega
    simp [readInitList, initValues, h0, h1, h]
  · simp only [resetValues, Bool.false_eq_true, if_false]
    exact mapM_getElem_range_none _ _ (by simpa using h)

theorem C09_pad_uninitialized_reset_undefined {α : Type} (zero : α) (n : Nat) (vs : List α) (h : vs.length < n) :
    ∃ t, readInitList zero (some n) (.list vs .uninitialized) = .ok t ∧ resetValues t = none := by
  refine ⟨⟨n, vs, false⟩, ?_, ?_⟩
  · have h0 : n ≠ 0 := by omega
    have h1 : vs.length ≠ n := by omega
    simp [readInitList, initValues, h0, h1, h]
  · simp only [resetValues, Bool.false_eq_true, if_false]
    exact mapM_getElem_range_none _ _ h

/-- C09 (finding). An automatically sized empty initialiser is accepted and gives size 0, the marker for "not a
table". -/
theorem C09_empty_autosize_accepted {α : Type} (zero : α) (pad : Pad α) :
    ∃ t, readInitList zero none (.list [] pad) = .ok t ∧ t.size = 0 := ⟨⟨0, [], false⟩, rfl, rfl⟩

/-! Non-vacuity -/
example : readInitList "0" (some 4) (.list ["1", "2"] (.value "9")) = .ok ⟨4, ["1", "2", "9", "9"], false⟩ := rfl
example : readInitList "0" (some 2) (.list ["1", "2", "3"] .none) = .error .tooMany := rfl
example : readInitList "0" (some 4) (.string ["72", "73", "74"]) = .ok ⟨4, ["72", "73", "74", "0"], false⟩ := rfl
example : resetValues (⟨2, ["1", "2"], false⟩ : TableNfo String) = some ["1", "2"] := by decide +kernel

end Silice
