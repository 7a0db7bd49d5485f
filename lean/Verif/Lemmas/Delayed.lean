import Verif.Spec.Delayed
import Verif.Lemmas.Deps
import Verif.Prelude

set_option autoImplicit false

namespace Silice

theorem digits_inj {m n : Nat} (h : Nat.toDigits 10 m = Nat.toDigits 10 n) : m = n := by
  rw [← Nat.ofDigitChars_ten_toDigits (n := m), ← Nat.ofDigitChars_ten_toDigits (n := n), h]

theorem digits_cut {m : Nat} (cs : List Char) : (Nat.toDigits 10 m ++ '_' :: cs).takeWhile Char.isDigit = Nat.toDigits 10 m ∧
    (Nat.toDigits 10 m ++ '_' :: cs).dropWhile Char.isDigit = '_' :: cs := by
  have h : ∀ a ∈ Nat.toDigits 10 m, a.isDigit = true := fun a ha => Nat.isDigit_of_mem_toDigits (by decide) (by decide) ha
  have h' : ¬ Char.isDigit '_' = true := by decide
  rw [List.takeWhile_append_of_pos h, List.dropWhile_append_of_pos h, List.takeWhile_cons_of_neg h', List.dropWhile_cons_of_neg h', List.append_nil]
  exact ⟨rfl, rfl⟩

theorem delayedName_chars (l c : Nat) : (delayedName l c).toList = "delayed_".toList ++ (Nat.toDigits 10 l ++ '_' :: Nat.toDigits 10 c) := by
  simp [delayedName, String.toList_append, toString, Nat.repr]

/-- Statements at different places have different variables. -/
theorem delayedName_inj {l c l' c' : Nat} (h : delayedName l c = delayedName l' c') : l = l' ∧ c = c' := by
  have h1 := congrArg String.toList h
  rw [delayedName_chars, delayedName_chars, List.append_cancel_left_eq] at h1
  have h2 := (digits_cut (m := l) (Nat.toDigits 10 c)).1
  have h3 := (digits_cut (m := l) (Nat.toDigits 10 c)).2
  rw [h1, (digits_cut _).1] at h2
  rw [h1, (digits_cut _).2] at h3
  refine ⟨(digits_inj h2).symm, (digits_inj (List.cons.inj h3).2).symm⟩

variable {V : Type}

/-- State after `k` statements. -/
def alwAfter (as : List (AlwAsg V)) (q : String → V) (k : Nat) : List String × (String → V) := (as.take k).foldl (alwStep q) ([], q)

theorem alwAfter_succ {as : List (AlwAsg V)} {q : String → V} {k : Nat} {a : AlwAsg V} (h : as[k]? = some a) :
    alwAfter as q (k + 1) = alwStep q (alwAfter as q k) a := by
  unfold alwAfter
  rw [List.take_add_one, h, List.foldl_append]
  rfl

theorem alwAfter_keys (as : List (AlwAsg V)) (q : String → V) (k : Nat) (x : String) :
    x ∈ (alwAfter as q k).1 ↔ ∃ a ∈ as.take k, x ∈ a.access.2 := by
  induction k with
  | zero => simp [alwAfter]
  | succ k ih =>
    cases h : as[k]? with
    | none =>
      have h' : as.length ≤ k := List.getElem?_eq_none_iff.mp h
      have e : as.take (k + 1) = as.take k := by rw [List.take_of_length_le h', List.take_of_length_le (by omega)]
      rw [e, ← ih]
      unfold alwAfter
      rw [e]
    | some a =>
      rw [alwAfter_succ h, List.take_add_one, h]
      simp only [alwStep, mem_addNew, ih, List.mem_append, Option.toList_some, List.mem_singleton]
      constructor
      · rintro (⟨b, hb, hx⟩ | hx)
        · exact ⟨b, .inl hb, hx⟩
        · exact ⟨a, .inr rfl, hx⟩
      · rintro ⟨b, hb | rfl, hx⟩
        · exact .inl ⟨b, hb, hx⟩
        · exact .inr hx

/-- A statement changes what it writes only. -/
theorem step_other {q : String → V} {s : List String × (String → V)} {a : AlwAsg V} {y : String} (h : y ∉ a.access.2) : (alwStep q s a).2 y = s.2 y := by
  cases a with
  | now x r f =>
    have : y ≠ x := fun e => h (by simp [AlwAsg.access, e])
    simp [alwStep, AlwAsg.text, DTxt.exec, Function.update_of_ne this]
  | delayed l c x r f =>
    have h1 : y ≠ x := fun e => h (by simp [AlwAsg.access, e])
    have h2 : y ≠ delayedName l c := fun e => h (by simp [AlwAsg.access, e])
    simp [alwStep, AlwAsg.text, DTxt.exec, Function.update_of_ne h1, Function.update_of_ne h2]

/-- What was not written yet has the value of the register. -/
theorem unwritten {as : List (AlwAsg V)} {q : String → V} {k : Nat} {x : String} (h : x ∉ (alwAfter as q k).1) : (alwAfter as q k).2 x = q x := by
  induction k with
  | zero => simp [alwAfter]
  | succ k ih =>
    cases e : as[k]? with
    | none =>
      have h' : as.length ≤ k := List.getElem?_eq_none_iff.mp e
      have e' : as.take (k + 1) = as.take k := by rw [List.take_of_length_le h', List.take_of_length_le (by omega)]
      unfold alwAfter at h ⊢
      rw [e'] at h ⊢
      exact ih h
    | some a =>
      rw [alwAfter_succ e] at h ⊢
      simp only [alwStep, mem_addNew, not_or] at h
      rw [step_other h.2]
      exact ih h.1

/-- What is read in the text is the current value. -/
theorem sides_read {as : List (AlwAsg V)} {q : String → V} {k : Nat} (reads : List String) :
    (sidesOf (alwAfter as q k).1 reads).map (fun a => if a.2 then (alwAfter as q k).2 a.1 else q a.1) = reads.map (alwAfter as q k).2 := by
  rw [sidesOf, List.map_map]
  refine List.map_congr_left fun r _ => ?_
  simp only [Function.comp_apply, decide_eq_true_eq]
  split_ifs with h
  · rfl
  · exact (unwritten h).symm

/-- No expression is read after the variable it is delayed for was replaced. -/
def NoSwap (as : List (AlwAsg V)) : Prop :=
  ∀ (k : Nat) (l c : Nat) (x : String) (reads : List String) (fn : List V → V), as[k]? = some (.delayed l c x reads fn) →
    x ∈ reads → ∀ a ∈ as.take k, x ∉ a.access.2

/-- Names of the user are not those inserted. -/
def DelayNamesOk (as : List (AlwAsg V)) : Prop :=
  (delayPos as).Nodup ∧ ∀ a ∈ as, ∀ p ∈ delayPos as, delayedName p.1 p.2 ∉ a.userNames

theorem pos_mem {as : List (AlwAsg V)} {k l c : Nat} {x : String} {r : List String} {f : List V → V} (h : as[k]? = some (.delayed l c x r f)) :
    (l, c) ∈ delayPos as := List.mem_filterMap.mpr ⟨_, List.mem_of_getElem? h, rfl⟩

/-- Only its own statement writes the inserted variable. -/
theorem tmp_writes {as : List (AlwAsg V)} (hn : DelayNamesOk as) {k l c : Nat} {x : String} {r : List String} {f : List V → V}
    (h : as[k]? = some (.delayed l c x r f)) {j : Nat} {a : AlwAsg V} (hj : as[j]? = some a) (hw : delayedName l c ∈ a.access.2) : j = k := by
  have hu := hn.2 a (List.mem_of_getElem? hj) _ (pos_mem h)
  cases a with
  | now y r' f' =>
    simp only [AlwAsg.access, List.mem_singleton] at hw
    exact absurd (by simp [AlwAsg.userNames, hw]) hu
  | delayed l' c' y r' f' =>
    simp only [AlwAsg.access, List.mem_cons, List.not_mem_nil, or_false] at hw
    rcases hw with hw | hw
    · exact absurd (by simp [AlwAsg.userNames, hw]) hu
    · obtain ⟨rfl, rfl⟩ := delayedName_inj hw
      by_contra hne
      have key : ∀ (as : List (AlwAsg V)) (i j : Nat) (y x : String) (r r' : List String) (f f' : List V → V), i < j →
          as[i]? = some (.delayed l c y r' f') → as[j]? = some (.delayed l c x r f) → ¬ (delayPos as).Nodup := by
        intro as
        induction as with
        | nil => intro i j _ _ _ _ _ _ _ h1; simp at h1
        | cons b bs ih =>
          intro i j y x r r' f f' hij h1 h2 hnd
          cases j with
          | zero => omega
          | succ j =>
            rw [List.getElem?_cons_succ] at h2
            cases i with
            | zero =>
              simp only [List.getElem?_cons_zero, Option.some.injEq] at h1
              subst h1
              simp only [delayPos, List.filterMap_cons, List.nodup_cons] at hnd
              exact hnd.1 (pos_mem h2)
            | succ i =>
              rw [List.getElem?_cons_succ] at h1
              refine ih i j y x r r' f f' (by omega) h1 h2 ?_
              cases b with
              | now _ _ _ => simpa [delayPos] using hnd
              | delayed _ _ _ _ _ =>
                simp only [delayPos, List.filterMap_cons, List.nodup_cons] at hnd
                exact hnd.2
      rcases Nat.lt_or_gt_of_ne hne with hlt | hlt
      · exact key as j k y x r r' f f' hlt hj h hn.1
      · exact key as k j x y r' r f' f hlt h hj hn.1

/-- The inserted variable keeps the value of its register until its statement. -/
theorem tmp_before {as : List (AlwAsg V)} (hn : DelayNamesOk as) {q : String → V} {k l c : Nat} {x : String} {r : List String} {f : List V → V}
    (h : as[k]? = some (.delayed l c x r f)) : (alwAfter as q k).2 (delayedName l c) = q (delayedName l c) := by
  refine unwritten fun hm => ?_
  rw [alwAfter_keys] at hm
  obtain ⟨a, ha, hw⟩ := hm
  obtain ⟨j, hj⟩ := List.mem_iff_getElem?.mp ha
  rw [List.getElem?_take] at hj
  split_ifs at hj with hlt
  have := tmp_writes hn h hj hw
  omega

/-- What a delayed assignment does. -/
theorem delayed_step {as : List (AlwAsg V)} (hn : DelayNamesOk as) (hs : NoSwap as) {q : String → V} {k l c : Nat} {x : String} {r : List String} {f : List V → V}
    (h : as[k]? = some (.delayed l c x r f)) :
    (alwAfter as q (k + 1)).2 x = q (delayedName l c) ∧ (alwAfter as q (k + 1)).2 (delayedName l c) = f (r.map (alwAfter as q k).2) := by
  have hx : x ≠ delayedName l c := fun e => hn.2 _ (List.mem_of_getElem? h) _ (pos_mem h) (by simp [AlwAsg.userNames, e])
  rw [alwAfter_succ h]
  simp only [alwStep, AlwAsg.text, List.foldl_cons, List.foldl_nil, DTxt.exec]
  rw [Function.update_of_ne hx, Function.update_self, Function.update_self, tmp_before hn h, ← sides_read]
  refine ⟨rfl, congrArg f (List.map_congr_left fun a ha => ?_)⟩
  obtain ⟨y, hy, rfl⟩ := List.mem_map.mp ha
  simp only [decide_eq_true_eq]
  split_ifs with hk
  · rw [Function.update_of_ne]
    rintro rfl
    rw [alwAfter_keys] at hk
    obtain ⟨b, hb, hw⟩ := hk
    exact hs k l c y r f h hy b hb hw
  · rfl

/-- And it keeps it until the end of the statements. -/
theorem tmp_after {as : List (AlwAsg V)} (hn : DelayNamesOk as) {q : String → V} {k l c : Nat} {x : String} {r : List String} {f : List V → V}
    (h : as[k]? = some (.delayed l c x r f)) (d : Nat) :
    (alwAfter as q (k + 1 + d)).2 (delayedName l c) = (alwAfter as q (k + 1)).2 (delayedName l c) := by
  induction d with
  | zero => rfl
  | succ d ih =>
    rw [← ih, ← Nat.add_assoc]
    cases e : as[k + 1 + d]? with
    | none =>
      have h' : as.length ≤ k + 1 + d := List.getElem?_eq_none_iff.mp e
      have e' : as.take (k + 1 + d + 1) = as.take (k + 1 + d) := by rw [List.take_of_length_le h', List.take_of_length_le (by omega)]
      unfold alwAfter
      rw [e']
    | some a =>
      rw [alwAfter_succ e]
      refine step_other fun hw => ?_
      have := tmp_writes hn h e hw
      omega

/-- Accepted statements. -/
theorem check_noSwap {fuel : Nat} : ∀ (as : List (AlwAsg V)) (D D' : Deps), D.Wf → Deps.instrs fuel D (as.map AlwAsg.access) = some (.ok D') →
    ∀ (k : Nat) (l c : Nat) (x : String) (reads : List String) (fn : List V → V), as[k]? = some (.delayed l c x reads fn) →
      x ∈ reads → x ∉ D.keys ∧ ∀ a ∈ as.take k, x ∉ a.access.2
  | [], D, D', _, _ => fun k l c x r f h => by simp at h
  | a :: as, D, D', hwf, e => fun k l c x r f h hx => by
    rw [List.map_cons, Deps.instrs] at e
    cases h1 : Deps.instr fuel D a.access.1 a.access.2 with
    | none => rw [h1] at e; cases e
    | some v =>
      rw [h1] at e
      cases v with
      | error w => cases e
      | ok D1 =>
        obtain ⟨hwf1, hk, hle, _, _, hself⟩ := instr_ok hwf h1
        cases k with
        | zero =>
          simp only [List.getElem?_cons_zero, Option.some.injEq] at h
          subst h
          refine ⟨fun hxk => ?_, fun a ha => by simp at ha⟩
          have h2 := hle x x true (by simp [Deps.assign, AlwAsg.access, hx, Deps.side, hxk, QD.bit])
          have h3 := hself x (by simp [AlwAsg.access])
          simp [QD.bit, h3] at h2
        | succ k =>
          rw [List.getElem?_cons_succ] at h
          obtain ⟨h2, h3⟩ := check_noSwap as D1 D' hwf1 e k l c x r f h hx
          rw [hk, mem_addNew, not_or] at h2
          refine ⟨h2.1, fun b hb => ?_⟩
          rw [List.take_succ_cons, List.mem_cons] at hb
          rcases hb with rfl | hb
          · exact h2.2
          · exact h3 b hb

/-- Without exchanged reads, statements have their meaning. -/
theorem delays_of {as : List (AlwAsg V)} (hn : DelayNamesOk as) (hs : NoSwap as) (rest : Nat → (String → V) → String → V) (q0 : String → V)
    (hr : ∀ t d, ∀ p ∈ delayPos as, rest t d (delayedName p.1 p.2) = d (delayedName p.1 p.2)) : DelaysOneCycle as (alwSees as rest q0) := by
  constructor
  · intro t k x r f h
    show (alwAfter as _ (k + 1)).2 x = f (r.map (alwAfter as _ k).2) ∧ ∀ y, y ≠ x → (alwAfter as _ (k + 1)).2 y = (alwAfter as _ k).2 y
    rw [alwAfter_succ h]
    constructor
    · simp only [alwStep, AlwAsg.text, List.foldl_cons, List.foldl_nil, DTxt.exec, Function.update_self]
      rw [sides_read]
    · exact fun y hy => step_other (by simpa [AlwAsg.access] using hy)
  · intro t k l c x r f h
    constructor
    · have h1 := (delayed_step hn hs (q := alwRegs as rest q0 (t + 1)) h).1
      have h2 := (delayed_step hn hs (q := alwRegs as rest q0 t) h).2
      have hlen : k < as.length := (List.getElem?_eq_some_iff.mp h).1
      have h3 := tmp_after hn (q := alwRegs as rest q0 t) h (as.length - (k + 1))
      rw [show k + 1 + (as.length - (k + 1)) = as.length by omega, h2] at h3
      show (alwAfter as _ (k + 1)).2 x = _
      rw [h1]
      show rest t (alwAfter as _ as.length).2 (delayedName l c) = _
      rw [hr t _ (l, c) (pos_mem h), h3]
      rfl
    · intro y h1 h2
      show (alwAfter as _ (k + 1)).2 y = (alwAfter as _ k).2 y
      rw [alwAfter_succ h]
      exact step_other (by simp [AlwAsg.access, h1, h2])

end Silice
