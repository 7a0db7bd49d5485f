import Verif.Lemmas.Delayed
import Verif.Props.Deps
import Verif.Props.Access

/-!
# C79: `x ::= e` delays by one cycle

What the statements mean is in Spec/Delayed.lean.
-/

set_option autoImplicit false

namespace Silice

variable {V : Type}

/-- C79: in an accepted unit, in every cycle, `x := e` gives the value `e` has at this place, and `x ::= e` the value `e` had at this place in the cycle
before, whatever the rest of the unit does (it cannot access the variables inserted for delays), other variables being left alone. The statements are at
different places of the source, and the user has no variables named as those inserted. -/
theorem C79_delays (as : List (AlwAsg V)) (fuel : Nat) (D : Deps) (hc : alwCheck fuel as = some (.ok D)) (hp : (delayPos as).Nodup)
    (hu : ∀ a ∈ as, ∀ p ∈ delayPos as, delayedName p.1 p.2 ∉ a.userNames) (rest : Nat → (String → V) → String → V)
    (hr : ∀ t d, ∀ p ∈ delayPos as, rest t d (delayedName p.1 p.2) = d (delayedName p.1 p.2)) (q0 : String → V) :
    DelaysOneCycle as (alwSees as rest q0) :=
  delays_of ⟨hp, hu⟩ (fun k l c x r f h hx => (check_noSwap as _ D empty_wf hc k l c x r f h hx).2) rest q0 hr

/-- C79: in the first cycle, `x ::= e` gives `x` what the register inserted for it holds. -/
theorem C79_first (as : List (AlwAsg V)) (fuel : Nat) (D : Deps) (hc : alwCheck fuel as = some (.ok D)) (hp : (delayPos as).Nodup)
    (hu : ∀ a ∈ as, ∀ p ∈ delayPos as, delayedName p.1 p.2 ∉ a.userNames) (rest : Nat → (String → V) → String → V) (q0 : String → V)
    (k line col : Nat) (x : String) (reads : List String) (fn : List V → V) (h : as[k]? = some (.delayed line col x reads fn)) :
    alwSees as rest q0 0 (k + 1) x = q0 (delayedName line col) :=
  (delayed_step ⟨hp, hu⟩ (fun k l c x r f h hx => (check_noSwap as _ D empty_wf hc k l c x r f h hx).2) h).1

/-- C79: two delayed assignments at different places never share the inserted variable. -/
theorem C79_names_distinct (l c l' c' : Nat) (h : (l, c) ≠ (l', c')) : delayedName l c ≠ delayedName l' c' := fun e => by
  obtain ⟨rfl, rfl⟩ := delayedName_inj e
  exact h rfl

/-- C79: the variable inserted for `x ::= e` is classified as a register, wherever it is used from (`pre` is the block of the statements of the unit). -/
theorem C79_register {B : Type} [DecidableEq B] (a : AccIn B) (hdom : ∀ h ∈ a.heads, Dominated a.g h) (fuel : Nat) (log : List (B × List String))
    (e : accAll a fuel = some log) (pre : B) (hpre : pre ∈ a.heads) (as : List (AlwAsg V)) (others : List (List String × List String))
    (hi : (a.g pre).instrs = as.map AlwAsg.access ++ others) (hp : (delayPos as).Nodup)
    (hu : ∀ a ∈ as, ∀ p ∈ delayPos as, delayedName p.1 p.2 ∉ a.userNames) (p : Nat × Nat) (hm : p ∈ delayPos as) (hx : a.Plain (delayedName p.1 p.2)) :
    usageOf a log (delayedName p.1 p.2) = .ok .flipflop := by
  obtain ⟨s, hs, hsp⟩ := List.mem_filterMap.mp hm
  cases s with
  | now _ _ _ => cases hsp
  | delayed l c x r f =>
    cases hsp
    obtain ⟨k, hk⟩ := List.mem_iff_getElem?.mp hs
    have hlen := (List.getElem?_eq_some_iff.mp hk).1
    have hcut : as = as.take k ++ .delayed l c x r f :: as.drop (k + 1) := by
      rw [← (List.getElem?_eq_some_iff.mp hk).2, List.getElem_cons_drop, List.take_append_drop]
    have hi' : (a.g pre).instrs = (as.take k).map AlwAsg.access ++
        (AlwAsg.delayed l c x r f).access :: ((as.drop (k + 1)).map AlwAsg.access ++ others) := by
      rw [hi]
      conv_lhs => rw [hcut]
      simp
    have hw : a.WriteSome (delayedName l c) := ⟨pre, hpre, [], pre, .start, .inl rfl, (AlwAsg.delayed l c x r f).access,
      by rw [hi']; simp, by simp [AlwAsg.access]⟩
    refine (C32_register_when_needed_partial a hdom fuel log e _ hx hw).2.mpr (.inr (.inr ⟨pre, hpre, [], pre, .start, .inl rfl, _, _, _, hi', ?_, ?_, ?_⟩))
    · simp [AlwAsg.access]
    · intro b hb; cases hb
    · intro j hj hw'
      obtain ⟨b, hb, rfl⟩ := List.mem_map.mp hj
      obtain ⟨m, hm'⟩ := List.mem_iff_getElem?.mp hb
      rw [List.getElem?_take] at hm'
      split_ifs at hm' with hlt
      have := tmp_writes ⟨hp, hu⟩ hk hm' hw'
      omega

/-- C79: statements that each assign another variable are accepted, whatever they read. -/
theorem C79_accepted (as : List (AlwAsg V)) (h : as.Pairwise fun a b => ∀ w ∈ a.access.2, w ∉ b.access.2) :
    ∃ fuel D, ∀ k, alwCheck (fuel + k) as = some (.ok D) := by
  obtain ⟨fuel, r, e, he⟩ := C29_verdict (as.map AlwAsg.access)
  obtain ⟨D, rfl⟩ := C29_single_assignment_accepted fuel _ (List.pairwise_map.mpr h) r e
  exact ⟨fuel, D, he⟩

/-- C79: the text of an assignment is cut into what is assigned and the expression, as names have no `=`. -/
theorem C79_cut (lhs rhs : List Char) (h : '=' ∉ lhs) : cutAssign (lhs ++ " = ".toList ++ rhs) = some (lhs, ' ' :: rhs) := by
  have h1 : ∀ a ∈ lhs ++ [' '], (decide (a ≠ '=')) = true := by
    intro a ha
    rcases List.mem_append.mp ha with ha | ha
    · exact decide_eq_true fun e => h (e ▸ ha)
    · rw [List.mem_singleton] at ha; subst ha; decide
  have e : lhs ++ " = ".toList ++ rhs = (lhs ++ [' ']) ++ ('=' :: ' ' :: rhs) := by simp
  unfold cutAssign
  rw [if_pos, e, List.takeWhile_append_of_pos h1, List.dropWhile_append_of_pos h1, List.takeWhile_cons_of_neg (by decide),
    List.dropWhile_cons_of_neg (by decide)]
  · simp
  · refine ⟨by simp, ?_⟩
    cases lhs with
    | nil => simp
    | cons a l =>
      simp only [List.cons_append, List.head?_cons, ne_eq, Option.some.injEq]
      exact fun e => h (by simp [e])

/-! ### Cases -/

/-- `a := b; b ::= a + b; c ::= b;` at lines 3 to 5. -/
def exDelays : List (AlwAsg Nat) :=
  [.now "a" ["b"] (fun vs => vs.sum), .delayed 4 2 "b" ["a", "b"] (fun vs => vs.sum), .delayed 5 2 "c" ["b"] (fun vs => vs.sum)]

/-- The hypotheses hold for it: it is accepted, whether or not the rest of the unit counts `b` up. -/
example : verdict (alwCheck 40 exDelays) = some none ∧ (delayPos exDelays).Nodup ∧
    (∀ a ∈ exDelays, ∀ p ∈ delayPos exDelays, delayedName p.1 p.2 ∉ a.userNames) := by
  refine ⟨?_, ?_, ?_⟩ <;> decide +kernel

example : ∀ (t : Nat) (d : String → Nat), ∀ p ∈ delayPos exDelays,
    Function.update d "b" (d "b" + t) (delayedName p.1 p.2) = d (delayedName p.1 p.2) := by
  intro t d p hp
  have : p = (4, 2) ∨ p = (5, 2) := by simpa [delayPos, exDelays] using hp
  refine Function.update_of_ne ?_ _ _
  rcases this with rfl | rfl <;> decide +kernel

/-- A unit with these statements only. -/
def exDelayAcc : AccIn (Fin 1) where
  g := fun _ => ⟨exDelays.map AlwAsg.access, true, []⟩
  heads := [0]
  readEnd := []
  trickle := []
  boundOut := []
  boundInOut := []
  internalFF := []
  tables := []

example : (∀ h ∈ exDelayAcc.heads, Dominated exDelayAcc.g h) ∧ (accAll exDelayAcc 10).isSome = true ∧ exDelayAcc.Plain (delayedName 4 2) := by
  refine ⟨?_, by decide +kernel, by simp [AccIn.Plain, exDelayAcc]⟩
  intro h _ l c hw _ hs
  simp [exDelayAcc] at hs

/-- What becomes of `b` and `c` in it, from registers with value 1. -/
example : (List.range 5).map (fun t => ((alwSees exDelays (fun _ d => d) (fun _ => 1) t 3) "b", (alwSees exDelays (fun _ d => d) (fun _ => 1) t 3) "c")) =
    [(1, 1), (2, 1), (2, 2), (4, 2), (4, 4)] := by decide +kernel

/-- What is claimed does not hold for statements that are refused: `x := a; x ::= x;` would delay itself. -/
def exSwap : List (AlwAsg Nat) := [.now "x" ["a"] (fun vs => vs.sum), .delayed 4 2 "x" ["x"] (fun vs => vs.sum)]

example : verdict (alwCheck 40 exSwap) = some (some "x") ∧ ¬ DelaysOneCycle exSwap (alwSees exSwap (fun _ d => d) fun y => if y = "a" then 1 else 0) := by
  refine ⟨by decide +kernel, fun h => ?_⟩
  have h1 := (h.delayed 0 1 4 2 "x" ["x"] (fun vs => vs.sum) rfl).1
  have h2 : (alwSees exSwap (fun _ d => d) (fun y => if y = "a" then 1 else 0) (0 + 1) (1 + 1)) "x" ≠
      (["x"].map ((alwSees exSwap (fun _ d => d) fun y => if y = "a" then 1 else 0) 0 1)).sum := by decide +kernel
  exact h2 h1

/-- `b := a; x ::= b; b := x;` -/
def exRefused : List (AlwAsg Nat) := [.now "b" ["a"] (fun vs => vs.sum), .delayed 4 2 "x" ["b"] (fun vs => vs.sum), .now "b" ["x"] (fun vs => vs.sum)]

/-- The check refuses more than needed: `x` is taken to depend on what `x ::= e` reads, although it gets a value of the cycle before. The statements
of `exRefused` would do as they say, but are refused as a combinational cycle. -/
theorem C79_counterexample_refused : verdict (alwCheck 40 exRefused) = some (some "b") ∧
    ∀ (rest : Nat → (String → Nat) → String → Nat) (_ : ∀ t d, rest t d (delayedName 4 2) = d (delayedName 4 2)) (q0 : String → Nat),
      DelaysOneCycle exRefused (alwSees exRefused rest q0) := by
  refine ⟨by decide +kernel, fun rest hr q0 => delays_of ⟨by decide +kernel, by decide +kernel⟩ ?_ rest q0 ?_⟩
  · intro k l c x r f h hx
    match k, h with
    | 0, h => cases h
    | 1, h => cases h; simp at hx
    | 2, h => cases h
    | k + 3, h => simp [exRefused] at h
  · intro t d p hp
    have : p = (4, 2) := by simpa [delayPos, exRefused] using hp
    subst this
    exact hr t d

end Silice
