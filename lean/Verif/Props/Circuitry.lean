import Verif.Spec.Circuitry
import Verif.Lemmas.Circuitry

/-!
# C47, C48, C51: repeat blocks, circuitries, expressions given to circuitries
-/

set_option autoImplicit false

namespace Silice

/-! ## C48 -/

/-- C48 (partial): what is written for a body runs as the body means: a port stands for what is given to it, any other identifier for what it
stands for where the circuitry is instantiated, at any depth of instantiation. Missing: code that hides a name in scope, gives different identifiers to an
inout, or gives to an input an expression on variables assigned before in the same block; the claim is false there (see the counterexamples). `V` are
the names of the variables of the unit. -/
theorem C48_partial (I : Nat → Int → Int → Int) {V : List String} {c : CCode} (hc : Hygienic V id (some []) c)
    {L : List (VName × AExp VName)} (h : gatherTop c = .ok L) (st : VStore) :
    ∃ st' env blk nb nt, runW I L st = some st' ∧ meaning I none c ⟨.top, none, 0, 0, st⟩ = some ⟨env, blk, nb, nt, st'⟩ := by
  have key := gathers_all I c none V id (some []) _ hc (gsOk_top V)
  unfold gatherTop at h
  cases hg : gatherC none c ⟨[], none, [], [], 0, 0, []⟩ with
  | error e => rw [hg] at h; cases h
  | ok s' =>
    rw [hg] at h
    cases h
    obtain ⟨_, _, _, k⟩ := key.ok hg
    obtain ⟨st', q1, q2⟩ := k st st rfl
    exact ⟨st', _, _, _, _, q1, q2⟩

/-- C48, C47 (partial): code that is refused has no meaning: wrong number of inputs or outputs, index outside of a repeat block, nested or empty
repeat block. -/
theorem C48_refused_partial (I : Nat → Int → Int → Int) {V : List String} {c : CCode} (hc : Hygienic V id (some []) c) {e : CircErr}
    (h : gatherTop c = .error e) (st : VStore) : meaning I none c ⟨.top, none, 0, 0, st⟩ = none := by
  have key := gathers_all I c none V id (some []) _ hc (gsOk_top V)
  unfold gatherTop at h
  cases hg : gatherC none c ⟨[], none, [], [], 0, 0, []⟩ with
  | error e => exact (key.error hg).2 st
  | ok s' => rw [hg] at h; cases h

/-- C48: an instantiation with the wrong number of inputs or outputs is refused, whatever the context. -/
theorem C48_counts (id : Option Nat) {ins outs : List String} {ia : List CArg} {oa : List String} (body r : CCode) (s : GS)
    (h : ins.length ≠ ia.length ∨ outs.length ≠ oa.length) :
    gatherC id (.inst ins outs ia oa body r) s = .error .inputs ∨ gatherC id (.inst ins outs ia oa body r) s = .error .outputs := by
  rw [gatherC]
  by_cases h1 : ins.length ≠ ia.length
  · rw [if_pos h1]; exact Or.inl rfl
  · rw [if_neg h1, if_pos (h.resolve_left h1)]; exact Or.inr rfl

/-- `circuitry inc(inout v) { v = v + 1; }  circuitry add2(input u, output w) { uint8 t = u; (t) = inc(t); (t) = inc(t); w = t; }
a = 1; (b) = add2(a); ++ (c) = add2(b + a)` -/
def exInc (x : String) (r : CCode) : CCode :=
  .inst ["v"] ["v"] [.id x] [x] (.asg "v" (.op 0 (.var "v") (.num 1)) .done) r

def exCirc : CCode :=
  .asg "a" (.num 1) <|
  .inst ["u"] ["w"] [.id "a"] ["b"] (.declare "t" (.var "u") (exInc "t" (exInc "t" (.asg "w" (.var "t") .done)))) <|
  .asg "d" (.num 2) <|
  .inst ["u"] ["w"] [.expr (.op 0 (.var "b") (.var "a"))] ["c"]
    (.declare "t" (.var "u") (exInc "t" (exInc "t" (.asg "w" (.var "t") .done)))) <|
  .done

theorem exCirc_hygienic : Hygienic ["a", "b", "c", "d"] id (some []) exCirc := by decide +kernel

/-- What operators mean in the examples. -/
def exOps (k : Nat) (a b : Int) : Int := if k = 0 then a + b else a - b

/-- Value of a variable of the unit after the code that is written runs from zeros. -/
def exRun (c : CCode) (x : String) : Option Int :=
  match gatherTop c with
  | .error _ => none
  | .ok L => (runW exOps L fun _ => 0).map fun st => st (.top x)

/-- Value the body means. -/
def exMean (c : CCode) (x : String) : Option Int :=
  (meaning exOps none c ⟨.top, none, 0, 0, fun _ => 0⟩).map fun s => s.st (.top x)

example : exRun exCirc "b" = some 3 ∧ exRun exCirc "c" = some 6 ∧ exMean exCirc "b" = some 3 ∧ exMean exCirc "c" = some 6 := by decide +kernel

/-- C48 fails for a circuitry with a variable named as one of the caller that is given to it: it is that variable which is given on
to an inner circuitry. `circuitry copy(input i, output o) { o = i; }  circuitry c(input p, output q) { uint8 x = 7; (q) = copy(p); }
x = 1; (y) = c(x);` -/
theorem C48_counterexample_local :
    let c : CCode := .asg "x" (.num 1) <| .inst ["p"] ["q"] [.id "x"] ["y"]
      (.declare "x" (.num 7) <| .inst ["i"] ["o"] [.id "p"] ["q"] (.asg "o" (.var "i") .done) .done) .done
    exRun c "y" = some 7 ∧ exMean c "y" = some 1 := by decide +kernel

/-- C48 fails for a circuitry given variables named as its ports, in another order: an inner circuitry gets the other variable.
`circuitry copy(input i, output o) { o = i; }  circuitry c(input a, input b, output q) { (q) = copy(a); }  a = 1; b = 2; (y) = c(b, a);` -/
theorem C48_counterexample_swapped :
    let c : CCode := .asg "a" (.num 1) <| .asg "b" (.num 2) <| .inst ["a", "b"] ["q"] [.id "b", .id "a"] ["y"]
      (.inst ["i"] ["o"] [.id "a"] ["q"] (.asg "o" (.var "i") .done) .done) .done
    exRun c "y" = some 1 ∧ exMean c "y" = some 2 := by decide +kernel

/-- C48 fails for an inout given two identifiers: the one given as input is not used. `circuitry inc(inout v) { v = v + 1; }
a = 1; b = 5; (b) = inc(a);` -/
theorem C48_counterexample_inout :
    let c : CCode := .asg "a" (.num 1) <| .asg "b" (.num 5) <| .inst ["v"] ["v"] [.id "a"] ["b"]
      (.asg "v" (.op 0 (.var "v") (.num 1)) .done) .done
    exRun c "b" = some 6 ∧ exRun c "a" = some 1 ∧ exMean c "a" = some 2 ∧ exMean c "b" = some 5 := by decide +kernel

/-- C48 fails for a circuitry that uses an identifier before it declares a variable of this name: the use is that of the variable declared.
`circuitry c(output q) { q = x; uint8 x = 7; }  x = 1; (y) = c();` -/
theorem C48_counterexample_later :
    let c : CCode := .asg "x" (.num 1) <| .inst [] ["q"] [] ["y"] (.asg "q" (.var "x") <| .declare "x" (.num 7) .done) .done
    exRun c "y" = some 0 ∧ exMean c "y" = some 1 := by decide +kernel

/-! ## C47 -/

/-- C47: a repeat block of count `n` expands into `n` copies in order, copy `i` with `i` as its index. `NoRep`: otherwise the repeat block is
refused (`C47_accepted`). -/
theorem C47_copies {body : CCode} (hb : body.NoRep) {n : Nat} (hn : 0 < n) (r : CCode) (s : GS) :
    gatherC none (.rep n body r) s = gatherC none (body.unrolled 0 n r) s := by
  rw [gatherC, if_neg (by simp), if_neg (by omega), copies_unrolled hb r n 0 s]
  rfl

theorem noRep_of_repOk : ∀ c : CCode, c.RepOk true → c.NoRep := by
  intro c
  induction c with
  | done => intro _; trivial
  | asg x e r ih => intro h; exact ih h.2
  | declare x e r ih => intro h; exact ih h.2
  | block b r ihb ihr => intro h; exact ⟨ihb h.1, ihr h.2⟩
  | inst ins outs ia oa b r ihb ihr => intro h; exact ⟨ihb h.2.1, ihr h.2.2⟩
  | rep n b r ihb ihr => intro h; exact absurd h.1 (by decide)

/-- C47: in code that is accepted the index is only used in repeat blocks, directly or in circuitries instantiated there, and no repeat block is
inside another, nor has count zero. -/
theorem C47_accepted {c : CCode} {L : List (VName × AExp VName)} (h : gatherTop c = .ok L) : c.RepOk false := by
  unfold gatherTop at h
  cases hg : gatherC none c ⟨[], none, [], [], 0, 0, []⟩ with
  | error e => rw [hg] at h; cases h
  | ok s' => exact repOk_of_gather c none _ _ hg

/-- C47: all accepted repeat blocks expand into copies. -/
theorem C47_accepted_copies {n : Nat} {body r : CCode} {s s' : GS} (h : gatherC none (.rep n body r) s = .ok s') :
    gatherC none (body.unrolled 0 n r) s = .ok s' := by
  have := repOk_of_gather _ none _ _ h
  rw [← C47_copies (noRep_of_repOk body this.2.2.1) this.2.1]
  exact h

/-- C47: errors for a repeat block in a repeat block, a count of zero, and an index outside. -/
theorem C47_errors (i n : Nat) (body r : CCode) (s : GS) (x : String) :
    gatherC (some i) (.rep n body r) s = .error .nested ∧ gatherC none (.rep 0 body r) s = .error .count ∧
    gatherC none (.asg x .idx r) s = .error .idOutside := by
  refine ⟨?_, ?_, ?_⟩
  · rw [gatherC, if_pos (by simp)]
  · rw [gatherC, if_neg (by simp), if_pos rfl]
  · simp only [gatherC, AExp.setId]

/-- C47: sum of the indices, as run by the hardware: `s = 0; n{ s = s + __id; }` gives `0 + 1 + ... + (n - 1)` for every `n`. -/
theorem C47_sum (n : Nat) (hn : 0 < n) (st : VStore) : ∃ L st',
    gatherTop (.asg "s" (.num 0) <| .rep n (.asg "s" (.op 0 (.var "s") .idx) .done) .done) = .ok L ∧ runW exOps L st = some st' ∧
    2 * st' (.top "s") = n * (n - 1) := by
  set c : CCode := .asg "s" (.num 0) <| .rep n (.asg "s" (.op 0 (.var "s") .idx) .done) .done with hc
  have hy : Hygienic ["s"] id (some []) c := by
    rw [hc]
    refine ⟨by decide, by decide, rfl, ?_, trivial⟩
    exact ⟨by decide, by decide, trivial⟩
  have htimes : ∀ (m i : Nat) (s : MS), s.env "s" = .top "s" → 2 * s.st (.top "s") = i * (i - 1) →
      ∃ s', times (fun i => meaning exOps (some i) (.asg "s" (.op 0 (.var "s") .idx) .done)) i m s = some s' ∧
        2 * s'.st (.top "s") = ((i + m : Nat) : Int) * ((i + m : Nat) - 1) := by
    intro m
    induction m with
    | zero => intro i s _ h; exact ⟨s, rfl, by simpa using h⟩
    | succ m ih =>
      intro i s he h
      obtain ⟨s', h1, h2⟩ := ih (i + 1) { s with st := s.st.set (s.env "s") (exOps 0 (s.st (s.env "s")) i) } he (by
        simp only [he, VStore.set, if_true, exOps]
        push_cast
        rw [Int.mul_add, h]
        ring)
      refine ⟨s', ?_, ?_⟩
      · simp only [times, meaning, evalS, Option.map_some]
        exact h1
      · rw [h2]
        have : i + 1 + m = i + (m + 1) := by omega
        rw [this]
  have hm : meaning exOps none c ⟨.top, none, 0, 0, st⟩ =
      times (fun i => meaning exOps (some i) (.asg "s" (.op 0 (.var "s") .idx) .done)) 0 n ⟨.top, none, 0, 0, st.set (.top "s") 0⟩ := by
    rw [hc, meaning]
    simp only [evalS]
    rw [meaning, if_neg (by simp; omega)]
    cases times (fun i => meaning exOps (some i) (.asg "s" (.op 0 (.var "s") .idx) .done)) 0 n
        ⟨.top, none, 0, 0, st.set (.top "s") 0⟩ with
    | none => rfl
    | some s' => rfl
  cases hg : gatherTop c with
  | error e =>
    have := C48_refused_partial exOps hy hg st
    obtain ⟨s', h1, _⟩ := htimes n 0 ⟨.top, none, 0, 0, st.set (.top "s") 0⟩ rfl (by simp [VStore.set])
    rw [hm] at this
    rw [h1] at this
    cases this
  | ok L =>
    obtain ⟨st', env, blk, nb, nt, h1, h2⟩ := C48_partial exOps hy hg st
    obtain ⟨s', h3, h4⟩ := htimes n 0 ⟨.top, none, 0, 0, st.set (.top "s") 0⟩ rfl (by simp [VStore.set])
    refine ⟨L, st', rfl, h1, ?_⟩
    rw [hm, h3] at h2
    simp only [Option.some.injEq] at h2
    rw [h2] at h4
    simpa using h4

/-- Repeat block with a circuitry, accepted: `4{ (s) = add(s, __id); }` -/
example : ∃ L, gatherTop (.rep 4 (.inst ["u", "v"] ["w"] [.id "s", .expr .idx] ["s"] (.asg "w" (.op 0 (.var "u") (.var "v")) .done) .done)
    .done) = .ok L ∧ (runW exOps L fun _ => 10).map (fun st => st (.top "s")) = some 16 := by
  refine ⟨_, rfl, by decide +kernel⟩

/-! ## C51 -/

/-- Assignments, one after the other. -/
def assigns : List (String × AExp String) → CCode → CCode
  | [], r => r
  | (x, e) :: l, r => .asg x e (assigns l r)

/-- Values after assignments. -/
def assigned (I : Nat → Int → Int → Int) : List (String × AExp String) → VStore → Option VStore
  | [], st => some st
  | (x, e) :: l, st =>
    match evalS I .top none st e with
    | none => none
    | some a => assigned I l (st.set (.top x) a)

theorem assigns_hygienic {V : List String} {r : CCode} : ∀ (l : List (String × AExp String)) (W : List String),
    (∀ p ∈ l, p.1 ∈ V ∧ ∀ y ∈ p.2.names, y ∈ V) → (∀ W', (∀ x ∈ W', x ∈ W ∨ x ∈ l.map Prod.fst) → Hygienic V id (some W') r) →
    Hygienic V id (some W) (assigns l r) := by
  intro l
  induction l with
  | nil => intro W _ h; exact h W fun x hx => Or.inl hx
  | cons p l ih =>
    obtain ⟨x, e⟩ := p
    intro W hl h
    obtain ⟨h1, h2⟩ := hl (x, e) (List.mem_cons_self ..)
    refine ⟨h1, h2, ih (x :: W) (fun p hp => hl p (List.mem_cons_of_mem _ hp)) fun W' hW' => h W' fun y hy => ?_⟩
    rcases hW' y hy with hy | hy
    · rcases List.mem_cons.mp hy with rfl | hy
      · exact Or.inr (by simp)
      · exact Or.inl hy
    · exact Or.inr (by simp only [List.map_cons, List.mem_cons]; exact Or.inr hy)

theorem meaning_assigns (I : Nat → Int → Int → Int) {r : CCode} {blk : Option Nat} {nb nt : Nat} : ∀ (l : List (String × AExp String))
    (st : VStore), meaning I none (assigns l r) ⟨.top, blk, nb, nt, st⟩ =
      match assigned I l st with | none => none | some st' => meaning I none r ⟨.top, blk, nb, nt, st'⟩ := by
  intro l
  induction l with
  | nil => intro st; rfl
  | cons p l ih =>
    obtain ⟨x, e⟩ := p
    intro st
    simp only [assigns, assigned, meaning]
    cases evalS I VName.top none st e with
    | none => rfl
    | some a => exact ih _

/-- C51 (partial): after any assignments, a circuitry that copies its input to its output gives the value that the expression given to it has at that
point. Missing: expressions that read a variable assigned before in the same block, where this is false (`C51_counterexample`). -/
theorem C51_partial (I : Nat → Int → Int → Int) {V : List String} {l : List (String × AExp String)} {e : AExp String} {p o r : String}
    (hl : ∀ q ∈ l, q.1 ∈ V ∧ ∀ y ∈ q.2.names, y ∈ V) (he : ∀ y ∈ e.names, y ∈ V) (hr : r ∈ V) (hp : p ∉ V) (ho : o ∉ V) (hpo : p ≠ o)
    (hread : ∀ y ∈ e.names, y ∉ l.map Prod.fst) {L : List (VName × AExp VName)}
    (h : gatherTop (assigns l (.inst [p] [o] [.expr e] [r] (.asg o (.var p) .done) .done)) = .ok L) (st : VStore) :
    ∃ st' st1, runW I L st = some st' ∧ assigned I l st = some st1 ∧ evalS I .top none st1 e = some (st' (.top r)) := by
  have hy : Hygienic V id (some []) (assigns l (.inst [p] [o] [.expr e] [r] (.asg o (.var p) .done) .done)) := by
    refine assigns_hygienic l [] hl fun W' hW' => ?_
    refine ⟨by simpa using hp, by simpa using ho, by simp, by simp, by simpa [CArg.names] using he, by simpa using hr, ?_, ?_, ?_, trivial⟩
    · intro i hi j hj hij
      simp only [List.length_cons, List.length_nil, Nat.zero_add, Nat.lt_one_iff] at hi hj
      subst hi hj
      simp only [List.getElem?_cons_zero, Option.some.injEq] at hij
      exact absurd hij hpo
    · intro a ha y hy
      simp only [List.mem_singleton] at ha
      subst ha
      intro hc
      rcases hW' _ hc with hc | hc
      · cases hc
      · exact hread y hy hc
    · exact ⟨by simp, by simp [AExp.names], trivial⟩
  obtain ⟨st', env, blk, nb, nt, h1, h2⟩ := C48_partial I hy h st
  rw [meaning_assigns] at h2
  cases ha : assigned I l st with
  | none => rw [ha] at h2; cases h2
  | some st1 =>
    rw [ha] at h2
    simp only [meaning, given] at h2
    rw [if_neg (by simp)] at h2
    cases hv : evalS I VName.top none st1 e with
    | none => rw [hv] at h2; simp at h2
    | some a =>
      refine ⟨st', st1, h1, rfl, ?_⟩
      rw [hv] at h2
      simp only [evalS, portEnv, portArg, List.map_cons, List.map_nil, withTemps, VStore.set, if_true, if_neg hpo,
        Option.some.injEq, MS.mk.injEq] at h2
      rw [hv, Option.some.injEq, ← h2.2.2.2.2]
      simp [VStore.set]

/-- C51 fails when the expression reads a variable assigned before in the same block: its value is that of before the block. `a = 5;
(r) = copy(a + 1);` -/
theorem C51_counterexample :
    let c : CCode := assigns [("a", .num 5)]
      (.inst ["p"] ["o"] [.expr (.op 0 (.var "a") (.num 1))] ["r"] (.asg "o" (.var "p") .done) .done)
    exRun c "r" = some 1 ∧ exMean c "r" = some 6 := by decide +kernel

/-- `a = 5; (r) = copy(b + 1);` meets the hypotheses of `C51_partial`. -/
example : exRun (assigns [("a", .num 5)]
    (.inst ["p"] ["o"] [.expr (.op 0 (.var "b") (.num 1))] ["r"] (.asg "o" (.var "p") .done) .done)) "r" = some 1 := by decide +kernel

end Silice
