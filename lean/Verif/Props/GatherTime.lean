import Verif.Lemmas.GatherTimeRun
import Verif.Props.Gather

/-!
C52: what is executed in each clock cycle is what the rules on cycles say, for every program.

`move` (Spec/GatherTime) gives the rules on the statements, without blocks or states; `TRun` executes a program cycle by cycle following them.
-/

set_option autoImplicit false

namespace Silice

/-- C52: for every program in which nothing is written after a `break` or `return`, whatever instructions, conditions and the rest of the design do,
and for any number of cycles: the hardware executes in each cycle the instructions that the rules on statements give, in the same order, and has the
same data; it is in state 0 exactly when the program has ended. -/
theorem C52_cycles (u : AlgUnit) (last : Nat) (st : PSt) (ff : Cfg (Fin (last + 1)) → Fin (last + 1) → Fin (last + 1)) (hff : Skips ff)
    (h : buildUnit u = some (last, st)) (hok : u.switchOk = true) (ht : u.tidy = true) :
    ∃ g rs, generateStates (st.cfg last) 0 ff (last + 1) (List.finRange (last + 1)) = some (g, rs) ∧
      ∃ efuel fuel entries, emitStates g rs.num (ff g) efuel fuel = .ok entries ∧
        ∀ (σ : Type) (M : Meaning σ) (env : Nat → σ → σ) (h0 : HW σ), h0.idx = 1 → ∀ n : Nat,
          ∃ trs hw o, hwRun g rs.num (ff g) (callIdsFrom g 0 (List.finRange (last + 1))) entries (M.sem fun b => (st.blk b).ins) env h0 n =
              some (trs, hw) ∧
            TRun (u.globals ++ u.locals) u.main M env h0.data n (trs.map fun tr => tr.flatMap fun b : Fin (last + 1) => insDids (st.blk b).ins) o hw.data ∧
            (hw.idx = 0 ↔ o = none) := by
  obtain ⟨n0, l, lo, g, rs, h1, U, M, hff0, hff1, P, hlast, hid, ef, fu, es, he, m⟩ := unit_machine u last st ff hff h hok
  refine ⟨g, rs, h1, ef, fu, es, he, fun σ Mn env h0 hi n => ?_⟩
  have C : Comp u st last n0 l lo g (ff g) (ff (st.cfg last)) rs.num := ⟨U, M, hff0, hff1, P, ht⟩
  have hi' : rs.num.sid g.first = some h0.idx := by rw [hi, hid]
  obtain ⟨trs, hw, p, r1, r2⟩ := C21_never_undefined g 0 (ff g) rs.num rs.maxState _ es m (unitSem st last Mn) env h0 hi' n
  obtain ⟨o, t1, t2⟩ := here_run C hlast r2
  refine ⟨trs, hw, o, r1, t1, ?_⟩
  obtain ⟨hw', e1, _, e3, e4⟩ := C21_lockstep g 0 (ff g) rs.num rs.maxState _ es m σ (unitSem st last Mn) env h0 hi' n trs p _ r2
  rw [r1] at e1
  cases e1
  cases t2 with
  | over => simp [e3 rfl]
  | start =>
    have := (e4 _ _ rfl).2
    simp only [reduceCtorEq, iff_false]
    omega
  | «at» =>
    have := (e4 _ _ rfl).2
    simp only [reduceCtorEq, iff_false]
    omega

/-- C52: the rules leave no choice: at most one execution follows them. -/
theorem C52_deterministic {σ : Type} (subs : List Prg) (main : Prg) (M : Meaning σ) (env : Nat → σ → σ) (s0 : σ) (n : Nat)
    (t1 t2 : List (List Did)) (o1 o2 : Option (Ctl × Bool)) (s1 s2 : σ) (h1 : TRun subs main M env s0 n t1 o1 s1)
    (h2 : TRun subs main M env s0 n t2 o2 s2) : t1 = t2 ∧ o1 = o2 ∧ s1 = s2 := h1.det h2

/-- Non-vacuity: `exStructured` (nested loops, `break`, `++:`, a switch, subroutines calling each other, a wait) meets the hypotheses. -/
example : (∃ last st, buildUnit exStructured = some (last, st)) ∧ exStructured.switchOk = true ∧ exStructured.tidy = true := by
  refine ⟨?_, by decide +kernel, by decide +kernel⟩
  have h : (buildUnit exStructured).isSome = true := by decide +kernel
  obtain ⟨⟨last, st⟩, h⟩ := Option.isSome_iff_exists.mp h
  exact ⟨last, st, h⟩

/-! ### The documented rules -/

/-- From `c` with flag `f` and data `s`, control comes to `c'` with flag `f'` and data `s'` in the same cycle, having executed `es`. -/
def Within {σ : Type} (subs : List Prg) (M : Meaning σ) (c : Ctl) (f : Bool) (s : σ) (es : List Did) (c' : Ctl) (f' : Bool) (s' : σ) : Prop :=
  ∀ (es2 : List Did) (s2 : σ) (o : Option (Ctl × Bool)), TCycle subs M c' f' s' es2 s2 o → TCycle subs M c f s (es ++ es2) s2 o

theorem Within.trans {σ : Type} {subs : List Prg} {M : Meaning σ} {c c' c'' : Ctl} {f f' f'' : Bool} {s s' s'' : σ} {e1 e2 : List Did}
    (h1 : Within subs M c f s e1 c' f' s') (h2 : Within subs M c' f' s' e2 c'' f'' s'') : Within subs M c f s (e1 ++ e2) c'' f'' s'' := by
  intro es2 s2 o h
  rw [List.append_assoc]
  exact h1 _ _ _ (h2 _ _ _ h)

theorem endsAtRet_of_stateless : ∀ (p : Prg), p.stateless = true → p.endsAtRet = false
  | .instr _ k, h => by rw [Prg.endsAtRet]; exact endsAtRet_of_stateless k (by rw [Prg.stateless] at h; exact h)
  | .ret _, h => by rw [Prg.stateless] at h; cases h
  | .nil, _ | .block _ _, _ | .ifThen _ _ _, _ | .ifElse _ _ _ _, _ | .switch _ _ _, _ | .step _, _ | .loop _ _ _, _ | .brk _, _
  | .call _ _ _ _ _, _ | .join _ _ _ _, _ => rfl

theorem casesStateless_mem : ∀ (cs : List (Option Nat × Prg)), casesStateless cs = true → ∀ e ∈ cs, e.2.stateless = true
  | [], _, e, he => by cases he
  | (v, p) :: cs, h, e, he => by
    rw [casesStateless, Bool.and_eq_true] at h
    rcases List.mem_cons.mp he with rfl | he
    · exact h.1
    · exact casesStateless_mem cs h.2 e he

theorem pickCase_stateless {m : Nat → Bool} {cs : List (Option Nat × Prg)} {p : Prg} (h : casesStateless cs = true) (hp : pickCase m cs = some p) :
    p.stateless = true := by
  unfold pickCase at hp
  split at hp
  · rename_i e he
    cases hp
    exact casesStateless_mem cs h _ (List.mem_of_find?_eq_some he)
  · obtain ⟨e, he, rfl⟩ := Option.map_eq_some_iff.mp hp
    exact casesStateless_mem cs h _ (List.mem_of_find?_eq_some he)

section
variable {σ : Type} (subs : List Prg) (M : Meaning σ)

theorem within_did {c c' : Ctl} {f : Bool} {s : σ} {e : Did} (h : move subs M s c = .did e c') : Within subs M c f s [e] c' false (M.did e s) :=
  fun _ _ _ t => .did h t

theorem within_on {c c' : Ctl} {f : Bool} {s : σ} (h : move subs M s c = .on c') : Within subs M c f s [] c' f s := fun _ _ _ t => .on h t

theorem within_tested {c c' : Ctl} {f : Bool} {s : σ} (h : move subs M s c = .tested c') : Within subs M c f s [] c' false s :=
  fun _ _ _ t => .tested h t

variable {M}

/-- Code that fits in a cycle is executed within a cycle. -/
theorem Runs.within {p : Prg} {s s' : σ} {es : List Did} (h : Runs M p s es s') : p.stateless = true → ∀ (K : List Frame) (f : Bool),
    ∃ f', (f = false → f' = false) ∧ Within subs M (.run p K) f s es (.run .nil K) f' s' := by
  have side : ∀ {t k : Prg} {s s1 s' : σ} {e1 e2 : List Did} {K : List Frame} {f : Bool} {c : Ctl},
      (∀ (K : List Frame) (f : Bool), ∃ f', (f = false → f' = false) ∧ Within subs M (.run t K) f s e1 (.run .nil K) f' s1) →
      (∀ (K : List Frame) (f : Bool), ∃ f', (f = false → f' = false) ∧ Within subs M (.run k K) f s1 e2 (.run .nil K) f' s') →
      Within subs M c f s [] (.run t (.after k false :: K)) false s → ∃ f', (f = false → f' = false) ∧
        Within subs M c f s (e1 ++ e2) (.run .nil K) f' s' := by
    intro t k s s1 s' e1 e2 K f c h1 h2 h0
    obtain ⟨f1, g1, w1⟩ := h1 (.after k false :: K) false
    obtain ⟨f2, g2, w2⟩ := h2 K f1
    refine ⟨f2, fun _ => g2 (g1 rfl), ?_⟩
    have := (h0.trans w1).trans ((within_on subs M (c := .run .nil (.after k false :: K)) (c' := .run k K) (f := f1) (s := s1) rfl).trans w2)
    simpa using this
  have blk : ∀ {t : Prg} {s s1 : σ} {e1 : List Did}, t.stateless = true →
      (∀ (K : List Frame) (f : Bool), ∃ f', (f = false → f' = false) ∧ Within subs M (.run t K) f s e1 (.run .nil K) f' s1) →
      ∀ (K : List Frame) (f : Bool), ∃ f', (f = false → f' = false) ∧ Within subs M (.run (.block t .nil) K) f s e1 (.run .nil K) f' s1 := by
    intro t s s1 e1 ht h1 K f
    obtain ⟨f1, g1, w1⟩ := h1 (.after .nil false :: K) f
    refine ⟨f1, g1, ?_⟩
    have h0 : Within subs M (.run (.block t .nil) K) f s [] (.run t (.after .nil false :: K)) f s :=
      within_on subs M (by simp only [move, endsAtRet_of_stateless t ht, Prg.endsAtRet]; rfl)
    have := (h0.trans w1).trans (within_on subs M (c := .run .nil (.after .nil false :: K)) (c' := .run .nil K) (f := f1) (s := s1) rfl)
    simpa using this
  induction h with
  | nil => exact fun _ K f => ⟨f, id, fun _ _ _ t => t⟩
  | instr _ ih =>
    intro hs K f
    rw [Prg.stateless] at hs
    obtain ⟨f', h1, h2⟩ := ih hs K false
    exact ⟨f', fun _ => h1 rfl, (within_did subs M rfl).trans h2⟩
  | @block b k s s1 s' e1 e2 _ _ ih1 ih2 =>
    intro hs K f
    rw [Prg.stateless, Bool.and_eq_true] at hs
    obtain ⟨f1, g1, w1⟩ := ih1 hs.1 (.after k false :: K) f
    obtain ⟨f2, g2, w2⟩ := ih2 hs.2 K f1
    refine ⟨f2, fun h => g2 (g1 h), ?_⟩
    have h0 : Within subs M (.run (.block b k) K) f s [] (.run b (.after k false :: K)) f s :=
      within_on subs M (by simp only [move, endsAtRet_of_stateless _ hs.1, endsAtRet_of_stateless _ hs.2]; rfl)
    have := (h0.trans w1).trans ((within_on subs M (c := .run .nil (.after k false :: K)) (c' := .run k K) (f := f1) (s := s1) rfl).trans w2)
    simpa using this
  | @ifThen q t k s s1 s' e1 e2 _ _ ih1 ih2 =>
    intro hs K f
    rw [Prg.stateless, Bool.and_eq_true] at hs
    refine side (t := if M.test q s then .block t .nil else .nil) ?_ (ih2 hs.2) (within_tested subs M ?_)
    · cases hq : M.test q s with
      | true => rw [hq] at ih1; exact blk hs.1 (ih1 hs.1)
      | false => rw [hq] at ih1; exact ih1 rfl
    · simp only [move, Prg.isLong, hs.1, endsAtRet_of_stateless _ hs.2]; simp
  | @ifElse q t e k s s1 s' e1 e2 _ _ ih1 ih2 =>
    intro hs K f
    rw [Prg.stateless, Bool.and_eq_true, Bool.and_eq_true] at hs
    have hx : (if M.test q s then t else e).stateless = true := by split_ifs; exacts [hs.1.1, hs.1.2]
    refine side (blk hx (ih1 hx)) (ih2 hs.2) (within_tested subs M ?_)
    simp only [move, Prg.isLong, hs.1, endsAtRet_of_stateless _ hs.2]; simp
  | @case q cs p k s s1 s' e1 e2 hp _ _ ih1 ih2 =>
    intro hs K f
    rw [Prg.stateless, Bool.and_eq_true] at hs
    have hx := pickCase_stateless hs.1 hp
    refine side (blk hx (ih1 hx)) (ih2 hs.2) (within_tested subs M ?_)
    simp only [move, hp, hs.1, endsAtRet_of_stateless _ hs.2]; rfl
  | @noCase q cs k s s' es hp _ ih =>
    intro hs K f
    rw [Prg.stateless, Bool.and_eq_true] at hs
    obtain ⟨f', h1, h2⟩ := ih hs.2 K false
    refine ⟨f', fun _ => h1 rfl, (within_tested subs M ?_).trans h2⟩
    simp only [move, hp, hs.1, endsAtRet_of_stateless _ hs.2]; rfl

end

mutual

/-- Such code always executes. -/
theorem runs_total {σ : Type} (M : Meaning σ) : ∀ (p : Prg), p.stateless = true → ∀ s, ∃ es s', Runs M p s es s'
  | .nil, _, s => ⟨[], s, .nil⟩
  | .instr i k, h, s => by
    rw [Prg.stateless] at h
    obtain ⟨es, s', r⟩ := runs_total M k h (M.instr i s)
    exact ⟨_, _, .instr r⟩
  | .block b k, h, s => by
    rw [Prg.stateless, Bool.and_eq_true] at h
    obtain ⟨e1, s1, r1⟩ := runs_total M b h.1 s
    obtain ⟨e2, s2, r2⟩ := runs_total M k h.2 s1
    exact ⟨_, _, .block r1 r2⟩
  | .ifThen q t k, h, s => by
    rw [Prg.stateless, Bool.and_eq_true] at h
    obtain ⟨e1, s1, r1⟩ : ∃ es s', Runs M (if M.test q s then t else .nil) s es s' := by
      split_ifs
      · exact runs_total M t h.1 s
      · exact ⟨[], s, .nil⟩
    obtain ⟨e2, s2, r2⟩ := runs_total M k h.2 s1
    exact ⟨_, _, .ifThen r1 r2⟩
  | .ifElse q t e k, h, s => by
    rw [Prg.stateless, Bool.and_eq_true, Bool.and_eq_true] at h
    obtain ⟨e1, s1, r1⟩ : ∃ es s', Runs M (if M.test q s then t else e) s es s' := by
      split_ifs
      · exact runs_total M t h.1.1 s
      · exact runs_total M e h.1.2 s
    obtain ⟨e2, s2, r2⟩ := runs_total M k h.2 s1
    exact ⟨_, _, .ifElse r1 r2⟩
  | .switch q cs k, h, s => by
    rw [Prg.stateless, Bool.and_eq_true] at h
    cases hp : pickCase (fun v => M.label q v s) cs with
    | none =>
      obtain ⟨e2, s2, r2⟩ := runs_total M k h.2 s
      exact ⟨_, _, .noCase hp r2⟩
    | some p =>
      have hm : ∃ e ∈ cs, e.2 = p := by
        unfold pickCase at hp
        split at hp
        · rename_i e he
          cases hp
          exact ⟨e, List.mem_of_find?_eq_some he, rfl⟩
        · obtain ⟨e, he, rfl⟩ := Option.map_eq_some_iff.mp hp
          exact ⟨e, List.mem_of_find?_eq_some he, rfl⟩
      obtain ⟨e, he, rfl⟩ := hm
      obtain ⟨e1, s1, r1⟩ := cases_total M cs h.1 e he s
      obtain ⟨e2, s2, r2⟩ := runs_total M k h.2 s1
      exact ⟨_, _, .case hp r1 r2⟩

theorem cases_total {σ : Type} (M : Meaning σ) : ∀ (cs : List (Option Nat × Prg)), casesStateless cs = true → ∀ e ∈ cs,
    ∀ s, ∃ es s', Runs M e.2 s es s'
  | [], _, e, he, s => by cases he
  | (v, p) :: cs, h, e, he, s => by
    rw [casesStateless, Bool.and_eq_true] at h
    rcases List.mem_cons.mp he with h1 | h1
    · rw [h1]; exact runs_total M p h.1 s
    · exact cases_total M cs h.2 e h1 s

end

section
variable {σ : Type} (subs : List Prg) (M : Meaning σ)

/-- C52, documented rule: code without `++:`, loop, `break`, call, join or `return` takes no cycle of its own: it is executed, in the ordinary way,
within the cycle in which it starts, and so is what follows. Conditionals and switches add no cycle. -/
theorem C52_code_that_fits (p : Prg) (hp : p.stateless = true) (s : σ) (K : List Frame) (f : Bool) :
    ∃ es s' f', Runs M p s es s' ∧ (f = false → f' = false) ∧ Within subs M (.run p K) f s es (.run .nil K) f' s' := by
  obtain ⟨es, s', r⟩ := runs_total M p hp s
  obtain ⟨f', h1, h2⟩ := r.within subs hp K f
  exact ⟨es, s', f', r, h1, h2⟩

/-- C52, documented rule: an algorithm made of such code ends after one cycle. -/
theorem C52_one_cycle_algorithm (p : Prg) (hp : p.stateless = true) (env : Nat → σ → σ) (s : σ) :
    ∃ es s', Runs M p s es s' ∧ TRun subs p M env s 1 [es] none (env 0 s') := by
  obtain ⟨es, s', f', r, _, w⟩ := C52_code_that_fits subs M p hp s [] false
  refine ⟨es, s', r, ?_⟩
  have := w _ _ _ (.halt rfl)
  rw [List.append_nil] at this
  exact .next .start this

/-- C52, documented rule: `++:` always ends the cycle; the next one starts with what follows it. -/
theorem C52_step (k : Prg) (K : List Frame) (f : Bool) (s : σ) : TCycle subs M (.run (.step k) K) f s [] s (some (.run k K, false)) := .step rfl

/-- C52, documented rule: entering a `while` takes one cycle. -/
theorem C52_while_enter (q : Nat) (b k : Prg) (K : List Frame) (s : σ) :
    TCycle subs M (.run (.loop q b k) K) false s [] s (some (.head q b k K, true)) := .cut rfl

/-- C52, documented rule: a loop whose body fits in a cycle takes exactly one cycle per iteration. -/
theorem C52_while_iteration (q : Nat) (b k : Prg) (K : List Frame) (hb : b.stateless = true) (s : σ) (hq : M.test q s = true) :
    ∃ es s', Runs M b s es s' ∧ TCycle subs M (.head q b k K) true s es s' (some (.head q b k K, true)) := by
  obtain ⟨es, s', r⟩ := runs_total M b hb s
  have rb : Runs M (.block b .nil) s (es ++ []) s' := .block r .nil
  rw [List.append_nil] at rb
  obtain ⟨f', h1, h2⟩ := rb.within subs (by simp [Prg.stateless, hb]) (.again q b k :: K) false
  refine ⟨es, s', r, .tested (by simp only [move, hq]; rfl) ?_⟩
  rw [h1 rfl] at h2
  have := h2 _ _ _ (.cut rfl)
  rwa [List.append_nil] at this

/-- C52, documented rule: leaving a `while` takes no cycle. Holds only for loops without `break`, not directly followed by the instructions that lead
to a `return`. -/
theorem C52_while_exit_partial (q : Nat) (b k : Prg) (K : List Frame) (hb : b.breaks = false) (hk : k.endsAtRet = false) (s : σ)
    (hq : M.test q s = false) (f : Bool) : Within subs M (.head q b k K) f s [] (.run k K) false s :=
  within_tested subs M (by simp only [move, hq, hb, hk]; rfl)

/-- C52, the documented rule fails: leaving a `while` that contains a `break` takes a cycle, also when it is left because its condition is false. -/
theorem C52_counterexample_while_exit (q : Nat) (b k : Prg) (K : List Frame) (hb : b.breaks = true) (s : σ) (hq : M.test q s = false) (f : Bool) :
    TCycle subs M (.head q b k K) f s [] s (some (.run k K, true)) := .jump (by simp only [move, hq, hb]; rfl)

/-- C52, documented rule: when a side of a conditional takes more than a cycle and comes to its end, a cycle ends after the conditional, whichever
side is taken. -/
theorem C52_if_cut (q : Nat) (t e k : Prg) (K : List Frame) (h : t.isLong = true ∨ e.isLong = true) (f : Bool) (s : σ) :
    Within subs M (.run (.ifElse q t e k) K) f s [] (.run (.block (if M.test q s then t else e) .nil) (.after k true :: K)) false s ∧
    ∀ s', TCycle subs M (.run .nil (.after k true :: K)) false s' [] s' (some (.run k K, true)) := by
  refine ⟨within_tested subs M ?_, fun s' => .cut rfl⟩
  have : (t.isLong || e.isLong || k.endsAtRet) = true := by rcases h with h | h <;> simp [h]
  simp only [move, this]

/-- C52, documented rule: when a side of a conditional does not come to its end (it ends with `break` or `return`) and the other fits in a cycle,
no cycle is added: on this other side, what follows is executed in the same cycle. -/
theorem C52_if_leaving (q : Nat) (t e k : Prg) (K : List Frame) (ht : t.canEnd = false) (he : e.stateless = true) (hk : k.endsAtRet = false)
    (f : Bool) (s : σ) (hq : M.test q s = false) :
    ∃ es s', Runs M e s es s' ∧ Within subs M (.run (.ifElse q t e k) K) f s es (.run k K) false s' := by
  obtain ⟨es, s', r⟩ := runs_total M e he s
  have rb : Runs M (.block e .nil) s (es ++ []) s' := .block r .nil
  rw [List.append_nil] at rb
  obtain ⟨f', h1, h2⟩ := rb.within subs (by simp [Prg.stateless, he]) (.after k false :: K) false
  refine ⟨es, s', r, ?_⟩
  have h0 : Within subs M (.run (.ifElse q t e k) K) f s [] (.run (.block e .nil) (.after k false :: K)) false s :=
    within_tested subs M (by simp [move, Prg.isLong, ht, he, hk, hq])
  have := (h0.trans h2).trans (within_on subs M (c := .run .nil (.after k false :: K)) (c' := .run k K) rfl)
  rw [h1 rfl] at this
  simpa using this

/-- C52, the documented rule fails: "if only one branch reaches after, no additional cycle is required". When the side that comes to its end is the
one that takes more than a cycle, a cycle ends after the conditional. -/
theorem C52_counterexample_one_branch (q : Nat) (t e k : Prg) (K : List Frame) (_ht : t.canEnd = false) (he : e.isLong = true) (f : Bool) (s : σ)
    (hq : M.test q s = false) :
    Within subs M (.run (.ifElse q t e k) K) f s [] (.run (.block e .nil) (.after k true :: K)) false s ∧
    ∀ s', TCycle subs M (.run .nil (.after k true :: K)) false s' [] s' (some (.run k K, true)) := by
  have := C52_if_cut subs M q t e k K (.inr he) f s
  rwa [hq] at this

/-- C52, documented rule: a call takes two cycles at best: the cycle ends when the subroutine is entered, after its inputs are written, and when it
returns; the caller goes on with the reading of the outputs. -/
theorem C52_call (z give take : Nat) (outs : Bool) (k p : Prg) (K : List Frame) (hz : subs[z]? = some p) (f : Bool) (s : σ) :
    TCycle subs M (.run (.call z give take outs k) K) f s [.instr give] (M.instr give s) (some (.run p (.back take outs k :: K), true)) ∧
    (∀ f' s', TCycle subs M (.run .nil (.back take outs k :: K)) f' s' [] s' (some (.reading take outs k K, true))) ∧
    (∀ f' s', Within subs M (.reading take true k K) f' s' [.take take] (.run k K) false (M.take take s')) :=
  ⟨.did rfl (.jump (by simp only [move, hz])), fun _ _ => .jump rfl, fun _ _ => within_did subs M rfl⟩

/-- C52, documented rule: waiting for an instance takes cycles: one to come to the wait, and one per look at the instance, even if it is done
already. -/
theorem C52_join (inst take : Nat) (outs : Bool) (k : Prg) (K : List Frame) (s : σ) :
    TCycle subs M (.run (.join inst take outs k) K) false s [] s (some (.waiting inst take outs k K, true)) ∧
    (∀ f s', M.done inst s' = false → TCycle subs M (.waiting inst take outs k K) f s' [] s' (some (.waiting inst take outs k K, true))) ∧
    (∀ f s', M.done inst s' = true → TCycle subs M (.waiting inst take outs k K) f s' [] s' (some (.reading take outs k K, true))) :=
  ⟨.cut rfl, fun _ _ h => .jump (by simp only [move, h]; rfl), fun _ _ h => .jump (by simp only [move, h]; rfl)⟩

end

/-! ### Examples -/

/-- Conditions: the one of number `0` holds as long as fewer than `n` instructions were executed, the others do not. -/
def upTo (n : Nat) : Meaning Nat := ⟨fun _ s => s + 1, fun _ s => s, fun q s => q = 0 && s < n, fun _ _ _ => false, fun _ _ => true⟩

/-- `while (c0) { i1; } i2;`: nothing in the first cycle, which enters the loop; one iteration per cycle; `i2` in the cycle in which the condition is
found false. -/
example : TRun [] (.loop 0 (.instr 1 .nil) (.instr 2 .nil)) (upTo 1) (fun _ s => s) 0 3 [[], [.instr 1], [.instr 2]] none 2 := by
  refine .next (trs := [_, _]) (.next (trs := [_]) (.next (trs := []) .start (.cut rfl)) (.tested rfl (.on rfl (.did rfl (.on rfl (.cut rfl))))))
    (.tested rfl (.did rfl (.halt rfl)))

/-- `while (c0) { i1; if (c1) { break; } } i2;`: one more cycle, although the loop is not left by `break`. -/
example : TRun [] (.loop 0 (.instr 1 (.ifThen 1 (.brk .nil) .nil)) (.instr 2 .nil)) (upTo 1) (fun _ s => s) 0 4
    [[], [.instr 1], [], [.instr 2]] none 2 := by
  refine .next (trs := [_, _, _]) (.next (trs := [_, _]) (.next (trs := [_]) (.next (trs := []) .start (.cut rfl))
    (.tested rfl (.on rfl (.did rfl (.tested rfl (.on rfl (.on rfl (.cut rfl))))))))
    (.jump rfl)) (.did rfl (.halt rfl))

/-- What `fastForward` gives, for graphs without long chains of empty blocks. -/
def ffUpTo (fuel : Nat) {B : Type} [DecidableEq B] (g : Cfg B) (b : B) : B :=
  match fastForward g fuel b with
  | some r => r
  | none => b

/-- What the hardware made for a program executes in each of `n` cycles. -/
def hwEvents (u : AlgUnit) (M : Meaning Nat) (n : Nat) : Option (List (List Did) × Nat) :=
  match buildUnit u with
  | none => none
  | some (last, st) =>
    match generateStates (st.cfg last) 0 (ffUpTo (last + 1)) (last + 1) (List.finRange (last + 1)) with
    | none => none
    | some (g, rs) =>
      match emitStates g rs.num (ffUpTo (last + 1) g) (last + 2) (2 * last + 4) with
      | .error _ => none
      | .ok es =>
        (hwRun g rs.num (ffUpTo (last + 1) g) (callIdsFrom g 0 (List.finRange (last + 1))) es (M.sem fun b => (st.blk b).ins) (fun _ s => s)
          ⟨1, 0, fun _ => 0, 0⟩ n).map fun r => (r.1.map fun tr => tr.flatMap fun b => insDids (st.blk b).ins, r.2.idx)

/-- ```
subroutine f() { i4; }
while (c0) { if (c1) { break; () <- f <- (); } else { i1; } i2; } () <- f <- ();
```
The first call is never executed. -/
def exDeadCall : AlgUnit where
  globals := []
  locals := [.instr 4 .nil]
  main := .loop 0 (.ifElse 1 (.brk (.call 0 0 0 false .nil)) (.instr 1 .nil) (.instr 2 .nil)) (.call 0 0 0 false .nil)

/-- The same without the call that is never executed. -/
def exNoDeadCall : AlgUnit where
  globals := []
  locals := [.instr 4 .nil]
  main := .loop 0 (.ifElse 1 (.brk .nil) (.instr 1 .nil) (.instr 2 .nil)) (.call 0 0 0 false .nil)

/-- C52 fails with code after a `break`: a call that is never executed adds a cycle to each iteration of a loop, because the subroutine is taken to
return to it. -/
theorem C52_counterexample_dead_code :
    (hwEvents exDeadCall (upTo 1) 2).map (·.1) = some [[], [.instr 1]] ∧ exDeadCall.switchOk = true ∧ exDeadCall.tidy = false ∧
    ∃ o s, TRun (exDeadCall.globals ++ exDeadCall.locals) exDeadCall.main (upTo 1) (fun _ s => s) 0 2 [[], [.instr 1, .instr 2]] o s := by
  refine ⟨by decide +kernel, by decide +kernel, by decide +kernel, ?_⟩
  exact ⟨_, _, .next (trs := [_]) (.next (trs := []) .start (.cut rfl))
    (.tested rfl (.on rfl (.tested rfl (.on rfl (.did rfl (.on rfl (.on rfl (.did rfl (.on rfl (.cut rfl))))))))))⟩

/-- Without it, the hardware executes an iteration in a cycle. -/
example : (hwEvents exNoDeadCall (upTo 1) 2).map (·.1) = some [[], [.instr 1, .instr 2]] ∧ exNoDeadCall.tidy = true := by
  refine ⟨by decide +kernel, by decide +kernel⟩

/-- The hardware takes a cycle to leave a loop that contains a `break`, and to go on after a conditional of which the only side that comes to its end
takes more than a cycle: `while (c0) { i1; if (c1) { break; } else { ++: } i3; } i2;`. -/
example : hwEvents ⟨[], [], .loop 0 (.instr 1 (.ifElse 1 (.brk .nil) (.step .nil) (.instr 3 .nil))) (.instr 2 .nil)⟩ (upTo 1) 6 =
    some ([[], [.instr 1], [], [.instr 3], [], [.instr 2]], 0) := by
  decide +kernel

end Silice
