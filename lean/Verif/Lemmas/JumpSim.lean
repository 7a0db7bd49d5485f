import Verif.Lemmas.Jump

/-! Programs with labels and jumps: the block graph does what the source does. -/

set_option autoImplicit false

namespace Silice

/-! ### Simulations and observations -/

/-- `n` steps that change nothing but the position. -/
inductive JQuiet {X σ : Type} (f : X → σ → Option (X × σ × List JEv)) (s : σ) : Nat → X → X → Prop where
  | zero {x : X} : JQuiet f s 0 x x
  | succ {n : Nat} {x y z : X} : f x s = some (y, s, []) → JQuiet f s n y z → JQuiet f s (n + 1) x z

section
variable {X Y σ : Type} {f : X → σ → Option (X × σ × List JEv)} {g : Y → σ → Option (Y × σ × List JEv)}

theorem JQuiet.trans {s : σ} {n m : Nat} {x y z : X} (h : JQuiet f s n x y) (h' : JQuiet f s m y z) : ∃ k, JQuiet f s k x z := by
  induction h with
  | zero => exact ⟨m, h'⟩
  | succ h1 _ ih =>
    obtain ⟨k, hk⟩ := ih h'
    exact ⟨k + 1, .succ h1 hk⟩

theorem sim_observe (R : X → Y → Prop) (x0 : X) (y0 : Y) (s0 : σ) (h0 : R x0 y0)
    (hstep : ∀ x y s x' s' ev, R x y → f x s = some (x', s', ev) →
      ∃ n y1 y', JQuiet g s n y y1 ∧ g y1 s = some (y', s', ev) ∧ R x' y')
    (hstop : ∀ x y s, R x y → f x s = none → g y s = none) :
    (∀ n, ∃ m, observe f x0 s0 n = observe g y0 s0 m) ∧ (∀ m, ∃ n, observe g y0 s0 m = observe f x0 s0 n) := by
  have quiet : ∀ {s : σ} {k : Nat} {y y1 : Y}, JQuiet g s k y y1 → ∀ m ev, iter g y0 s0 m = (y, s, ev) → iter g y0 s0 (m + k) = (y1, s, ev) := by
    intro s k y y1 h
    induction h with
    | zero => intro m ev h; exact h
    | @succ n x y z h1 _ ih =>
      intro m ev h
      have : iter g y0 s0 (m + 1) = (y, s, ev) := by simp [iter, h, h1]
      have := ih (m + 1) ev this
      rw [← this]; congr 1; omega
  have fwd : ∀ n, ∃ m x y s ev, iter f x0 s0 n = (x, s, ev) ∧ iter g y0 s0 m = (y, s, ev) ∧ R x y := by
    intro n
    induction n with
    | zero => exact ⟨0, x0, y0, s0, [], rfl, rfl, h0⟩
    | succ n ih =>
      obtain ⟨m, x, y, s, ev, h1, h2, h3⟩ := ih
      cases hf : f x s with
      | none => exact ⟨m, x, y, s, ev, by simp [iter, h1, hf], h2, h3⟩
      | some r =>
        obtain ⟨x', s', ev'⟩ := r
        obtain ⟨k, y1, y', q1, q2, q3⟩ := hstep x y s x' s' ev' h3 hf
        have := quiet q1 m ev h2
        exact ⟨m + k + 1, x', y', s', ev ++ ev', by simp [iter, h1, hf], by simp [iter, this, q2], q3⟩
  constructor
  · intro n
    obtain ⟨m, x, y, s, ev, h1, h2, h3⟩ := fwd n
    refine ⟨m, ?_⟩
    unfold observe
    rw [h1, h2]
    simp only [JObs.mk.injEq, true_and]
    cases hf : f x s with
    | none => rw [hstop x y s h3 hf]; rfl
    | some r =>
      obtain ⟨x', s', ev'⟩ := r
      obtain ⟨k, y1, y', q1, q2, q3⟩ := hstep x y s x' s' ev' h3 hf
      cases q1 with
      | zero => rw [q2]; rfl
      | succ e _ => rw [e]; rfl
  · have key : ∀ m, ∃ n x y s ev, iter f x0 s0 n = (x, s, ev) ∧ iter g y0 s0 m = (y, s, ev) ∧
        ((f x s = none ∧ g y s = none) ∨ ∃ x' s' ev' k y1 y', f x s = some (x', s', ev') ∧ JQuiet g s k y y1 ∧ g y1 s = some (y', s', ev') ∧ R x' y') := by
      have start : ∀ x y s, R x y → ((f x s = none ∧ g y s = none) ∨ ∃ x' s' ev' k y1 y', f x s = some (x', s', ev') ∧ JQuiet g s k y y1 ∧
          g y1 s = some (y', s', ev') ∧ R x' y') := by
        intro x y s h
        cases hf : f x s with
        | none => exact .inl ⟨rfl, hstop x y s h hf⟩
        | some r =>
          obtain ⟨x', s', ev'⟩ := r
          obtain ⟨k, y1, y', q1, q2, q3⟩ := hstep x y s x' s' ev' h hf
          exact .inr ⟨x', s', ev', k, y1, y', rfl, q1, q2, q3⟩
      intro m
      induction m with
      | zero => exact ⟨0, x0, y0, s0, [], rfl, rfl, start _ _ _ h0⟩
      | succ m ih =>
        obtain ⟨n, x, y, s, ev, h1, h2, h3⟩ := ih
        rcases h3 with ⟨a, b⟩ | ⟨x', s', ev', k, y1, y', e1, e2, e3, e4⟩
        · exact ⟨n, x, y, s, ev, h1, by simp [iter, h2, b], .inl ⟨a, b⟩⟩
        · cases e2 with
          | zero => exact ⟨n + 1, x', y', s', ev ++ ev', by simp [iter, h1, e1], by simp [iter, h2, e3], start _ _ _ e4⟩
          | @succ k' _ y2 _ e5 e6 =>
            exact ⟨n, x, y2, s, ev, h1, by simp [iter, h2, e5], .inr ⟨x', s', ev', k', y1, y', e1, e6, e3, e4⟩⟩
    intro m
    obtain ⟨n, x, y, s, ev, h1, h2, h3⟩ := key m
    refine ⟨n, ?_⟩
    unfold observe
    rw [h1, h2]
    simp only [JObs.mk.injEq, true_and]
    rcases h3 with ⟨a, b⟩ | ⟨x', s', ev', k, y1, y', e1, e2, e3, e4⟩
    · rw [a, b]; rfl
    · rw [e1]
      cases e2 with
      | zero => rw [e3]; rfl
      | succ e _ => rw [e]; rfl

end

/-! ### Statements in progress -/

section
variable (G : Nat → JBlk) (lab : List (String × Nat)) (J : List String) (last : Nat)

/-- A loop with header `h` and body from `i'` to `e`; `a` comes after it. -/
structure JLoopAt (q : Nat) (b : JPrg) (h i' a : Nat) (e : Nat × Nat) : Prop where
  isState : (G h).isState = true
  enter : ∃ i, JEnds G (h, 0) (.loop q i a) ∧ (G i).isState = false ∧ JEnds G (i, 0) (.goto i')
  first : (G i').isState = false
  body : JFrag G lab J b (some a) (i', 0) e
  back : Glides G e h
  after : (G a).isState = b.breaks

/-- What remains to be done is laid out from position `e` on. -/
inductive JStack : List JFr → Option Nat → Nat × Nat → Prop where
  | nil {e : Nat × Nat} : JEnds G e (.goto last) → (G last).isState = false → JEnds G (last, 0) .stop → JStack [] none e
  | rest {K : List JFr} {k : JPrg} {bt : Option Nat} {e e' : Nat × Nat} {n : Nat} : Glides G e n → (G n).isState = false →
      JFrag G lab J k bt (n, 0) e' → JStack K bt e' → JStack (.rest k :: K) bt e
  | body {K : List JFr} {q : Nat} {b k : JPrg} {bt : Option Nat} {e e' : Nat × Nat} {h i' a : Nat} : JLoopAt G lab J q b h i' a e →
      JFrag G lab J k bt (a, 0) e' → JStack K bt e' → JStack (.body q b k :: K) (some a) e

/-- Positions in the program and in the graph. -/
inductive JRel : JPos → Nat × Nat → Prop where
  | run {q : JPrg} {K : List JFr} {bt : Option Nat} {x e : Nat × Nat} : JFrag G lab J q bt x e → JStack G lab J last K bt e → JRel (.run q K) x
  | head {K : List JFr} {q : Nat} {b k : JPrg} {bt : Option Nat} {e e' : Nat × Nat} {h i' a : Nat} : JLoopAt G lab J q b h i' a e →
      JFrag G lab J k bt (a, 0) e' → JStack G lab J last K bt e' → JRel (.head q b k K) (h, 0)
  | done : JEnds G (last, 0) .stop → JRel .done (last, 0)

end

/-- The graph of the blocks. -/
def natCfg (G : Nat → JBlk) (last : Nat) : Cfg Nat where
  blk b :=
    { isState := (G b).isState, noSkip := (G b).noSkip, empty := (G b).ins.isEmpty
      act := match (G b).act with
        | .act a => a
        | .fwd _ => .stop }
  first := 0
  last := last
  returns := fun _ => []

section
variable {G : Nat → JBlk} {lab : List (String × Nat)} {J : List String} {last : Nat} {σ : Type} (S : JSem σ)

/-- One step in the graph. -/
abbrev nStep (G : Nat → JBlk) (last : Nat) {σ : Type} (S : JSem σ) : Nat × Nat → σ → Option ((Nat × Nat) × σ × List JEv) :=
  gStep (natCfg G last) (fun b => (G b).ins) S

theorem JEnds.at_end {x : Nat × Nat} {a : Act Nat} (h : JEnds G x a) : (G x.1).ins[x.2]? = none := by
  rw [List.getElem?_eq_none_iff, h.1]

theorem JEnds.goto {x : Nat × Nat} {n : Nat} (h : JEnds G x (.goto n)) (s : σ) :
    nStep G last S x s = some ((n, 0), s, stateIf (G n).isState) := by
  simp only [nStep, gStep, h.at_end]
  simp [go, natCfg, h.2]

theorem JEnds.stop {x : Nat × Nat} (h : JEnds G x .stop) (s : σ) : nStep G last S x s = none := by
  simp only [nStep, gStep, h.at_end]
  simp [go, natCfg, h.2]

theorem JEnds.ifElse {x : Nat × Nat} {q i it el et a : Nat} {w z : Bool} (h : JEnds G x (.ifElse q i w it el z et a)) (s : σ)
    (hi : (G i).isState = false) (he : (G el).isState = false) :
    nStep G last S x s = some ((if S.test q s then i else el, 0), s, []) := by
  simp only [nStep, gStep, h.at_end]
  have hgo : go (natCfg G last) (S.blocks fun b => (G b).ins) x.1 s = .to (if S.test q s then i else el) := by
    simp only [go, natCfg, h.2]; rfl
  rw [hgo]
  by_cases hc : S.test q s = true
  · simp [hc, stateIf, natCfg, hi]
  · simp [hc, stateIf, natCfg, he]

theorem JEnds.loop {x : Nat × Nat} {q i a : Nat} (h : JEnds G x (.loop q i a)) (s : σ) :
    nStep G last S x s = some ((if S.test q s then i else a, 0), s, stateIf (G (if S.test q s then i else a)).isState) := by
  simp only [nStep, gStep, h.at_end]
  have hgo : go (natCfg G last) (S.blocks fun b => (G b).ins) x.1 s = .to (if S.test q s then i else a) := by
    simp only [go, natCfg, h.2]; rfl
  rw [hgo]
  rfl

theorem Glides.quiet {x : Nat × Nat} {n : Nat} (h : Glides G x n) (s : σ) :
    ∃ k y, JQuiet (nStep G last S) s k x y ∧ nStep G last S y s = some ((n, 0), s, stateIf (G n).isState) := by
  induction h with
  | one h => exact ⟨0, _, .zero, h.goto S s⟩
  | more h hs _ ih =>
    obtain ⟨k, y, h1, h2⟩ := ih
    exact ⟨k + 1, y, .succ (by rw [h.goto S s, hs]; rfl) h1, h2⟩

theorem find_rel {l : String} {n : Nat} (hl : lab.lookup l = some n) (p : JPrg) :
    ∀ bt x e K r, JFrag G lab J p bt x e → JStack G lab J last K bt e → p.find l K = some r → JRel G lab J last (.run r.1 r.2) (n, 0) := by
  induction p with
  | nil => intro bt x e K r _ _ h; cases h
  | instr i k ih => intro bt x e K r hf hs h; cases hf with | instr _ h' => exact ih _ _ _ _ _ h' hs h
  | step k ih => intro bt x e K r hf hs h; cases hf with | step _ _ h' => exact ih _ _ _ _ _ h' hs h
  | label l' k ih =>
    intro bt x e K r hf hs h
    cases hf with
    | label h1 h2 h3 h4 =>
      unfold JPrg.find at h
      split_ifs at h with hc
      · subst hc
        rw [hl] at h3
        cases h3
        cases h
        exact .run h4 hs
      · exact ih _ _ _ _ _ h4 hs h
  | jump l' k ih => intro bt x e K r hf hs h; cases hf with | jump _ _ _ h' => exact ih _ _ _ _ _ h' hs h
  | block b k ihb ihk =>
    intro bt x e K r hf hs h
    cases hf with
    | block h1 h2 h3 h4 h5 h6 =>
      unfold JPrg.find at h
      split at h
      · rename_i r' h'
        cases h
        exact ihb _ _ _ _ _ h3 (.rest (.one h4) h5 h6 hs) h'
      · exact ihk _ _ _ _ _ h6 hs h
  | ifThen q t k iht ihk =>
    intro bt x e K r hf hs h
    cases hf with
    | ifThen h1 h2 h3 h4 h5 h6 h7 h8 h9 h10 =>
      unfold JPrg.find at h
      split at h
      · rename_i r' h'
        cases h
        exact iht _ _ _ _ _ h6 (.rest h7 h9 h10 hs) h'
      · exact ihk _ _ _ _ _ h10 hs h
  | ifElse q t f k iht ihf ihk =>
    intro bt x e K r hf hs h
    cases hf with
    | ifElse h1 h2 h3 h4 h5 h6 h7 h8 h9 h10 h11 h12 h13 =>
      unfold JPrg.find at h
      split at h
      · rename_i r' h'
        cases h
        exact iht _ _ _ _ _ h6 (.rest h7 h12 h13 hs) h'
      · split at h
        · rename_i r' h'
          cases h
          exact ihf _ _ _ _ _ h10 (.rest h11 h12 h13 hs) h'
        · exact ihk _ _ _ _ _ h13 hs h
  | loop q b k ihb ihk =>
    intro bt x e K r hf hs h
    cases hf with
    | loop h1 h2 h3 h4 h5 h6 h7 h8 h9 h10 =>
      unfold JPrg.find at h
      split at h
      · rename_i r' h'
        cases h
        exact ihb _ _ _ _ _ h7 (.body ⟨h2, ⟨_, h3, h4, h5⟩, h6, h7, h8, h9⟩ h10 hs) h'
      · exact ihk _ _ _ _ _ h10 hs h
  | brk k ih => intro bt x e K r hf hs h; cases hf with | brk _ _ h' => exact ih _ _ _ _ _ h' hs h

theorem afterLoop_rel {K : List JFr} {bt : Option Nat} {e : Nat × Nat} (h : JStack G lab J last K bt e) :
    ∀ a, bt = some a → ∃ r, afterLoop K = some r ∧ JRel G lab J last (.run r.1 r.2) (a, 0) := by
  induction h with
  | nil => intro a h; cases h
  | rest _ _ _ _ ih => intro a h; exact ih a h
  | body _ h2 h3 _ => intro a h; cases h; exact ⟨_, rfl, .run h2 h3⟩

theorem rel_step {p : JPrg} (hroot : ∃ x e, JFrag G lab J p none x e ∧ JStack G lab J last [] none e) (hJ : J = p.jumps)
    {pos pos' : JPos} {x : Nat × Nat} {s s' : σ} {ev : List JEv} (h : JRel G lab J last pos x) (hs : jStep p S pos s = some (pos', s', ev)) :
    ∃ n y x', JQuiet (nStep G last S) s n x y ∧ nStep G last S y s = some (x', s', ev) ∧ JRel G lab J last pos' x' := by
  have one : ∀ {x x' : Nat × Nat} {s' : σ} {ev : List JEv} {pos' : JPos}, nStep G last S x s = some (x', s', ev) → JRel G lab J last pos' x' →
      ∃ n y x', JQuiet (nStep G last S) s n x y ∧ nStep G last S y s = some (x', s', ev) ∧ JRel G lab J last pos' x' :=
    fun h h' => ⟨0, _, _, .zero, h, h'⟩
  cases h with
  | done h => cases hs
  | head L hf hK =>
    obtain ⟨i, h1, h2, h3⟩ := L.enter
    simp only [jStep] at hs
    have hl := h1.loop (last := last) S s
    split_ifs at hs with hc
    · cases hs
      rw [if_pos hc, h2] at hl
      exact ⟨1, _, _, .succ hl .zero, by rw [h3.goto S s, L.first]; rfl, .run L.body (.body L hf hK)⟩
    · cases hs
      rw [if_neg hc, L.after] at hl
      exact one hl (.run hf hK)
  | run hf hK =>
    cases hf with
    | nil =>
      cases hK with
      | nil h1 h2 h3 =>
        cases hs
        exact one (by rw [h1.goto S s, h2]; rfl) (.done h3)
      | rest h1 h2 h3 h4 =>
        cases hs
        obtain ⟨k, y, q1, q2⟩ := h1.quiet (last := last) S s
        rw [h2] at q2
        exact ⟨k, y, _, q1, q2, .run h3 h4⟩
      | body L h3 h4 =>
        cases hs
        obtain ⟨k, y, q1, q2⟩ := L.back.quiet (last := last) S s
        rw [L.isState] at q2
        exact ⟨k, y, _, q1, q2, .head L h3 h4⟩
    | instr h1 h2 =>
      cases hs
      exact one (by simp [nStep, gStep, h1]) (.run h2 hK)
    | step h1 h2 h3 =>
      cases hs
      exact one (by rw [h1.goto S s, h2]; rfl) (.run h3 hK)
    | label h1 h2 h3 h4 =>
      cases hs
      exact one (by rw [h1.goto S s, h2, hJ]) (.run h4 hK)
    | jump h1 h2 h3 h4 =>
      simp only [jStep] at hs
      obtain ⟨r, hr, e⟩ := Option.map_eq_some_iff.mp hs
      cases e
      obtain ⟨x0, e0, f0, k0⟩ := hroot
      exact one (by rw [h1.goto S s, h2]; rfl) (find_rel h3 p _ _ _ _ _ f0 k0 hr)
    | block h1 h2 h3 h4 h5 h6 =>
      cases hs
      exact one (by rw [h1.goto S s, h2]; rfl) (.run h3 (.rest (.one h4) h5 h6 hK))
    | ifThen h1 h2 h3 h4 h5 h6 h7 h8 h9 h10 =>
      simp only [jStep] at hs
      have hi := h1.ifElse (last := last) S s h2 h3
      split_ifs at hs with hc
      · cases hs
        rw [if_pos hc] at hi
        exact ⟨1, _, _, .succ hi .zero, by rw [h4.goto S s, h5]; rfl, .run h6 (.rest h7 h9 h10 hK)⟩
      · cases hs
        rw [if_neg hc] at hi
        exact ⟨1, _, _, .succ hi .zero, by rw [h8.goto S s, h9]; rfl, .run h10 hK⟩
    | ifElse h1 h2 h3 h4 h5 h6 h7 h8 h9 h10 h11 h12 h13 =>
      cases hs
      have hi := h1.ifElse (last := last) S s h2 h3
      split_ifs at hi ⊢ with hc
      · exact ⟨1, _, _, .succ hi .zero, by rw [h4.goto S s, h5]; rfl, .run h6 (.rest h7 h12 h13 hK)⟩
      · exact ⟨1, _, _, .succ hi .zero, by rw [h8.goto S s, h9]; rfl, .run h10 (.rest h11 h12 h13 hK)⟩
    | loop h1 h2 h3 h4 h5 h6 h7 h8 h9 h10 =>
      cases hs
      exact one (by rw [h1.goto S s, h2]; rfl) (.head ⟨h2, ⟨_, h3, h4, h5⟩, h6, h7, h8, h9⟩ h10 hK)
    | brk h1 h2 h3 =>
      simp only [jStep] at hs
      obtain ⟨r, hr, e⟩ := Option.map_eq_some_iff.mp hs
      cases e
      obtain ⟨r', hr', hrel⟩ := afterLoop_rel hK _ rfl
      rw [hr] at hr'
      cases hr'
      exact one (by rw [h1.goto S s, h2]; rfl) hrel

theorem find_isSome {l : String} (p : JPrg) : ∀ K, l ∈ p.labels → (p.find l K).isSome = true := by
  induction p with
  | nil => intro K h; cases h
  | instr i k ih => intro K h; exact ih K h
  | step k ih => intro K h; exact ih K h
  | label l' k ih =>
    intro K h
    unfold JPrg.find
    split_ifs with hc
    · rfl
    · rcases List.mem_cons.mp h with e | h
      · exact absurd e.symm hc
      · exact ih K h
  | jump l' k ih => intro K h; exact ih K h
  | block b k ihb ihk =>
    intro K h
    unfold JPrg.find
    split
    · rfl
    · rename_i hn
      rcases List.mem_append.mp h with h | h
      · have := ihb (.rest k :: K) h; rw [hn] at this; cases this
      · exact ihk K h
  | ifThen q t k iht ihk =>
    intro K h
    unfold JPrg.find
    split
    · rfl
    · rename_i hn
      rcases List.mem_append.mp h with h | h
      · have := iht (.rest k :: K) h; rw [hn] at this; cases this
      · exact ihk K h
  | ifElse q t f k iht ihf ihk =>
    intro K h
    unfold JPrg.find
    split
    · rfl
    · rename_i hn
      split
      · rfl
      · rename_i hn'
        rcases List.mem_append.mp h with h | h
        · have := iht (.rest k :: K) h; rw [hn] at this; cases this
        · rcases List.mem_append.mp h with h | h
          · have := ihf (.rest k :: K) h; rw [hn'] at this; cases this
          · exact ihk K h
  | loop q b k ihb ihk =>
    intro K h
    unfold JPrg.find
    split
    · rfl
    · rename_i hn
      rcases List.mem_append.mp h with h | h
      · have := ihb (.body q b k :: K) h; rw [hn] at this; cases this
      · exact ihk K h
  | brk k ih => intro K h; exact ih K h

theorem rel_live {p : JPrg} (hlab : ∀ l n, lab.lookup l = some n → l ∈ p.labels) {pos : JPos} {x : Nat × Nat} {s : σ}
    (h : JRel G lab J last pos x) (hs : jStep p S pos s = none) : pos = .done := by
  cases h with
  | done h => rfl
  | head L hf hK => simp only [jStep] at hs; split_ifs at hs
  | run hf hK =>
    cases hf with
    | nil =>
      cases hK <;> cases hs
    | jump h1 h2 h3 h4 =>
      simp only [jStep] at hs
      have := find_isSome p [] (hlab _ _ h3)
      rw [Option.map_eq_none_iff] at hs
      rw [hs] at this; cases this
    | brk h1 h2 h3 =>
      simp only [jStep] at hs
      obtain ⟨r', hr', hrel⟩ := afterLoop_rel hK _ rfl
      rw [Option.map_eq_none_iff] at hs
      rw [hs] at hr'; cases hr'
    | ifThen => simp only [jStep] at hs; split_ifs at hs
    | _ => cases hs

theorem rel_stop {x : Nat × Nat} {s : σ} (h : JRel G lab J last .done x) : nStep G last S x s = none := by
  cases h with
  | done h => exact h.stop S s

end

/-! ### Labels, jumps and targets while gathering -/

/-- The targets of an end action are among the first `N` blocks, and it is of the kinds used here. -/
def ActBnd (N : Nat) : Act Nat → Prop
  | .stop => True
  | .goto n => n < N
  | .ifElse _ i _ _ e _ _ _ => i < N ∧ e < N
  | .loop _ i a => i < N ∧ a < N
  | _ => False

theorem ActBnd.mono {N M : Nat} {a : Act Nat} (h : ActBnd N a) (hm : N ≤ M) : ActBnd M a := by
  cases a <;> simp only [ActBnd] at h ⊢ <;> omega

/-- A block that has no end action yet. -/
def IsOpen (st : JSt) (b : Nat) : Prop := b < st.next ∧ (st.blk b).act = .act .stop

/-- What holds while gathering; `D` are the jumps gathered so far. -/
structure JInv (st : JSt) (D : List String) : Prop where
  lok : LabOk st
  named : ∀ b l, b < st.next → (st.blk b).name = some l → (l, b) ∈ st.labels
  nodup : (st.labels.map Prod.fst).Nodup
  flags : ∀ l n, (l, n) ∈ st.labels → (st.blk n).isState = true → l ∈ D
  jumped : ∀ l ∈ D, (∃ n, (l, n) ∈ st.labels ∧ (st.blk n).isState = true) ∨ ∃ b, b < st.next ∧ (st.blk b).act = .fwd l
  fwd : ∀ b l, b < st.next → (st.blk b).act = .fwd l → l ∈ D
  bnd : ∀ b a, b < st.next → (st.blk b).act = .act a → ActBnd st.next a

section
variable {st : JSt} {D : List String}

theorem IsOpen.add {b : Nat} (h : IsOpen st b) : IsOpen st.add b :=
  ⟨Nat.lt_succ_of_lt h.1, by rw [JSt.add_old _ _ (by have := h.1; omega)]; exact h.2⟩

theorem IsOpen.fresh : IsOpen st.add st.next := ⟨Nat.lt_succ_self _, by rw [JSt.add_new]⟩

theorem IsOpen.setAct {b c : Nat} {a : JAct} (h : IsOpen st b) (hn : b ≠ c) : IsOpen (st.setAct c a) b :=
  ⟨h.1, by rw [JSt.setAct_other _ _ _ _ hn]; exact h.2⟩

theorem IsOpen.setState {b c : Nat} (h : IsOpen st b) : IsOpen (st.setState c) b := ⟨h.1, by rw [JSt.setState_act]; exact h.2⟩

theorem IsOpen.keeps {b c : Nat} {st' : JSt} {f : Nat → Bool} (h : IsOpen st b) (k : JKeeps st c st' f) (hn : b ≠ c) : IsOpen st' b :=
  ⟨lt_of_lt_of_le h.1 k.next, by rw [(k.other b h.1 hn).2]; exact h.2⟩

theorem JInv.congr {D' : List String} (h : JInv st D) (hd : ∀ l, l ∈ D ↔ l ∈ D') : JInv st D' where
  lok := h.lok
  named := h.named
  nodup := h.nodup
  flags l n a b := (hd l).mp (h.flags l n a b)
  jumped l hl := h.jumped l ((hd l).mpr hl)
  fwd b l a c := (hd l).mp (h.fwd b l a c)
  bnd := h.bnd

theorem JInv.add (h : JInv st D) : JInv st.add D := by
  have old : ∀ b, b < st.next → st.add.blk b = st.blk b := fun b hb => JSt.add_old _ _ (by omega)
  have cases' : ∀ b, b < st.add.next → b < st.next ∨ b = st.next := fun b hb => by simp only [JSt.add] at hb; omega
  refine ⟨fun l n hn => ?_, fun b l hb hn => ?_, h.nodup, fun l n hn hs => ?_, fun l hl => ?_, fun b l hb hf => ?_, fun b a hb ha => ?_⟩
  · obtain ⟨h1, h2⟩ := h.lok l n hn
    exact ⟨Nat.lt_succ_of_lt h1, by rw [old n h1]; exact h2⟩
  · rcases cases' b hb with hb | rfl
    · rw [old b hb] at hn; exact h.named b l hb hn
    · rw [JSt.add_new] at hn; cases hn
  · rw [old n (h.lok l n hn).1] at hs; exact h.flags l n hn hs
  · rcases h.jumped l hl with ⟨n, h1, h2⟩ | ⟨b, h1, h2⟩
    · exact .inl ⟨n, h1, by rw [old n (h.lok l n h1).1]; exact h2⟩
    · exact .inr ⟨b, Nat.lt_succ_of_lt h1, by rw [old b h1]; exact h2⟩
  · rcases cases' b hb with hb | rfl
    · rw [old b hb] at hf; exact h.fwd b l hb hf
    · rw [JSt.add_new] at hf; cases hf
  · rcases cases' b hb with hb | rfl
    · rw [old b hb] at ha; exact (h.bnd b a hb ha).mono (Nat.le_succ _)
    · rw [JSt.add_new] at ha; cases ha; trivial

theorem JInv.addLabel {st2 : JSt} {l : String} (h : JInv st D) (e : st.addLabel l = .ok st2) :
    JInv st2 D ∧ IsOpen st2 st.next ∧ st2.labels.map Prod.fst = st.labels.map Prod.fst ++ [l] ∧ st2.next = st.next + 1 ∧
      ∀ b, b < st.next → st2.blk b = st.blk b := by
  unfold JSt.addLabel at e
  split at e
  · cases e
  rename_i hno
  cases e
  have old : ∀ b, b < st.next → upd st.blk st.next { name := some l } b = st.blk b := fun b hb => by
    simp only [upd]; rw [if_neg (by omega)]
  have new : upd st.blk st.next { name := some l } st.next = { name := some l } := by simp [upd]
  have hn : l ∉ st.labels.map Prod.fst := by
    intro hm
    obtain ⟨⟨l', n⟩, h1, rfl⟩ := List.mem_map.mp hm
    apply hno
    cases e : st.labels.lookup l' with
    | some n => rfl
    | none => exact absurd (List.lookup_eq_none_iff.mp e _ h1) (by simp)
  refine ⟨⟨fun l' n hm => ?_, fun b l' hb hn => ?_, ?_, fun l' n hm hs => ?_, fun l' hl => ?_, fun b l' hb hf => ?_, fun b a hb ha => ?_⟩,
    ⟨Nat.lt_succ_self _, by simp only [new]⟩, by simp, rfl, old⟩
  · rcases List.mem_append.mp hm with hm | hm
    · obtain ⟨h1, h2⟩ := h.lok l' n hm
      exact ⟨Nat.lt_succ_of_lt h1, by simp only [old n h1]; exact h2⟩
    · simp only [List.mem_singleton, Prod.mk.injEq] at hm
      obtain ⟨rfl, rfl⟩ := hm
      exact ⟨Nat.lt_succ_self _, by simp only [new]⟩
  · rcases Nat.lt_succ_iff_lt_or_eq.mp hb with hb | rfl
    · simp only [old b hb] at hn
      exact List.mem_append_left _ (h.named b l' hb hn)
    · simp only [new, Option.some.injEq] at hn
      subst hn
      exact List.mem_append_right _ (by simp)
  · rw [List.map_append, List.map_singleton, List.nodup_append]
    refine ⟨h.nodup, by simp, fun a ha b hb => ?_⟩
    rintro rfl
    rw [List.mem_singleton] at hb
    subst hb
    exact hn ha
  · rcases List.mem_append.mp hm with hm | hm
    · simp only [old n (h.lok l' n hm).1] at hs
      exact h.flags l' n hm hs
    · simp only [List.mem_singleton, Prod.mk.injEq] at hm
      obtain ⟨rfl, rfl⟩ := hm
      simp only [new] at hs
      cases hs
  · rcases h.jumped l' hl with ⟨n, h1, h2⟩ | ⟨b, h1, h2⟩
    · exact .inl ⟨n, List.mem_append_left _ h1, by simp only [old n (h.lok l' n h1).1]; exact h2⟩
    · exact .inr ⟨b, Nat.lt_succ_of_lt h1, by simp only [old b h1]; exact h2⟩
  · rcases Nat.lt_succ_iff_lt_or_eq.mp hb with hb | rfl
    · simp only [old b hb] at hf; exact h.fwd b l' hb hf
    · simp only [new] at hf; cases hf
  · rcases Nat.lt_succ_iff_lt_or_eq.mp hb with hb | rfl
    · simp only [old b hb] at ha; exact (h.bnd b a hb ha).mono (Nat.le_succ _)
    · simp only [new] at ha; cases ha; trivial

theorem JInv.setAct (h : JInv st D) {b : Nat} (hb : IsOpen st b) {a : Act Nat} (ha : ActBnd st.next a) : JInv (st.setAct b (.act a)) D := by
  refine ⟨fun l n hn => ?_, fun x l hx hn => ?_, h.nodup, fun l n hn hs => ?_, fun l hl => ?_, fun x l hx hf => ?_, fun x y hx hy => ?_⟩
  · rw [JSt.setAct_name]; exact h.lok l n hn
  · rw [JSt.setAct_name] at hn; exact h.named x l hx hn
  · rw [JSt.setAct_flag] at hs; exact h.flags l n hn hs
  · rcases h.jumped l hl with ⟨n, h1, h2⟩ | ⟨x, h1, h2⟩
    · exact .inl ⟨n, h1, by rw [JSt.setAct_flag]; exact h2⟩
    · refine .inr ⟨x, h1, ?_⟩
      rw [JSt.setAct_other]
      · exact h2
      · rintro rfl; rw [hb.2] at h2; cases h2
  · by_cases e : x = b
    · subst e; rw [JSt.setAct_same] at hf; cases hf
    · rw [JSt.setAct_other _ _ _ _ e] at hf; exact h.fwd x l hx hf
  · by_cases e : x = b
    · subst e; rw [JSt.setAct_same] at hy; cases hy; exact ha
    · rw [JSt.setAct_other _ _ _ _ e] at hy; exact h.bnd x y hx hy

theorem JInv.setFwd (h : JInv st D) {b : Nat} (hb : IsOpen st b) (l0 : String) : JInv (st.setAct b (.fwd l0)) (D ++ [l0]) := by
  refine ⟨fun l n hn => ?_, fun x l hx hn => ?_, h.nodup, fun l n hn hs => ?_, fun l hl => ?_, fun x l hx hf => ?_, fun x y hx hy => ?_⟩
  · rw [JSt.setAct_name]; exact h.lok l n hn
  · rw [JSt.setAct_name] at hn; exact h.named x l hx hn
  · rw [JSt.setAct_flag] at hs; exact List.mem_append_left _ (h.flags l n hn hs)
  · rcases List.mem_append.mp hl with hl | hl
    · rcases h.jumped l hl with ⟨n, h1, h2⟩ | ⟨x, h1, h2⟩
      · exact .inl ⟨n, h1, by rw [JSt.setAct_flag]; exact h2⟩
      · refine .inr ⟨x, h1, ?_⟩
        rw [JSt.setAct_other]
        · exact h2
        · rintro rfl; rw [hb.2] at h2; cases h2
    · rw [List.mem_singleton] at hl
      subst hl
      exact .inr ⟨b, hb.1, JSt.setAct_same _ _ _⟩
  · by_cases e : x = b
    · subst e; rw [JSt.setAct_same] at hf; cases hf; simp
    · rw [JSt.setAct_other _ _ _ _ e] at hf; exact List.mem_append_left _ (h.fwd x l hx hf)
  · by_cases e : x = b
    · subst e; rw [JSt.setAct_same] at hy; cases hy
    · rw [JSt.setAct_other _ _ _ _ e] at hy; exact h.bnd x y hx hy

theorem JSt.setState_same (b : Nat) : ((st.setState b).blk b).isState = true := by simp [JSt.setState, upd]

/-- `E` is what is jumped to by this. -/
theorem JInv.setStateWith (h : JInv st D) (b : Nat) (E : List String) (hE : ∀ l, (st.blk b).name = some l → l ∈ E)
    (hE' : ∀ l ∈ E, (l, b) ∈ st.labels) : JInv (st.setState b) (D ++ E) := by
  have flagMono : ∀ n, (st.blk n).isState = true → ((st.setState b).blk n).isState = true := by
    intro n hn
    by_cases e : n = b
    · subst e; exact JSt.setState_same _
    · rw [JSt.setState_flag _ _ _ e]; exact hn
  refine ⟨fun l n hn => ?_, fun x l hx hn => ?_, h.nodup, fun l n hn hs => ?_, fun l hl => ?_, fun x l hx hf => ?_, fun x y hx hy => ?_⟩
  · rw [JSt.setState_name]; exact h.lok l n hn
  · rw [JSt.setState_name] at hn; exact h.named x l hx hn
  · by_cases e : n = b
    · subst e; exact List.mem_append_right _ (hE l (h.lok l n hn).2)
    · rw [JSt.setState_flag _ _ _ e] at hs; exact List.mem_append_left _ (h.flags l n hn hs)
  · rcases List.mem_append.mp hl with hl | hl
    · rcases h.jumped l hl with ⟨n, h1, h2⟩ | ⟨x, h1, h2⟩
      · exact .inl ⟨n, h1, flagMono n h2⟩
      · exact .inr ⟨x, h1, by rw [JSt.setState_act]; exact h2⟩
    · exact .inl ⟨b, hE' l hl, JSt.setState_same _⟩
  · rw [JSt.setState_act] at hf; exact List.mem_append_left _ (h.fwd x l hx hf)
  · rw [JSt.setState_act] at hy; exact h.bnd x y hx hy

theorem JInv.setState (h : JInv st D) {b : Nat} (hb : (st.blk b).name = none) : JInv (st.setState b) D :=
  (h.setStateWith b [] (fun l hl => by rw [hb] at hl; cases hl) (by simp)).congr (by simp)

theorem JInv.setStateLab (h : JInv st D) {b : Nat} {l : String} (hb : (l, b) ∈ st.labels) : JInv (st.setState b) (D ++ [l]) :=
  h.setStateWith b [l] (fun l' hl => by rw [(h.lok l b hb).2] at hl; cases hl; simp) (by simpa using hb)

theorem JInv.same {st2 : JSt} (h : JInv st D) (hn : st2.next = st.next) (hl : st2.labels = st.labels)
    (hb : ∀ b, (st2.blk b).name = (st.blk b).name ∧ (st2.blk b).isState = (st.blk b).isState ∧ (st2.blk b).act = (st.blk b).act) :
    JInv st2 D where
  lok l n hm := by rw [hn, (hb n).1]; rw [hl] at hm; exact h.lok l n hm
  named b l h1 h2 := by rw [hl]; rw [(hb b).1] at h2; exact h.named b l (hn ▸ h1) h2
  nodup := by rw [hl]; exact h.nodup
  flags l n h1 h2 := by rw [hl] at h1; rw [(hb n).2.1] at h2; exact h.flags l n h1 h2
  jumped l h1 := by
    rw [hl, hn]
    simp only [(hb _).2.1, (hb _).2.2]
    exact h.jumped l h1
  fwd b l h1 h2 := by rw [(hb b).2.2] at h2; exact h.fwd b l (hn ▸ h1) h2
  bnd b a h1 h2 := by rw [(hb b).2.2] at h2; rw [hn]; exact h.bnd b a (hn ▸ h1) h2

theorem JSt.push_same (c i b : Nat) : ((st.push c i).blk b).name = (st.blk b).name ∧ ((st.push c i).blk b).isState = (st.blk b).isState ∧
    ((st.push c i).blk b).act = (st.blk b).act := by
  simp only [JSt.push, upd]; split_ifs with h
  · subst h; exact ⟨rfl, rfl, rfl⟩
  · exact ⟨rfl, rfl, rfl⟩

theorem JSt.setNoSkip_same (c b : Nat) : ((st.setNoSkip c).blk b).name = (st.blk b).name ∧ ((st.setNoSkip c).blk b).isState = (st.blk b).isState ∧
    ((st.setNoSkip c).blk b).act = (st.blk b).act := by
  simp only [JSt.setNoSkip, upd]; split_ifs with h
  · subst h; exact ⟨rfl, rfl, rfl⟩
  · exact ⟨rfl, rfl, rfl⟩

theorem JInv.push (h : JInv st D) (c i : Nat) : JInv (st.push c i) D := h.same rfl rfl (JSt.push_same c i)

theorem JInv.setNoSkip (h : JInv st D) (c : Nat) : JInv (st.setNoSkip c) D := h.same rfl rfl (JSt.setNoSkip_same c)

theorem IsOpen.push {b : Nat} (h : IsOpen st b) (c i : Nat) : IsOpen (st.push c i) b :=
  ⟨h.1, by rw [(JSt.push_same c i b).2.2]; exact h.2⟩

theorem IsOpen.setNoSkip {b : Nat} (h : IsOpen st b) (c : Nat) : IsOpen (st.setNoSkip c) b :=
  ⟨h.1, by rw [(JSt.setNoSkip_same c b).2.2]; exact h.2⟩

end

/-- The result of gathering statements `p`. -/
structure BuildInv (p : JPrg) (st : JSt) (D : List String) (c' : Nat) (st' : JSt) : Prop where
  inv : JInv st' (D ++ p.jumps)
  cur : IsOpen st' c'
  labels : st'.labels.map Prod.fst = st.labels.map Prod.fst ++ p.labels

/-- The block a `break` goes to. -/
def BtOk (st : JSt) (bt : Option Nat) : Prop := ∀ a, bt = some a → a < st.next ∧ (st.blk a).name = none

theorem BtOk.keeps {st st' : JSt} {bt : Option Nat} {c : Nat} {f : Nat → Bool} (h : BtOk st bt) (k : JKeeps st c st' f) : BtOk st' bt :=
  fun a e => ⟨lt_of_lt_of_le (h a e).1 k.next, by rw [k.name a (h a e).1]; exact (h a e).2⟩

theorem bracket_inv {p : JPrg} {bt : Option Nat} {c : Nat} {st : JSt} {D : List String} {r : Nat × JSt}
    (ih : ∀ c st c' st' D, JInv st D → IsOpen st c → BtOk st bt → jBuild p bt c st = .ok (c', st') → BuildInv p st D c' st')
    (hi : JInv st D) (hc : IsOpen st c) (hb : BtOk st bt) (h : jBracket (jBuild p bt) c st = .ok r) : BuildInv p st D r.1 r.2 := by
  unfold jBracket at h
  split at h
  · cases h
  rename_i r0 h0
  cases h
  have i0 : JInv (st.add.setAct c (.act (.goto st.next))) D := hi.add.setAct hc.add (Nat.lt_succ_self _)
  have k0 : JKeeps st c (st.add.setAct c (.act (.goto st.next))) noFlag := ((JKeeps.refl hi.lok).add hc.1).setAct c _ (.inl rfl)
  have o0 : IsOpen (st.add.setAct c (.act (.goto st.next))) st.next := IsOpen.fresh.setAct (by have := hc.1; omega)
  have g := ih st.next _ r0.1 r0.2 D i0 o0 (hb.keeps k0) h0
  exact ⟨g.inv.add.setAct g.cur.add (Nat.lt_succ_self _), IsOpen.fresh.setAct (by have := g.cur.1; omega), g.labels⟩

theorem jBuild_inv (p : JPrg) : ∀ bt c st c' st' D, JInv st D → IsOpen st c → BtOk st bt → jBuild p bt c st = .ok (c', st') →
    BuildInv p st D c' st' := by
  induction p with
  | nil =>
    intro bt c st c' st' D hi hc hb h
    cases h
    exact ⟨by simpa [JPrg.jumps] using hi, hc, by simp [JPrg.labels]⟩
  | instr i k ih =>
    intro bt c st c' st' D hi hc hb h
    have g := ih bt c _ c' st' D (hi.push c i) (hc.push c i) (hb.keeps ((JKeeps.refl (c := c) hi.lok).push i)) h
    exact ⟨g.inv, g.cur, g.labels⟩
  | step k ih =>
    intro bt c st c' st' D hi hc hb h
    have k0 := ((((JKeeps.refl (c := c) hi.lok).add hc.1).setStateNew st.next (le_refl _)).setNoSkip st.next).setAct c (.act (.goto st.next)) (.inl rfl)
    have hn : (st.add.blk st.next).name = none := by rw [JSt.add_new]
    have i0 := ((hi.add.setState hn).setNoSkip st.next).setAct ((hc.add.setState).setNoSkip st.next) (a := .goto st.next) (Nat.lt_succ_self _)
    have g := ih bt st.next _ c' st' D i0 (((IsOpen.fresh.setState).setNoSkip _).setAct (by have := hc.1; omega)) (hb.keeps k0) h
    exact ⟨g.inv, g.cur, g.labels⟩
  | label l k ih =>
    intro bt c st c' st' D hi hc hb h
    unfold jBuild at h
    split at h
    · cases h
    rename_i st2 e
    obtain ⟨i1, o1, hl, hn, old⟩ := hi.addLabel e
    have oc : IsOpen st2 c := ⟨by rw [hn]; have := hc.1; omega, by rw [old c hc.1]; exact hc.2⟩
    have k0 := ((JKeeps.refl (c := c) hi.lok).addLabel hc.1 e).setAct c (.act (.goto st.next)) (.inl rfl)
    have g := ih bt st.next _ c' st' D (i1.setAct oc (a := .goto st.next) (show st.next < st2.next by omega)) (o1.setAct (by have := hc.1; omega)) (hb.keeps k0) h
    refine ⟨g.inv, g.cur, ?_⟩
    rw [g.labels]
    show st2.labels.map Prod.fst ++ k.labels = _
    rw [hl]; simp [JPrg.labels]
  | jump l k ih =>
    intro bt c st c' st' D hi hc hb h
    unfold jBuild at h
    have fin : ∀ st1 : JSt, JInv st1 (D ++ [l]) → BtOk st1 bt → st1.labels = st.labels → jBuild k bt st1.next st1.add = .ok (c', st') →
        BuildInv (.jump l k) st D c' st' := by
      intro st1 i1 b1 hl h
      have g := ih bt st1.next st1.add c' st' _ i1.add IsOpen.fresh (fun a e => ⟨Nat.lt_succ_of_lt (b1 a e).1, by
        rw [JSt.add_old _ _ (by have := (b1 a e).1; omega)]; exact (b1 a e).2⟩) h
      refine ⟨by have := g.inv; rw [List.append_assoc] at this; exact this, g.cur, ?_⟩
      rw [g.labels]
      show st1.labels.map Prod.fst ++ k.labels = _
      rw [hl]; rfl
    cases e : st.labels.lookup l with
    | none =>
      rw [e] at h
      exact fin _ (hi.setFwd hc l) (fun a ea => ⟨(hb a ea).1, by rw [JSt.setAct_name]; exact (hb a ea).2⟩) rfl h
    | some n =>
      rw [e] at h
      have hm := jmem_of_lookup e
      exact fin _ ((hi.setAct hc (a := .goto n) (hi.lok l n hm).1).setStateLab hm)
        (fun a ea => ⟨(hb a ea).1, by rw [JSt.setState_name, JSt.setAct_name]; exact (hb a ea).2⟩) rfl h
  | block b k ihb ihk =>
    intro bt c st c' st' D hi hc hb h
    unfold jBuild at h
    split at h
    · cases h
    rename_i r e
    have g0 := bracket_inv (fun c st c' st' D => ihb bt c st c' st' D) hi hc hb e
    have k0 := (bracket_gathers (fun c st c' st' => jBuild_gathers b bt c st c' st') hc.1 hi.lok e).keeps
    have g := ihk bt r.1 r.2 c' st' _ g0.inv g0.cur (hb.keeps k0) h
    exact ⟨by have := g.inv; rw [List.append_assoc] at this; exact this, g.cur, by rw [g.labels, g0.labels, List.append_assoc]; rfl⟩
  | ifThen q t k iht ihk =>
    intro bt c st c' st' D hi hc hb h
    unfold jBuild at h
    simp only at h
    split at h
    · cases h
    rename_i r e
    have i0 := hi.add.add
    have k0 := ((JKeeps.refl (c := c) hi.lok).add hc.1).add hc.1
    have oi : IsOpen st.add.add st.next := IsOpen.fresh.add
    have oe : IsOpen st.add.add (st.next + 1) := IsOpen.fresh (st := st.add)
    have b0 := hb.keeps k0
    have g0 := bracket_inv (fun c st c' st' D => iht bt c st c' st' D) i0 oi b0 e
    have gk := bracket_gathers (fun c st c' st' => jBuild_gathers t bt c st c' st') oi.1 i0.lok e
    have hnx : st.next + 2 ≤ r.2.next := gk.keeps.next
    have hpl : r.1 = st.next ∨ st.next + 2 ≤ r.1 := gk.place
    have oe' := oe.keeps gk.keeps (by omega)
    have oc' := hc.add.add.keeps gk.keeps (by have := hc.1; omega)
    have hcn := hc.1
    have i1 := g0.inv.add.setAct g0.cur.add (a := .goto r.2.next) (Nat.lt_succ_self _)
    have oe1 : IsOpen (r.2.add.setAct r.1 (.act (.goto r.2.next))) (st.next + 1) := oe'.add.setAct (by omega)
    have oc1 : IsOpen (r.2.add.setAct r.1 (.act (.goto r.2.next))) c := oc'.add.setAct (by omega)
    have oa1 : IsOpen (r.2.add.setAct r.1 (.act (.goto r.2.next))) r.2.next := IsOpen.fresh.setAct (by have := g0.cur.1; omega)
    have i2 := i1.setAct oe1 (a := .goto r.2.next) (Nat.lt_succ_self _)
    have oc2 := oc1.setAct (c := st.next + 1) (a := .act (.goto r.2.next)) (by omega)
    have oa2 := oa1.setAct (c := st.next + 1) (a := .act (.goto r.2.next)) (by omega)
    generalize JSt.isStateless _ st.next = w at h
    have i3 := i2.setAct oc2 (a := .ifElse q st.next w r.1 (st.next + 1) true (st.next + 1) r.2.next)
      ⟨show st.next < r.2.next + 1 by omega, show st.next + 1 < r.2.next + 1 by omega⟩
    have oa3 := oa2.setAct (c := c) (a := .act (.ifElse q st.next w r.1 (st.next + 1) true (st.next + 1) r.2.next)) (by omega)
    have b3 : BtOk _ bt := (b0.keeps gk.keeps)
    have g := ihk bt r.2.next _ c' st' _ i3 oa3 (fun a ea => ⟨Nat.lt_succ_of_lt (b3 a ea).1, by
      rw [JSt.setAct_name, JSt.setAct_name, JSt.setAct_name, JSt.add_old _ _ (by have := (b3 a ea).1; omega)]; exact (b3 a ea).2⟩) h
    refine ⟨by have := g.inv; rw [List.append_assoc] at this; exact this, g.cur, ?_⟩
    rw [g.labels]
    show r.2.labels.map Prod.fst ++ k.labels = _
    rw [g0.labels, List.append_assoc]; rfl
  | ifElse q t f k iht ihf ihk =>
    intro bt c st c' st' D hi hc hb h
    unfold jBuild at h
    simp only at h
    split at h
    · cases h
    rename_i r e
    split at h
    · cases h
    rename_i r' e'
    have i0 := hi.add.add
    have k0 := ((JKeeps.refl (c := c) hi.lok).add hc.1).add hc.1
    have oi : IsOpen st.add.add st.next := IsOpen.fresh.add
    have oe : IsOpen st.add.add (st.next + 1) := IsOpen.fresh (st := st.add)
    have b0 := hb.keeps k0
    have g0 := bracket_inv (fun c st c' st' D => iht bt c st c' st' D) i0 oi b0 e
    have gk := bracket_gathers (fun c st c' st' => jBuild_gathers t bt c st c' st') oi.1 i0.lok e
    have hnx : st.next + 2 ≤ r.2.next := gk.keeps.next
    have hpl : r.1 = st.next ∨ st.next + 2 ≤ r.1 := gk.place
    have oe' := oe.keeps gk.keeps (by omega)
    have oc' := hc.add.add.keeps gk.keeps (by have := hc.1; omega)
    have hcn := hc.1
    have b1 := b0.keeps gk.keeps
    have g1 := bracket_inv (fun c st c' st' D => ihf bt c st c' st' D) g0.inv oe' b1 e'
    have gk' := bracket_gathers (fun c st c' st' => jBuild_gathers f bt c st c' st') oe'.1 g0.inv.lok e'
    have hnx' : r.2.next ≤ r'.2.next := gk'.keeps.next
    have hpl' : r'.1 = st.next + 1 ∨ r.2.next ≤ r'.1 := gk'.place
    have hr := g0.cur.1
    have hr' := g1.cur.1
    have ot' := g0.cur.keeps gk'.keeps (by omega)
    have oc'' := oc'.keeps gk'.keeps (by omega)
    have i1 := g1.inv.add.setAct ot'.add (a := .goto r'.2.next) (Nat.lt_succ_self _)
    have oe1 : IsOpen (r'.2.add.setAct r.1 (.act (.goto r'.2.next))) r'.1 := g1.cur.add.setAct (by omega)
    have oc1 : IsOpen (r'.2.add.setAct r.1 (.act (.goto r'.2.next))) c := oc''.add.setAct (by omega)
    have oa1 : IsOpen (r'.2.add.setAct r.1 (.act (.goto r'.2.next))) r'.2.next := IsOpen.fresh.setAct (by omega)
    have i2 := i1.setAct oe1 (a := .goto r'.2.next) (Nat.lt_succ_self _)
    have oc2 := oc1.setAct (c := r'.1) (a := .act (.goto r'.2.next)) (by omega)
    have oa2 := oa1.setAct (c := r'.1) (a := .act (.goto r'.2.next)) (by omega)
    generalize JSt.isStateless _ st.next = w at h
    generalize JSt.isStateless _ (st.next + 1) = z at h
    have i3 := i2.setAct oc2 (a := .ifElse q st.next w r.1 (st.next + 1) z r'.1 r'.2.next)
      ⟨show st.next < r'.2.next + 1 by omega, show st.next + 1 < r'.2.next + 1 by omega⟩
    have oa3 := oa2.setAct (c := c) (a := .act (.ifElse q st.next w r.1 (st.next + 1) z r'.1 r'.2.next)) (by omega)
    have b3 : BtOk _ bt := (b1.keeps gk'.keeps)
    have g := ihk bt r'.2.next _ c' st' _ i3 oa3 (fun a ea => ⟨Nat.lt_succ_of_lt (b3 a ea).1, by
      rw [JSt.setAct_name, JSt.setAct_name, JSt.setAct_name, JSt.add_old _ _ (by have := (b3 a ea).1; omega)]; exact (b3 a ea).2⟩) h
    refine ⟨by have := g.inv; rw [List.append_assoc, List.append_assoc] at this; exact this, g.cur, ?_⟩
    rw [g.labels]
    show r'.2.labels.map Prod.fst ++ k.labels = _
    rw [g1.labels, g0.labels, List.append_assoc, List.append_assoc]; rfl
  | loop q b k ihb ihk =>
    intro bt c st c' st' D hi hc hb h
    unfold jBuild at h
    simp only at h
    split at h
    · cases h
    rename_i r e
    have hcn := hc.1
    have i0 := (hi.add.setAct hc.add (a := .goto st.next) (Nat.lt_succ_self _)).add.add
    have oh0 : IsOpen (st.add.setAct c (.act (.goto st.next))) st.next := IsOpen.fresh.setAct (by omega)
    have oh := oh0.add.add
    have oi : IsOpen (st.add.setAct c (.act (.goto st.next))).add.add (st.next + 1) := (IsOpen.fresh (st := st.add.setAct c (.act (.goto st.next)))).add
    have oa : IsOpen (st.add.setAct c (.act (.goto st.next))).add.add (st.next + 2) := IsOpen.fresh (st := (st.add.setAct c (.act (.goto st.next))).add)
    have k0 : JKeeps st c (st.add.setAct c (.act (.goto st.next))).add.add noFlag :=
      ((((JKeeps.refl (c := c) hi.lok).add hc.1).setAct c _ (.inl rfl)).add hc.1).add hc.1
    have na : ((st.add.setAct c (.act (.goto st.next))).add.add.blk (st.next + 2)).name = none := by
      show ((st.add.setAct c (.act (.goto st.next))).add.add.blk (st.add.setAct c (.act (.goto st.next))).add.next).name = none
      rw [JSt.add_new]
    have nh : ((st.add.setAct c (.act (.goto st.next))).add.add.blk st.next).name = none := by
      rw [JSt.add_old _ _ (by show st.next ≠ st.next + 1 + 1; omega), JSt.add_old _ _ (by show st.next ≠ st.next + 1; omega),
        JSt.setAct_name, JSt.add_new]
    have b0 : BtOk (st.add.setAct c (.act (.goto st.next))).add.add (some (st.next + 2)) := by
      intro a ea; cases ea; exact ⟨oa.1, na⟩
    have g0 := bracket_inv (ihb (some (st.next + 2))) i0 oi b0 e
    have gk := bracket_gathers (jBuild_gathers b (some (st.next + 2))) oi.1 i0.lok e
    have hnx : st.next + 3 ≤ r.2.next := gk.keeps.next
    have hpl : r.1 = st.next + 1 ∨ st.next + 3 ≤ r.1 := gk.place
    have oh' := oh.keeps gk.keeps (by omega)
    have oa' := oa.keeps gk.keeps (by omega)
    have nh' := (gk.keeps.name st.next (show st.next < st.next + 3 by omega)).trans nh
    have i1 := g0.inv.setAct g0.cur (a := .goto st.next) (show st.next < r.2.next by omega)
    have oh1 := oh'.setAct (c := r.1) (a := .act (.goto st.next)) (by omega)
    have oa1 := oa'.setAct (c := r.1) (a := .act (.goto st.next)) (by omega)
    have i2 := i1.setAct oh1 (a := .loop q (st.next + 1) (st.next + 2)) ⟨show st.next + 1 < r.2.next by omega, show st.next + 2 < r.2.next by omega⟩
    have oa2 := oa1.setAct (c := st.next) (a := .act (.loop q (st.next + 1) (st.next + 2))) (by omega)
    have i3 := i2.setState (b := st.next) (by rw [JSt.setAct_name, JSt.setAct_name]; exact nh')
    have b3 : BtOk _ bt := (hb.keeps k0).keeps gk.keeps
    have g := ihk bt (st.next + 2) _ c' st' _ i3 oa2.setState (fun a ea => ⟨(b3 a ea).1, by
      rw [JSt.setState_name, JSt.setAct_name, JSt.setAct_name]; exact (b3 a ea).2⟩) h
    refine ⟨by have := g.inv; rw [List.append_assoc] at this; exact this, g.cur, ?_⟩
    rw [g.labels]
    show r.2.labels.map Prod.fst ++ k.labels = _
    rw [g0.labels, List.append_assoc]; rfl
  | brk k ih =>
    intro bt c st c' st' D hi hc hb h
    unfold jBuild at h
    split at h
    · cases h
    rename_i a
    simp only at h
    have i1 := (hi.setAct hc (a := .goto a) (hb a rfl).1).setState (b := a) (by rw [JSt.setAct_name]; exact (hb a rfl).2)
    have g := ih (some a) _ _ c' st' D i1.add IsOpen.fresh (fun x ex => ⟨Nat.lt_succ_of_lt (hb x ex).1, by
      rw [JSt.add_old _ _ (by have := (hb x ex).1; show x ≠ st.next; omega), JSt.setState_name, JSt.setAct_name]; exact (hb x ex).2⟩) h
    exact ⟨g.inv, g.cur, g.labels⟩

/-! ### The whole algorithm -/

theorem jlookup_of_mem {xs : List (String × Nat)} (hn : (xs.map Prod.fst).Nodup) {l : String} {n : Nat} (h : (l, n) ∈ xs) : xs.lookup l = some n := by
  induction xs with
  | nil => cases h
  | cons x xs ih =>
    obtain ⟨a, b⟩ := x
    rw [List.map_cons, List.nodup_cons] at hn
    rw [List.lookup_cons]
    rcases List.mem_cons.mp h with e | h'
    · cases e; rw [beq_self_eq_true]
    · have : (l == a) = false := by
        rw [beq_eq_false_iff_ne]
        rintro rfl
        exact hn.1 (List.mem_map.mpr ⟨_, h', rfl⟩)
      rw [this]
      exact ih hn.2 h'

theorem mem_jFwds {blk : Nat → JBlk} {N : Nat} {l : String} : l ∈ jFwds blk (List.range N) ↔ ∃ b, b < N ∧ (blk b).act = .fwd l := by
  unfold jFwds
  rw [List.mem_filterMap]
  constructor
  · rintro ⟨b, hb, h⟩
    split at h
    · cases h; rename_i e; exact ⟨b, List.mem_range.mp hb, e⟩
    · cases h
  · rintro ⟨b, hb, h⟩
    exact ⟨b, List.mem_range.mpr hb, by rw [h]⟩

/-- The state before the statements of an algorithm. -/
abbrev jStart : JSt := (({} : JSt).add.setState 0).add.setAct 0 (.act (.goto 1))

theorem jStart_inv : JInv jStart [] where
  lok l n h := by cases h
  named b l hb h := by
    have : b = 0 ∨ b = 1 := by have : b < 2 := hb; omega
    rcases this with rfl | rfl <;> cases h
  nodup := List.nodup_nil
  flags l n h := by cases h
  jumped l h := by cases h
  fwd b l hb h := by
    have : b = 0 ∨ b = 1 := by have : b < 2 := hb; omega
    rcases this with rfl | rfl <;> cases h
  bnd b a hb h := by
    have : b = 0 ∨ b = 1 := by have : b < 2 := hb; omega
    rcases this with rfl | rfl <;> cases h
    · show 1 < 2; omega
    · trivial

theorem jStart_open : IsOpen jStart 1 := ⟨show 1 < 2 by omega, rfl⟩

/-- What is known of a gathered algorithm. -/
structure Gathered (p : JPrg) (last : Nat) (st : JSt) : Prop where
  isLast : st.next = last + 1
  labels : st.labels.map Prod.fst = p.labels
  nodup : p.labels.Nodup
  entry : JEnds st.blk (0, 0) (.goto 1) ∧ (st.blk 1).isState = false
  frag : ∃ e, JFrag st.blk st.labels p.jumps p none (1, 0) e ∧ JStack st.blk st.labels p.jumps last [] none e
  bnd : ∀ b, b ≤ last → ∃ a, (st.blk b).act = .act a ∧ ActBnd (last + 1) a

theorem gathered {p : JPrg} {last : Nat} {st : JSt} (h : jGather p = .ok (last, st)) : Gathered p last st := by
  unfold jGather at h
  simp only at h
  split at h
  · cases h
  rename_i r hb
  split at h
  · cases h
  rename_i stF hr
  cases h
  have g := jBuild_inv p none 1 jStart r.1 r.2 [] jStart_inv jStart_open (fun a e => by cases e) hb
  have gk := jBuild_gathers p none 1 jStart r.1 r.2 jStart_open.1 jStart_inv.lok hb
  have hinv : JInv r.2 p.jumps := g.inv
  have i2 : JInv (r.2.add.setAct r.1 (.act (.goto r.2.next))) p.jumps := hinv.add.setAct g.cur.add (Nat.lt_succ_self _)
  have hcur := g.cur.1
  have hnx : 2 ≤ r.2.next := gk.keeps.next
  have hpl : r.1 = 1 ∨ 2 ≤ r.1 := gk.place
  -- blocks before the last one
  have oldA : ∀ b, b ≠ r.1 → b < r.2.next → (r.2.add.setAct r.1 (.act (.goto r.2.next))).blk b = r.2.blk b := fun b h1 h2 => by
    rw [JSt.setAct_other _ _ _ _ h1, JSt.add_old _ _ (by omega)]
  have oldF : ∀ b, b < r.2.next → ((r.2.add.setAct r.1 (.act (.goto r.2.next))).blk b).name = (r.2.blk b).name ∧
      ((r.2.add.setAct r.1 (.act (.goto r.2.next))).blk b).isState = (r.2.blk b).isState ∧
      ((r.2.add.setAct r.1 (.act (.goto r.2.next))).blk b).ins = (r.2.blk b).ins := fun b h1 => by
    rw [JSt.setAct_name, JSt.setAct_flag, JSt.setAct_ins, JSt.add_old _ _ (by omega)]; exact ⟨rfl, rfl, rfl⟩
  have hcurA : ((r.2.add.setAct r.1 (.act (.goto r.2.next))).blk r.1).act = .act (.goto r.2.next) := JSt.setAct_same _ _ _
  have hlast : (r.2.add.setAct r.1 (.act (.goto r.2.next))).blk r.2.next = {} := by
    rw [JSt.setAct_other _ _ _ _ (by omega), JSt.add_new]
  have hnext : (r.2.add.setAct r.1 (.act (.goto r.2.next))).next = r.2.next + 1 := rfl
  have hlabs : (r.2.add.setAct r.1 (.act (.goto r.2.next))).labels = r.2.labels := rfl
  generalize r.2.add.setAct r.1 (.act (.goto r.2.next)) = s2 at *
  unfold jResolve at hr
  simp only at hr
  split at hr
  · cases hr
  rename_i hno
  cases hr
  have hfl : ∀ l, l ∈ jFwds s2.blk (List.range s2.next) → ∃ n, s2.labels.lookup l = some n := fun l hl => by
    have := List.find?_eq_none.mp hno l hl
    cases e : s2.labels.lookup l with
    | some n => exact ⟨n, rfl⟩
    | none => rw [e] at this; simp at this
  have hact : ∀ b, b < s2.next → ∃ a, jResolveAct s2.labels (s2.blk b).act = some a ∧ ActBnd s2.next a := by
    intro b hb
    cases e : (s2.blk b).act with
    | act a => exact ⟨a, rfl, i2.bnd b a hb e⟩
    | fwd l =>
      obtain ⟨n, hn⟩ := hfl l (mem_jFwds.mpr ⟨b, hb, e⟩)
      exact ⟨.goto n, by simp [jResolveAct, hn], (i2.lok l n (jmem_of_lookup hn)).1⟩
  have gact : ∀ b a, jResolveAct s2.labels (s2.blk b).act = some a →
      (jResolveBlk s2.labels (jFwds s2.blk (List.range s2.next)) b (s2.blk b)).act = .act a := by
    intro b a ha; simp only [jResolveBlk, ha]
  have gins : ∀ b, (jResolveBlk s2.labels (jFwds s2.blk (List.range s2.next)) b (s2.blk b)).ins = (s2.blk b).ins := fun b => rfl
  have gname : ∀ b, (s2.blk b).name = none →
      (jResolveBlk s2.labels (jFwds s2.blk (List.range s2.next)) b (s2.blk b)).isState = (s2.blk b).isState := by
    intro b hb
    simp only [jResolveBlk]
    rw [Bool.or_eq_left_iff_imp]
    intro h
    obtain ⟨l, h1, h2⟩ := List.any_eq_true.mp h
    have := (i2.lok l b (jmem_of_lookup (beq_iff_eq.mp h2))).2
    rw [hb] at this; cases this
  have glab : ∀ l n, s2.labels.lookup l = some n →
      (jResolveBlk s2.labels (jFwds s2.blk (List.range s2.next)) n (s2.blk n)).isState = p.jumps.contains l := by
    intro l n hl
    have hm := jmem_of_lookup hl
    rw [Bool.eq_iff_iff, List.contains_iff_mem]
    simp only [jResolveBlk, Bool.or_eq_true]
    constructor
    · rintro (h | h)
      · exact i2.flags l n hm h
      · obtain ⟨l', h1, h2⟩ := List.any_eq_true.mp h
        have := (i2.lok l' n (jmem_of_lookup (beq_iff_eq.mp h2))).2
        rw [(i2.lok l n hm).2] at this
        cases this
        obtain ⟨b, hb, hf⟩ := mem_jFwds.mp h1
        exact i2.fwd b l hb hf
    · intro hj
      rcases i2.jumped l hj with ⟨n', h1, h2⟩ | ⟨b, h1, h2⟩
      · have := jlookup_of_mem i2.nodup h1
        rw [hl] at this
        cases this
        exact .inl h2
      · exact .inr (List.any_eq_true.mpr ⟨l, mem_jFwds.mpr ⟨b, h1, h2⟩, by simp [hl]⟩)
  generalize hG : (fun n => jResolveBlk s2.labels (jFwds s2.blk (List.range s2.next)) n (s2.blk n)) = G at *
  have hGb : ∀ b, jResolveBlk s2.labels (jFwds s2.blk (List.range s2.next)) b (s2.blk b) = G b := fun b => congrFun hG b
  simp only [hGb] at gact gins gname glab
  have hname1 : (r.2.blk 1).name = none := (gk.keeps.name 1 (show 1 < 2 by omega)).trans rfl
  have hflag1 : (r.2.blk 1).isState = false := by
    rw [gk.keeps.flag 1 (show 1 < 2 by omega) rfl]; simp; rfl
  have pre : FragPre G s2.labels p.jumps p none 1 jStart r.1 r.2 := {
    cur := jStart_open.1
    lok := jStart_inv.lok
    btok := fun a e => by cases e
    brk := fun a e => by cases e
    jumps := fun l h => h
    labels := fun l n hm => by rw [hlabs]; exact jlookup_of_mem hinv.nodup hm
    fin := {
      flag := fun b h1 h2 => by
        unfold AgreesF
        cases e : (r.2.blk b).name with
        | none =>
          rw [gname b (by rw [(oldF b h2).1]; exact e), (oldF b h2).2.1]
        | some l => exact glab l b (by rw [hlabs]; exact jlookup_of_mem hinv.nodup (hinv.named b l h2 e))
      code := fun b h1 h2 h3 => by
        obtain ⟨a, ha, _⟩ := hact b (by omega)
        refine ⟨by rw [gins, (oldF b h2).2.2], a, by rw [← oldA b h3 h2]; exact ha, gact b a ha⟩
      cur := by rw [gins, (oldF _ hcur).2.2]; exact List.prefix_rfl } }
  have frag := jBuild_frag glab p none 1 jStart r.1 r.2 hb pre
  refine ⟨hnext, ?_, ?_, ⟨⟨?_, ?_⟩, ?_⟩, ⟨_, frag, ?_⟩, ?_⟩
  · show s2.labels.map Prod.fst = _
    rw [hlabs, g.labels]; rfl
  · have := hinv.nodup
    rw [g.labels] at this; exact this
  · show (G 0).ins.length = 0
    rw [gins, (oldF 0 (by omega)).2.2, (gk.keeps.other 0 (show 0 < 2 by omega) (by omega)).1]; rfl
  · show (G 0).act = _
    apply gact
    rw [oldA 0 (by omega) (by omega), (gk.keeps.other 0 (show 0 < 2 by omega) (by omega)).2]; rfl
  · show (G 1).isState = false
    rw [gname 1 (by rw [(oldF 1 (by omega)).1]; exact hname1), (oldF 1 (by omega)).2.1]; exact hflag1
  · refine .nil ⟨?_, ?_⟩ ?_ ⟨?_, ?_⟩
    · show (G r.1).ins.length = _
      rw [gins, (oldF _ hcur).2.2]
    · show (G r.1).act = _
      exact gact _ _ (by rw [hcurA]; rfl)
    · show (G r.2.next).isState = false
      rw [gname _ (by rw [hlast]), hlast]
    · show (G r.2.next).ins.length = 0
      rw [gins, hlast]; rfl
    · show (G r.2.next).act = _
      exact gact _ _ (by rw [hlast]; rfl)
  · intro b hb
    obtain ⟨a, h1, h2⟩ := hact b (by omega)
    exact ⟨a, gact b a h1, by rw [hnext] at h2; exact h2⟩

/-- The graph on natural numbers is followed. -/
theorem nat_follows {σ : Type} {p : JPrg} {last : Nat} {st : JSt} (h : Gathered p last st) (S : JSem σ) (s : σ) :
    (∀ n, ∃ m, srcObserve p S s n = observe (nStep st.blk last S) (0, 0) s m) ∧
      (∀ m, ∃ n, observe (nStep st.blk last S) (0, 0) s m = srcObserve p S s n) := by
  obtain ⟨e, hf, hK⟩ := h.frag
  have hlab : ∀ l n, st.labels.lookup l = some n → l ∈ p.labels := fun l n hl => by
    rw [← h.labels]; exact List.mem_map.mpr ⟨_, jmem_of_lookup hl, rfl⟩
  refine sim_observe (fun x y => JRel st.blk st.labels p.jumps last x y ∨ (x = .run p [] ∧ y = (0, 0))) (.run p []) (0, 0) s (.inr ⟨rfl, rfl⟩) ?_ ?_
  · intro x y s x' s' ev hr hs
    rcases hr with hr | ⟨rfl, rfl⟩
    · obtain ⟨n, y1, y', h1, h2, h3⟩ := rel_step S ⟨_, _, hf, hK⟩ rfl hr hs
      exact ⟨n, y1, y', h1, h2, .inl h3⟩
    · obtain ⟨n, y1, y', h1, h2, h3⟩ := rel_step S ⟨_, _, hf, hK⟩ rfl (.run hf hK) hs
      exact ⟨n + 1, y1, y', .succ (by rw [h.entry.1.goto S s, h.entry.2]; rfl) h1, h2, .inl h3⟩
  · intro x y s hr hs
    rcases hr with hr | ⟨rfl, rfl⟩
    · have := rel_live S hlab hr hs
      subst this
      exact rel_stop S hr
    · cases rel_live S hlab (.run hf hK) hs

/-- Steps in the graph of the blocks and on numbers. -/
theorem fin_step {σ : Type} {p : JPrg} {last : Nat} {st : JSt} (h : Gathered p last st) (S : JSem σ) (s : σ) (x : Fin (last + 1) × Nat) :
    nStep st.blk last S (x.1.val, x.2) s =
      (gStep (st.cfg last) (fun b => (st.blk b.val).ins) S x s).map (fun r => ((r.1.1.val, r.1.2), r.2)) := by
  obtain ⟨a, ha, hb⟩ := h.bnd x.1.val (by omega)
  have hof : ∀ n, n < last + 1 → (Fin.ofNat (last + 1) n).val = n := fun n hn => Nat.mod_eq_of_lt hn
  simp only [nStep, gStep]
  cases (st.blk x.1.val).ins[x.2]? with
  | some i => rfl
  | none =>
    cases a <;> simp only [ActBnd] at hb
    · simp [go, natCfg, JSt.cfg, ha, Act.map]
    · have := hof _ hb
      simp only [Fin.ofNat] at this
      simp [go, natCfg, JSt.cfg, ha, Act.map, this]
    · rename_i c i _ _ e _ _ _
      have h1 := hof _ hb.1
      have h2 := hof _ hb.2
      simp only [go, natCfg, JSt.cfg, ha, Act.map, JSem.blocks]
      by_cases hc : S.test c s = true
      · simp only [hc, if_true, Option.map_some, h1]
      · simp only [hc, if_false, Option.map_some, h2, Bool.false_eq_true]
    · rename_i c i e
      have h1 := hof _ hb.1
      have h2 := hof _ hb.2
      simp only [go, natCfg, JSt.cfg, ha, Act.map, JSem.blocks]
      by_cases hc : S.test c s = true
      · simp only [hc, if_true, Option.map_some, h1]
      · simp only [hc, if_false, Option.map_some, h2, Bool.false_eq_true]

theorem fin_observe {σ : Type} {p : JPrg} {last : Nat} {st : JSt} (h : Gathered p last st) (S : JSem σ) (s : σ) (m : Nat) :
    observe (nStep st.blk last S) (0, 0) s m = graphObserve (st.cfg last) (fun b => (st.blk b.val).ins) S s m := by
  have key : ∀ m, iter (nStep st.blk last S) (0, 0) s m =
      let r := iter (gStep (st.cfg last) (fun b => (st.blk b.val).ins) S) ((st.cfg last).first, 0) s m
      ((r.1.1.val, r.1.2), r.2) := by
    intro m
    induction m with
    | zero => rfl
    | succ m ih =>
      simp only [iter]
      rw [ih]
      simp only
      rw [fin_step h S]
      cases gStep (st.cfg last) (fun b => (st.blk b.val).ins) S
        (iter (gStep (st.cfg last) (fun b => (st.blk b.val).ins) S) ((st.cfg last).first, 0) s m).1
        (iter (gStep (st.cfg last) (fun b => (st.blk b.val).ins) S) ((st.cfg last).first, 0) s m).2.1 <;> rfl
  unfold graphObserve observe
  simp only
  rw [key m]
  simp only
  rw [fin_step h S]
  simp

/-- The block graph does what the source does. -/
theorem graph_follows {σ : Type} {p : JPrg} {last : Nat} {st : JSt} (h : jGather p = .ok (last, st)) (S : JSem σ) (s : σ) :
    (∀ n, ∃ m, srcObserve p S s n = graphObserve (st.cfg last) (fun b => (st.blk b.val).ins) S s m) ∧
      (∀ m, ∃ n, graphObserve (st.cfg last) (fun b => (st.blk b.val).ins) S s m = srcObserve p S s n) := by
  have hg := gathered h
  obtain ⟨h1, h2⟩ := nat_follows hg S s
  simp only [fin_observe hg S s] at h1 h2
  exact ⟨h1, h2⟩

/-! ### Programs that are refused -/

/-- Labels in the table. -/
abbrev JSt.keys (st : JSt) : List String := st.labels.map Prod.fst

theorem addLabel_cases (st : JSt) (l : String) :
    (l ∈ st.keys ∧ st.addLabel l = .error (.again l)) ∨ (l ∉ st.keys ∧ ∃ st', st.addLabel l = .ok st' ∧ st'.keys = st.keys ++ [l]) := by
  unfold JSt.addLabel
  by_cases h : l ∈ st.keys
  · left
    refine ⟨h, ?_⟩
    rw [if_pos]
    obtain ⟨⟨l', n⟩, h1, rfl⟩ := List.mem_map.mp h
    cases e : st.labels.lookup l' with
    | some n => rfl
    | none => exact absurd (List.lookup_eq_none_iff.mp e _ h1) (by simp)
  · right
    refine ⟨h, _, if_neg ?_, by simp [JSt.keys]⟩
    intro hs
    obtain ⟨n, hn⟩ := Option.isSome_iff_exists.mp hs
    exact h (List.mem_map.mpr ⟨_, jmem_of_lookup hn, rfl⟩)

/-- What can come of gathering statements with labels `L`, with a `break` (`br`), the labels `K` being in the table. -/
def BuildRes (L : List String) (br : Bool) (bt : Option Nat) (K : List String) : Except JErr (Nat × JSt) → Prop
  | .ok r => r.2.keys = K ++ L ∧ (bt = none → br = false) ∧ (K.Nodup → (K ++ L).Nodup)
  | .error (.again l) => 2 ≤ (K ++ L).count l
  | .error .breakOutside => bt = none ∧ br = true
  | .error (.unknown _) => False

section
variable {L L2 : List String} {br br2 : Bool} {bt : Option Nat} {K : List String}

theorem BuildRes.left {x : JErr} (h : BuildRes L br bt K (.error x)) : BuildRes (L ++ L2) (br || br2) bt K (.error x) := by
  cases x with
  | again l =>
    have h : 2 ≤ (K ++ L).count l := h
    show 2 ≤ (K ++ (L ++ L2)).count l
    rw [← List.append_assoc, List.count_append]; omega
  | unknown l => exact h
  | breakOutside => exact ⟨h.1, by rw [h.2, Bool.true_or]⟩

theorem BuildRes.right {r : Nat × JSt} {res : Except JErr (Nat × JSt)} (h : BuildRes L br bt K (.ok r)) (h' : BuildRes L2 br2 bt r.2.keys res) :
    BuildRes (L ++ L2) (br || br2) bt K res := by
  obtain ⟨h1, h2, h3⟩ := h
  rw [h1] at h'
  cases res with
  | ok r' =>
    obtain ⟨g1, g2, g3⟩ := h'
    exact ⟨by rw [g1, List.append_assoc], fun e => by rw [h2 e, g2 e]; rfl, fun hn => by rw [← List.append_assoc]; exact g3 (h3 hn)⟩
  | error x =>
    cases x with
    | again l =>
      have h' : 2 ≤ (K ++ L ++ L2).count l := h'
      show 2 ≤ (K ++ (L ++ L2)).count l
      rw [← List.append_assoc]; exact h'
    | unknown l => exact h'
    | breakOutside => exact ⟨h'.1, by rw [h'.2, Bool.or_true]⟩

theorem BuildRes.inLoop {a : Nat} {res : Except JErr (Nat × JSt)} (h : BuildRes L br (some a) K res) : BuildRes L false bt K res := by
  cases res with
  | ok r => exact ⟨h.1, fun _ => rfl, h.2.2⟩
  | error x =>
    cases x with
    | again l => exact h
    | unknown l => exact h
    | breakOutside => exact nomatch h.1

end

theorem bracket_res {b : JPrg} {bt : Option Nat} (ih : ∀ c st, BuildRes b.labels b.breaks bt st.keys (jBuild b bt c st)) (c : Nat) (st : JSt) :
    BuildRes b.labels b.breaks bt st.keys (jBracket (jBuild b bt) c st) := by
  have := ih st.next (st.add.setAct c (.act (.goto st.next)))
  unfold jBracket
  revert this
  cases jBuild b bt st.next (st.add.setAct c (.act (.goto st.next))) with
  | error e => exact fun h => h
  | ok r => exact fun h => h

theorem jBuild_res (p : JPrg) : ∀ bt c st, BuildRes p.labels p.breaks bt st.keys (jBuild p bt c st) := by
  induction p with
  | nil => intro bt c st; exact ⟨by simp [JPrg.labels], fun _ => rfl, by simp [JPrg.labels]⟩
  | instr i k ih => intro bt c st; exact ih bt c (st.push c i)
  | step k ih => intro bt c st; exact ih bt _ (((st.add.setState st.next).setNoSkip st.next).setAct c (.act (.goto st.next)))
  | label l k ih =>
    intro bt c st
    unfold jBuild
    rcases addLabel_cases st l with ⟨h, e⟩ | ⟨h, st', e, hk⟩
    · rw [e]
      show 2 ≤ (st.keys ++ l :: k.labels).count l
      have := List.count_pos_iff.mpr h
      rw [List.count_append, List.count_cons_self]
      omega
    · rw [e]
      have hl : BuildRes [l] false bt st.keys (.ok (0, st'.setAct c (.act (.goto st.next)))) :=
        ⟨hk, fun _ => rfl, fun hn => by
          rw [List.nodup_append]
          exact ⟨hn, by simp, fun a ha b hb => by rintro rfl; rw [List.mem_singleton] at hb; subst hb; exact h ha⟩⟩
      exact hl.right (ih bt st.next (st'.setAct c (.act (.goto st.next))))
  | jump l k ih =>
    intro bt c st
    unfold jBuild
    cases e : st.labels.lookup l with
    | none => exact ih bt _ (st.setAct c (.fwd l)).add
    | some n => exact ih bt _ ((st.setAct c (.act (.goto n))).setState n).add
  | block b k ihb ihk =>
    intro bt c st
    unfold jBuild
    have hb := bracket_res (fun c st => ihb bt c st) c st
    revert hb
    cases jBracket (jBuild b bt) c st with
    | error x => exact BuildRes.left
    | ok r => exact fun hb => BuildRes.right hb (ihk bt r.1 r.2)
  | ifThen q t k iht ihk =>
    intro bt c st
    unfold jBuild
    have hb := bracket_res (fun c st => iht bt c st) st.next st.add.add
    revert hb
    simp only
    cases jBracket (jBuild t bt) st.next st.add.add with
    | error x => exact BuildRes.left
    | ok r => exact fun hb => BuildRes.right hb (ihk bt _ _)
  | ifElse q t f k iht ihf ihk =>
    intro bt c st
    unfold jBuild
    have hb := bracket_res (fun c st => iht bt c st) st.next st.add.add
    revert hb
    simp only [JPrg.labels, JPrg.breaks, Bool.or_assoc]
    cases jBracket (jBuild t bt) st.next st.add.add with
    | error x => exact BuildRes.left
    | ok r =>
      intro hb
      refine BuildRes.right hb ?_
      have hb' := bracket_res (fun c st => ihf bt c st) (st.next + 1) r.2
      revert hb'
      simp only
      cases jBracket (jBuild f bt) (st.next + 1) r.2 with
      | error x => exact BuildRes.left
      | ok r' => exact fun hb => BuildRes.right hb (ihk bt _ _)
  | loop q b k ihb ihk =>
    intro bt c st
    unfold jBuild
    have hb := (bracket_res (ihb (some (st.next + 2))) (st.next + 1) ((st.add.setAct c (.act (.goto st.next))).add.add)).inLoop (bt := bt)
    revert hb
    simp only
    cases jBracket (jBuild b (some (st.next + 2))) (st.next + 1) ((st.add.setAct c (.act (.goto st.next))).add.add) with
    | error x => exact fun h => h.left (br2 := k.breaks)
    | ok r => exact fun hb => BuildRes.right hb (ihk bt _ _)
  | brk k ih =>
    intro bt c st
    unfold jBuild
    cases bt with
    | none => exact ⟨rfl, rfl⟩
    | some a =>
      have := ih (some a) ((st.setAct c (.act (.goto a))).setState a).next ((st.setAct c (.act (.goto a))).setState a).add
      simp only
      revert this
      cases jBuild k (some a) ((st.setAct c (.act (.goto a))).setState a).next ((st.setAct c (.act (.goto a))).setState a).add with
      | error x =>
        cases x with
        | again l' => exact fun h => h
        | unknown l' => exact fun h => h
        | breakOutside => exact fun h => nomatch h.1
      | ok r => exact fun h => ⟨h.1, fun e => (nomatch e), h.2.2⟩

/-- What comes of gathering an algorithm. -/
theorem jGather_res (p : JPrg) :
    match jGather p with
    | .ok _ => p.labels.Nodup ∧ (∀ l ∈ p.jumps, l ∈ p.labels) ∧ p.breaks = false
    | .error (.again l) => 2 ≤ p.labels.count l
    | .error .breakOutside => p.breaks = true
    | .error (.unknown l) => l ∈ p.jumps ∧ l ∉ p.labels := by
  have hres := jBuild_res p none 1 jStart
  unfold jGather
  simp only
  revert hres
  show BuildRes p.labels p.breaks none [] (jBuild p none 1 jStart) → _
  cases hb : jBuild p none 1 jStart with
  | error x =>
    intro h
    have hb' : jBuild p none (({} : JSt).add.setState 0).next ((({} : JSt).add.setState 0).add.setAct 0 (.act (.goto (({} : JSt).add.setState 0).next))) =
      .error x := hb
    rw [hb']
    cases x with
    | again l => exact h
    | unknown l => exact h.elim
    | breakOutside => exact h.2
  | ok r =>
    rintro ⟨h1, h2, h3⟩
    have hb' : jBuild p none (({} : JSt).add.setState 0).next ((({} : JSt).add.setState 0).add.setAct 0 (.act (.goto (({} : JSt).add.setState 0).next))) =
      .ok r := hb
    rw [hb']
    simp only
    have g := jBuild_inv p none 1 jStart r.1 r.2 [] jStart_inv jStart_open (fun a e => by cases e) hb
    have hinv : JInv r.2 p.jumps := g.inv
    have i2 : JInv (r.2.add.setAct r.1 (.act (.goto r.2.next))) p.jumps := hinv.add.setAct g.cur.add (Nat.lt_succ_self _)
    have hlabs : (r.2.add.setAct r.1 (.act (.goto r.2.next))).keys = p.labels := h1
    generalize r.2.add.setAct r.1 (.act (.goto r.2.next)) = s2 at *
    unfold jResolve
    simp only
    cases hf : List.find? (fun l => (s2.labels.lookup l).isNone) (jFwds s2.blk (List.range s2.next)) with
    | some l =>
      obtain ⟨b, hb, he⟩ := mem_jFwds.mp (List.mem_of_find?_eq_some hf)
      have hn := List.find?_some hf
      refine ⟨i2.fwd b l hb he, fun hm => ?_⟩
      rw [← hlabs] at hm
      obtain ⟨⟨l', n⟩, hm', rfl⟩ := List.mem_map.mp hm
      rw [jlookup_of_mem i2.nodup hm'] at hn
      cases hn
    | none =>
      refine ⟨h3 List.nodup_nil, fun l hl => ?_, h2 rfl⟩
      rw [← hlabs]
      rcases i2.jumped l hl with ⟨n, h1, _⟩ | ⟨b, h1, h2⟩
      · exact List.mem_map.mpr ⟨_, h1, rfl⟩
      · have := List.find?_eq_none.mp hf l (mem_jFwds.mpr ⟨b, h1, h2⟩)
        cases e : s2.labels.lookup l with
        | some n => exact List.mem_map.mpr ⟨_, jmem_of_lookup e, rfl⟩
        | none => rw [e] at this; simp at this

/-! ### Labels without jumps -/

/-- What remains to be done, without the label. -/
def JFr.unlabel (l : String) : JFr → JFr
  | .rest k => .rest (k.unlabel l)
  | .body q b k => .body q (b.unlabel l) (k.unlabel l)

/-- The position, without the label. -/
def JPos.unlabel (l : String) : JPos → JPos
  | .run q K => .run (q.unlabel l) (K.map (JFr.unlabel l))
  | .head q b k K => .head q (b.unlabel l) (k.unlabel l) (K.map (JFr.unlabel l))
  | .done => .done

section
variable {l : String}

theorem unlabel_jumps (p : JPrg) : (p.unlabel l).jumps = p.jumps := by
  induction p with
  | label l' k ih =>
    simp only [JPrg.unlabel]
    split_ifs
    · exact ih
    · exact ih
  | _ => simp_all [JPrg.unlabel, JPrg.jumps]

theorem unlabel_breaks (p : JPrg) : (p.unlabel l).breaks = p.breaks := by
  induction p with
  | label l' k ih =>
    simp only [JPrg.unlabel]
    split_ifs
    · exact ih
    · exact ih
  | _ => simp_all [JPrg.unlabel, JPrg.breaks]

theorem unlabel_labels (p : JPrg) : (p.unlabel l).labels = p.labels.filter (fun x => decide (x ≠ l)) := by
  induction p with
  | nil => rfl
  | label l' k ih =>
    simp only [JPrg.unlabel, JPrg.labels]
    split_ifs with h
    · rw [ih, List.filter_cons_of_neg (by simp [h])]
    · rw [JPrg.labels, ih, List.filter_cons_of_pos (by simp [h])]
  | _ => simp_all [JPrg.unlabel, JPrg.labels, List.filter_append]

theorem unlabel_find {l' : String} (hl : l' ≠ l) (p : JPrg) : ∀ K,
    (p.unlabel l).find l' (K.map (JFr.unlabel l)) = (p.find l' K).map (fun r => (r.1.unlabel l, r.2.map (JFr.unlabel l))) := by
  induction p with
  | nil => intro K; rfl
  | instr i k ih => intro K; exact ih K
  | step k ih => intro K; exact ih K
  | label l2 k ih =>
    intro K
    simp only [JPrg.unlabel, JPrg.find]
    by_cases h : l2 = l
    · rw [if_pos h, if_neg (by rintro rfl; exact hl h)]
      exact ih K
    · rw [if_neg h]
      simp only [JPrg.find]
      by_cases h' : l2 = l'
      · rw [if_pos h', if_pos h']; rfl
      · rw [if_neg h', if_neg h']; exact ih K
  | jump l2 k ih => intro K; exact ih K
  | block b k ihb ihk =>
    intro K
    have hb := ihb (.rest k :: K)
    simp only [List.map_cons, JFr.unlabel] at hb
    simp only [JPrg.unlabel, JPrg.find, hb, ihk K]
    cases b.find l' (.rest k :: K) <;> rfl
  | ifThen q b k ihb ihk =>
    intro K
    have hb := ihb (.rest k :: K)
    simp only [List.map_cons, JFr.unlabel] at hb
    simp only [JPrg.unlabel, JPrg.find, hb, ihk K]
    cases b.find l' (.rest k :: K) <;> rfl
  | ifElse q t f k iht ihf ihk =>
    intro K
    have ht := iht (.rest k :: K)
    have hf := ihf (.rest k :: K)
    simp only [List.map_cons, JFr.unlabel] at ht hf
    simp only [JPrg.unlabel, JPrg.find, ht, hf, ihk K]
    cases t.find l' (.rest k :: K)
    · cases f.find l' (.rest k :: K) <;> rfl
    · rfl
  | loop q b k ihb ihk =>
    intro K
    have hb := ihb (.body q b k :: K)
    simp only [List.map_cons, JFr.unlabel] at hb
    simp only [JPrg.unlabel, JPrg.find, hb, ihk K]
    cases b.find l' (.body q b k :: K) <;> rfl
  | brk k ih => intro K; exact ih K

theorem unlabel_after (K : List JFr) :
    afterLoop (K.map (JFr.unlabel l)) = (afterLoop K).map (fun r => (r.1.unlabel l, r.2.map (JFr.unlabel l))) := by
  induction K with
  | nil => rfl
  | cons f K ih => cases f with
    | rest k => exact ih
    | body q b k => rfl

variable {σ : Type} (S : JSem σ) {p : JPrg}

/-- Past the label. -/
theorem unlabel_skip (hl : l ∉ p.jumps) (s : σ) (q : JPrg) (K : List JFr) :
    ∃ n q', JQuiet (jStep p S) s n (.run q K) (.run q' K) ∧ q'.unlabel l = q.unlabel l ∧ ∀ k, q' ≠ .label l k := by
  induction q with
  | label l' k ih =>
    by_cases h : l' = l
    · subst h
      obtain ⟨n, q', h1, h2, h3⟩ := ih
      refine ⟨n + 1, q', .succ ?_ h1, by rw [h2]; simp [JPrg.unlabel], h3⟩
      have : p.jumps.contains l' = false := by
        rw [Bool.eq_false_iff]; intro hc; exact hl (List.contains_iff_mem.mp hc)
      simp only [jStep, this, stateIf, Bool.false_eq_true, if_false]
    · exact ⟨0, _, .zero, rfl, fun k e => by cases e; exact h rfl⟩
  | _ => exact ⟨0, _, .zero, rfl, fun k e => by cases e⟩

/-- No jump to `l` in what remains to be done. -/
def JFr.free (l : String) : JFr → Prop
  | .rest k => l ∉ k.jumps
  | .body _ b k => l ∉ b.jumps ∧ l ∉ k.jumps

/-- No jump to `l` from here. -/
def JPos.free (l : String) : JPos → Prop
  | .run q K => l ∉ q.jumps ∧ ∀ f ∈ K, f.free l
  | .head _ b k K => l ∉ b.jumps ∧ l ∉ k.jumps ∧ ∀ f ∈ K, f.free l
  | .done => True

theorem find_free {l' : String} (p : JPrg) : ∀ K r, l ∉ p.jumps → (∀ f ∈ K, JFr.free l f) → p.find l' K = some r → (JPos.run r.1 r.2).free l := by
  induction p with
  | nil => intro K r _ _ h; cases h
  | instr i k ih => intro K r h1 h2 h; exact ih K r h1 h2 h
  | step k ih => intro K r h1 h2 h; exact ih K r h1 h2 h
  | label l2 k ih =>
    intro K r h1 h2 h
    simp only [JPrg.find] at h
    split_ifs at h
    · cases h; exact ⟨h1, h2⟩
    · exact ih K r h1 h2 h
  | jump l2 k ih => intro K r h1 h2 h; exact ih K r (fun hm => h1 (List.mem_cons_of_mem _ hm)) h2 h
  | block b k ihb ihk =>
    intro K r h1 h2 h
    simp only [JPrg.jumps, List.mem_append, not_or] at h1
    simp only [JPrg.find] at h
    split at h
    · cases h; rename_i e; exact ihb _ _ h1.1 (by simp only [List.mem_cons, forall_eq_or_imp]; exact ⟨h1.2, h2⟩) e
    · exact ihk K r h1.2 h2 h
  | ifThen q b k ihb ihk =>
    intro K r h1 h2 h
    simp only [JPrg.jumps, List.mem_append, not_or] at h1
    simp only [JPrg.find] at h
    split at h
    · cases h; rename_i e; exact ihb _ _ h1.1 (by simp only [List.mem_cons, forall_eq_or_imp]; exact ⟨h1.2, h2⟩) e
    · exact ihk K r h1.2 h2 h
  | ifElse q t f k iht ihf ihk =>
    intro K r h1 h2 h
    simp only [JPrg.jumps, List.mem_append, not_or] at h1
    simp only [JPrg.find] at h
    split at h
    · cases h; rename_i e; exact iht _ _ h1.1 (by simp only [List.mem_cons, forall_eq_or_imp]; exact ⟨h1.2.2, h2⟩) e
    · split at h
      · cases h; rename_i e; exact ihf _ _ h1.2.1 (by simp only [List.mem_cons, forall_eq_or_imp]; exact ⟨h1.2.2, h2⟩) e
      · exact ihk K r h1.2.2 h2 h
  | loop q b k ihb ihk =>
    intro K r h1 h2 h
    simp only [JPrg.jumps, List.mem_append, not_or] at h1
    simp only [JPrg.find] at h
    split at h
    · cases h; rename_i e; exact ihb _ _ h1.1 (by simp only [List.mem_cons, forall_eq_or_imp]; exact ⟨h1, h2⟩) e
    · exact ihk K r h1.2 h2 h
  | brk k ih => intro K r h1 h2 h; exact ih K r h1 h2 h

theorem after_free {K : List JFr} : ∀ {r}, (∀ f ∈ K, JFr.free l f) → afterLoop K = some r → (JPos.run r.1 r.2).free l := by
  induction K with
  | nil => intro r _ h; cases h
  | cons f K ih =>
    intro r h1 h
    simp only [List.mem_cons, forall_eq_or_imp] at h1
    cases f with
    | rest k => exact ih h1.2 h
    | body q b k => cases h; exact ⟨h1.1.2, h1.2⟩

theorem free_step (hl : l ∉ p.jumps) {y : JPos} {s : σ} {r : JPos × σ × List JEv} (hy : y.free l) (h : jStep p S y s = some r) : r.1.free l := by
  cases y with
  | done => cases h
  | head q b k K =>
    simp only [jStep] at h
    split_ifs at h <;> cases h
    · exact ⟨hy.1, by simp only [List.mem_cons, forall_eq_or_imp]; exact ⟨⟨hy.1, hy.2.1⟩, hy.2.2⟩⟩
    · exact hy.2
  | run q K =>
    obtain ⟨h1, h2⟩ := hy
    cases q with
    | nil => cases K with
      | nil => cases h; trivial
      | cons f K =>
        simp only [List.mem_cons, forall_eq_or_imp] at h2
        cases f with
        | rest k => cases h; exact h2
        | body q b k => cases h; exact ⟨h2.1.1, h2.1.2, h2.2⟩
    | instr i k => cases h; exact ⟨h1, h2⟩
    | step k => cases h; exact ⟨h1, h2⟩
    | label l' k => cases h; exact ⟨h1, h2⟩
    | jump l' k =>
      simp only [jStep] at h
      obtain ⟨r', hr, e⟩ := Option.map_eq_some_iff.mp h
      subst e
      exact find_free p [] r' hl (by simp) hr
    | block b k =>
      simp only [JPrg.jumps, List.mem_append, not_or] at h1
      cases h; exact ⟨h1.1, by simp only [List.mem_cons, forall_eq_or_imp]; exact ⟨h1.2, h2⟩⟩
    | ifThen q t k =>
      simp only [JPrg.jumps, List.mem_append, not_or] at h1
      simp only [jStep] at h
      split_ifs at h <;> cases h
      · exact ⟨h1.1, by simp only [List.mem_cons, forall_eq_or_imp]; exact ⟨h1.2, h2⟩⟩
      · exact ⟨h1.2, h2⟩
    | ifElse q t f k =>
      simp only [JPrg.jumps, List.mem_append, not_or] at h1
      cases h
      refine ⟨?_, by simp only [List.mem_cons, forall_eq_or_imp]; exact ⟨h1.2.2, h2⟩⟩
      split_ifs
      · exact h1.1
      · exact h1.2.1
    | loop q b k =>
      simp only [JPrg.jumps, List.mem_append, not_or] at h1
      cases h; exact ⟨h1.1, h1.2, h2⟩
    | brk k =>
      simp only [jStep] at h
      obtain ⟨r', hr, e⟩ := Option.map_eq_some_iff.mp h
      subst e
      exact after_free h2 hr

theorem unlabel_step {y : JPos} (hy : ∀ k K, y ≠ .run (.label l k) K) (s : σ) (hjump : y.free l) :
    jStep (p.unlabel l) S (y.unlabel l) s = (jStep p S y s).map (fun r => (r.1.unlabel l, r.2)) := by
  cases y with
  | done => rfl
  | head q b k K =>
    simp only [JPos.unlabel, jStep, unlabel_breaks]
    split_ifs <;> rfl
  | run q K =>
    cases q with
    | nil => cases K with
      | nil => rfl
      | cons f K => cases f <;> rfl
    | instr i k => rfl
    | step k => rfl
    | label l' k =>
      have h : l' ≠ l := by rintro rfl; exact hy k K rfl
      simp only [JPos.unlabel, JPrg.unlabel, if_neg h, jStep, unlabel_jumps]
      rfl
    | jump l' k =>
      have h : l' ≠ l := by rintro rfl; exact hjump.1 List.mem_cons_self
      have := unlabel_find h p []
      simp only [List.map_nil] at this
      simp only [JPos.unlabel, JPrg.unlabel, jStep, this, Option.map_map]
      rfl
    | block b k => rfl
    | ifThen q t k =>
      simp only [JPos.unlabel, JPrg.unlabel, jStep]
      split_ifs <;> rfl
    | ifElse q t f k =>
      simp only [JPos.unlabel, JPrg.unlabel, jStep, Option.map_some]
      split_ifs <;> rfl
    | loop q b k => rfl
    | brk k =>
      simp only [JPos.unlabel, JPrg.unlabel, jStep, unlabel_after, Option.map_map]
      rfl

theorem unlabel_observe {last : Nat} {st : JSt} (hp : jGather p = .ok (last, st)) (hl : l ∉ p.jumps) (s : σ) :
    (∀ n, ∃ m, srcObserve (p.unlabel l) S s n = srcObserve p S s m) ∧ (∀ m, ∃ n, srcObserve p S s m = srcObserve (p.unlabel l) S s n) := by
  have hg := gathered hp
  obtain ⟨e, hf, hK⟩ := hg.frag
  have hlab : ∀ l n, st.labels.lookup l = some n → l ∈ p.labels := fun l n hl => by
    rw [← hg.labels]; exact List.mem_map.mpr ⟨_, jmem_of_lookup hl, rfl⟩
  have live : ∀ {y r} {s : σ}, (∃ z, JRel st.blk st.labels p.jumps last y z) → jStep p S y s = some r → ∃ z, JRel st.blk st.labels p.jumps last r.1 z := by
    rintro y ⟨y', s', ev⟩ s ⟨z, hz⟩ h
    obtain ⟨_, _, z', _, _, h3⟩ := rel_step S ⟨_, _, hf, hK⟩ rfl hz h
    exact ⟨z', h3⟩
  have skip : ∀ (y : JPos) (s : σ), y.free l → (∃ z, JRel st.blk st.labels p.jumps last y z) →
      ∃ n y', JQuiet (jStep p S) s n y y' ∧ y'.unlabel l = y.unlabel l ∧ y'.free l ∧ (∃ z, JRel st.blk st.labels p.jumps last y' z) ∧
        ∀ k K, y' ≠ .run (.label l k) K := by
    intro y s hy hz
    have quiet : ∀ {n y y'}, JQuiet (jStep p S) s n y y' → (∃ z, JRel st.blk st.labels p.jumps last y z) → ∃ z, JRel st.blk st.labels p.jumps last y' z := by
      intro n y y' h
      induction h with
      | zero => exact fun h => h
      | succ h _ ih => exact fun h' => ih (live h' h)
    cases y with
    | done => exact ⟨0, _, .zero, rfl, hy, hz, fun _ _ e => by cases e⟩
    | head q b k K => exact ⟨0, _, .zero, rfl, hy, hz, fun _ _ e => by cases e⟩
    | run q K =>
      obtain ⟨n, q', h1, h2, h3⟩ := unlabel_skip S hl s q K
      refine ⟨n, .run q' K, h1, by simp only [JPos.unlabel, h2], ⟨?_, hy.2⟩, quiet h1 hz, fun k K e => by cases e; exact h3 _ rfl⟩
      rw [← unlabel_jumps (l := l), h2, unlabel_jumps]; exact hy.1
  refine sim_observe (fun x y => x = y.unlabel l ∧ y.free l ∧ ∃ z, JRel st.blk st.labels p.jumps last y z) _ _ s
    ⟨rfl, ⟨hl, by simp⟩, _, .run hf hK⟩ ?_ ?_
  · rintro x y s x' s' ev ⟨rfl, hy, hz⟩ h
    obtain ⟨n, y', q1, q2, q3, q5, q4⟩ := skip y s hy hz
    rw [← q2, unlabel_step S q4 s q3] at h
    obtain ⟨⟨r1, r2, r3⟩, hr, e⟩ := Option.map_eq_some_iff.mp h
    cases e
    exact ⟨n, y', r1, q1, hr, rfl, free_step S hl q3 hr, live q5 hr⟩
  · rintro x y s ⟨rfl, hy, hz⟩ h
    obtain ⟨n, y', q1, q2, q3, ⟨z, q5⟩, q4⟩ := skip y s hy hz
    rw [← q2, unlabel_step S q4 s q3, Option.map_eq_none_iff] at h
    have := rel_live S hlab q5 h
    subst this
    cases y with
    | done => rfl
    | _ => cases q2

end

end Silice
