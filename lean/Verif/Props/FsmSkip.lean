import Verif.Lemmas.FsmSkip

/-!
C19: replacing jumps to empty states by jumps further down the chain (`fastForward`).
-/

set_option autoImplicit false

namespace Silice
variable {B σ : Type}

/-- Control goes from "about to execute `b` with data `s`" to "about to execute `b'` with data `s'`",
executing the blocks `tr`. Each time control goes to a block `n` it arrives at `r n`; `r = id` is the
source program. Cycle boundaries play no role here. -/
inductive Path (g : Cfg B) (S : Sem B σ) (r : B → B) : B → σ → List B → B → σ → Prop where
  | here {b : B} {s : σ} : Path g S r b s [] b s
  | step {b n b' : B} {s s' : σ} {tr : List B} : go g S b (S.exec b s) = .to n →
      Path g S r (r n) (S.exec b s) tr b' s' → Path g S r b s (b :: tr) b' s'

/-- A complete execution: control goes on until it leaves (termination, subroutine call or return). -/
def Exec (g : Cfg B) (S : Sem B σ) (r : B → B) (b : B) (s : σ) (tr : List B) (s' : σ) (o : Out B) : Prop :=
  ∃ (l : List B) (b' : B) (t : σ), Path g S r b s l b' t ∧ go g S b' (S.exec b' t) = .out o ∧
    tr = l ++ [b'] ∧ s' = S.exec b' t

/-- The blocks of an execution that contain instructions. -/
def instrs (g : Cfg B) (tr : List B) : List B := tr.filter fun b => !(g.blk b).empty

/-- An empty block has no effect on the data. -/
def EmptyIsNop (g : Cfg B) (S : Sem B σ) : Prop := ∀ b s, (g.blk b).empty = true → S.exec b s = s

/-- `ff` is what `fastForward` computes (for some fuel; all larger fuels agree). -/
def IsFF (g : Cfg B) (ff : B → B) : Prop := ∀ b, ∃ fuel, fastForward g fuel b = some (ff b)

/-- C19: the answer of `fastForward` does not depend on the fuel. -/
theorem C19_fuel_irrelevant (g : Cfg B) (f f' : Nat) (b r r' : B)
    (h : fastForward g f b = some r) (h' : fastForward g f' b = some r') : r = r' := by
  unfold fastForward at h h'
  split_ifs at h h' with hn
  · cases h; cases h'; rfl
  · rcases Nat.le_total f f' with hle | hle
    · have := ffLoop_mono g _ f f' b b r h hle
      rw [h'] at this; cases this; rfl
    · have := ffLoop_mono g _ f' f b b r' h' hle
      rw [h] at this; cases this; rfl

/-- C19: without a cycle made of empty blocks only, `fastForward` answers on every block. -/
theorem C19_terminates [Finite B] (g : Cfg B)
    (hacyc : ∀ b, ¬ Relation.TransGen (EmptyEdge g) b b) : ∃ ff, IsFF g ff := by
  have : ∀ b, ∃ r, ∃ f, fastForward g f b = some r := by
    intro b
    unfold fastForward
    by_cases hn : (g.blk b).noSkip = true
    · exact ⟨b, 0, by simp [hn]⟩
    · obtain ⟨f, r, h⟩ := ffLoop_total g (g.blk b).fsm b (emptyEdge_acc g hacyc b) b
      exact ⟨r, f, by simp [hn, h]⟩
  choose ff hff using this
  exact ⟨ff, hff⟩

/-- The answer is the block itself, or a state of the same machine further on a chain of empty blocks. -/
theorem fastForward_chain (g : Cfg B) (f : Nat) (b r : B) (h : fastForward g f b = some r) :
    r = b ∨ ((g.blk r).isState = true ∧ (g.blk r).fsm = (g.blk b).fsm ∧
      Relation.ReflTransGen (EmptyEdge g) b r) := by
  unfold fastForward at h
  split_ifs at h
  · cases h; exact .inl rfl
  · exact ffLoop_chain g _ f b b r h

/-- C19: fast-forwarding a state gives a state of the same state machine. -/
theorem C19_stays_on_states (g : Cfg B) (ff : B → B) (hff : IsFF g ff) (b : B)
    (hs : (g.blk b).isState = true) :
    (g.blk (ff b)).isState = true ∧ (g.blk (ff b)).fsm = (g.blk b).fsm := by
  obtain ⟨f, hf⟩ := hff b
  rcases fastForward_chain g f b _ hf with e | ⟨h1, h2, _⟩
  · rw [e]; exact ⟨hs, rfl⟩
  · exact ⟨h1, h2⟩

/-- A state written `++:` (which the user asked for) is never skipped, nor is anything before it. -/
theorem C19_steps_kept (g : Cfg B) (ff : B → B) (hff : IsFF g ff) (b : B)
    (hn : (g.blk b).noSkip = true) : ff b = b := by
  obtain ⟨f, hf⟩ := hff b
  simp [fastForward, hn] at hf
  exact hf.symm

/-- C19: the target cannot be skipped any further: fast-forwarding is idempotent. -/
theorem C19_idempotent (g : Cfg B) (ff : B → B) (hff : IsFF g ff) (b : B) : ff (ff b) = ff b := by
  obtain ⟨f, hf⟩ := hff b
  obtain ⟨f', hf'⟩ := hff (ff b)
  have hf0 := hf
  unfold fastForward at hf
  split_ifs at hf with hn
  · have e : b = ff b := by simpa using hf
    exact (C19_fuel_irrelevant g f f' (ff b) _ _ (by rw [← e] at hf0 ⊢; exact hf0) hf').symm
  · rcases ffLoop_far g _ f b b _ hf with ⟨e, _⟩ | ⟨h1, h2, f'', h3⟩
    · rw [e] at hf'; rw [e]; exact (C19_fuel_irrelevant g f' f b _ _ hf' hf0).trans e
    · refine (C19_fuel_irrelevant g f'' f' (ff b) _ _ ?_ hf').symm
      simp [fastForward, h1, h2, h3]

/-- Arriving after fast-forwarding: a chain of empty blocks. -/
theorem arrive_chain (g : Cfg B) (ff : B → B) (hff : IsFF g ff) (n : B) :
    Relation.ReflTransGen (EmptyEdge g) n (arrive g ff n) := by
  unfold arrive
  split_ifs
  · obtain ⟨f, hf⟩ := hff n
    rcases fastForward_chain g f n _ hf with e | ⟨_, _, h⟩
    · rw [e]
    · exact h
  · exact Relation.ReflTransGen.refl

theorem chain_path (g : Cfg B) (S : Sem B σ) (hnop : EmptyIsNop g S) (n m : B)
    (h : Relation.ReflTransGen (EmptyEdge g) n m) (s : σ) :
    ∃ l, Path g S id n s l m s ∧ ∀ x ∈ l, (g.blk x).empty = true := by
  induction h using Relation.ReflTransGen.head_induction_on with
  | refl => exact ⟨[], .here, by simp⟩
  | @head a b hab _ ih =>
    obtain ⟨l, hl, he⟩ := ih
    refine ⟨a :: l, ?_, ?_⟩
    · refine Path.step (n := b) ?_ ?_
      · simp [go, hab.2]
      · rw [hnop a s hab.1]
        exact hl
    · intro x hx
      rcases List.mem_cons.mp hx with rfl | hx
      · exact hab.1
      · exact he x hx

theorem Path.append {g : Cfg B} {S : Sem B σ} {r : B → B} {a b c : B} {s t u : σ} {l m : List B}
    (h : Path g S r a s l b t) (h' : Path g S r b t m c u) : Path g S r a s (l ++ m) c u := by
  induction h with
  | here => exact h'
  | step hg _ ih => exact Path.step hg (ih h')

theorem instrs_empty (g : Cfg B) (l m : List B) (h : ∀ x ∈ l, (g.blk x).empty = true) :
    instrs g (l ++ m) = instrs g m := by
  have : instrs g l = [] := by
    unfold instrs
    rw [List.filter_eq_nil_iff]
    intro x hx
    simp [h x hx]
  unfold instrs at *
  rw [List.filter_append, this, List.nil_append]

/-- C19 (any execution, finished or not): what the program with skipped states has executed at any point
is what the source program has executed at some point, with the same data, up to empty blocks. -/
theorem C19_skip_sound (g : Cfg B) (S : Sem B σ) (ff : B → B) (hff : IsFF g ff)
    (hnop : EmptyIsNop g S) (b b' : B) (s s' : σ) (tr : List B)
    (h : Path g S (arrive g ff) b s tr b' s') :
    ∃ tr', Path g S id b s tr' b' s' ∧ instrs g tr' = instrs g tr := by
  induction h with
  | here => exact ⟨[], .here, rfl⟩
  | @step b n b' s s' tr hg _ ih =>
    obtain ⟨tr', hp, he⟩ := ih
    obtain ⟨l, hl, hle⟩ := chain_path g S hnop n (arrive g ff n) (arrive_chain g ff hff n) (S.exec b s)
    refine ⟨b :: (l ++ tr'), Path.step hg (hl.append hp), ?_⟩
    have h1 := instrs_empty g l tr' hle
    have h2 : ∀ x : List B, instrs g (b :: x) = instrs g [b] ++ instrs g x := by
      intro x
      unfold instrs
      rw [← List.filter_append]
      rfl
    rw [h2, h2 tr, h1, he]

/-- Two executions of the source program from the same point: one continues the other. -/
theorem Path.compare {g : Cfg B} {S : Sem B σ} {r : B → B} {a b : B} {s t : σ} {l : List B}
    (h : Path g S r a s l b t) : ∀ {c : B} {u : σ} {m : List B}, Path g S r a s m c u →
      m.length ≤ l.length → ∃ k, l = m ++ k ∧ Path g S r c u k b t := by
  induction h with
  | here =>
    intro c u m hm hlen
    cases hm with
    | here => exact ⟨[], rfl, .here⟩
    | step => simp at hlen
  | step hg hp ih =>
    intro c u m hm hlen
    cases hm with
    | here => exact ⟨_, rfl, Path.step hg hp⟩
    | step hg' hp' =>
      rw [hg] at hg'
      cases hg'
      simp at hlen
      obtain ⟨k, e1, e2⟩ := ih hp' hlen
      exact ⟨k, by rw [e1]; rfl, e2⟩

/-- C19 (any execution, finished or not), converse: the program with skipped states follows any
execution of the source program, at most some empty blocks ahead. -/
theorem C19_skip_complete (g : Cfg B) (S : Sem B σ) (ff : B → B) (hff : IsFF g ff)
    (hnop : EmptyIsNop g S) (n : Nat) :
    ∀ (b b' : B) (s s' : σ) (tr : List B), tr.length ≤ n → Path g S id b s tr b' s' →
    ∃ (tr' : List B) (b'' : B) (m : List B), Path g S (arrive g ff) b s tr' b'' s' ∧
      Path g S id b' s' m b'' s' ∧ (∀ x ∈ m, (g.blk x).empty = true) ∧
      instrs g tr' = instrs g tr := by
  induction n with
  | zero =>
    intro b b' s s' tr hlen hp
    have : tr = [] := List.length_eq_zero_iff.mp (by omega)
    subst this
    cases hp
    exact ⟨[], b, [], .here, .here, by simp, rfl⟩
  | succ n ih =>
    intro b b' s s' tr hlen hp
    cases hp with
    | here => exact ⟨[], b, [], .here, .here, by simp, rfl⟩
    | step hg hp =>
      rename_i x tr0
      obtain ⟨l, hl, hle⟩ := chain_path g S hnop x (arrive g ff x) (arrive_chain g ff hff x) (S.exec b s)
      have h2 : ∀ y : List B, instrs g (b :: y) = instrs g [b] ++ instrs g y := by
        intro y
        unfold instrs
        rw [← List.filter_append]
        rfl
      rcases Nat.le_total l.length tr0.length with hc | hc
      · obtain ⟨k, e1, e2⟩ := hp.compare hl hc
        subst e1
        simp only [List.length_cons, List.length_append] at hlen
        obtain ⟨tr', b'', m, p1, p2, p3, p4⟩ := ih _ _ _ _ k (by omega) e2
        refine ⟨b :: tr', b'', m, Path.step hg p1, p2, p3, ?_⟩
        rw [h2, h2 (l ++ k), instrs_empty g l k hle, p4]
      · obtain ⟨k, e1, e2⟩ := hl.compare hp hc
        have hs : s' = S.exec b s := by
          -- everything on the chain so far was empty
          have hh : ∀ (a c : B) (t u : σ) (q : List B), Path g S id a t q c u →
              (∀ x ∈ q, (g.blk x).empty = true) → u = t := by
            intro a c t u q hq
            induction hq with
            | here => intro _; rfl
            | step _ _ ih =>
              intro he
              rw [ih (fun x hx => he x (List.mem_cons_of_mem _ hx))]
              exact hnop _ _ (he _ (List.mem_cons_self ..))
          exact hh _ _ _ _ _ hp (fun x hx => hle x (by rw [e1]; exact List.mem_append_left _ hx))
        subst hs
        refine ⟨[b], arrive g ff x, k, Path.step hg .here, e2, ?_, ?_⟩
        · intro y hy
          exact hle y (by rw [e1]; exact List.mem_append_right _ hy)
        · rw [h2 tr0]
          have := instrs_empty g tr0 [] (fun y hy => hle y (by rw [e1]; exact List.mem_append_left _ hy))
          rw [List.append_nil] at this
          rw [this]
          simp [instrs]

/-- C19: complete executions of the source program and of the program with skipped states agree on the
sequence of executed instructions, on the final data and on how they end. -/
theorem C19_same_executions (g : Cfg B) (S : Sem B σ) (ff : B → B) (hff : IsFF g ff)
    (hnop : EmptyIsNop g S) (b : B) (s s' : σ) (o : Out B) (is : List B) :
    (∃ tr, Exec g S (arrive g ff) b s tr s' o ∧ instrs g tr = is) ↔
    (∃ tr, Exec g S id b s tr s' o ∧ instrs g tr = is) := by
  have happ : ∀ x y : List B, instrs g (x ++ y) = instrs g x ++ instrs g y := by
    intro x y; unfold instrs; rw [List.filter_append]
  constructor
  · rintro ⟨tr, ⟨l, b', t, hp, hg, rfl, rfl⟩, rfl⟩
    obtain ⟨l', hp', he⟩ := C19_skip_sound g S ff hff hnop _ _ _ _ _ hp
    exact ⟨l' ++ [b'], ⟨l', b', t, hp', hg, rfl, rfl⟩, by rw [happ, happ, he]⟩
  · rintro ⟨tr, ⟨l, b', t, hp, hg, rfl, rfl⟩, rfl⟩
    obtain ⟨l', b'', m, p1, p2, _, p4⟩ := C19_skip_complete g S ff hff hnop _ _ _ _ _ l (Nat.le_refl _) hp
    have : b'' = b' := by
      cases p2 with
      | here => rfl
      | step hg' _ => rw [hg] at hg'; cases hg'
    subst this
    exact ⟨l' ++ [b''], ⟨l', b'', t, p1, hg, rfl, rfl⟩, by rw [happ, happ, p4]⟩

/-- The endless loop `L: goto L;` (block 1, an empty state that jumps to itself). -/
def exSelfLoop : Cfg (Fin 2) where
  blk := fun
    | 0 => { isState := true, act := .goto 1 }
    | 1 => { isState := true, empty := true, act := .goto 1 }
  first := 0
  last := 1
  returns := fun _ => []

/-- C19 finding: on `L: goto L;` the compiler never finishes. -/
theorem C19_counterexample_selfloop : ∀ fuel, fastForward exSelfLoop fuel 1 = none := by
  intro fuel
  have : ∀ f (l : Fin 2), ffLoop exSelfLoop 0 f l 1 = none := by
    intro f
    induction f with
    | zero => intro l; rfl
    | succ n ih =>
      intro l
      show (if (exSelfLoop.blk 1).empty = false then some l else _) = none
      simp only [exSelfLoop] at ih ⊢
      simpa using ih 1
  exact this fuel 1

/-- Non-vacuity: a chain of two empty labels followed by a non-empty state, data being a counter. -/
def exSkip : Cfg (Fin 4) where
  blk := fun
    | 0 => { isState := true, act := .goto 1 }
    | 1 => { isState := true, empty := true, act := .goto 2 }
    | 2 => { isState := true, empty := true, act := .goto 3 }
    | 3 => { isState := true }
  first := 0
  last := 3
  returns := fun _ => []

example : fastForward exSkip 5 1 = some 3 := by decide +kernel

example : ∀ b, ¬ Relation.TransGen (EmptyEdge exSkip) b b := by
  have mono : ∀ b n, EmptyEdge exSkip b n → b < n := by
    intro b n h
    obtain ⟨_, h⟩ := h
    match b with
    | 0 => simp [exSkip] at h; subst h; decide
    | 1 => simp [exSkip] at h; subst h; decide
    | 2 => simp [exSkip] at h; subst h; decide
    | 3 => simp [exSkip] at h
  have : ∀ b n, Relation.TransGen (EmptyEdge exSkip) b n → b < n := by
    intro b n h
    induction h with
    | single h => exact mono _ _ h
    | tail _ h ih => exact lt_trans ih (mono _ _ h)
  exact fun b h => absurd (this b b h) (lt_irrefl b)

example : EmptyIsNop exSkip
    ({ exec := fun b s => if (exSkip.blk b).empty then s else s + 1, test := fun _ _ => true,
       label := fun _ _ _ => true, done := fun _ _ => true } : Sem (Fin 4) Nat) := by
  intro b s h
  simp [h]

end Silice
