import Verif.Lemmas.FsmFlags
import Verif.Spec.FsmRun

/-! Cycles of a graph when empty states are gone through rather than skipped, and when states that make no difference are added. -/

set_option autoImplicit false

namespace Silice
variable {B : Type} {σ : Type}

/-- Nothing happened yet when control goes from `b` to `n`. -/
def freshTo (g : Cfg B) (b n : B) (f : Bool) : Bool :=
  f && (g.blk b).empty && (match (g.blk b).act with | .goto _ => true | _ => false) && !(g.blk n).noSkip

/-- One cycle from block `b`; the flag says that nothing happened since the cycle started. The states come to before anything happened do not end
the cycle. -/
inductive BCycle (g : Cfg B) (S : Sem B σ) : B → Bool → σ → List B → σ → Out B → Prop where
  | out {b : B} {f : Bool} {s : σ} {o : Out B} : go g S b (S.exec b s) = .out o → BCycle g S b f s [b] (S.exec b s) o
  | state {b n : B} {f : Bool} {s : σ} : go g S b (S.exec b s) = .to n → (g.blk n).isState = true → freshTo g b n f = false →
      BCycle g S b f s [b] (S.exec b s) (.jump n)
  | more {b n : B} {f : Bool} {s s' : σ} {tr : List B} {o : Out B} : go g S b (S.exec b s) = .to n →
      ((g.blk n).isState = false ∨ freshTo g b n f = true) → BCycle g S n (freshTo g b n f) (S.exec b s) tr s' o →
      BCycle g S b f s (b :: tr) s' o

/-- No state is skipped beyond `d`. -/
def Final (g : Cfg B) (fsm : Nat) (d : B) : Prop := ∀ m, Relation.TransGen (SkipEdge g fsm) d m → (g.blk m).isState = false

/-- A cycle that starts at `n`, empty states being gone through, starts at `d` when they are skipped. -/
def Starts (g : Cfg B) (fsm : Nat) (n : B) (f : Bool) (d : B) : Prop :=
  (f = false ∧ d = n) ∨ (f = true ∧ Relation.ReflTransGen (SkipEdge g fsm) n d ∧ Final g fsm d)

/-- A jump to `m` with the states of `g` is a jump to `m'` with more states. -/
def JumpsTo (g : Cfg B) (fsm : Nat) (m m' : B) : Prop :=
  m = m' ∨ ((g.blk m').noSkip = false ∧ Relation.TransGen (SkipEdge g fsm) m' m)

/-- So does a way to end a cycle. -/
def OutTo (g : Cfg B) (fsm : Nat) (o o' : Out B) : Prop := o = o' ∨ ∃ m m', o = .jump m ∧ o' = .jump m' ∧ JumpsTo g fsm m m'

variable {g gs : Cfg B} {fsm : Nat} {S : Sem B σ}

theorem go_more (M : MoreStates g gs) (b : B) (s : σ) : go gs S b s = go g S b s := by
  unfold go
  rw [M.act]

theorem freshTo_more (M : MoreStates g gs) (b n : B) (f : Bool) : freshTo gs b n f = freshTo g b n f := by
  unfold freshTo
  rw [M.act, M.blk b, M.blk n]

theorem freshTo_edge (hf : ∀ b, (g.blk b).fsm = fsm) {b n : B} {f : Bool} {s : σ} (h : freshTo g b n f = true)
    (hg : go g S b s = .to n) : f = true ∧ SkipEdge g fsm b n := by
  unfold freshTo at h
  simp only [Bool.and_eq_true, Bool.not_eq_true'] at h
  obtain ⟨⟨⟨h1, h2⟩, h3⟩, h4⟩ := h
  refine ⟨h1, ⟨h2, ?_⟩, hf n, h4⟩
  cases ha : (g.blk b).act with
  | goto x =>
    simp only [go, ha, Go.to.injEq] at hg
    rw [hg]
  | _ => rw [ha] at h3; cases h3

theorem edge_fresh {b n : B} (h : SkipEdge g fsm b n) : freshTo g b n true = true := by
  unfold freshTo
  rw [h.1.1, h.1.2, h.2.2]
  rfl

theorem edge_go {b n : B} (h : SkipEdge g fsm b n) (s : σ) : go g S b s = .to n := by
  simp only [go, h.1.2]

theorem instrs_cons_empty {b : B} {tr : List B} (h : (g.blk b).empty = true) : instrs g (b :: tr) = instrs g tr := by
  simp [instrs, h]

/-- From a block that leads to a state through empty blocks, nothing happens and the cycle ends at such a state. -/
theorem chain_cycle (nop : EmptyIsNop g S) {m : B} {s s' : σ} {tr : List B} {o : Out B} (h : Cycle g S m s tr s' o) :
    ∀ e, Relation.TransGen (SkipEdge g fsm) m e → (g.blk e).isState = true →
      ∃ e', o = .jump e' ∧ Relation.TransGen (SkipEdge g fsm) m e' ∧ instrs g tr = [] ∧ s' = s := by
  induction h with
  | out hg =>
    intro e he _
    obtain ⟨y, hy, _⟩ := Relation.TransGen.head'_iff.mp he
    rw [edge_go hy] at hg
    cases hg
  | @state b n s hg hs =>
    intro e he _
    obtain ⟨y, hy, _⟩ := Relation.TransGen.head'_iff.mp he
    rw [edge_go hy] at hg
    cases hg
    exact ⟨_, rfl, .single hy, by simp [instrs, hy.1.1], nop _ _ hy.1.1⟩
  | @more b n s s' tr o hg hs hc ih =>
    intro e he hes
    obtain ⟨y, hy, hye⟩ := Relation.TransGen.head'_iff.mp he
    rw [edge_go hy] at hg
    cases hg
    rcases Relation.reflTransGen_iff_eq_or_transGen.mp hye with rfl | hye
    · rw [hs] at hes; cases hes
    · obtain ⟨e', h1, h2, h3, h4⟩ := ih e hye hes
      exact ⟨e', h1, .head hy h2, by rw [instrs_cons_empty hy.1.1, h3], by rw [h4, nop _ _ hy.1.1]⟩

section
variable (M : MoreStates g gs) (hf : ∀ b, (g.blk b).fsm = fsm) (nop : EmptyIsNop g S)
  (harm : ∀ m, (gs.blk m).isState = true → (g.blk m).isState = false →
    (g.blk m).noSkip = false ∧ ∃ e, Relation.TransGen (SkipEdge g fsm) m e ∧ (g.blk e).isState = true)
include M hf nop harm

theorem bcycle_of_cycle {d : B} {s s' : σ} {tr : List B} {o : Out B} (h : Cycle g S d s tr s' o) :
    ∀ f, (f = true → Final g fsm d) → ∃ tr' o', BCycle gs S d f s tr' s' o' ∧ instrs g tr' = instrs g tr ∧ OutTo g fsm o o' := by
  induction h with
  | @out b s o hg => exact fun f _ => ⟨_, _, .out (by rw [go_more M]; exact hg), rfl, .inl rfl⟩
  | @state b n s hg hs =>
    intro f hfin
    refine ⟨_, _, .state (by rw [go_more M]; exact hg) (M.more n hs) ?_, rfl, .inl rfl⟩
    rw [freshTo_more M]
    by_contra hc
    obtain ⟨h1, h2⟩ := freshTo_edge hf (by simpa using hc) hg
    rw [hfin h1 n (.single h2)] at hs
    cases hs
  | @more b n s s' tr o hg hs hc ih =>
    intro f hfin
    have next : freshTo g b n f = true → Final g fsm n := fun h => by
      obtain ⟨h1, h2⟩ := freshTo_edge hf h hg
      exact fun m hm => hfin h1 m (.head h2 hm)
    by_cases hp : (gs.blk n).isState = false ∨ freshTo gs b n f = true
    · obtain ⟨tr', o', h1, h2, h3⟩ := ih (freshTo gs b n f) (by rw [freshTo_more M]; exact next)
      refine ⟨b :: tr', o', .more (by rw [go_more M]; exact hg) hp h1, ?_, h3⟩
      unfold instrs at h2 ⊢
      simp only [List.filter_cons, h2]
    · have hp1 : (gs.blk n).isState = true := by
        by_contra h
        exact hp (.inl (by simpa using h))
      have hp2 : freshTo gs b n f = false := by
        by_contra h
        exact hp (.inr (by simpa using h))
      obtain ⟨hn, e, he, hes⟩ := harm n hp1 hs
      obtain ⟨e', h1, h2, h3, h4⟩ := chain_cycle nop hc e he hes
      refine ⟨[b], .jump n, h4 ▸ .state (by rw [go_more M]; exact hg) hp1 hp2, ?_, .inr ⟨e', n, h1, rfl, .inr ⟨hn, h2⟩⟩⟩
      unfold instrs at h3 ⊢
      simp only [List.filter_cons, h3]
      rfl

theorem bcycle_of_starts {n d : B} {f : Bool} {s s' : σ} {tr : List B} {o : Out B} (hst : Starts g fsm n f d) (h : Cycle g S d s tr s' o) :
    ∃ tr' o', BCycle gs S n f s tr' s' o' ∧ instrs g tr' = instrs g tr ∧ OutTo g fsm o o' := by
  rcases hst with ⟨rfl, rfl⟩ | ⟨rfl, hch, hfin⟩
  · exact bcycle_of_cycle M hf nop harm h false (by simp)
  · induction hch using Relation.ReflTransGen.head_induction_on with
    | refl => exact bcycle_of_cycle M hf nop harm h true (fun _ => hfin)
    | @head a c hac _ ih =>
      obtain ⟨tr', o', h1, h2, h3⟩ := ih
      have hfr : freshTo gs a c true = true := by rw [freshTo_more M]; exact edge_fresh hac
      refine ⟨a :: tr', o', .more (by rw [go_more M]; exact edge_go hac _) (.inr hfr) ?_, by rw [instrs_cons_empty hac.1.1]; exact h2, h3⟩
      rw [hfr, nop a s hac.1.1]
      exact h1

end

/-- Where a jump lands is where a cycle starts. -/
theorem starts_of_ff {ff : B → B} (hff : IsFF g ff) (hf : ∀ b, (g.blk b).fsm = fsm) {m m' : B} (h : JumpsTo g fsm m m') :
    Starts g fsm m' (!(g.blk m').noSkip) (ff m) := by
  have key : (g.blk m).noSkip = false → Relation.ReflTransGen (SkipEdge g fsm) m (ff m) ∧ Final g fsm (ff m) := by
    intro hn
    obtain ⟨k, hk⟩ := hff m
    unfold fastForward at hk
    rw [if_neg (by rw [hn]; simp), hf m] at hk
    rcases ffLoop_exact g fsm k m m (ff m) hk with ⟨e, h1⟩ | ⟨h1, _, h2⟩
    · rw [e]; exact ⟨.refl, h1⟩
    · exact ⟨h1.to_reflTransGen, h2⟩
  rcases h with rfl | ⟨hn, hch⟩
  · by_cases hn : (g.blk m).noSkip = true
    · left
      obtain ⟨k, hk⟩ := hff m
      rw [fastForward, if_pos hn, Option.some.injEq] at hk
      exact ⟨by rw [hn]; rfl, hk.symm⟩
    · have hn : (g.blk m).noSkip = false := by simpa using hn
      exact .inr ⟨by rw [hn]; rfl, key hn⟩
  · right
    obtain ⟨y, _, hy⟩ := Relation.TransGen.tail'_iff.mp hch
    obtain ⟨h1, h2⟩ := key hy.2.2
    exact ⟨by rw [hn]; rfl, hch.to_reflTransGen.trans h1, h2⟩

/-! ### Blocks on the way, skipped or not -/

/-- Blocks that come from the entry following children, none being skipped. -/
inductive Walked (g : Cfg B) : B → Prop where
  | first : Walked g g.first
  | child {b c : B} : Walked g b → c ∈ g.children b → Walked g c

theorem Walked.chain {b d : B} (hb : Walked g b) (h : Relation.ReflTransGen (EmptyEdge g) b d) : Walked g d := by
  induction h with
  | refl => exact hb
  | tail _ h ih => exact .child ih (by simp [Cfg.children, h.2])

theorem Reached.walked {ff : B → B} (hff : IsFF g ff) {b : B} (h : Reached g ff b) : Walked g b := by
  induction h with
  | first => exact .first
  | child _ hc ih => exact (Walked.child ih hc).chain (arrive_chain g ff hff _)

/-- A block on the way is reached, or it is skipped: a chain of empty blocks leads from it to the state arrived at. -/
theorem Walked.cases {ff : B → B} (hff : IsFF g ff) (hf : ∀ b, (g.blk b).fsm = fsm) {b : B} (h : Walked g b) :
    Reached g ff b ∨ ∃ e, Relation.TransGen (SkipEdge g fsm) b e ∧ (g.blk e).isState = true ∧ Reached g ff e := by
  induction h with
  | first => exact .inl .first
  | @child b c _ hc ih =>
    rcases ih with hr | ⟨e, he, hes, hr⟩
    · have ha := Reached.child hr hc
      unfold arrive at ha
      split_ifs at ha with hs
      · obtain ⟨k, hk⟩ := hff c
        unfold fastForward at hk
        split_ifs at hk with hn
        · rw [Option.some.injEq] at hk
          rw [← hk] at ha
          exact .inl ha
        · rw [hf c] at hk
          rcases ffLoop_exact g fsm k c c (ff c) hk with ⟨e, _⟩ | ⟨h1, h2, _⟩
          · rw [e] at ha; exact .inl ha
          · exact .inr ⟨_, h1, h2, ha⟩
      · exact .inl ha
    · obtain ⟨y, hy, hye⟩ := Relation.TransGen.head'_iff.mp he
      have : c = y := by simpa [Cfg.children, hy.1.2] using hc
      subst this
      rcases Relation.reflTransGen_iff_eq_or_transGen.mp hye with rfl | hye
      · exact .inl hr
      · exact .inr ⟨e, hye, hes, hr⟩

theorem Walked.reached {ff : B → B} (hff : IsFF g ff) (hf : ∀ b, (g.blk b).fsm = fsm) {b : B} (h : Walked g b)
    (ha : ∀ n, (g.blk b).act ≠ .goto n) : Reached g ff b := by
  rcases h.cases hff hf with h | ⟨e, he, _⟩
  · exact h
  · obtain ⟨y, hy, _⟩ := Relation.TransGen.head'_iff.mp he
    exact absurd hy.1.2 (ha y)

end Silice
