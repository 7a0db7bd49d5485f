import Verif.Spec.Fsm
import Mathlib.Data.Fintype.Card

/-! Lemmas about `fastForward`. -/

set_option autoImplicit false

namespace Silice
variable {B : Type}

/-- Control passes from `b` to `n` by executing nothing but the empty block `b`. -/
def EmptyEdge (g : Cfg B) (b n : B) : Prop := (g.blk b).empty = true ∧ (g.blk b).act = .goto n

theorem EmptyEdge.unique {g : Cfg B} {b n m : B} (h : EmptyEdge g b n) (h' : EmptyEdge g b m) : n = m := by
  have := h.2.symm.trans h'.2
  cases this
  rfl

theorem ffLoop_mono (g : Cfg B) (fsm : Nat) (f : Nat) :
    ∀ (f' : Nat) (l c r : B), ffLoop g fsm f l c = some r → f ≤ f' → ffLoop g fsm f' l c = some r := by
  induction f with
  | zero => intro f' l c r h; simp [ffLoop] at h
  | succ n ih =>
    intro f' l c r h hle
    cases f' with
    | zero => omega
    | succ m =>
      unfold ffLoop at h ⊢
      split_ifs at h ⊢ with he
      · exact h
      · cases ha : (g.blk c).act with
        | goto x =>
          simp only [ha] at h ⊢
          split_ifs at h ⊢ with h1 h2
          · exact h
          · exact h
          · exact ih m _ _ r h (by omega)
          · exact ih m _ _ r h (by omega)
        | _ => simp only [ha] at h ⊢; exact h

/-- The loop stays on a chain of empty blocks; its answer is the starting `lastState` or a state further
on the chain, in the same state machine. -/
theorem ffLoop_chain (g : Cfg B) (fsm : Nat) (f : Nat) :
    ∀ l c r : B, ffLoop g fsm f l c = some r →
      r = l ∨ ((g.blk r).isState = true ∧ (g.blk r).fsm = fsm ∧
        Relation.ReflTransGen (EmptyEdge g) c r) := by
  induction f with
  | zero => intro l c r h; simp [ffLoop] at h
  | succ n ih =>
    intro l c r h
    unfold ffLoop at h
    split_ifs at h with he
    · cases h; exact .inl rfl
    · have he' : (g.blk c).empty = true := by simpa using he
      cases ha : (g.blk c).act with
      | goto x =>
        simp only [ha] at h
        have hedge : EmptyEdge g c x := ⟨he', ha⟩
        split_ifs at h with h1 h2 h3
        · cases h; exact .inl rfl
        · cases h; exact .inl rfl
        · rcases ih _ _ _ h with e | ⟨a, b, c⟩
          · subst e
            refine .inr ⟨h3, by simpa using h1, Relation.ReflTransGen.single hedge⟩
          · exact .inr ⟨a, b, Relation.ReflTransGen.head hedge c⟩
        · rcases ih _ _ _ h with e | ⟨a, b, c⟩
          · exact .inl e
          · exact .inr ⟨a, b, Relation.ReflTransGen.head hedge c⟩
      | _ => simp only [ha] at h; cases h; exact .inl rfl

/-- Either no state lies further on the chain, or the answer is a state after which no state lies. -/
theorem ffLoop_far (g : Cfg B) (fsm : Nat) (f : Nat) :
    ∀ l c r : B, ffLoop g fsm f l c = some r →
      (r = l ∧ ∀ l', ffLoop g fsm f l' c = some l') ∨
      ((g.blk r).noSkip = false ∧ (g.blk r).fsm = fsm ∧ ∃ f', ffLoop g fsm f' r r = some r) := by
  induction f with
  | zero => intro l c r h; simp [ffLoop] at h
  | succ n ih =>
    intro l c r h
    unfold ffLoop at h
    split_ifs at h with he
    · cases h
      exact .inl ⟨rfl, fun l' => by simp [ffLoop, he]⟩
    · cases ha : (g.blk c).act with
      | goto x =>
        simp only [ha] at h
        split_ifs at h with h1 h2 h3
        · cases h
          exact .inl ⟨rfl, fun l' => by simp [ffLoop, he, ha, h1]⟩
        · cases h
          exact .inl ⟨rfl, fun l' => by simp [ffLoop, he, ha, h1, h2]⟩
        · rcases ih _ _ _ h with ⟨e, hl⟩ | hr
          · subst e
            exact .inr ⟨by simpa using h2, by simpa using h1, n, hl r⟩
          · exact .inr hr
        · rcases ih _ _ _ h with ⟨e, hl⟩ | hr
          · exact .inl ⟨e, fun l' => by simp [ffLoop, he, ha, h1, h2, h3, hl l']⟩
          · exact .inr hr
      | _ =>
        simp only [ha] at h
        cases h
        exact .inl ⟨rfl, fun l' => by simp [ffLoop, he, ha]⟩

/-- Enough fuel when the empty chain from `c` cannot be followed for ever. -/
theorem ffLoop_total (g : Cfg B) (fsm : Nat) (c : B)
    (hacc : Acc (fun n b => EmptyEdge g b n) c) :
    ∀ l : B, ∃ f r, ffLoop g fsm f l c = some r := by
  induction hacc with
  | intro c _ ih =>
    intro l
    by_cases he : (g.blk c).empty = false
    · exact ⟨1, l, by simp [ffLoop, he]⟩
    · cases ha : (g.blk c).act with
      | goto x =>
        by_cases h1 : (g.blk x).fsm = fsm
        · by_cases h2 : (g.blk x).noSkip = true
          · exact ⟨1, l, by simp [ffLoop, he, ha, h1, h2]⟩
          · obtain ⟨f, r, hr⟩ := ih x ⟨by simpa using he, ha⟩
              (if (g.blk x).isState then x else l)
            exact ⟨f + 1, r, by simp [ffLoop, he, ha, h1, h2, hr]⟩
        · exact ⟨1, l, by simp [ffLoop, he, ha, h1]⟩
      | _ => exact ⟨1, l, by simp [ffLoop, he, ha]⟩

/-- On a finite graph, a chain without cycles is finite. -/
theorem emptyEdge_acc [Finite B] (g : Cfg B)
    (hacyc : ∀ b, ¬ Relation.TransGen (EmptyEdge g) b b) (b : B) :
    Acc (fun n b => EmptyEdge g b n) b := by
  classical
  have hwf : WellFounded (fun n b => Relation.TransGen (EmptyEdge g) b n) := by
    have : IsTrans B (fun n b => Relation.TransGen (EmptyEdge g) b n) :=
      ⟨fun a b c h1 h2 => Relation.TransGen.trans h2 h1⟩
    have : Std.Irrefl (fun n b : B => Relation.TransGen (EmptyEdge g) b n) := ⟨fun a h => hacyc a h⟩
    exact Finite.wellFounded_of_trans_of_irrefl _
  have : Subrelation (fun n b => EmptyEdge g b n) (fun n b => Relation.TransGen (EmptyEdge g) b n) :=
    fun h => Relation.TransGen.single h
  exact (this.wf hwf).apply b

end Silice
