import Verif.Props.FsmSkip

/-! Making more blocks states: what is reached. -/

set_option autoImplicit false

namespace Silice
variable {B : Type}

/-- An edge that `fastForward` follows. -/
def SkipEdge (g : Cfg B) (fsm : Nat) (b n : B) : Prop := EmptyEdge g b n ∧ (g.blk n).fsm = fsm ∧ (g.blk n).noSkip = false

theorem ffLoop_exact (g : Cfg B) (fsm : Nat) (f : Nat) : ∀ l c r : B, ffLoop g fsm f l c = some r →
    (r = l ∧ ∀ n, Relation.TransGen (SkipEdge g fsm) c n → (g.blk n).isState = false) ∨
    (Relation.TransGen (SkipEdge g fsm) c r ∧ (g.blk r).isState = true ∧
      ∀ n, Relation.TransGen (SkipEdge g fsm) r n → (g.blk n).isState = false) := by
  induction f with
  | zero => intro l c r h; simp [ffLoop] at h
  | succ k ih =>
    intro l c r h
    -- nothing follows unless the first edge does
    have key : ∀ x n, SkipEdge g fsm c x → Relation.TransGen (SkipEdge g fsm) c n → n = x ∨ Relation.TransGen (SkipEdge g fsm) x n := by
      intro x n hx hn
      obtain ⟨y, hy, hyn⟩ := Relation.TransGen.head'_iff.mp hn
      rw [hy.1.unique hx.1] at hyn
      rcases Relation.reflTransGen_iff_eq_or_transGen.mp hyn with e | e
      · exact .inl e
      · exact .inr e
    have none : (∀ x, ¬ SkipEdge g fsm c x) → ∀ n, Relation.TransGen (SkipEdge g fsm) c n → (g.blk n).isState = false := by
      intro hx n hn
      obtain ⟨y, hy, _⟩ := Relation.TransGen.head'_iff.mp hn
      exact absurd hy (hx y)
    unfold ffLoop at h
    split_ifs at h with he
    · cases h
      exact .inl ⟨rfl, none fun x hx => by rw [hx.1.1] at he; cases he⟩
    · cases ha : (g.blk c).act with
      | goto x =>
        simp only [ha] at h
        split_ifs at h with h1 h2 h3
        · cases h
          refine .inl ⟨rfl, none fun y hy => h1 ?_⟩
          have := hy.1.2.symm.trans ha
          cases this
          exact hy.2.1
        · cases h
          refine .inl ⟨rfl, none fun y hy => ?_⟩
          have := hy.1.2.symm.trans ha
          cases this
          rw [hy.2.2] at h2
          cases h2
        · have e : SkipEdge g fsm c x := ⟨⟨by simpa using he, ha⟩, by simpa using h1, by simpa using h2⟩
          rcases ih _ _ _ h with ⟨rfl, h4⟩ | ⟨h4, h5⟩
          · exact .inr ⟨.single e, h3, h4⟩
          · exact .inr ⟨.head e h4, h5⟩
        · have e : SkipEdge g fsm c x := ⟨⟨by simpa using he, ha⟩, by simpa using h1, by simpa using h2⟩
          rcases ih _ _ _ h with ⟨rfl, h4⟩ | ⟨h4, h5⟩
          · refine .inl ⟨rfl, fun n hn => ?_⟩
            rcases key x n e hn with rfl | hn
            · simpa using h3
            · exact h4 n hn
          · exact .inr ⟨.head e h4, h5⟩
      | _ =>
        simp only [ha] at h
        cases h
        refine .inl ⟨rfl, none fun y hy => ?_⟩
        have := hy.1.2.symm.trans ha
        cases this

/-- Two points of a chain: one comes after the other. -/
theorem chain_linear {r : B → B → Prop} (hu : ∀ a b c, r a b → r a c → b = c) {a b c : B} (h : Relation.ReflTransGen r a b)
    (h' : Relation.ReflTransGen r a c) : Relation.ReflTransGen r b c ∨ Relation.TransGen r c b := by
  induction h using Relation.ReflTransGen.head_induction_on with
  | refl => exact .inl h'
  | @head a x hx hxb ih =>
    rcases Relation.ReflTransGen.cases_head h' with rfl | ⟨y, hy, hyc⟩
    · exact .inr (.head' hx hxb)
    · rw [hu a y x hy hx] at hyc
      exact ih hyc

theorem SkipEdge.unique {g : Cfg B} {fsm : Nat} (a b c : B) (h : SkipEdge g fsm a b) (h' : SkipEdge g fsm a c) : b = c := h.1.unique h'.1

/-- One walks along a chain up to any point after which no state lies. -/
theorem reached_walk (g : Cfg B) (ff : B → B) (fsm : Nat) (hff : IsFF g ff) (hf : ∀ b, (g.blk b).fsm = fsm)
    (hacc : ∀ b, Acc (fun n b => EmptyEdge g b n) b) (d : B)
    (hd : ∀ n, Relation.TransGen (SkipEdge g fsm) d n → (g.blk n).isState = false) (y : B) :
    Reached g ff y → Relation.ReflTransGen (SkipEdge g fsm) y d → Reached g ff d := by
  have wf : WellFounded (fun n b => Relation.TransGen (SkipEdge g fsm) b n) := by
    have h1 : WellFounded (fun n b => EmptyEdge g b n) := ⟨hacc⟩
    have h2 := h1.transGen
    refine Subrelation.wf (fun {n b} h => ?_) h2
    induction h with
    | single h => exact .single h.1
    | tail _ h ih => exact .head h.1 ih
  induction y using wf.induction with
  | _ y ih =>
    intro hr hy
    rcases Relation.ReflTransGen.cases_head hy with rfl | ⟨n, hn, hnd⟩
    · exact hr
    have hch : n ∈ g.children y := by simp [Cfg.children, hn.1.2]
    have ha := Reached.child hr hch
    unfold arrive at ha
    split_ifs at ha with hs
    · obtain ⟨k, hk⟩ := hff n
      unfold fastForward at hk
      rw [if_neg (by rw [hn.2.2]; simp), hf n] at hk
      rcases ffLoop_exact g fsm k n n (ff n) hk with ⟨e, _⟩ | ⟨h1, h2, h3⟩
      · rw [e] at ha
        exact ih n (.single hn) ha hnd
      · rcases chain_linear SkipEdge.unique hnd h1.to_reflTransGen with h4 | h4
        · rcases Relation.reflTransGen_iff_eq_or_transGen.mp h4 with e | e
          · rw [← e]; exact ha
          · rw [hd _ e] at h2; cases h2
        · exact ih _ (.head hn h1) ha h4.to_reflTransGen
    · exact ih n (.single hn) ha hnd

/-- The graphs differ in which blocks are states; what is a state in the first is one in the second. -/
structure MoreStates (g g' : Cfg B) : Prop where
  first : g'.first = g.first
  returns : g'.returns = g.returns
  blk : ∀ b, g'.blk b = { g.blk b with isState := (g'.blk b).isState }
  more : ∀ b, (g.blk b).isState = true → (g'.blk b).isState = true

namespace MoreStates
variable {g g' : Cfg B} (h : MoreStates g g')
include h

theorem act (b : B) : (g'.blk b).act = (g.blk b).act := by rw [h.blk]

theorem children (b : B) : g'.children b = g.children b := by
  unfold Cfg.children
  rw [h.act, h.returns]

theorem emptyEdge (b n : B) : EmptyEdge g' b n ↔ EmptyEdge g b n := by
  unfold EmptyEdge
  rw [h.blk b]

theorem skipEdge (fsm : Nat) : SkipEdge g' fsm = SkipEdge g fsm := by
  funext b n
  apply propext
  unfold SkipEdge
  rw [h.emptyEdge, h.blk n]

/-- What is reached with more states is reached with fewer. -/
theorem reached {ff ff' : B → B} {fsm : Nat} (hff : IsFF g ff) (hff' : IsFF g' ff') (hf : ∀ b, (g.blk b).fsm = fsm)
    (hacc : ∀ b, Acc (fun n b => EmptyEdge g b n) b) {b : B} (hr : Reached g' ff' b) : Reached g ff b := by
  induction hr with
  | first => rw [h.first]; exact .first
  | @child b c _ hc ih =>
    rw [h.children] at hc
    have ha := Reached.child ih hc
    unfold arrive
    split_ifs with hs
    · obtain ⟨k', hk'⟩ := hff' c
      unfold fastForward at hk'
      split_ifs at hk' with hn
      · -- asked for
        obtain ⟨k, hk⟩ := hff c
        rw [h.blk] at hn
        have hn' : (g.blk c).noSkip = true := hn
        rw [fastForward, if_pos hn', Option.some.injEq] at hk
        rw [Option.some.injEq] at hk'
        unfold arrive at ha
        rw [← hk, ite_self] at ha
        rw [← hk']
        exact ha
      · rw [h.blk c] at hn hk'
        simp only [hf] at hk'
        have hx := ffLoop_exact g' fsm k' c c (ff' c) hk'
        rw [h.skipEdge] at hx
        -- the block arrived at, and the one arrived at with more states
        have hd : Relation.ReflTransGen (SkipEdge g fsm) c (ff' c) ∧
            ∀ n, Relation.TransGen (SkipEdge g fsm) (ff' c) n → (g'.blk n).isState = false := by
          rcases hx with ⟨e, h1⟩ | ⟨h1, _, h2⟩
          · rw [e]; exact ⟨.refl, h1⟩
          · exact ⟨h1.to_reflTransGen, h2⟩
        have hd0 : ∀ n, Relation.TransGen (SkipEdge g fsm) (ff' c) n → (g.blk n).isState = false := by
          intro n hn
          have := hd.2 n hn
          by_contra hc
          rw [h.more n (by simpa using hc)] at this
          cases this
        have hy : Relation.ReflTransGen (SkipEdge g fsm) c (arrive g ff c) ∧ (arrive g ff c = c ∨ (g.blk (arrive g ff c)).isState = true) := by
          unfold arrive
          split_ifs with hs0
          · obtain ⟨k, hk⟩ := hff c
            unfold fastForward at hk
            rw [if_neg (by simpa using hn), hf c] at hk
            rcases ffLoop_exact g fsm k c c (ff c) hk with ⟨e, _⟩ | ⟨h1, h2, _⟩
            · rw [e]; exact ⟨.refl, .inl rfl⟩
            · exact ⟨h1.to_reflTransGen, .inr h2⟩
          · exact ⟨.refl, .inl rfl⟩
        refine reached_walk g ff fsm hff hf hacc _ hd0 _ ha ?_
        rcases chain_linear SkipEdge.unique hy.1 hd.1 with h1 | h1
        · exact h1
        · rcases hy.2 with e | e
          · rw [e]; exact hd.1
          · rw [hd0 _ h1] at e; cases e
    · have : ¬ (g.blk c).isState = true := fun hc => hs (h.more c hc)
      unfold arrive at ha
      rw [if_neg this] at ha
      exact ha

end MoreStates

/-! ### Coming to a block, possibly skipping it -/

/-- Control comes to `b`, or skips it. -/
def Comes (g : Cfg B) (ff : B → B) (b : B) : Prop := ∃ d, Relation.ReflTransGen (EmptyEdge g) b d ∧ Reached g ff d

variable {g : Cfg B} {ff : B → B} {b n : B}

theorem Reached.comes (h : Reached g ff b) : Comes g ff b := ⟨b, .refl, h⟩

theorem Reached.comesChild (hff : IsFF g ff) (h : Reached g ff b) (hn : n ∈ g.children b) : Comes g ff n :=
  ⟨_, arrive_chain g ff hff n, .child h hn⟩

theorem Comes.next (hff : IsFF g ff) (h : Comes g ff b) (ha : (g.blk b).act = .goto n) : Comes g ff n := by
  obtain ⟨d, h1, h2⟩ := h
  rcases Relation.ReflTransGen.cases_head h1 with rfl | ⟨x, hx, hxd⟩
  · exact h2.comesChild hff (by simp [Cfg.children, ha])
  · have := hx.2.symm.trans ha
    cases this
    exact ⟨d, hxd, h2⟩

theorem Comes.reached (h : Comes g ff b) (ha : ∀ n, (g.blk b).act ≠ .goto n) : Reached g ff b := by
  obtain ⟨d, h1, h2⟩ := h
  rcases Relation.ReflTransGen.cases_head h1 with rfl | ⟨x, hx, _⟩
  · exact h2
  · exact absurd hx.2 (ha x)

end Silice
