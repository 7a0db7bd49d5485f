import Verif.Spec.Jump

/-! Lemmas on labels and jumps. -/

set_option autoImplicit false

namespace Silice

/-! ### Operations on blocks -/

section
variable (st : JSt) (b x : Nat)

theorem JSt.setState_act : ((st.setState b).blk x).act = (st.blk x).act := by
  simp only [JSt.setState, upd]; split_ifs with h
  · rw [h]
  · rfl

theorem JSt.setState_ins : ((st.setState b).blk x).ins = (st.blk x).ins := by
  simp only [JSt.setState, upd]; split_ifs with h
  · rw [h]
  · rfl

theorem JSt.setState_name : ((st.setState b).blk x).name = (st.blk x).name := by
  simp only [JSt.setState, upd]; split_ifs with h
  · rw [h]
  · rfl

theorem JSt.setState_flag (h : x ≠ b) : ((st.setState b).blk x).isState = (st.blk x).isState := by
  simp only [JSt.setState, upd, if_neg h]

theorem JSt.setAct_ins (a : JAct) : ((st.setAct b a).blk x).ins = (st.blk x).ins := by
  simp only [JSt.setAct, upd]; split_ifs with h
  · rw [h]
  · rfl

theorem JSt.setAct_name (a : JAct) : ((st.setAct b a).blk x).name = (st.blk x).name := by
  simp only [JSt.setAct, upd]; split_ifs with h
  · rw [h]
  · rfl

theorem JSt.setAct_flag (a : JAct) : ((st.setAct b a).blk x).isState = (st.blk x).isState := by
  simp only [JSt.setAct, upd]; split_ifs with h
  · rw [h]
  · rfl

theorem JSt.setAct_same (a : JAct) : ((st.setAct b a).blk b).act = a := by
  simp only [JSt.setAct, upd, if_true]

theorem JSt.setAct_other (a : JAct) (h : x ≠ b) : (st.setAct b a).blk x = st.blk x := by
  simp only [JSt.setAct, upd, if_neg h]

theorem JSt.add_old (h : x ≠ st.next) : st.add.blk x = st.blk x := by
  simp only [JSt.add, upd, if_neg h]

theorem JSt.add_new : st.add.blk st.next = {} := by
  simp only [JSt.add, upd, if_true]

end

/-! ### What gathering leaves alone -/

/-- Labels name blocks that exist and bear their name. -/
def LabOk (st : JSt) : Prop := ∀ l n, (l, n) ∈ st.labels → n < st.next ∧ (st.blk n).name = some l

/-- From `st` to `st'` only the current block `c`, new blocks, and flags change. -/
structure JKeeps (st : JSt) (c : Nat) (st' : JSt) (flag : Nat → Bool) : Prop where
  next : st.next ≤ st'.next
  other : ∀ b, b < st.next → b ≠ c → (st'.blk b).ins = (st.blk b).ins ∧ (st'.blk b).act = (st.blk b).act
  cur : (st.blk c).ins <+: (st'.blk c).ins
  name : ∀ b, b < st.next → (st'.blk b).name = (st.blk b).name
  flag : ∀ b, b < st.next → (st.blk b).name = none → (st'.blk b).isState = ((st.blk b).isState || flag b)
  labels : st.labels <+: st'.labels
  lab : LabOk st'

/-- No flag. -/
abbrev noFlag : Nat → Bool := fun _ => false

section
variable {st st1 st' : JSt} {c c1 : Nat} {f g : Nat → Bool}

theorem JKeeps.refl (h : LabOk st) : JKeeps st c st noFlag :=
  ⟨le_refl _, fun _ _ _ => ⟨rfl, rfl⟩, List.prefix_rfl, fun _ _ => rfl, fun _ _ _ => by simp, List.prefix_rfl, h⟩

theorem JKeeps.trans (hc : c < st.next) (h1 : c1 = c ∨ st.next ≤ c1) (a : JKeeps st c st1 f) (b : JKeeps st1 c1 st' g) :
    JKeeps st c st' (fun x => f x || g x) where
  next := le_trans a.next b.next
  other x hx hn := by
    have : x ≠ c1 := by omega
    have h := b.other x (by have := a.next; omega) this
    have h' := a.other x hx hn
    exact ⟨h.1.trans h'.1, h.2.trans h'.2⟩
  cur := by
    rcases h1 with rfl | h1
    · exact a.cur.trans b.cur
    · rw [(b.other c (by have := a.next; omega) (by omega)).1]; exact a.cur
  name x hx := (b.name x (by have := a.next; omega)).trans (a.name x hx)
  flag x hx hn := by
    rw [b.flag x (by have := a.next; omega) ((a.name x hx).trans hn), a.flag x hx hn, Bool.or_assoc]
  labels := a.labels.trans b.labels
  lab := b.lab

theorem JKeeps.congr (h : ∀ b, b < st.next → f b = g b) (a : JKeeps st c st' f) : JKeeps st c st' g :=
  { a with flag := fun b hb hn => by rw [a.flag b hb hn, h b hb] }

theorem JKeeps.add (a : JKeeps st c st1 f) (hc : c < st.next) : JKeeps st c st1.add f where
  next := by have := a.next; simp only [JSt.add]; omega
  other b hb hn := by
    have : b ≠ st1.next := by have := a.next; omega
    simp only [JSt.add, upd, if_neg this]; exact a.other b hb hn
  cur := by
    have : c ≠ st1.next := by have := a.next; omega
    simp only [JSt.add, upd, if_neg this]; exact a.cur
  name b hb := by
    have : b ≠ st1.next := by have := a.next; omega
    simp only [JSt.add, upd, if_neg this]; exact a.name b hb
  flag b hb hn := by
    have : b ≠ st1.next := by have := a.next; omega
    simp only [JSt.add, upd, if_neg this]; exact a.flag b hb hn
  labels := a.labels
  lab l n h := by
    obtain ⟨h1, h2⟩ := a.lab l n h
    have : n ≠ st1.next := by omega
    simp only [JSt.add, upd, if_neg this]
    exact ⟨by omega, h2⟩

theorem JKeeps.addLabel {st2 : JSt} {l : String} (a : JKeeps st c st1 f) (hc : c < st.next) (h : st1.addLabel l = .ok st2) :
    JKeeps st c st2 f := by
  unfold JSt.addLabel at h
  split at h
  · cases h
  cases h
  exact {
    next := by have := a.next; simp only; omega
    other := fun b hb hn => by
      have : b ≠ st1.next := by have := a.next; omega
      simp only [upd, if_neg this]; exact a.other b hb hn
    cur := by
      have : c ≠ st1.next := by have := a.next; omega
      simp only [upd, if_neg this]; exact a.cur
    name := fun b hb => by
      have : b ≠ st1.next := by have := a.next; omega
      simp only [upd, if_neg this]; exact a.name b hb
    flag := fun b hb hn => by
      have : b ≠ st1.next := by have := a.next; omega
      simp only [upd, if_neg this]; exact a.flag b hb hn
    labels := a.labels.trans (List.prefix_append _ _)
    lab := fun l' n h => by
      rcases List.mem_append.mp h with h | h
      · obtain ⟨h1, h2⟩ := a.lab l' n h
        have : n ≠ st1.next := by omega
        simp only [upd, if_neg this]
        exact ⟨by omega, h2⟩
      · simp only [List.mem_singleton, Prod.mk.injEq] at h
        obtain ⟨rfl, rfl⟩ := h
        simp [upd] }

theorem JKeeps.setAct (a : JKeeps st c st1 f) (b : Nat) (x : JAct) (hb : b = c ∨ st.next ≤ b) : JKeeps st c (st1.setAct b x) f where
  next := a.next
  other y hy hn := by
    have : y ≠ b := by omega
    simp only [JSt.setAct, upd, if_neg this]; exact a.other y hy hn
  cur := by
    simp only [JSt.setAct, upd]; split_ifs with h
    · subst h; exact a.cur
    · exact a.cur
  name y hy := by
    simp only [JSt.setAct, upd]; split_ifs with h
    · subst h; exact a.name _ hy
    · exact a.name y hy
  flag y hy hn := by
    simp only [JSt.setAct, upd]; split_ifs with h
    · subst h; exact a.flag _ hy hn
    · exact a.flag y hy hn
  labels := a.labels
  lab l n h := by
    obtain ⟨h1, h2⟩ := a.lab l n h
    refine ⟨h1, ?_⟩
    simp only [JSt.setAct, upd]; split_ifs with e
    · subst e; exact h2
    · exact h2

theorem JKeeps.push (a : JKeeps st c st1 f) (i : Nat) : JKeeps st c (st1.push c i) f where
  next := a.next
  other y hy hn := by simp only [JSt.push, upd, if_neg hn]; exact a.other y hy hn
  cur := by
    simp only [JSt.push, upd, if_true]; exact a.cur.trans (List.prefix_append _ _)
  name y hy := by
    simp only [JSt.push, upd]; split_ifs with h
    · subst h; exact a.name _ hy
    · exact a.name y hy
  flag y hy hn := by
    simp only [JSt.push, upd]; split_ifs with h
    · subst h; exact a.flag _ hy hn
    · exact a.flag y hy hn
  labels := a.labels
  lab l n h := by
    obtain ⟨h1, h2⟩ := a.lab l n h
    refine ⟨h1, ?_⟩
    simp only [JSt.push, upd]; split_ifs with e
    · subst e; exact h2
    · exact h2

theorem JKeeps.setState (a : JKeeps st c st1 f) (b : Nat) : JKeeps st c (st1.setState b) (fun y => f y || y == b) where
  next := a.next
  other y hy hn := by
    simp only [JSt.setState, upd]; split_ifs with h
    · subst h; exact a.other _ hy hn
    · exact a.other y hy hn
  cur := by
    simp only [JSt.setState, upd]; split_ifs with h
    · subst h; exact a.cur
    · exact a.cur
  name y hy := by
    simp only [JSt.setState, upd]; split_ifs with h
    · subst h; exact a.name _ hy
    · exact a.name y hy
  flag y hy hn := by
    simp only [JSt.setState, upd]; split_ifs with h
    · simp [h]
    · have e : (y == b) = false := by simpa using h
      rw [e, Bool.or_false]; exact a.flag y hy hn
  labels := a.labels
  lab l n h := by
    obtain ⟨h1, h2⟩ := a.lab l n h
    refine ⟨h1, ?_⟩
    simp only [JSt.setState, upd]; split_ifs with e
    · subst e; exact h2
    · exact h2

/-- A state that is a new block. -/
theorem JKeeps.setStateNew (a : JKeeps st c st1 f) (b : Nat) (hb : st.next ≤ b) : JKeeps st c (st1.setState b) f :=
  (a.setState b).congr fun y hy => by
    have : y ≠ b := by omega
    simp [this]

/-- A state that has a label. -/
theorem JKeeps.setStateLab (a : JKeeps st c st1 f) (b : Nat) {l : String} (hb : (l, b) ∈ st.labels) (hl : LabOk st) :
    JKeeps st c (st1.setState b) f :=
  let k := a.setState b
  ⟨k.next, k.other, k.cur, k.name, fun y hy hn => by
    have e : (y == b) = false := by
      rw [beq_eq_false_iff_ne]
      rintro rfl
      have := (hl l y hb).2
      rw [hn] at this; cases this
    have := k.flag y hy hn
    simp only [e, Bool.or_false] at this
    exact this, k.labels, k.lab⟩

theorem JKeeps.setNoSkip (a : JKeeps st c st1 f) (b : Nat) : JKeeps st c (st1.setNoSkip b) f where
  next := a.next
  other y hy hn := by
    simp only [JSt.setNoSkip, upd]; split_ifs with h
    · subst h; exact a.other _ hy hn
    · exact a.other y hy hn
  cur := by
    simp only [JSt.setNoSkip, upd]; split_ifs with h
    · subst h; exact a.cur
    · exact a.cur
  name y hy := by
    simp only [JSt.setNoSkip, upd]; split_ifs with h
    · subst h; exact a.name _ hy
    · exact a.name y hy
  flag y hy hn := by
    simp only [JSt.setNoSkip, upd]; split_ifs with h
    · subst h; exact a.flag _ hy hn
    · exact a.flag y hy hn
  labels := a.labels
  lab l n h := by
    obtain ⟨h1, h2⟩ := a.lab l n h
    refine ⟨h1, ?_⟩
    simp only [JSt.setNoSkip, upd]; split_ifs with e
    · subst e; exact h2
    · exact h2

end

/-- What gathering statements `p` does. -/
structure JGathers (p : JPrg) (bt : Option Nat) (c : Nat) (st : JSt) (c' : Nat) (st' : JSt) : Prop where
  keeps : JKeeps st c st' (fun b => p.breaks && decide (bt = some b))
  cur : c' < st'.next
  place : c' = c ∨ st.next ≤ c'

theorem jmem_of_lookup {l : String} {n : Nat} : ∀ {xs : List (String × Nat)}, xs.lookup l = some n → (l, n) ∈ xs
  | [], h => by cases h
  | (a, b) :: xs, h => by
    rw [List.lookup_cons] at h
    split at h
    · rename_i e
      cases h
      rw [beq_iff_eq.mp e]; exact List.mem_cons_self
    · exact List.mem_cons_of_mem _ (jmem_of_lookup h)

theorem bracket_gathers {p : JPrg} {bt : Option Nat} {c : Nat} {st : JSt} {r : Nat × JSt}
    (ih : ∀ c st c' st', c < st.next → LabOk st → jBuild p bt c st = .ok (c', st') → JGathers p bt c st c' st')
    (hc : c < st.next) (hl : LabOk st) (h : jBracket (jBuild p bt) c st = .ok r) : JGathers p bt c st r.1 r.2 := by
  unfold jBracket at h
  split at h
  · cases h
  rename_i r0 h0
  cases h
  have k0 : JKeeps st c (st.add.setAct c (.act (.goto st.next))) noFlag := ((JKeeps.refl hl).add hc).setAct c _ (.inl rfl)
  have hn : (st.add.setAct c (.act (.goto st.next))).next = st.next + 1 := rfl
  have g := ih st.next _ r0.1 r0.2 (by rw [hn]; omega) k0.lab h0
  have k1 := JKeeps.trans hc (.inr (le_refl _)) k0 g.keeps
  have hk := g.keeps.next
  rw [hn] at hk
  refine ⟨((k1.add hc).setAct r0.1 _ ?_).congr (by simp), ?_, .inr (by simp only; omega)⟩
  · rcases g.place with e | e
    · right; omega
    · right; rw [hn] at e; omega
  · simp only [JSt.setAct, JSt.add]; omega

theorem jBuild_gathers (p : JPrg) : ∀ bt c st c' st', c < st.next → LabOk st → jBuild p bt c st = .ok (c', st') →
    JGathers p bt c st c' st' := by
  induction p with
  | nil =>
    intro bt c st c' st' hc hl h
    cases h
    exact ⟨(JKeeps.refl hl).congr (by simp [JPrg.breaks]), hc, .inl rfl⟩
  | instr i k ih =>
    intro bt c st c' st' hc hl h
    have k0 := (JKeeps.refl (c := c) hl).push i
    have g := ih bt c (st.push c i) c' st' hc k0.lab h
    exact ⟨(JKeeps.trans hc (.inl rfl) k0 g.keeps).congr (by simp [JPrg.breaks]), g.cur, g.place⟩
  | step k ih =>
    intro bt c st c' st' hc hl h
    have k0 := ((((JKeeps.refl (c := c) hl).add hc).setStateNew st.next (le_refl _)).setNoSkip st.next).setAct c (.act (.goto st.next)) (.inl rfl)
    have g := ih bt st.next _ c' st' (Nat.lt_succ_self _) k0.lab h
    have := g.place
    refine ⟨(JKeeps.trans hc (.inr (le_refl _)) k0 g.keeps).congr (by simp [JPrg.breaks]), g.cur, .inr ?_⟩
    simp only [JSt.setAct, JSt.setNoSkip, JSt.setState, JSt.add] at this
    omega
  | label l k ih =>
    intro bt c st c' st' hc hl h
    unfold jBuild at h
    split at h
    · cases h
    rename_i st1 h1
    have k0 := ((JKeeps.refl (c := c) hl).addLabel hc h1).setAct c (.act (.goto st.next)) (.inl rfl)
    have hn : st1.next = st.next + 1 := by
      unfold JSt.addLabel at h1
      split at h1 <;> cases h1
      rfl
    have g := ih bt st.next _ c' st' (by simp only [JSt.setAct]; omega) k0.lab h
    have := g.place
    refine ⟨(JKeeps.trans hc (.inr (le_refl _)) k0 g.keeps).congr (by simp [JPrg.breaks]), g.cur, .inr ?_⟩
    simp only [JSt.setAct] at this
    omega
  | jump l k ih =>
    intro bt c st c' st' hc hl h
    unfold jBuild at h
    simp only at h
    split at h
    · have k0 := ((JKeeps.refl (c := c) hl).setAct c (.fwd l) (.inl rfl)).add hc
      have g := ih bt st.next _ c' st' (Nat.lt_succ_self _) k0.lab h
      have := g.place
      refine ⟨(JKeeps.trans hc (.inr (le_refl _)) k0 g.keeps).congr (by simp [JPrg.breaks]), g.cur, .inr ?_⟩
      simp only [JSt.setAct, JSt.add] at this
      omega
    · rename_i n hn
      have k0 := (((JKeeps.refl (c := c) hl).setAct c (.act (.goto n)) (.inl rfl)).setStateLab n (jmem_of_lookup hn) hl).add hc
      have g := ih bt st.next _ c' st' (Nat.lt_succ_self _) k0.lab h
      have := g.place
      refine ⟨(JKeeps.trans hc (.inr (le_refl _)) k0 g.keeps).congr (by simp [JPrg.breaks]), g.cur, .inr ?_⟩
      simp only [JSt.setAct, JSt.add, JSt.setState] at this
      omega
  | block b k ihb ihk =>
    intro bt c st c' st' hc hl h
    unfold jBuild at h
    split at h
    · cases h
    rename_i r h1
    have g1 := bracket_gathers (fun c st c' st' => ihb bt c st c' st') hc hl h1
    have g := ihk bt r.1 _ c' st' g1.cur g1.keeps.lab h
    refine ⟨(JKeeps.trans hc g1.place g1.keeps g.keeps).congr ?_, g.cur, ?_⟩
    · intro b' _; simp only [JPrg.breaks, Bool.and_or_distrib_right]
    · have := g1.place; have := g.place; have := g1.keeps.next; omega
  | ifThen q t k iht ihk =>
    intro bt c st c' st' hc hl h
    unfold jBuild at h
    simp only at h
    split at h
    · cases h
    rename_i r h1
    have k0 := ((JKeeps.refl (c := c) hl).add hc).add hc
    have hn : st.add.add.next = st.next + 2 := rfl
    have g1 := bracket_gathers (fun c st c' st' => iht bt c st c' st') (by rw [hn]; omega) k0.lab h1
    have k1 := JKeeps.trans hc (.inr (le_refl _)) k0 g1.keeps
    have hr : st.next ≤ r.1 := by have := g1.place; rw [hn] at this; omega
    have hr2 := k1.next
    have k2 := (((k1.add hc).setAct r.1 (.act (.goto r.2.next)) (.inr hr)).setAct (st.next + 1) (.act (.goto r.2.next)) (.inr (by omega)))
    have k3 := fun z => k2.setAct c z (.inl rfl)
    have g := ihk bt r.2.next _ c' st' (Nat.lt_succ_self _) (k3 _).lab h
    have := g.place
    refine ⟨(JKeeps.trans hc (.inr hr2) (k3 _) g.keeps).congr ?_, g.cur, .inr ?_⟩
    · intro b' _; simp only [JPrg.breaks, Bool.and_or_distrib_right, Bool.false_or]
    · simp only [JSt.setAct, JSt.add] at this; omega
  | ifElse q t f k iht ihf ihk =>
    intro bt c st c' st' hc hl h
    unfold jBuild at h
    simp only at h
    split at h
    · cases h
    rename_i r h1
    split at h
    · cases h
    rename_i r' h2
    have k0 := ((JKeeps.refl (c := c) hl).add hc).add hc
    have hn : st.add.add.next = st.next + 2 := rfl
    have g1 := bracket_gathers (fun c st c' st' => iht bt c st c' st') (by rw [hn]; omega) k0.lab h1
    have k1 := JKeeps.trans hc (.inr (le_refl _)) k0 g1.keeps
    have hn1 := g1.keeps.next
    rw [hn] at hn1
    have g2 := bracket_gathers (fun c st c' st' => ihf bt c st c' st') (by omega) k1.lab h2
    have k1' := JKeeps.trans hc (.inr (by omega)) k1 g2.keeps
    have hr : st.next ≤ r.1 := by have := g1.place; rw [hn] at this; omega
    have hr' : st.next ≤ r'.1 := by have := g2.place; omega
    have hr2 := k1'.next
    have k2 := (((k1'.add hc).setAct r.1 (.act (.goto r'.2.next)) (.inr hr)).setAct r'.1 (.act (.goto r'.2.next)) (.inr hr'))
    have k3 := fun z => k2.setAct c z (.inl rfl)
    have g := ihk bt r'.2.next _ c' st' (Nat.lt_succ_self _) (k3 _).lab h
    have := g.place
    refine ⟨(JKeeps.trans hc (.inr hr2) (k3 _) g.keeps).congr ?_, g.cur, .inr ?_⟩
    · intro b' _; simp only [JPrg.breaks, Bool.and_or_distrib_right, Bool.false_or]
    · simp only [JSt.setAct, JSt.add] at this; omega
  | loop q b k ihb ihk =>
    intro bt c st c' st' hc hl h
    unfold jBuild at h
    simp only at h
    split at h
    · cases h
    rename_i r h1
    have k0 := ((((JKeeps.refl (c := c) hl).add hc).setAct c (.act (.goto st.next)) (.inl rfl)).add hc).add hc
    have hn : (st.add.setAct c (.act (.goto st.next))).add.add.next = st.next + 3 := rfl
    have g1 := bracket_gathers (ihb (some (st.next + 2))) (c := st.next + 1) (by rw [hn]; omega) k0.lab h1
    have k1 := JKeeps.trans hc (.inr (by omega)) k0 g1.keeps
    have hn1 := g1.keeps.next
    rw [hn] at hn1
    have hr : st.next ≤ r.1 := by have := g1.place; rw [hn] at this; omega
    have k3 := (((k1.setAct r.1 (.act (.goto st.next)) (.inr hr)).setAct st.next (.act (.loop q (st.next + 1) (st.next + 2)))
      (.inr (le_refl _))).setStateNew st.next (le_refl _))
    have g := ihk bt (st.next + 2) _ c' st' (by simp only [JSt.setState, JSt.setAct]; omega) k3.lab h
    have := g.place
    refine ⟨(JKeeps.trans hc (.inr (by omega)) k3 g.keeps).congr ?_, g.cur, .inr ?_⟩
    · intro b' hb'
      have : st.next + 2 ≠ b' := by omega
      simp [JPrg.breaks, this]
    · simp only [JSt.setState, JSt.setAct] at this; omega
  | brk k ih =>
    intro bt c st c' st' hc hl h
    unfold jBuild at h
    split at h
    · cases h
    rename_i a
    have k0 := (((JKeeps.refl (c := c) hl).setAct c (.act (.goto a)) (.inl rfl)).setState a).add hc
    have g := ih (some a) st.next _ c' st' (Nat.lt_succ_self _) k0.lab h
    have := g.place
    refine ⟨(JKeeps.trans hc (.inr (le_refl _)) k0 g.keeps).congr ?_, g.cur, .inr ?_⟩
    · intro b' _
      simp only [JPrg.breaks, Bool.true_and, Bool.false_or, Option.some.injEq]
      by_cases e : a = b'
      · subst e; simp
      · have : b' ≠ a := fun h => e h.symm
        simp [e, this]
    · simp only [JSt.setState, JSt.setAct, JSt.add] at this; omega

/-! ### The final graph -/

/-- The final graph `G` has block `b` as it is in `st`: name and flag. `J` are the labels of the jumps of the program. -/
def AgreesF (G : Nat → JBlk) (J : List String) (st : JSt) (b : Nat) : Prop :=
  (G b).isState = match (st.blk b).name with
    | none => (st.blk b).isState
    | some l => J.contains l

/-- The final graph `G` has block `b` as it is in `st`: instructions and end action. -/
def AgreesC (G : Nat → JBlk) (lab : List (String × Nat)) (st : JSt) (b : Nat) : Prop :=
  (G b).ins = (st.blk b).ins ∧ ∃ a, jResolveAct lab (st.blk b).act = some a ∧ (G b).act = .act a

/-- The final graph agrees with `st'` on the blocks from `lo` on, and on `c`; the block `c'` is still growing. -/
structure JFin (G : Nat → JBlk) (lab : List (String × Nat)) (J : List String) (st' : JSt) (c' lo c : Nat) : Prop where
  flag : ∀ b, lo ≤ b → b < st'.next → AgreesF G J st' b
  code : ∀ b, b = c ∨ lo ≤ b → b < st'.next → b ≠ c' → AgreesC G lab st' b
  cur : (st'.blk c').ins <+: (G c').ins

section
variable {G : Nat → JBlk} {lab : List (String × Nat)} {J : List String} {st st1 st' : JSt} {c c1 c' lo lo1 : Nat} {f : Nat → Bool}

theorem JFin.back (h : JFin G lab J st' c' lo c) (K : JKeeps st1 c1 st' f) (hf : ∀ b, lo ≤ b → f b = false)
    (hc' : c' = c1 ∨ st1.next ≤ c') (hc : c < st1.next) (hc1 : c1 < st1.next) (hlo : c1 = c ∨ lo ≤ c1) : JFin G lab J st1 c1 lo c where
  flag b h1 h2 := by
    have := h.flag b h1 (by have := K.next; omega)
    unfold AgreesF at this ⊢
    rw [this, K.name b h2]
    cases hn : (st1.blk b).name with
    | some l => rfl
    | none => simp only [K.flag b h2 hn, hf b h1, Bool.or_false]
  code b h1 h2 h3 := by
    obtain ⟨hi, a, ha, hg⟩ := h.code b h1 (by have := K.next; omega) (by omega)
    obtain ⟨e1, e2⟩ := K.other b h2 h3
    exact ⟨hi.trans e1, a, e2 ▸ ha, hg⟩
  cur := by
    by_cases e : c' = c1
    · subst e; exact K.cur.trans h.cur
    · rw [(h.code c1 (by omega) (by have := K.next; omega) (fun h => e h.symm)).1]; exact K.cur

theorem JFin.sub (h : JFin G lab J st' c' lo c) (h1 : lo ≤ lo1) (h2 : c1 = c ∨ lo ≤ c1) : JFin G lab J st' c' lo1 c1 where
  flag b h3 h4 := h.flag b (by omega) h4
  code b h3 h4 h5 := h.code b (by omega) h4 h5
  cur := h.cur

/-- To a part of the statements, ending in `c1'`. -/
theorem JFin.part {c1' : Nat} (h : JFin G lab J st' c' lo c) (hn : st1.next ≤ c') (hn' : st1.next ≤ st'.next) (h1 : lo ≤ lo1)
    (h2 : c1 = c ∨ lo ≤ c1) (h3 : c1' = c1 ∨ lo1 ≤ c1') (h4 : c1' < st1.next)
    (hb : ∀ b, b = c1 ∨ lo1 ≤ b → b < st1.next → b ≠ c1' → (st'.blk b).ins = (st1.blk b).ins ∧ (st'.blk b).act = (st1.blk b).act)
    (hf : ∀ b, lo1 ≤ b → b < st1.next → (st'.blk b).name = (st1.blk b).name ∧
      ((st1.blk b).name = none → (st'.blk b).isState = (st1.blk b).isState))
    (hc : (st'.blk c1').ins = (st1.blk c1').ins) : JFin G lab J st1 c1' lo1 c1 where
  flag b h5 h6 := by
    have := h.flag b (by omega) (by omega)
    unfold AgreesF at this ⊢
    rw [this, (hf b h5 h6).1]
    cases e : (st1.blk b).name with
    | some l => rfl
    | none => exact (hf b h5 h6).2 e
  code b h5 h6 h7 := by
    obtain ⟨hi, a, ha, hg⟩ := h.code b (by omega) (by omega) (by omega)
    obtain ⟨e1, e2⟩ := hb b h5 h6 h7
    exact ⟨hi.trans e1, a, e2 ▸ ha, hg⟩
  cur := by
    rw [← hc, (h.code c1' (by omega) (by omega) (by omega)).1]
    exact List.prefix_rfl

end

/-- Block and number of instructions carried out: the block ends here, with action `a`. -/
def JEnds (G : Nat → JBlk) (x : Nat × Nat) (a : Act Nat) : Prop := (G x.1).ins.length = x.2 ∧ (G x.1).act = .act a

/-- Control goes to block `n`, through blocks without instructions that are not states. -/
inductive Glides (G : Nat → JBlk) : Nat × Nat → Nat → Prop where
  | one {x : Nat × Nat} {n : Nat} : JEnds G x (.goto n) → Glides G x n
  | more {x : Nat × Nat} {m n : Nat} : JEnds G x (.goto m) → (G m).isState = false → Glides G (m, 0) n → Glides G x n

/-- Statements `p` are laid out in the graph between two positions. -/
inductive JFrag (G : Nat → JBlk) (lab : List (String × Nat)) (J : List String) : JPrg → Option Nat → Nat × Nat → Nat × Nat → Prop where
  | nil {bt : Option Nat} {x : Nat × Nat} : JFrag G lab J .nil bt x x
  | instr {bt : Option Nat} {c j i : Nat} {k : JPrg} {e : Nat × Nat} : (G c).ins[j]? = some i → JFrag G lab J k bt (c, j + 1) e →
      JFrag G lab J (.instr i k) bt (c, j) e
  | step {bt : Option Nat} {x e : Nat × Nat} {n : Nat} {k : JPrg} : JEnds G x (.goto n) → (G n).isState = true →
      JFrag G lab J k bt (n, 0) e → JFrag G lab J (.step k) bt x e
  | label {bt : Option Nat} {x e : Nat × Nat} {n : Nat} {k : JPrg} {l : String} : JEnds G x (.goto n) → (G n).isState = J.contains l →
      lab.lookup l = some n → JFrag G lab J k bt (n, 0) e → JFrag G lab J (.label l k) bt x e
  | jump {bt : Option Nat} {x y e : Nat × Nat} {n : Nat} {k : JPrg} {l : String} : JEnds G x (.goto n) → (G n).isState = true →
      lab.lookup l = some n → JFrag G lab J k bt y e → JFrag G lab J (.jump l k) bt x e
  | block {bt : Option Nat} {x m e : Nat × Nat} {n n' : Nat} {b k : JPrg} : JEnds G x (.goto n) → (G n).isState = false →
      JFrag G lab J b bt (n, 0) m → JEnds G m (.goto n') → (G n').isState = false → JFrag G lab J k bt (n', 0) e →
      JFrag G lab J (.block b k) bt x e
  | ifThen {bt : Option Nat} {x m e : Nat × Nat} {i it el et a i' q : Nat} {w z : Bool} {t k : JPrg} :
      JEnds G x (.ifElse q i w it el z et a) → (G i).isState = false → (G el).isState = false → JEnds G (i, 0) (.goto i') →
      (G i').isState = false → JFrag G lab J t bt (i', 0) m → Glides G m a → JEnds G (el, 0) (.goto a) → (G a).isState = false →
      JFrag G lab J k bt (a, 0) e → JFrag G lab J (.ifThen q t k) bt x e
  | ifElse {bt : Option Nat} {x m m' e : Nat × Nat} {i it el et a i' e' q : Nat} {w z : Bool} {t f k : JPrg} :
      JEnds G x (.ifElse q i w it el z et a) → (G i).isState = false → (G el).isState = false →
      JEnds G (i, 0) (.goto i') → (G i').isState = false → JFrag G lab J t bt (i', 0) m → Glides G m a →
      JEnds G (el, 0) (.goto e') → (G e').isState = false → JFrag G lab J f bt (e', 0) m' → Glides G m' a →
      (G a).isState = false → JFrag G lab J k bt (a, 0) e → JFrag G lab J (.ifElse q t f k) bt x e
  | loop {bt : Option Nat} {x m e : Nat × Nat} {h i i' a q : Nat} {b k : JPrg} : JEnds G x (.goto h) → (G h).isState = true →
      JEnds G (h, 0) (.loop q i a) → (G i).isState = false → JEnds G (i, 0) (.goto i') → (G i').isState = false →
      JFrag G lab J b (some a) (i', 0) m → Glides G m h → (G a).isState = b.breaks → JFrag G lab J k bt (a, 0) e →
      JFrag G lab J (.loop q b k) bt x e
  | brk {x y e : Nat × Nat} {a : Nat} {k : JPrg} : JEnds G x (.goto a) → (G a).isState = true → JFrag G lab J k (some a) y e →
      JFrag G lab J (.brk k) (some a) x e

section
variable {G : Nat → JBlk} {lab : List (String × Nat)} {J : List String}

/-- What is asked of the graph for statements `p` gathered from `st` to `st'`. -/
structure FragPre (G : Nat → JBlk) (lab : List (String × Nat)) (J : List String) (p : JPrg) (bt : Option Nat) (c : Nat) (st : JSt)
    (c' : Nat) (st' : JSt) : Prop where
  cur : c < st.next
  lok : LabOk st
  btok : ∀ a, bt = some a → a < st.next
  brk : ∀ a, bt = some a → p.breaks = true → (G a).isState = true
  jumps : ∀ l ∈ p.jumps, l ∈ J
  labels : ∀ l n, (l, n) ∈ st'.labels → lab.lookup l = some n
  fin : JFin G lab J st' c' st.next c

theorem bt_noFlag {p : JPrg} {bt : Option Nat} {lo : Nat} (h : ∀ a, bt = some a → a < lo) :
    ∀ b, lo ≤ b → (p.breaks && decide (bt = some b)) = false := by
  intro b hb
  have : bt ≠ some b := fun e => by have := h b e; omega
  simp [this]

theorem mem_labels {st st' : JSt} {c : Nat} {f : Nat → Bool} (k : JKeeps st c st' f) {x : String × Nat} (h : x ∈ st.labels) : x ∈ st'.labels :=
  k.labels.subset h

theorem AgreesC.ends {st : JSt} {b : Nat} {a : Act Nat} (h : AgreesC G lab st b) (ha : (st.blk b).act = .act a) :
    JEnds G (b, (st.blk b).ins.length) a := by
  obtain ⟨h1, a', h2, h3⟩ := h
  rw [ha] at h2
  cases h2
  exact ⟨by rw [h1], h3⟩

theorem bracket_frag {b : JPrg} {bt : Option Nat} {c : Nat} {st : JSt} {r : Nat × JSt}
    (ih : ∀ c st c' st', jBuild b bt c st = .ok (c', st') → FragPre G lab J b bt c st c' st' →
      JFrag G lab J b bt (c, (st.blk c).ins.length) (c', (st'.blk c').ins.length))
    (h : jBracket (jBuild b bt) c st = .ok r) (P : FragPre G lab J b bt c st r.1 r.2) :
    ∃ n m, JEnds G (c, (st.blk c).ins.length) (.goto n) ∧ (G n).isState = false ∧ JFrag G lab J b bt (n, 0) m ∧ JEnds G m (.goto r.1) ∧
      (G r.1).isState = false ∧ (r.2.blk r.1).ins = [] ∧ st.next ≤ r.1 := by
  have gb := bracket_gathers (fun c st c' st' => jBuild_gathers b bt c st c' st') P.cur P.lok h
  unfold jBracket at h
  split at h
  · cases h
  rename_i r0 h0
  cases h
  have k0 : JKeeps st c (st.add.setAct c (.act (.goto st.next))) noFlag := ((JKeeps.refl P.lok).add P.cur).setAct c _ (.inl rfl)
  have hn : (st.add.setAct c (.act (.goto st.next))).next = st.next + 1 := rfl
  obtain ⟨st1, hst1⟩ : ∃ x, x = st.add.setAct c (.act (.goto st.next)) := ⟨_, rfl⟩
  rw [← hst1] at hn k0 h0
  have hcur := P.cur
  have g := jBuild_gathers b bt st.next st1 r0.1 r0.2 (by omega) k0.lab h0
  have hk := g.keeps.next
  have hp := g.place
  have hc0 := g.cur
  have F := P.fin
  simp only at F
  have F0 : JFin G lab J r0.2 r0.1 st.next c := by
    refine F.part (le_refl _) (by simp only [JSt.setAct, JSt.add]; omega) (le_refl _) (.inl rfl) (.inr (by omega)) hc0 ?_ ?_ ?_
    · intro x _ h2 h3
      have : x ≠ r0.2.next := by omega
      simp [JSt.setAct, JSt.add, upd, h3, this]
    · intro x _ h2
      have : x ≠ r0.2.next := by omega
      have e' : r0.1 ≠ r0.2.next := by omega
      simp only [JSt.setAct, JSt.add, upd, if_neg this, if_neg e']
      split_ifs with e
      · subst e; simp
      · simp
    · have : r0.1 ≠ r0.2.next := by omega
      simp [JSt.setAct, JSt.add, upd, this]
  have hbt := bt_noFlag (p := b) P.btok
  have F1 : JFin G lab J st1 st.next st.next c :=
    F0.back g.keeps hbt hp (by omega) (by omega) (.inr (le_refl _))
  have hfr := ih st.next st1 r0.1 r0.2 h0 ⟨by omega, k0.lab, fun a ha => by have := P.btok a ha; omega, P.brk, P.jumps, P.labels,
    F0.sub (by omega) (.inr (by omega))⟩
  have hlen : (st1.blk st.next).ins = [] := by
    have : st.next ≠ c := by omega
    rw [hst1]; simp [JSt.setAct, JSt.add, upd, this]
  rw [hlen] at hfr
  refine ⟨st.next, _, ?_, ?_, hfr, ?_, ?_, ?_, by simp only; omega⟩
  · have := (F1.code c (.inl rfl) (by omega) (by omega)).ends (a := .goto st.next) (by rw [hst1]; simp [JSt.setAct, upd])
    have e : (st1.blk c).ins = (st.blk c).ins := by
      have : c ≠ st.next := by omega
      rw [hst1]; simp [JSt.setAct, JSt.add, upd, this]
    rwa [e] at this
  · have := F1.flag st.next (le_refl _) (by omega)
    have h1 : st.next ≠ c := by omega
    rw [hst1] at this
    simpa [AgreesF, JSt.setAct, JSt.add, upd, h1] using this
  · have h1 : r0.1 ≠ r0.2.next := by omega
    have := (F.code r0.1 (.inr (by omega)) (by simp only [JSt.setAct, JSt.add]; omega) h1).ends (a := .goto r0.2.next) (by simp [JSt.setAct, upd])
    have e : ((r0.2.add.setAct r0.1 (.act (.goto r0.2.next))).blk r0.1).ins = (r0.2.blk r0.1).ins := by simp [JSt.setAct, JSt.add, upd, h1]
    rwa [e] at this
  · have h1 : r0.2.next ≠ r0.1 := by omega
    have := F.flag r0.2.next (by omega) (by simp [JSt.setAct, JSt.add])
    simpa [AgreesF, JSt.setAct, JSt.add, upd, h1] using this
  · have h1 : r0.2.next ≠ r0.1 := by omega
    simp [JSt.setAct, JSt.add, upd, h1]

theorem jBuild_frag (hG : ∀ l n, lab.lookup l = some n → (G n).isState = J.contains l) (p : JPrg) :
    ∀ bt c st c' st', jBuild p bt c st = .ok (c', st') → FragPre G lab J p bt c st c' st' →
      JFrag G lab J p bt (c, (st.blk c).ins.length) (c', (st'.blk c').ins.length) := by
  induction p with
  | nil =>
    intro bt c st c' st' h P
    cases h
    exact .nil
  | instr i k ih =>
    intro bt c st c' st' h P
    have k0 := (JKeeps.refl (c := c) P.lok).push i
    have h' : jBuild k bt c (st.push c i) = .ok (c', st') := h
    have g := jBuild_gathers k bt c _ c' st' (by exact P.cur) k0.lab h'
    have hk := ih bt c (st.push c i) c' st' h' ⟨P.cur, k0.lab, P.btok, P.brk, P.jumps, P.labels, P.fin⟩
    have F1 := P.fin.back g.keeps (bt_noFlag P.btok) g.place P.cur P.cur (.inl rfl)
    have e : ((st.push c i).blk c).ins = (st.blk c).ins ++ [i] := by simp [JSt.push, upd]
    have hc := F1.cur
    rw [e] at hc
    rw [e, List.length_append, List.length_singleton] at hk
    refine .instr ?_ hk
    obtain ⟨t, ht⟩ := hc
    rw [← ht]; simp
  | step k ih =>
    intro bt c st c' st' h P
    have k0 := ((((JKeeps.refl (c := c) P.lok).add P.cur).setStateNew st.next (le_refl _)).setNoSkip st.next).setAct c (.act (.goto st.next)) (.inl rfl)
    obtain ⟨st1, hst1⟩ : ∃ x, x = ((st.add.setState st.next).setNoSkip st.next).setAct c (.act (.goto st.next)) := ⟨_, rfl⟩
    have h' : jBuild k bt st.next st1 = .ok (c', st') := by rw [hst1]; exact h
    rw [← hst1] at k0
    have hn : st1.next = st.next + 1 := by rw [hst1]; rfl
    have hcur := P.cur
    have hne : st.next ≠ c := by omega
    have g := jBuild_gathers k bt st.next st1 c' st' (by omega) k0.lab h'
    have F1 := P.fin.back g.keeps (bt_noFlag P.btok) g.place (by omega) (by omega) (.inr (le_refl _))
    have hk := ih bt st.next st1 c' st' h' ⟨by omega, k0.lab, fun a ha => by have := P.btok a ha; omega, P.brk, P.jumps, P.labels,
      P.fin.sub (by omega) (.inr (le_refl _))⟩
    have e : (st1.blk st.next).ins = [] := by rw [hst1]; simp [JSt.setAct, JSt.setNoSkip, JSt.setState, JSt.add, upd, hne]
    rw [e] at hk
    refine .step ?_ ?_ hk
    · have := (F1.code c (.inl rfl) (by omega) (by omega)).ends (a := .goto st.next) (by rw [hst1]; simp [JSt.setAct, upd])
      have e : (st1.blk c).ins = (st.blk c).ins := by
        rw [hst1]; simp [JSt.setAct, JSt.setNoSkip, JSt.setState, JSt.add, upd, hne.symm]
      rwa [e] at this
    · have := F1.flag st.next (le_refl _) (by omega)
      rw [hst1] at this
      simpa [AgreesF, JSt.setAct, JSt.setNoSkip, JSt.setState, JSt.add, upd, hne] using this
  | label l k ih =>
    intro bt c st c' st' h P
    unfold jBuild at h
    split at h
    · cases h
    rename_i st0 h0
    have k0 := ((JKeeps.refl (c := c) P.lok).addLabel P.cur h0).setAct c (.act (.goto st.next)) (.inl rfl)
    obtain ⟨st1, hst1⟩ : ∃ x, x = st0.setAct c (.act (.goto st.next)) := ⟨_, rfl⟩
    rw [← hst1] at k0 h
    have hs0 : st0 = { blk := upd st.blk st.next { name := some l }, next := st.next + 1, labels := st.labels ++ [(l, st.next)] } := by
      unfold JSt.addLabel at h0
      split at h0 <;> cases h0
      rfl
    have hn : st1.next = st.next + 1 := by rw [hst1, hs0]; rfl
    have hcur := P.cur
    have hne : st.next ≠ c := by omega
    have g := jBuild_gathers k bt st.next st1 c' st' (by omega) k0.lab h
    have F1 := P.fin.back g.keeps (bt_noFlag P.btok) g.place (by omega) (by omega) (.inr (le_refl _))
    have hk := ih bt st.next st1 c' st' h ⟨by omega, k0.lab, fun a ha => by have := P.btok a ha; omega, P.brk, P.jumps, P.labels,
      P.fin.sub (by omega) (.inr (le_refl _))⟩
    have e : (st1.blk st.next).ins = [] := by rw [hst1, hs0]; simp [JSt.setAct, upd, hne]
    rw [e] at hk
    have hl : lab.lookup l = some st.next := P.labels l st.next (mem_labels g.keeps (by rw [hst1, hs0]; simp [JSt.setAct]))
    refine .label ?_ (hG l _ hl) hl hk
    have := (F1.code c (.inl rfl) (by omega) (by omega)).ends (a := .goto st.next) (by rw [hst1]; simp [JSt.setAct, upd])
    have e : (st1.blk c).ins = (st.blk c).ins := by
      rw [hst1, hs0]; simp [JSt.setAct, upd, hne.symm]
    rwa [e] at this
  | jump l k ih =>
    intro bt c st c' st' h P
    have hcur := P.cur
    have hlJ : l ∈ J := P.jumps l (by simp [JPrg.jumps])
    have hJ : ∀ x ∈ k.jumps, x ∈ J := fun x hx => P.jumps x (by simp [JPrg.jumps, hx])
    unfold jBuild at h
    simp only at h
    split at h
    · have k0 := ((JKeeps.refl (c := c) P.lok).setAct c (.fwd l) (.inl rfl)).add P.cur
      have g := jBuild_gathers k bt st.next _ c' st' (Nat.lt_succ_self _) k0.lab h
      have hn : (st.setAct c (.fwd l)).add.next = st.next + 1 := rfl
      have F1 := P.fin.back g.keeps (bt_noFlag P.btok) g.place (by omega) (by omega) (.inr (le_refl _))
      have hk := ih bt st.next _ c' st' h ⟨by omega, k0.lab, fun a ha => by have := P.btok a ha; omega, P.brk, hJ, P.labels,
        P.fin.sub (by omega) (.inr (le_refl _))⟩
      obtain ⟨h1, a, h2, h3⟩ := F1.code c (.inl rfl) (by omega) (by omega)
      have hne : c ≠ st.next := by omega
      simp only [JSt.setAct, JSt.add, upd, if_neg hne, if_true, jResolveAct] at h1 h2
      obtain ⟨n, hl, rfl⟩ := Option.map_eq_some_iff.mp h2
      exact .jump ⟨by rw [h1], h3⟩ (by rw [hG l n hl]; simpa using hlJ) hl hk
    · rename_i n hl
      have k0 := (((JKeeps.refl (c := c) P.lok).setAct c (.act (.goto n)) (.inl rfl)).setStateLab n (jmem_of_lookup hl) P.lok).add P.cur
      have g := jBuild_gathers k bt st.next _ c' st' (Nat.lt_succ_self _) k0.lab h
      have hn : ((st.setAct c (.act (.goto n))).setState n).add.next = st.next + 1 := rfl
      have F1 := P.fin.back g.keeps (bt_noFlag P.btok) g.place (by omega) (by omega) (.inr (le_refl _))
      have hk := ih bt st.next _ c' st' h ⟨by omega, k0.lab, fun a ha => by have := P.btok a ha; omega, P.brk, hJ, P.labels,
        P.fin.sub (by omega) (.inr (le_refl _))⟩
      have hl' : lab.lookup l = some n := P.labels l n (mem_labels g.keeps (jmem_of_lookup hl))
      have hne : c ≠ st.next := by omega
      have hA := F1.code c (.inl rfl) (by omega) (by omega)
      have e1 : (((st.setAct c (.act (.goto n))).setState n).add.blk c).act = .act (.goto n) := by
        rw [JSt.add_old _ _ (by exact hne), JSt.setState_act, JSt.setAct_same]
      have e2 : (((st.setAct c (.act (.goto n))).setState n).add.blk c).ins = (st.blk c).ins := by
        rw [JSt.add_old _ _ (by exact hne), JSt.setState_ins, JSt.setAct_ins]
      have := hA.ends e1
      rw [e2] at this
      exact .jump this (by rw [hG l n hl']; simpa using hlJ) hl' hk
  | block b k ihb ihk =>
    intro bt c st c' st' h P
    have hcur := P.cur
    unfold jBuild at h
    split at h
    · cases h
    rename_i r h1
    have g1 := bracket_gathers (fun c st c' st' => jBuild_gathers b bt c st c' st') P.cur P.lok h1
    have g := jBuild_gathers k bt r.1 _ c' st' g1.cur g1.keeps.lab h
    have hn := g1.keeps.next
    have hp := g1.place
    have F1 := P.fin.back g.keeps (bt_noFlag P.btok) g.place (by omega) g1.cur (by omega)
    obtain ⟨n, m, q1, q2, q3, q4, q5, q6, q7⟩ := bracket_frag (ihb bt) h1 ⟨P.cur, P.lok, P.btok, fun a ha hb => P.brk a ha (by simp [JPrg.breaks, hb]),
      fun x hx => P.jumps x (by simp [JPrg.jumps, hx]), fun l n hl => P.labels l n (mem_labels g.keeps hl), F1⟩
    have hk := ihk bt r.1 r.2 c' st' h ⟨g1.cur, g1.keeps.lab, fun a ha => by have := P.btok a ha; omega,
      fun a ha hb => P.brk a ha (by simp [JPrg.breaks, hb]), fun x hx => P.jumps x (by simp [JPrg.jumps, hx]), P.labels,
      P.fin.sub (by omega) (.inr q7)⟩
    rw [q6] at hk
    exact .block q1 q2 q3 q4 q5 hk
  | ifThen q t k iht ihk =>
    intro bt c st c' st' h P
    have hcur := P.cur
    unfold jBuild at h
    simp only at h
    split at h
    · cases h
    rename_i r h1
    have k0 := ((JKeeps.refl (c := c) P.lok).add hcur).add hcur
    have hn : st.add.add.next = st.next + 2 := rfl
    have g1 := bracket_gathers (fun c st c' st' => jBuild_gathers t bt c st c' st') (by rw [hn]; omega) k0.lab h1
    have k1 := JKeeps.trans hcur (.inr (le_refl _)) k0 g1.keeps
    have hr : st.next ≤ r.1 := by have := g1.place; rw [hn] at this; omega
    have hrc := g1.cur
    have hr2 := g1.keeps.next
    rw [hn] at hr2
    have k2 := (((k1.add hcur).setAct r.1 (.act (.goto r.2.next)) (.inr hr)).setAct (st.next + 1) (.act (.goto r.2.next)) (.inr (by omega)))
    have k3 := fun z => k2.setAct c z (.inl rfl)
    generalize JSt.isStateless _ st.next = w at h
    generalize hz : (JAct.act (Act.ifElse q st.next w r.1 (st.next + 1) true (st.next + 1) r.2.next)) = z at h
    obtain ⟨st4, hst4⟩ : ∃ x, x = ((r.2.add.setAct r.1 (.act (.goto r.2.next))).setAct (st.next + 1) (.act (.goto r.2.next))).setAct c z := ⟨_, rfl⟩
    have k4 := k3 z
    rw [← hst4] at h k4
    have hn4 : st4.next = r.2.next + 1 := by rw [hst4]; rfl
    have g := jBuild_gathers k bt r.2.next st4 c' st' (by omega) k4.lab h
    have F4 := P.fin.back g.keeps (bt_noFlag P.btok) g.place (by omega) (by omega) (.inr (by omega))
    have hpl := g1.place
    rw [hn] at hpl
    have hi : (st.add.add.blk st.next).ins = [] := by simp [JSt.add, upd]
    have F3 : JFin G lab J r.2 r.1 st.add.add.next st.next := by
      refine F4.part (le_refl _) (by omega) (by omega) (.inr (le_refl _)) (by omega) hrc ?_ ?_ ?_
      · intro x hx h2 h3
        have e1 : x ≠ r.2.next := by omega
        have e2 : x ≠ st.next + 1 := by omega
        have e3 : x ≠ c := by omega
        rw [hst4]; simp [JSt.setAct, JSt.add, upd, e1, e2, e3, h3]
      · intro x hx h2
        have e1 : x ≠ r.2.next := by omega
        have e2 : x ≠ st.next + 1 := by omega
        have e3 : x ≠ c := by omega
        rw [hst4]; simp only [JSt.setAct_name, JSt.setAct_flag, JSt.add_old _ _ e1, implies_true, and_self]
      · have e1 : r.1 ≠ r.2.next := by omega
        have e3 : r.1 ≠ c := by omega
        have e2 : r.1 ≠ st.next + 1 := by omega
        rw [hst4]; simp [JSt.setAct, JSt.add, upd, e1, e2, e3]
    obtain ⟨n, m, q1, q2, q3, q4, q5, q6, q7⟩ := bracket_frag (iht bt) h1 ⟨by omega, k0.lab, fun a ha => by have := P.btok a ha; omega,
      fun a ha hb => P.brk a ha (by simp [JPrg.breaks, hb]), fun x hx => P.jumps x (by simp [JPrg.jumps, hx]),
      fun l n hl => P.labels l n (mem_labels g.keeps (by rw [hst4]; exact hl)), F3⟩
    rw [hi] at q1
    have hk := ihk bt r.2.next st4 c' st' h ⟨by omega, k4.lab, fun a ha => by have := P.btok a ha; omega,
      fun a ha hb => P.brk a ha (by simp [JPrg.breaks, hb]), fun x hx => P.jumps x (by simp [JPrg.jumps, hx]), P.labels,
      P.fin.sub (by omega) (.inr (by omega))⟩
    have ea : (st4.blk r.2.next).ins = [] := by
      have e1 : r.2.next ≠ c := by omega
      have e2 : r.2.next ≠ st.next + 1 := by omega
      have e3 : r.2.next ≠ r.1 := by omega
      rw [hst4]; simp [JSt.setAct, JSt.add, upd, e1, e2, e3]
    rw [ea] at hk
    have hold := g1.keeps.other (st.next + 1) (by omega) (by omega)
    have hel : (r.2.blk (st.next + 1)).ins = [] := by rw [hold.1]; simp [JSt.add, upd]
    have hk0 : ∀ x, x = st.next ∨ x = st.next + 1 → (r.2.blk x).name = none ∧ (r.2.blk x).isState = false := by
      intro x hx
      have nm : (st.add.add.blk x).name = none := by
        rcases hx with rfl | rfl <;> simp [JSt.add, upd]
      have fl := g1.keeps.flag x (by omega) nm
      have hbx : bt ≠ some x := fun e => by have := P.btok x e; omega
      refine ⟨(g1.keeps.name x (by omega)).trans nm, ?_⟩
      rw [fl]
      rcases hx with rfl | rfl <;> simp [JSt.add, upd, hbx]
    have hflag : ∀ x, x = st.next ∨ x = st.next + 1 → (G x).isState = false := by
      intro x hx
      have := F4.flag x (by omega) (by omega)
      have e1 : x ≠ c := by omega
      have e2 : x ≠ r.2.next := by omega
      have e3 : x ≠ r.1 := by omega
      unfold AgreesF at this
      have enm : (st4.blk x).name = (r.2.blk x).name ∧ (st4.blk x).isState = (r.2.blk x).isState := by
        rw [hst4]; simp only [JSt.setAct_name, JSt.setAct_flag, JSt.add_old _ _ e2, and_self]
      rw [enm.1, enm.2, (hk0 x hx).1, (hk0 x hx).2] at this
      exact this
    have E1 : JEnds G (c, (st.blk c).ins.length) (.ifElse q st.next w r.1 (st.next + 1) true (st.next + 1) r.2.next) := by
      have := (F4.code c (.inl rfl) (by omega) (by omega)).ends (a := .ifElse q st.next w r.1 (st.next + 1) true (st.next + 1) r.2.next)
        (by rw [hst4, ← hz]; simp only [JSt.setAct, upd, if_true])
      have e : (st4.blk c).ins = (st.blk c).ins := by
        have e1 : c ≠ r.2.next := by omega
        have e2 : c ≠ st.next + 1 := by omega
        have e3 : c ≠ r.1 := by omega
        have e4 : c ≠ st.next := by omega
        rw [hst4]; simp only [JSt.setAct, JSt.add, upd, if_neg e1, if_neg e2, if_neg e3, if_true]
        rw [(g1.keeps.other c (by omega) e4).1]
        simp [JSt.add, upd, e4, e2]
      rwa [e] at this
    have E2 : JEnds G (st.next + 1, 0) (.goto r.2.next) := by
      have e1 : st.next + 1 ≠ r.2.next := by omega
      have e2 : st.next + 1 ≠ c := by omega
      have e3 : st.next + 1 ≠ r.1 := by omega
      have := (F4.code (st.next + 1) (.inr (by omega)) (by omega) e1).ends (a := .goto r.2.next)
        (by rw [hst4]; simp [JSt.setAct, upd, e2])
      have e : (st4.blk (st.next + 1)).ins = [] := by
        rw [hst4]; simp [JSt.setAct, JSt.add, upd, e1, e2, e3, hel]
      rwa [e] at this
    have E3 : JEnds G (r.1, 0) (.goto r.2.next) := by
      have e1 : r.1 ≠ r.2.next := by omega
      have e2 : r.1 ≠ c := by omega
      have e3 : r.1 ≠ st.next + 1 := by omega
      have := (F4.code r.1 (.inr (by omega)) (by omega) e1).ends (a := .goto r.2.next) (by rw [hst4]; simp [JSt.setAct, upd, e2, e3])
      have e : (st4.blk r.1).ins = [] := by
        rw [hst4]; simp [JSt.setAct, JSt.add, upd, e1, e2, e3, q6]
      rwa [e] at this
    have Ea : (G r.2.next).isState = false := by
      have := F4.flag r.2.next (by omega) (by omega)
      have e1 : r.2.next ≠ c := by omega
      have e2 : r.2.next ≠ st.next + 1 := by omega
      have e3 : r.2.next ≠ r.1 := by omega
      rw [hst4] at this
      simpa [AgreesF, JSt.setAct, JSt.add, upd, e1, e2, e3] using this
    exact .ifThen E1 (hflag _ (.inl rfl)) (hflag _ (.inr rfl)) q1 q2 q3 (.more q4 q5 (.one E3)) E2 Ea hk
  | ifElse q t f k iht ihf ihk =>
    intro bt c st c' st' h P
    have hcur := P.cur
    unfold jBuild at h
    simp only at h
    split at h
    · cases h
    rename_i r h1
    split at h
    · cases h
    rename_i r' h2
    have k0 := ((JKeeps.refl (c := c) P.lok).add hcur).add hcur
    have hn : st.add.add.next = st.next + 2 := rfl
    have g1 := bracket_gathers (fun c st c' st' => jBuild_gathers t bt c st c' st') (by rw [hn]; omega) k0.lab h1
    have k1 := JKeeps.trans hcur (.inr (le_refl _)) k0 g1.keeps
    have hn1 := g1.keeps.next
    rw [hn] at hn1
    have g2 := bracket_gathers (fun c st c' st' => jBuild_gathers f bt c st c' st') (by omega) k1.lab h2
    have k1' := JKeeps.trans hcur (.inr (by omega)) k1 g2.keeps
    have hp1 := g1.place
    rw [hn] at hp1
    have hp2 := g2.place
    have hc1 := g1.cur
    have hc2 := g2.cur
    have hn2 := g2.keeps.next
    have k2 := (((k1'.add hcur).setAct r.1 (.act (.goto r'.2.next)) (.inr (by omega))).setAct r'.1 (.act (.goto r'.2.next)) (.inr (by omega)))
    have k3 := fun z => k2.setAct c z (.inl rfl)
    generalize JSt.isStateless _ st.next = w at h
    generalize JSt.isStateless _ (st.next + 1) = w' at h
    generalize hz : (JAct.act (Act.ifElse q st.next w r.1 (st.next + 1) w' r'.1 r'.2.next)) = z at h
    obtain ⟨st4, hst4⟩ : ∃ x, x = ((r'.2.add.setAct r.1 (.act (.goto r'.2.next))).setAct r'.1 (.act (.goto r'.2.next))).setAct c z := ⟨_, rfl⟩
    have k4 := k3 z
    rw [← hst4] at h k4
    have hn4 : st4.next = r'.2.next + 1 := by rw [hst4]; rfl
    have g := jBuild_gathers k bt r'.2.next st4 c' st' (by omega) k4.lab h
    have F4 := P.fin.back g.keeps (bt_noFlag P.btok) g.place (by omega) (by omega) (.inr (by omega))
    have hi : (st.add.add.blk st.next).ins = [] := by simp [JSt.add, upd]
    have he : (r.2.blk (st.next + 1)).ins = [] := by
      rw [(g1.keeps.other (st.next + 1) (by omega) (by omega)).1]; simp [JSt.add, upd]
    -- blocks after the last operations
    have s4i : ∀ x, x ≠ r'.2.next → (st4.blk x).ins = (r'.2.blk x).ins ∧ (st4.blk x).name = (r'.2.blk x).name ∧
        (st4.blk x).isState = (r'.2.blk x).isState := by
      intro x hx
      rw [hst4]
      simp only [JSt.setAct_ins, JSt.setAct_name, JSt.setAct_flag, JSt.add_old _ _ hx, and_self]
    have s4a : ∀ x, x ≠ r'.2.next → x ≠ c → x ≠ r.1 → x ≠ r'.1 → (st4.blk x).act = (r'.2.blk x).act := by
      intro x h1 h2 h3 h4
      rw [hst4, JSt.setAct_other _ _ _ _ h2, JSt.setAct_other _ _ _ _ h4, JSt.setAct_other _ _ _ _ h3, JSt.add_old _ _ h1]
    have nb : ∀ x, st.next ≤ x → (f.breaks && decide (bt = some x)) = false := bt_noFlag P.btok
    have F3' : JFin G lab J r'.2 r'.1 r.2.next (st.next + 1) := by
      refine F4.part (le_refl _) (by omega) (by omega) (.inr (by omega)) (by omega) hc2 ?_ ?_ ?_
      · intro x hx h2 h3
        exact ⟨(s4i x (by omega)).1, s4a x (by omega) (by omega) (by omega) h3⟩
      · intro x hx h2
        exact ⟨(s4i x (by omega)).2.1, fun _ => (s4i x (by omega)).2.2⟩
      · exact (s4i _ (by omega)).1
    have F3 : JFin G lab J r.2 r.1 st.add.add.next st.next := by
      refine F4.part (by omega) (by omega) (by omega) (.inr (le_refl _)) (by omega) hc1 ?_ ?_ ?_
      · intro x hx h2 h3
        have o := g2.keeps.other x h2 (by omega)
        exact ⟨(s4i x (by omega)).1.trans o.1, (s4a x (by omega) (by omega) h3 (by omega)).trans o.2⟩
      · intro x hx h2
        refine ⟨(s4i x (by omega)).2.1.trans (g2.keeps.name x h2), fun e => ?_⟩
        rw [(s4i x (by omega)).2.2, g2.keeps.flag x h2 e, nb x (by omega), Bool.or_false]
      · exact (s4i _ (by omega)).1.trans (g2.keeps.other _ hc1 (by omega)).1
    obtain ⟨n, m, q1, q2, q3, q4, q5, q6, q7⟩ := bracket_frag (iht bt) h1 ⟨by omega, k0.lab, fun a ha => by have := P.btok a ha; omega,
      fun a ha hb => P.brk a ha (by simp [JPrg.breaks, hb]), fun x hx => P.jumps x (by simp [JPrg.jumps, hx]),
      fun l n hl => P.labels l n (mem_labels g.keeps (by rw [hst4]; exact mem_labels g2.keeps hl)), F3⟩
    obtain ⟨n', m', p1, p2, p3, p4, p5, p6, p7⟩ := bracket_frag (ihf bt) h2 ⟨by omega, k1.lab, fun a ha => by have := P.btok a ha; omega,
      fun a ha hb => P.brk a ha (by simp [JPrg.breaks, hb]), fun x hx => P.jumps x (by simp [JPrg.jumps, hx]),
      fun l n hl => P.labels l n (mem_labels g.keeps (by rw [hst4]; exact hl)), F3'⟩
    rw [hi] at q1
    rw [he] at p1
    have hk := ihk bt r'.2.next st4 c' st' h ⟨by omega, k4.lab, fun a ha => by have := P.btok a ha; omega,
      fun a ha hb => P.brk a ha (by simp [JPrg.breaks, hb]), fun x hx => P.jumps x (by simp [JPrg.jumps, hx]), P.labels,
      P.fin.sub (by omega) (.inr (by omega))⟩
    have ea : (st4.blk r'.2.next).ins = [] ∧ (st4.blk r'.2.next).name = none ∧ (st4.blk r'.2.next).isState = false := by
      rw [hst4]
      simp only [JSt.setAct_ins, JSt.setAct_name, JSt.setAct_flag, JSt.add_new, and_self]
    rw [ea.1] at hk
    have hflag : ∀ x, x = st.next ∨ x = st.next + 1 → (G x).isState = false := by
      intro x hx
      have nm : (st.add.add.blk x).name = none := by
        rcases hx with rfl | rfl <;> simp [JSt.add, upd]
      have st0 : (st.add.add.blk x).isState = false := by
        rcases hx with rfl | rfl <;> simp [JSt.add, upd]
      have nm1 := (g1.keeps.name x (by omega)).trans nm
      have nm2 := (g2.keeps.name x (by omega)).trans nm1
      have f1 := g1.keeps.flag x (by omega) nm
      have f2 := g2.keeps.flag x (by omega) nm1
      have := F4.flag x (by omega) (by omega)
      unfold AgreesF at this
      rw [(s4i x (by omega)).2.1, nm2] at this
      rw [this]
      simp only
      rw [(s4i x (by omega)).2.2, f2, f1, st0, nb x (by omega), bt_noFlag P.btok x (by omega)]
      rfl
    have E1 : JEnds G (c, (st.blk c).ins.length) (.ifElse q st.next w r.1 (st.next + 1) w' r'.1 r'.2.next) := by
      have := (F4.code c (.inl rfl) (by omega) (by omega)).ends (a := .ifElse q st.next w r.1 (st.next + 1) w' r'.1 r'.2.next)
        (by rw [hst4, ← hz]; simp only [JSt.setAct, upd, if_true])
      have e : (st4.blk c).ins = (st.blk c).ins := by
        have e1 : c ≠ st.next := by omega
        have e2 : c ≠ st.next + 1 := by omega
        rw [(s4i c (by omega)).1, (g2.keeps.other c (by omega) e2).1, (g1.keeps.other c (by omega) e1).1]
        simp [JSt.add, upd, e1, e2]
      rwa [e] at this
    have E2 : JEnds G (r'.1, 0) (.goto r'.2.next) := by
      have := (F4.code r'.1 (.inr (by omega)) (by omega) (by omega)).ends (a := .goto r'.2.next)
        (by rw [hst4, JSt.setAct_other _ _ _ _ (by omega), JSt.setAct_same])
      rwa [(s4i r'.1 (by omega)).1, p6] at this
    have E3 : JEnds G (r.1, 0) (.goto r'.2.next) := by
      have := (F4.code r.1 (.inr (by omega)) (by omega) (by omega)).ends (a := .goto r'.2.next)
        (by rw [hst4, JSt.setAct_other _ _ _ _ (by omega), JSt.setAct_other _ _ _ _ (by omega), JSt.setAct_same])
      rwa [(s4i r.1 (by omega)).1, (g2.keeps.other r.1 hc1 (by omega)).1, q6] at this
    have Ea : (G r'.2.next).isState = false := by
      have := F4.flag r'.2.next (by omega) (by omega)
      unfold AgreesF at this
      rw [ea.2.1, ea.2.2] at this
      exact this
    exact .ifElse E1 (hflag _ (.inl rfl)) (hflag _ (.inr rfl)) q1 q2 q3 (.more q4 q5 (.one E3)) p1 p2 p3 (.more p4 p5 (.one E2)) Ea hk
  | loop q b k ihb ihk =>
    intro bt c st c' st' h P
    have hcur := P.cur
    unfold jBuild at h
    simp only at h
    split at h
    · cases h
    rename_i r h1
    have k0 := ((((JKeeps.refl (c := c) P.lok).add hcur).setAct c (.act (.goto st.next)) (.inl rfl)).add hcur).add hcur
    obtain ⟨st1, hst1⟩ : ∃ x, x = (st.add.setAct c (.act (.goto st.next))).add.add := ⟨_, rfl⟩
    rw [← hst1] at k0 h1
    have hn : st1.next = st.next + 3 := by rw [hst1]; rfl
    have g1 := bracket_gathers (jBuild_gathers b (some (st.next + 2))) (c := st.next + 1) (by rw [hn]; omega) k0.lab h1
    have k1 := JKeeps.trans hcur (.inr (by omega)) k0 g1.keeps
    have hn1 := g1.keeps.next
    have hp1 := g1.place
    have hc1 := g1.cur
    have k3 := (((k1.setAct r.1 (.act (.goto st.next)) (.inr (by omega))).setAct st.next (.act (.loop q (st.next + 1) (st.next + 2)))
      (.inr (le_refl _))).setStateNew st.next (le_refl _))
    obtain ⟨st4, hst4⟩ : ∃ x, x = ((r.2.setAct r.1 (.act (.goto st.next))).setAct st.next (.act (.loop q (st.next + 1) (st.next + 2)))).setState
      st.next := ⟨_, rfl⟩
    rw [← hst4] at h k3
    have hn4 : st4.next = r.2.next := by rw [hst4]; rfl
    have g := jBuild_gathers k bt (st.next + 2) st4 c' st' (by omega) k3.lab h
    have F4 := P.fin.back g.keeps (bt_noFlag P.btok) g.place (by omega) (by omega) (.inr (by omega))
    -- the blocks before the body
    have b1 : ∀ x, x = st.next ∨ x = st.next + 1 ∨ x = st.next + 2 → (st1.blk x).ins = [] ∧ (st1.blk x).name = none ∧ (st1.blk x).isState = false := by
      intro x hx
      have e1 : st.next ≠ c := by omega
      have e2 : st.next + 1 ≠ c := by omega
      have e3 : st.next + 2 ≠ c := by omega
      rw [hst1]
      rcases hx with rfl | rfl | rfl <;> simp [JSt.add, JSt.setAct, upd, e1]
    have s4i : ∀ x, (st4.blk x).ins = (r.2.blk x).ins ∧ (st4.blk x).name = (r.2.blk x).name := by
      intro x
      rw [hst4]
      simp only [JSt.setState_ins, JSt.setState_name, JSt.setAct_ins, JSt.setAct_name, and_self]
    have s4f : ∀ x, x ≠ st.next → (st4.blk x).isState = (r.2.blk x).isState := by
      intro x hx
      rw [hst4, JSt.setState_flag _ _ _ hx]
      simp only [JSt.setAct_flag]
    have s4a : ∀ x, x ≠ st.next → x ≠ r.1 → (st4.blk x).act = (r.2.blk x).act := by
      intro x h1 h2
      rw [hst4, JSt.setState_act, JSt.setAct_other _ _ _ _ h1, JSt.setAct_other _ _ _ _ h2]
    have F3 : JFin G lab J r.2 r.1 st1.next (st.next + 1) := by
      constructor
      · intro x h5 h6
        have := F4.flag x (by omega) (by omega)
        unfold AgreesF at this ⊢
        rw [this, (s4i x).2, s4f x (by omega)]
      · intro x h5 h6 h7
        obtain ⟨hi, a, ha, hg⟩ := F4.code x (by omega) (by omega) (by omega)
        rw [s4a x (by omega) h7] at ha
        exact ⟨hi.trans (s4i x).1, a, ha, hg⟩
      · rw [← (s4i r.1).1, (F4.code r.1 (by omega) (by omega) (by omega)).1]
        exact List.prefix_rfl
    have Ea : (G (st.next + 2)).isState = b.breaks := by
      have := F4.flag (st.next + 2) (by omega) (by omega)
      unfold AgreesF at this
      have hb := b1 (st.next + 2) (by omega)
      have nm := (g1.keeps.name (st.next + 2) (by omega)).trans hb.2.1
      have fl := g1.keeps.flag (st.next + 2) (by omega) hb.2.1
      rw [(s4i _).2, nm] at this
      rw [this]
      simp only
      rw [s4f _ (by omega), fl, hb.2.2]
      simp
    obtain ⟨n, m, q1, q2, q3, q4, q5, q6, q7⟩ := bracket_frag (ihb (some (st.next + 2))) h1 ⟨by omega, k0.lab,
      fun a ha => by cases ha; omega, fun a ha hb => by cases ha; rw [Ea, hb], fun x hx => P.jumps x (by simp [JPrg.jumps, hx]),
      fun l n hl => P.labels l n (mem_labels g.keeps (by rw [hst4]; exact hl)), F3⟩
    rw [(b1 _ (.inr (.inl rfl))).1] at q1
    have hk := ihk bt (st.next + 2) st4 c' st' h ⟨by omega, k3.lab, fun a ha => by have := P.btok a ha; omega,
      fun a ha hb => P.brk a ha (by simpa [JPrg.breaks] using hb), fun x hx => P.jumps x (by simp [JPrg.jumps, hx]), P.labels,
      P.fin.sub (by omega) (.inr (by omega))⟩
    have ia : (st4.blk (st.next + 2)).ins = [] := by
      rw [(s4i _).1, (g1.keeps.other (st.next + 2) (by omega) (by omega)).1, (b1 _ (by omega)).1]
    rw [ia] at hk
    have E1 : JEnds G (c, (st.blk c).ins.length) (.goto st.next) := by
      have o := g1.keeps.other c (by omega) (by omega)
      have e1 : c ≠ st.next := by omega
      have e2 : c ≠ st.next + 1 := by omega
      have e3 : c ≠ st.next + 2 := by omega
      have := (F4.code c (.inl rfl) (by omega) (by omega)).ends (a := .goto st.next)
        (by rw [s4a c (by omega) (by omega), o.2, hst1]; simp [JSt.add, JSt.setAct, upd, e2, e3])
      have e : (st4.blk c).ins = (st.blk c).ins := by
        rw [(s4i c).1, o.1, hst1]; simp [JSt.add, JSt.setAct, upd, e1, e2, e3]
      rwa [e] at this
    have E2 : JEnds G (st.next, 0) (.loop q (st.next + 1) (st.next + 2)) := by
      have o := g1.keeps.other st.next (by omega) (by omega)
      have := (F4.code st.next (.inr (le_refl _)) (by omega) (by omega)).ends (a := .loop q (st.next + 1) (st.next + 2))
        (by rw [hst4, JSt.setState_act, JSt.setAct_same])
      rwa [(s4i _).1, o.1, (b1 _ (.inl rfl)).1] at this
    have E3 : JEnds G (r.1, 0) (.goto st.next) := by
      have := (F4.code r.1 (.inr (by omega)) (by omega) (by omega)).ends (a := .goto st.next)
        (by rw [hst4, JSt.setState_act, JSt.setAct_other _ _ _ _ (by omega), JSt.setAct_same])
      rwa [(s4i _).1, q6] at this
    have Eh : (G st.next).isState = true := by
      have := F4.flag st.next (le_refl _) (by omega)
      unfold AgreesF at this
      have nm := (g1.keeps.name st.next (by omega)).trans (b1 _ (.inl rfl)).2.1
      rw [(s4i _).2, nm] at this
      rw [this]
      simp [hst4, JSt.setState, upd]
    have Ei : (G (st.next + 1)).isState = false := by
      have := F4.flag (st.next + 1) (by omega) (by omega)
      unfold AgreesF at this
      have hb := b1 (st.next + 1) (by omega)
      have nm := (g1.keeps.name (st.next + 1) (by omega)).trans hb.2.1
      have fl := g1.keeps.flag (st.next + 1) (by omega) hb.2.1
      rw [(s4i _).2, nm] at this
      rw [this]
      simp only
      rw [s4f _ (by omega), fl, hb.2.2]
      simp
    exact .loop E1 Eh E2 Ei q1 q2 q3 (.more q4 q5 (.one E3)) Ea hk
  | brk k ih =>
    intro bt c st c' st' h P
    have hcur := P.cur
    unfold jBuild at h
    split at h
    · cases h
    rename_i a
    have k0 := (((JKeeps.refl (c := c) P.lok).setAct c (.act (.goto a)) (.inl rfl)).setState a).add hcur
    have g := jBuild_gathers k (some a) st.next _ c' st' (Nat.lt_succ_self _) k0.lab h
    have hn : ((st.setAct c (.act (.goto a))).setState a).add.next = st.next + 1 := rfl
    have ha := P.btok a rfl
    have F1 := P.fin.back g.keeps (bt_noFlag P.btok) g.place (by omega) (by omega) (.inr (le_refl _))
    have hk := ih (some a) st.next _ c' st' h ⟨by omega, k0.lab, fun a ha => by have := P.btok a ha; omega,
      fun x hx _ => P.brk x hx rfl, P.jumps, P.labels, P.fin.sub (by omega) (.inr (le_refl _))⟩
    have hne : c ≠ st.next := by omega
    have e1 : (((st.setAct c (.act (.goto a))).setState a).add.blk c).act = .act (.goto a) := by
      rw [JSt.add_old _ _ (by exact hne), JSt.setState_act, JSt.setAct_same]
    have e2 : (((st.setAct c (.act (.goto a))).setState a).add.blk c).ins = (st.blk c).ins := by
      rw [JSt.add_old _ _ (by exact hne), JSt.setState_ins, JSt.setAct_ins]
    have := (F1.code c (.inl rfl) (by omega) (by omega)).ends e1
    rw [e2] at this
    exact .brk this (P.brk a rfl rfl) hk

end

end Silice
