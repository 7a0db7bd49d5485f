import Verif.Lemmas.GatherFrag

/-! The blocks gathered from a sequence of statements have the shape `Frag`. -/

set_option autoImplicit false

namespace Silice

/-- The blocks `F` are those of `st'` as far as the statements gathered from block `c` in `st` are concerned; only the end action of the current
block `l` is still to be known. -/
structure Ext (bt : Option Nat) (c : Nat) (st : PSt) (l : Nat) (st' : PSt) (F : Nat → PBlk) : Prop where
  eq : ∀ n, (n = c ∨ st.next ≤ n) → n < st'.next → n ≠ l → F n = st'.blk n
  last : F l = { st'.blk l with act := (F l).act }
  old : ∀ x n, afterOf (F x).act = some n → (n = c ∨ st.next ≤ n) → n < st'.next → afterOf (st'.blk x).act = some n
  brk : ∀ b, bt = some b → (st'.blk b).isState = true → (F b).isState = true

/-- The claim. -/
def FragAll (p : Prg) : Prop :=
  ∀ bt c st l st' F, Pre bt c st → build p bt c st = some (l, st') → Ext bt c st l st' F →
    Frag F st.tops (st.blk c).sub p bt c (st.blk c).ins l st.next st'.next

variable {bt bt' : Option Nat} {c a l i it : Nat} {st st0 st1 st3 st' : PSt} {F : Nat → PBlk} {k : Prg}

/-- What comes after a statement. -/
theorem Ext.tail (E : Ext bt c st l st' F) (hle : st.next ≤ st1.next) (ha : st.next ≤ a) : Ext bt a st1 l st' F :=
  ⟨fun n h1 h2 h3 => E.eq n (.inr (by omega)) h2 h3, E.last,
    fun x n h1 h2 h3 => E.old x n h1 (.inr (by omega)) h3, E.brk⟩

/-- The blocks of an enclosed sequence, from `i` in `st0` to `it` in `st1`, when `st3` is the state after the statement. -/
structure Inn (bt' : Option Nat) (i : Nat) (st0 : PSt) (it : Nat) (st1 st3 : PSt) : Prop where
  eq : ∀ n, (n = i ∨ st0.next ≤ n) → n < st1.next → n ≠ it → st3.blk n = st1.blk n
  last : st3.blk it = { st1.blk it with act := (st3.blk it).act }
  old : ∀ x n, afterOf (st3.blk x).act = some n → (n = i ∨ st0.next ≤ n) → n < st1.next → afterOf (st1.blk x).act = some n
  brk : ∀ b, bt' = some b → (st1.blk b).isState = true → (st3.blk b).isState = true

theorem Inn.ext (h : Inn bt' i st0 it st1 st3) : Ext bt' i st0 it st1 st3.blk := ⟨h.eq, h.last, h.old, h.brk⟩

theorem Inn.final (h : Inn bt' i st0 it st1 st3) (E : Ext bt c st l st' F) (hp : Pre bt c st) (B : Built k bt a st3 l st')
    (hle : st.next ≤ st0.next) (hi : st.next ≤ i) (hi' : i < st1.next) (hle1 : st1.next ≤ st3.next) (hit : it = i ∨ st0.next ≤ it)
    (hit' : it < st1.next) (ha : a ≠ i ∧ (st0.next ≤ a → st1.next ≤ a)) (ha' : st.next ≤ a) (hbt : bt' = bt ∨ bt' = some a)
    (ha3 : a < st3.next) :
    Ext bt' i st0 it st1 F := by
  have hb : ∀ n, st.next ≤ n → bt ≠ some n := fun n hn e => by have := hp.bound n e; omega
  have hcur := B.cur
  have hle3 := B.grew.le
  have hF : ∀ n, (n = i ∨ st0.next ≤ n) → n < st1.next → F n = st3.blk n := by
    intro n h1 h2
    rw [E.eq n (.inr (by omega)) (by omega) (by omega), B.grew.frame n (by omega) (by omega) (hb n (by omega))]
  refine ⟨fun n h1 h2 h3 => ?_, ?_, fun x n h1 h0 h2 => ?_, fun b h1 h2 => ?_⟩
  · rw [hF n h1 h2, h.eq n h1 h2 h3]
  · rw [hF it hit hit']; exact h.last
  · rcases B.grew.old x n (E.old x n h1 (.inr (by omega)) (by omega)) with e | e
    · exact h.old x n e h0 h2
    · omega
  · have h3 := h.brk b h1 h2
    rcases hbt with e | e
    · rw [e] at h1
      have := hp.bound b h1
      exact E.brk b h1 (B.grew.state b (by omega) h3)
    · rw [e] at h1
      cases h1
      have h4 := B.grew.state a ha3 h3
      by_cases e : a = l
      · rw [e, E.last, ← e]; exact h4
      · rw [E.eq a (.inr ha') (by omega) e]; exact h4

theorem frag_nil : FragAll .nil := by
  intro bt c st l st' F hp h E
  rw [build] at h
  cases h
  exact .nil (by rw [E.last])

theorem frag_instr (i : Nat) (k : Prg) (hk : FragAll k) : FragAll (.instr i k) := by
  intro bt c st l st' F hp h E
  rw [build] at h
  have := hk bt c (st.push c (.plain i)) l st' F (hp.push _) h ⟨E.eq, E.last, E.old, E.brk⟩
  rw [PSt.push_blk, if_pos rfl] at this
  exact .instr this

/-- The block in which a statement starts, once it is known that another block follows. -/
theorem Ext.start (E : Ext bt c st l st' F) (hp : Pre bt c st) (B : Built k bt a st1 l st') (ha : st.next ≤ a) (hle : st.next ≤ st1.next) :
    F c = st1.blk c := by
  have hc := hp.hc
  have hcur := B.cur
  have := B.grew.le
  rw [E.eq c (.inl rfl) (by omega) (by omega), B.grew.frame c (by omega) (by omega) hp.ne]

/-- The block in which the rest starts: its flag. -/
theorem Ext.next (E : Ext bt c st l st' F) (B : Built k bt a st1 l st') (ha : st.next ≤ a) (ha1 : a < st1.next) :
    (F a).isState = ((st1.blk a).isState || k.endsAtRet) ∧ (F a).noSkip = (st1.blk a).noSkip := by
  have := B.grew.le
  have h1 := B.flag
  have h2 := B.grew.noSkip a ha1
  by_cases e : a = l
  · rw [e, E.last, ← e]; exact ⟨h1, h2⟩
  · rw [E.eq a (.inr ha) (by omega) e]; exact ⟨h1, h2⟩

theorem frag_step (k : Prg) (hk : FragAll k) : FragAll (.step k) := by
  intro bt c st l st' F hp h E
  rw [build] at h
  have hc := hp.hc
  have g : Grew st.next bt c (st.blk c).sub st ((((st.add c).setState st.next).setNoSkip st.next).setAct c (.goto st.next)) :=
    (Grew.addStep rfl le_rfl).trans (Grew.goto (.inl rfl) (by simp; omega))
  have hp1 : Pre bt st.next ((((st.add c).setState st.next).setNoSkip st.next).setAct c (.goto st.next)) :=
    ⟨by simp, fun n hn => by have := hp.bound n hn; simp; omega, g.own hp.own⟩
  have B := built_all k bt _ _ l st' hp1 h
  have E1 := E.tail (st1 := (((st.add c).setState st.next).setNoSkip st.next).setAct c (.goto st.next)) g.le le_rfl
  have f := hk bt _ _ l st' F hp1 h E1
  have hs := g.subN st.next le_rfl (by simp)
  have hFc := E.start hp B le_rfl g.le
  have hFn := E.next B le_rfl (by simp)
  have e1 : ((((st.add c).setState st.next).setNoSkip st.next).setAct c (.goto st.next)).blk st.next
      = { sub := (st.blk c).sub, isState := true, noSkip := true } := by
    rw [PSt.setAct_blk, if_neg (by omega), PSt.setNoSkip_blk, if_pos rfl, PSt.setState_blk, if_pos rfl, PSt.add_blk, if_pos rfl]
  have e2 : ((((st.add c).setState st.next).setNoSkip st.next).setAct c (.goto st.next)).blk c
      = { st.blk c with act := .goto st.next } := by
    rw [PSt.setAct_blk, if_pos rfl, PSt.setNoSkip_blk, if_neg (by omega), PSt.setState_blk, if_neg (by omega), PSt.add_blk, if_neg (by omega)]
  rw [e1] at f hFn
  rw [e2] at hFc
  exact .step (by rw [hFc]) (by rw [hFc]) (by rw [hFn.1]; rfl) hFn.2 f

theorem frag_block (b k : Prg) (hb : FragAll b) (hk : FragAll k) : FragAll (.block b k) := by
  intro bt c st l st' F hp h E
  obtain ⟨m, st2, h1, h2⟩ := build_block h
  have hc := hp.hc
  have g1 : Grew st.next bt c (st.blk c).sub st ((st.add c).setAct c (.goto st.next)) :=
    (Grew.add rfl le_rfl).trans (Grew.goto (.inl rfl) (by simp; omega))
  obtain ⟨b2, g2⟩ := Built.within (built_all b) hp.own g1 le_rfl (by simp) (.inl ⟨rfl, hp.bound⟩) h1
  have hle2 : st.next + 1 ≤ st2.next := by simpa using b2.grew.le
  have hm := b2.cur
  have hm' := b2.lt
  simp only [PSt.setAct_next, PSt.add_next] at hm
  have g3 : Grew st.next bt c (st.blk c).sub st2 ((st2.add c).setAct m (.goto st2.next)) := by
    refine (Grew.add ?_ (by omega)).trans (Grew.goto (.inr (by rcases hm with e | e <;> omega)) (by simp; omega))
    rw [g2.sub c hc]
  have g := g2.trans g3
  have hp1 : Pre bt st.next ((st.add c).setAct c (.goto st.next)) :=
    ⟨by simp, fun n hn => by have := hp.bound n hn; simp; omega, g1.own hp.own⟩
  have hp2 : Pre bt st2.next ((st2.add c).setAct m (.goto st2.next)) :=
    ⟨by simp, fun n hn => by have := hp.bound n hn; simp; omega, g.own hp.own⟩
  have B := built_all k bt _ _ l st' hp2 h2
  have e0 : ((st.add c).setAct c (.goto st.next)).blk st.next = { sub := (st.blk c).sub } := by
    rw [PSt.setAct_blk, if_neg (by omega), PSt.add_blk, if_pos rfl]
  have e1 : ∀ n, n < st2.next → n ≠ m → ((st2.add c).setAct m (.goto st2.next)).blk n = st2.blk n := by
    intro n h1 h2
    rw [PSt.setAct_blk, if_neg h2, PSt.add_blk, if_neg (by omega)]
  have e2 : ((st2.add c).setAct m (.goto st2.next)).blk m = { st2.blk m with act := .goto st2.next } := by
    rw [PSt.setAct_blk, if_pos rfl, PSt.add_blk, if_neg (by omega)]
  have e3 : ((st2.add c).setAct m (.goto st2.next)).blk st2.next = { sub := (st.blk c).sub } := by
    rw [PSt.setAct_blk, if_neg (by omega), PSt.add_blk, if_pos rfl, g2.sub c hc]
  have I : Inn bt st.next ((st.add c).setAct c (.goto st.next)) m st2 ((st2.add c).setAct m (.goto st2.next)) := by
    refine ⟨fun n h1 h2 h3 => e1 n h2 h3, by rw [e2], fun x n h1 _ h2 => after_add (after_goto h1), fun b hb hs => ?_⟩
    have := hp.bound b hb
    rw [e1 b (by omega) (by rcases hm with e | e <;> omega)]
    exact hs
  have E1 := I.final E hp B (by simp) le_rfl (by omega) (by simp) (by simpa using hm) hm' ⟨by omega, by simp⟩ (by omega) (.inl rfl) (by simp)
  have f1 := hb bt _ _ m st2 F hp1 h1 E1
  have f2 := hk bt _ _ l st' F hp2 h2 (E.tail g.le (by omega))
  have hFc := E.start hp B (by omega) g.le
  have hFm : F m = ((st2.add c).setAct m (.goto st2.next)).blk m := by
    have hcur := B.cur
    have := B.grew.le
    simp only [PSt.setAct_next, PSt.add_next] at hcur this
    rw [E.eq m (.inr (by rcases hm with e | e <;> omega)) (by omega) (by omega),
      B.grew.frame m (by simp; omega) (by omega) (fun e => by have := hp.bound m e; omega)]
  have hFx := E.next B (by omega) (by simp)
  have hFn : (F st.next).isState = b.endsAtRet ∧ (F st.next).noSkip = false := by
    have hflag := b2.flag
    have hns := b2.grew.noSkip st.next (by simp)
    rw [e0, Bool.false_or] at hflag
    rw [e0] at hns
    by_cases e : st.next = m
    · rw [e, hFm, e2, ← e]; exact ⟨hflag, hns⟩
    · rw [E1.eq st.next (.inl rfl) (by omega) e]; exact ⟨hflag, hns⟩
  rw [e1 c (by omega) (by rcases hm with e | e <;> omega), b2.grew.frame c (by simp; omega) (by omega) hp.ne, PSt.setAct_blk, if_pos rfl,
    PSt.add_blk, if_neg (by omega)] at hFc
  rw [e0] at f1
  rw [e3] at f2 hFx
  rw [e2] at hFm
  have t2 : ((st2.add c).setAct m (.goto st2.next)).tops = st.tops := g.tops
  rw [t2] at f2
  have t1 : ((st.add c).setAct c (.goto st.next)).tops = st.tops := rfl
  rw [t1] at f1
  exact .block (by rw [hFc]) (by rw [hFc]) hFn.1 f1 (by rw [hFm]) (by rw [hFx.1]; rfl) f2 ⟨hFn.2, hFx.2⟩

theorem frag_side {t : Prg} (ht : FragAll t) : FragAll (.block t .nil) := frag_block t .nil ht frag_nil

theorem Built.actOf {p : Prg} (B : Built p bt' i st0 it st1) {x : Nat} (hx : x < st0.next) (hi : x ≠ i) :
    (st1.blk x).act = (st0.blk x).act := by
  rcases B.grew.brkF x hx hi with e | e <;> rw [e]

theorem Ext.local {p : Prg} (E : Ext bt' i st0 it st1 F) (B : Built p bt' i st0 it st1) (ho : Own st0)
    (hi : ∀ x, afterOf (st0.blk x).act ≠ some i) (hi' : i < st0.next) : Local F i st0.next st1.next := by
  intro x n hx hn
  have hle := B.grew.le
  have hn' : n = i ∨ st0.next ≤ n := by omega
  have h1 := E.old x n hx hn' (by omega)
  have h2 := (B.grew.own ho).bound x n h1
  by_cases e : x = i
  · exact .inl e
  · refine .inr ⟨?_, h2.2⟩
    by_contra hlt
    rw [B.actOf (by omega) e] at h1
    have h3 := (ho.bound x n h1).1
    have : n = i := by omega
    exact hi x (this ▸ h1)

/-- A block that is not changed any more. -/
theorem Ext.settled (E : Ext bt c st l st' F) (hp : Pre bt c st) (B : Built k bt a st3 l st') {n : Nat} (h1 : st.next ≤ n)
    (h2 : n < st3.next) (h3 : n ≠ a) : F n = st3.blk n := by
  have hcur := B.cur
  have := B.grew.le
  rw [E.eq n (.inr h1) (by omega) (by omega), B.grew.frame n h2 h3 (fun e => by have := hp.bound n e; omega)]

theorem sideStart_blk (c n : Nat) (st : PSt) (h : n < st.next) : (sideStart c st).blk n = st.blk n := by
  unfold sideStart
  rw [PSt.add_blk, if_neg (by simp; omega), PSt.add_blk, if_neg (by omega)]

theorem sideStart_if (c : Nat) (st : PSt) (_ : c < st.next) : (sideStart c st).blk st.next = { sub := (st.blk c).sub } := by
  unfold sideStart
  rw [PSt.add_blk, if_neg (by simp), PSt.add_blk, if_pos rfl]

theorem sideStart_else (c : Nat) (st : PSt) (hc : c < st.next) : (sideStart c st).blk (st.next + 1) = { sub := (st.blk c).sub } := by
  unfold sideStart
  rw [PSt.add_blk, if_pos (by simp), PSt.add_blk, if_neg (by omega)]

theorem after_sideStart {c x n : Nat} {st : PSt} (h : afterOf ((sideStart c st).blk x).act = some n) : afterOf (st.blk x).act = some n :=
  after_add (after_add h)

theorem sideJoin_blk (c it et n : Nat) (st : PSt) (h : n < st.next) (h1 : n ≠ it) (h2 : n ≠ et) : (sideJoin c it et st).blk n = st.blk n := by
  unfold sideJoin
  rw [PSt.setAct_blk, if_neg h2, PSt.setAct_blk, if_neg h1, PSt.add_blk, if_neg (by omega)]

theorem sideJoin_else (c it et : Nat) (st : PSt) (h : et < st.next) (h1 : it ≠ et) :
    (sideJoin c it et st).blk et = { st.blk et with act := .goto st.next } := by
  unfold sideJoin
  rw [PSt.setAct_blk, if_pos rfl, PSt.setAct_blk, if_neg (fun e => h1 e.symm), PSt.add_blk, if_neg (by omega)]

theorem sideJoin_if (c it et : Nat) (st : PSt) (h : it < st.next) (h1 : it ≠ et) :
    (sideJoin c it et st).blk it = { st.blk it with act := .goto st.next } := by
  unfold sideJoin
  rw [PSt.setAct_blk, if_neg h1, PSt.setAct_blk, if_pos rfl, PSt.add_blk, if_neg (by omega)]

theorem sideJoin_after (c it et : Nat) (st : PSt) (h1 : it ≠ st.next) (h2 : et ≠ st.next) :
    (sideJoin c it et st).blk st.next = { sub := (st.blk c).sub } := by
  unfold sideJoin
  rw [PSt.setAct_blk, if_neg (fun e => h2 e.symm), PSt.setAct_blk, if_neg (fun e => h1 e.symm), PSt.add_blk, if_pos rfl]

theorem sideJoin_state (c it et n : Nat) (st : PSt) (h : n < st.next) :
    ((sideJoin c it et st).blk n).isState = (st.blk n).isState := by
  unfold sideJoin
  simp only [PSt.setAct_blk, PSt.add_blk]
  split_ifs <;> first | omega | (subst_vars; rfl)

theorem ifEnd_blk (q c i it e et n : Nat) (es : PSt → Bool) (st : PSt) (h : n ≠ c) :
    (ifEnd q c i it e et es st).blk n = (sideJoin c it et st).blk n := by
  unfold ifEnd
  rw [PSt.setAct_blk, if_neg h]

theorem ifEnd_cond (q c i it e et : Nat) (es : PSt → Bool) (st : PSt) :
    (ifEnd q c i it e et es st).blk c = { (sideJoin c it et st).blk c with
      act := .ifElse q i ((sideJoin c it et st).isStateless i) it e (es (sideJoin c it et st)) et st.next } := by
  unfold ifEnd
  rw [PSt.setAct_blk, if_pos rfl]

theorem after_ifEnd {q c i it e et x n : Nat} {es : PSt → Bool} {st : PSt}
    (h : afterOf ((ifEnd q c i it e et es st).blk x).act = some n) (hn : n < st.next) : afterOf (st.blk x).act = some n := by
  rcases after_setAct h with ⟨_, h⟩ | ⟨_, h⟩
  · cases h; omega
  · exact after_sideJoin h

theorem frag_ifThen (q : Nat) (t k : Prg) (ht : FragAll t) (hk : FragAll k) : FragAll (.ifThen q t k) := by
  intro bt c st l st' F hp h E
  obtain ⟨it, st1, h1, h2⟩ := build_ifThen h
  have hc := hp.hc
  have g0 : Grew st.next bt c (st.blk c).sub st (sideStart c st) := Grew.sideStart hc rfl le_rfl
  obtain ⟨b1, g1⟩ := Built.within (built_all (.block t .nil)) hp.own g0 le_rfl (by simp) (.inl ⟨rfl, hp.bound⟩) h1
  have hle : st.next + 2 ≤ st1.next := by simpa using b1.grew.le
  have hm := b1.cur
  have hm' := b1.lt
  simp only [sideStart_next] at hm
  have hit : st.next ≤ it := by omega
  have hne : it ≠ st.next + 1 := by omega
  have g2 : Grew st.next bt c (st.blk c).sub st1 (ifEnd q c st.next it (st.next + 1) (st.next + 1) (fun _ => true) st1) :=
    Grew.ifEnd (g1.own hp.own) (by omega) (g1.sub c hc) (by omega) (by omega) hm' (by omega) (by omega)
  have g := g1.trans g2
  have hp0 : Pre bt st.next (sideStart c st) := ⟨by simp, fun n hn => by have := hp.bound n hn; simp; omega, g0.own hp.own⟩
  have hp3 : Pre bt st1.next (ifEnd q c st.next it (st.next + 1) (st.next + 1) (fun _ => true) st1) :=
    ⟨by simp, fun n hn => by have := hp.bound n hn; simp; omega, g.own hp.own⟩
  have B := built_all k bt _ _ l st' hp3 h2
  have join : ∀ X : PSt, (∀ n, n ≠ c → X.blk n = (sideJoin c it (st.next + 1) st1).blk n) →
      (∀ x n, afterOf (X.blk x).act = some n → n < st1.next → afterOf (st1.blk x).act = some n) →
      Inn bt st.next (sideStart c st) it st1 X := by
    intro X hX hold
    refine ⟨fun n n1 n2 n3 => ?_, ?_, fun x n hx _ hn => hold x n hx hn, fun b hb hs => ?_⟩
    · simp only [sideStart_next] at n1
      rw [hX n (by omega), sideJoin_blk c it _ n st1 n2 n3 (by omega)]
    · rw [hX it (by omega), sideJoin_if c it _ st1 hm' hne]
    · have := hp.hb b hb
      rw [hX b (by omega), sideJoin_blk c it _ b st1 (by omega) (by omega) (by omega)]
      exact hs
  have I := join (ifEnd q c st.next it (st.next + 1) (st.next + 1) (fun _ => true) st1) (fun n hn => ifEnd_blk q c _ it _ _ n _ st1 hn)
    (fun x n hx hn => after_ifEnd hx hn)
  have J := join (sideJoin c it (st.next + 1) st1) (fun _ _ => rfl) (fun x n hx hn => after_sideJoin hx)
  have E1 := I.final E hp B (by simp) le_rfl (by omega) (by simp) (by simpa using hm) hm' ⟨by omega, by simp⟩ (by omega) (.inl rfl) (by simp)
  have f1 := frag_side ht bt _ _ it st1 F hp0 h1 E1
  have fj := frag_side ht bt _ _ it st1 _ hp0 h1 J.ext
  have f2 := hk bt _ _ l st' F hp3 h2 (E.tail g.le (by omega))
  have hflag : (st1.blk st.next).isState = false := by
    rw [b1.flag, sideStart_if c st hc]; rfl
  have hjflag : ((sideJoin c it (st.next + 1) st1).blk st.next).isState = false := by
    rw [sideJoin_state c it _ _ st1 (by omega)]; exact hflag
  have hel : st1.blk (st.next + 1) = { sub := (st.blk c).sub } := by
    rw [b1.grew.frame _ (by simp) (by omega) (fun e => by have := hp.bound _ e; omega), sideStart_else c st hc]
  have hsl : (sideJoin c it (st.next + 1) st1).isStateless st.next = t.stateless := by
    refine fj.isStateless_eq hjflag (by rw [sideJoin_if c it _ st1 hm' hne]) ?_ ?_ ?_
    · rw [sideJoin_after c it _ st1 (by omega) (by omega)]
    · rw [sideJoin_after c it _ st1 (by omega) (by omega)]
    · simp; omega
  have hFc := E.start hp B (by omega) g.le
  have hFn : ∀ n, st.next ≤ n → n < st1.next → F n = (sideJoin c it (st.next + 1) st1).blk n := by
    intro n n1 n2
    rw [E.settled hp B n1 (by simp; omega) (by omega), ifEnd_blk q c _ it _ _ n _ st1 (by omega)]
  have hFa := E.next B (by omega) (by simp)
  rw [ifEnd_blk q c _ it _ _ _ _ st1 (by omega), sideJoin_after c it _ st1 (by omega) (by omega)] at hFa f2
  rw [ifEnd_cond, hsl, sideJoin_blk c it _ c st1 (by omega) (by omega) (by omega), b1.grew.frame c (by simp; omega) (by omega) hp.ne,
    sideStart_blk c c st hc] at hFc
  rw [sideStart_if c st hc] at f1
  have t2 : (ifEnd q c st.next it (st.next + 1) (st.next + 1) (fun _ => true) st1).tops = st.tops := g.tops
  rw [t2, g1.sub c hc] at f2
  have t1 : (sideStart c st).tops = st.tops := rfl
  rw [t1] at f1
  refine .ifThen (by rw [hFc]) (by rw [hFc]) f1 ?_ ?_ ?_ ?_ ?_ ?_ ?_ (by rw [hFa.1]; rfl) f2 hFa.2
  · rw [hFn it hit hm', sideJoin_if c it _ st1 hm' hne]
  · rw [hFn st.next le_rfl (by omega)]; exact hjflag
  · exact E1.local b1 hp0.own (fun x hx => hp.own.fresh le_rfl x (after_sideStart hx)) (by simp)
  · rw [hFn _ (by omega) (by omega), sideJoin_else c it _ st1 (by omega) hne, hel]
  · rw [hFn _ (by omega) (by omega), sideJoin_else c it _ st1 (by omega) hne]
  · rw [hFn _ (by omega) (by omega), sideJoin_else c it _ st1 (by omega) hne, hel]
  · intro x n hx hn
    exfalso
    obtain rfl : n = st.next + 1 := by omega
    have hle3 := B.grew.le
    have h3 := E.old x _ hx (.inr (by omega)) (by simp at hle3; omega)
    have h4 : afterOf (st1.blk x).act = some (st.next + 1) := by
      rcases B.grew.old x _ h3 with e | e
      · exact after_ifEnd e (by omega)
      · simp at e; omega
    rcases b1.grew.old x _ h4 with e | e
    · exact hp.own.fresh (by omega) x (after_sideStart e)
    · simp at e

theorem frag_ifElse (q : Nat) (t f k : Prg) (ht : FragAll t) (hf : FragAll f) (hk : FragAll k) : FragAll (.ifElse q t f k) := by
  intro bt c st l st' F hp h E
  obtain ⟨it, st1, et, st2, h1, h2, h3⟩ := build_ifElse h
  have hc := hp.hc
  have g0 : Grew st.next bt c (st.blk c).sub st (sideStart c st) := Grew.sideStart hc rfl le_rfl
  obtain ⟨b1, g1⟩ := Built.within (built_all (.block t .nil)) hp.own g0 le_rfl (by simp) (.inl ⟨rfl, hp.bound⟩) h1
  have hle : st.next + 2 ≤ st1.next := by simpa using b1.grew.le
  obtain ⟨b2, g2⟩ := Built.within (built_all (.block f .nil)) hp.own g1 (show st.next ≤ st.next + 1 by omega) (by omega)
    (.inl ⟨rfl, hp.bound⟩) h2
  have hle2 := b2.grew.le
  have hm := b1.cur
  have hm' := b1.lt
  have hn := b2.cur
  have hn' := b2.lt
  simp only [sideStart_next] at hm
  have hit : st.next ≤ it := by omega
  have hit2 : it < st2.next := by omega
  have het : st.next ≤ et := by omega
  have hne : it ≠ et := by omega
  have g3 : Grew st.next bt c (st.blk c).sub st2 (ifEnd q c st.next it (st.next + 1) et (fun s => s.isStateless (st.next + 1)) st2) :=
    Grew.ifEnd (g2.own hp.own) (by omega) (g2.sub c hc) (by omega) (by omega) (by omega) (by omega) hn'
  have g := g2.trans g3
  have hp0 : Pre bt st.next (sideStart c st) := ⟨by simp, fun n hn => by have := hp.bound n hn; simp; omega, g0.own hp.own⟩
  have hp1 : Pre bt (st.next + 1) st1 := ⟨by omega, fun n hn => by have := hp.bound n hn; omega, g1.own hp.own⟩
  have hp3 : Pre bt st2.next (ifEnd q c st.next it (st.next + 1) et (fun s => s.isStateless (st.next + 1)) st2) :=
    ⟨by simp, fun n hn => by have := hp.bound n hn; simp; omega, g.own hp.own⟩
  have B := built_all k bt _ _ l st' hp3 h3
  have hb2 : ∀ n, st.next ≤ n → n < st1.next → n ≠ st.next + 1 → st2.blk n = st1.blk n := fun n n1 n2 n3 =>
    b2.grew.frame n n2 n3 (fun e => by have := hp.bound n e; omega)
  have joinI : ∀ X : PSt, (∀ n, n ≠ c → X.blk n = (sideJoin c it et st2).blk n) →
      (∀ x n, afterOf (X.blk x).act = some n → n < st2.next → afterOf (st2.blk x).act = some n) →
      Inn bt st.next (sideStart c st) it st1 X := by
    intro X hX hold
    refine ⟨fun n n1 n2 n3 => ?_, ?_, fun x n hx _ hn => ?_, fun b hb hs => ?_⟩
    · simp only [sideStart_next] at n1
      rw [hX n (by omega), sideJoin_blk c it _ n st2 (by omega) n3 (by omega), hb2 n (by omega) n2 (by omega)]
    · rw [hX it (by omega), sideJoin_if c it _ st2 hit2 hne, hb2 it (by omega) hm' (by omega)]
    · rcases b2.grew.old x n (hold x n hx (by omega)) with e | e
      · exact e
      · omega
    · have := hp.hb b hb
      rw [hX b (by omega), sideJoin_blk c it _ b st2 (by omega) (by omega) (by omega)]
      exact b2.grew.state b (by omega) hs
  have joinE : ∀ X : PSt, (∀ n, n ≠ c → X.blk n = (sideJoin c it et st2).blk n) →
      (∀ x n, afterOf (X.blk x).act = some n → n < st2.next → afterOf (st2.blk x).act = some n) →
      Inn bt (st.next + 1) st1 et st2 X := by
    intro X hX hold
    refine ⟨fun n n1 n2 n3 => ?_, ?_, fun x n hx _ hn => hold x n hx hn, fun b hb hs => ?_⟩
    · rw [hX n (by omega), sideJoin_blk c it _ n st2 (by omega) (by omega) (by omega)]
    · rw [hX et (by omega), sideJoin_else c it _ st2 hn' hne]
    · have := hp.hb b hb
      rw [hX b (by omega), sideJoin_blk c it _ b st2 (by omega) (by omega) (by omega)]
      exact hs
  have X1 := fun n (hn : n ≠ c) => ifEnd_blk q c st.next it (st.next + 1) et n (fun s => s.isStateless (st.next + 1)) st2 hn
  have X2 : ∀ x n, afterOf ((ifEnd q c st.next it (st.next + 1) et (fun s => s.isStateless (st.next + 1)) st2).blk x).act = some n →
      n < st2.next → afterOf (st2.blk x).act = some n := fun x n hx hn => after_ifEnd hx hn
  have I1 := joinI _ X1 X2
  have I2 := joinE _ X1 X2
  have J1 := joinI (sideJoin c it et st2) (fun _ _ => rfl) (fun x n hx hn => after_sideJoin hx)
  have J2 := joinE (sideJoin c it et st2) (fun _ _ => rfl) (fun x n hx hn => after_sideJoin hx)
  have E1 := I1.final E hp B (by simp) le_rfl (by omega) (by simp; omega) (by simpa using hm) hm' ⟨by omega, by omega⟩ (by omega) (.inl rfl) (by simp)
  have E2 := I2.final E hp B (by omega) (by omega) (by omega) (by simp) hn hn' ⟨by omega, by simp⟩ (by omega) (.inl rfl) (by simp)
  have f1 := frag_side ht bt _ _ it st1 F hp0 h1 E1
  have fj1 := frag_side ht bt _ _ it st1 _ hp0 h1 J1.ext
  have f2 := frag_side hf bt _ _ et st2 F hp1 h2 E2
  have fj2 := frag_side hf bt _ _ et st2 _ hp1 h2 J2.ext
  have f3 := hk bt _ _ l st' F hp3 h3 (E.tail g.le (by omega))
  have hflag : (st1.blk st.next).isState = false := by
    rw [b1.flag, sideStart_if c st hc]; rfl
  have hel : st1.blk (st.next + 1) = { sub := (st.blk c).sub } := by
    rw [b1.grew.frame _ (by simp) (by omega) (fun e => by have := hp.bound _ e; omega), sideStart_else c st hc]
  have hflag2 : (st2.blk (st.next + 1)).isState = false := by
    rw [b2.flag, hel]; rfl
  have hjflag : ((sideJoin c it et st2).blk st.next).isState = false := by
    rw [sideJoin_state c it _ _ st2 (by omega), hb2 _ le_rfl (by omega) (by omega)]; exact hflag
  have hjflag2 : ((sideJoin c it et st2).blk (st.next + 1)).isState = false := by
    rw [sideJoin_state c it _ _ st2 (by omega)]; exact hflag2
  have hja : (sideJoin c it et st2).blk st2.next = { sub := (st2.blk c).sub } := sideJoin_after c it _ st2 (by omega) (by omega)
  have hsl1 : (sideJoin c it et st2).isStateless st.next = t.stateless := by
    refine fj1.isStateless_eq hjflag (a := st2.next) (by rw [sideJoin_if c it _ st2 hit2 hne]) ?_ ?_ ?_
    · rw [hja]
    · rw [hja]
    · simp; omega
  have hsl2 : (sideJoin c it et st2).isStateless (st.next + 1) = f.stateless := by
    refine fj2.isStateless_eq hjflag2 (a := st2.next) (by rw [sideJoin_else c it _ st2 hn' hne]) ?_ ?_ ?_
    · rw [hja]
    · rw [hja]
    · simp; omega
  have hFc := E.start hp B (by omega) g.le
  have hFn : ∀ n, st.next ≤ n → n < st2.next → F n = (sideJoin c it et st2).blk n := by
    intro n n1 n2
    rw [E.settled hp B n1 (by simp; omega) (by omega), ifEnd_blk q c _ it _ _ n _ st2 (by omega)]
  have hFa := E.next B (by omega) (by simp)
  rw [ifEnd_blk q c _ it _ _ _ _ st2 (by omega), hja] at hFa f3
  rw [ifEnd_cond, hsl1, sideJoin_blk c it _ c st2 (by omega) (by omega) (by omega), b2.grew.frame c (by omega) (by omega) hp.ne,
    b1.grew.frame c (by simp; omega) (by omega) hp.ne, sideStart_blk c c st hc] at hFc
  rw [sideStart_if c st hc] at f1
  rw [hel] at f2
  have t2 : (ifEnd q c st.next it (st.next + 1) et (fun s => s.isStateless (st.next + 1)) st2).tops = st.tops := g.tops
  rw [t2, g2.sub c hc] at f3
  have t1 : (sideStart c st).tops = st.tops := rfl
  rw [t1] at f1
  rw [g1.tops] at f2
  refine .ifElse (by rw [hFc]) (by rw [hFc, ← hsl2]) f1 ?_ ?_ ?_ f2 ?_ ?_ ?_ (by rw [hFa.1]; rfl) f3 hFa.2
  · rw [hFn it hit hit2, sideJoin_if c it _ st2 hit2 hne]
  · rw [hFn st.next le_rfl (by omega)]; exact hjflag
  · exact E1.local b1 hp0.own (fun x hx => hp.own.fresh le_rfl x (after_sideStart hx)) (by simp)
  · rw [hFn et het hn', sideJoin_else c it _ st2 hn' hne]
  · rw [hFn _ (by omega) (by omega)]; exact hjflag2
  · refine E2.local b2 hp1.own (fun x hx => ?_) (by omega)
    rcases b1.grew.old x _ hx with e | e
    · exact hp.own.fresh (by omega) x (after_sideStart e)
    · simp at e

theorem loopStart_blk (c n : Nat) (st : PSt) (h : n < st.next) (hn : n ≠ c) : (loopStart c st).blk n = st.blk n := by
  unfold loopStart
  rw [PSt.add_blk, if_neg (by simp; omega), PSt.add_blk, if_neg (by simp; omega), PSt.setAct_blk, if_neg hn, PSt.add_blk, if_neg (by omega)]

theorem loopStart_cur (c : Nat) (st : PSt) (h : c < st.next) : (loopStart c st).blk c = { st.blk c with act := .goto st.next } := by
  unfold loopStart
  rw [PSt.add_blk, if_neg (by simp; omega), PSt.add_blk, if_neg (by simp; omega), PSt.setAct_blk, if_pos rfl, PSt.add_blk, if_neg (by omega)]

theorem loopStart_new (c n : Nat) (st : PSt) (h : c < st.next) (h1 : st.next ≤ n) (h2 : n < st.next + 3) :
    (loopStart c st).blk n = { sub := (st.blk c).sub } := by
  unfold loopStart
  simp only [PSt.add_blk, PSt.setAct_blk, PSt.add_next, PSt.setAct_next]
  have : c ≠ st.next + 1 := by omega
  have : c ≠ st.next := by omega
  have : n ≠ c := by omega
  obtain rfl | rfl | rfl : n = st.next ∨ n = st.next + 1 ∨ n = st.next + 1 + 1 := by omega
  all_goals simp [*]

theorem loopEnd_blk (q h m n : Nat) (st : PSt) (h1 : n ≠ m) (h2 : n ≠ h) : (loopEnd q h m st).blk n = st.blk n := by
  unfold loopEnd
  rw [PSt.setState_blk, if_neg h2, PSt.setAct_blk, if_neg h2, PSt.setAct_blk, if_neg h1]

theorem loopEnd_last (q h m : Nat) (st : PSt) (h2 : m ≠ h) : (loopEnd q h m st).blk m = { st.blk m with act := .goto h } := by
  unfold loopEnd
  rw [PSt.setState_blk, if_neg h2, PSt.setAct_blk, if_neg h2, PSt.setAct_blk, if_pos rfl]

theorem loopEnd_head (q h m : Nat) (st : PSt) (h2 : m ≠ h) :
    (loopEnd q h m st).blk h = { st.blk h with act := .loop q (h + 1) (h + 2), isState := true } := by
  unfold loopEnd
  rw [PSt.setState_blk, if_pos rfl, PSt.setAct_blk, if_pos rfl, PSt.setAct_blk, if_neg (fun e => h2 e.symm)]

theorem frag_loop (q : Nat) (b k : Prg) (hb : FragAll b) (hk : FragAll k) : FragAll (.loop q b k) := by
  intro bt c st l st' F hp h E
  obtain ⟨m, st1, h1, h2⟩ := build_loop h
  have hc := hp.hc
  have g0 : Grew st.next bt c (st.blk c).sub st (loopStart c st) := Grew.loopStart hc rfl le_rfl
  obtain ⟨b1, g1⟩ := Built.within (built_all (.block b .nil)) hp.own g0 (show st.next ≤ st.next + 1 by omega) (by simp)
    (.inr ⟨st.next + 2, rfl, by omega, by simp, by omega⟩) h1
  have hle : st.next + 3 ≤ st1.next := by simpa using b1.grew.le
  have hm := b1.cur
  have hm' := b1.lt
  simp only [loopStart_next] at hm
  have hfr : ∀ x, afterOf (st1.blk x).act ≠ some (st.next + 2) := by
    intro x hx
    rcases b1.grew.old x _ hx with e | e
    · exact hp.own.fresh (by omega) x (after_loopStart e)
    · simp only [loopStart_next] at e; omega
  have g2 : Grew st.next bt c (st.blk c).sub st1 (loopEnd q st.next m st1) := by
    refine ((Grew.goto (.inr (by omega)) hm').trans (Grew.setAct (.inr le_rfl) (by simp; omega) ?_)).trans
      (Grew.setState (.inr (.inl le_rfl)))
    intro a ha
    cases ha
    exact ⟨by omega, by simp; omega, fun x hx => hfr x (after_goto hx)⟩
  have g := g1.trans g2
  have hp0 : Pre (some (st.next + 2)) (st.next + 1) (loopStart c st) := ⟨by simp, fun n hn => by cases hn; simp, g0.own hp.own⟩
  have hp3 : Pre bt (st.next + 2) (loopEnd q st.next m st1) :=
    ⟨by simp; omega, fun n hn => by have := hp.bound n hn; simp; omega, g.own hp.own⟩
  have B := built_all k bt _ _ l st' hp3 h2
  have I : Inn (some (st.next + 2)) (st.next + 1) (loopStart c st) m st1 (loopEnd q st.next m st1) := by
    refine ⟨fun n n1 n2 n3 => ?_, ?_, fun x n hx h0 hn => ?_, fun b hb hs => ?_⟩
    · simp only [loopStart_next] at n1
      exact loopEnd_blk q _ m n st1 n3 (by omega)
    · rw [loopEnd_last q _ m st1 (by omega)]
    · simp only [loopStart_next] at h0
      unfold loopEnd at hx
      rw [after_setState] at hx
      rcases after_setAct hx with ⟨_, e⟩ | ⟨_, e⟩
      · cases e; omega
      · exact after_goto e
    · cases hb
      rw [loopEnd_blk q _ m _ st1 (by omega) (by omega)]
      exact hs
  have E1 := I.final E hp B (by simp) (by omega) (by omega) (by simp) (by simpa using hm) hm' ⟨by omega, by simp⟩ (by omega) (.inr rfl)
    (by simp; omega)
  have f1 := frag_side hb _ _ _ m st1 F hp0 h1 E1
  have f2 := hk bt _ _ l st' F hp3 h2 (E.tail g.le (by omega))
  have hFc := E.start hp B (by omega) g.le
  rw [loopEnd_blk q _ m c st1 (by omega) (by omega), b1.grew.frame c (by simp; omega) (by omega) (by simp; omega), loopStart_cur c st hc] at hFc
  have hFn : ∀ n, st.next ≤ n → n < st1.next → n ≠ st.next + 2 → F n = (loopEnd q st.next m st1).blk n := fun n n1 n2 n3 =>
    E.settled hp B n1 (by simp; omega) n3
  have hh : st1.blk st.next = { sub := (st.blk c).sub } := by
    rw [b1.grew.frame _ (by simp) (by omega) (by simp), loopStart_new c _ st hc le_rfl (by omega)]
  have hi : (st1.blk (st.next + 1)).isState = false := by
    rw [b1.flag, loopStart_new c _ st hc (by omega) (by omega)]; rfl
  have hi3 : ((loopEnd q st.next m st1).blk (st.next + 1)).isState = false := by
    by_cases e : st.next + 1 = m
    · rw [e, loopEnd_last q _ m st1 (by omega), ← e]; exact hi
    · rw [loopEnd_blk q _ m _ st1 e (by omega)]; exact hi
  have ha : (loopEnd q st.next m st1).blk (st.next + 2) = st1.blk (st.next + 2) := loopEnd_blk q _ m _ st1 (by omega) (by omega)
  have ha1 : (st1.blk (st.next + 2)).sub = (st.blk c).sub := by
    rw [g1.subN _ (by omega) (by omega)]
  have ha2 : (st1.blk (st.next + 2)).ins = [] := by
    rcases b1.grew.brkF (st.next + 2) (by simp) (by omega) with e | e <;> rw [e, loopStart_new c _ st hc (by omega) (by omega)]
  rw [loopStart_new c _ st hc (by omega) (by omega)] at f1
  rw [ha, ha1, ha2] at f2
  have t2 : (loopEnd q st.next m st1).tops = st.tops := g.tops
  rw [t2] at f2
  have t1 : (loopStart c st).tops = st.tops := rfl
  rw [t1] at f1
  have hFa := E.next B (by omega) (by simp; omega)
  rw [ha, b1.brk _ rfl, b1.grew.noSkip _ (by simp), loopStart_new c _ st hc (by omega) (by omega)] at hFa
  refine .loop (by rw [hFc]) (by rw [hFc]) ?_ ?_ ?_ ?_ f1 ?_ f2 ⟨?_, hFa.2, by rw [hFa.1]; simp [Prg.breaks]⟩
  · rw [hFn _ le_rfl (by omega) (by omega), loopEnd_head q _ m st1 (by omega)]
  · rw [hFn _ le_rfl (by omega) (by omega), loopEnd_head q _ m st1 (by omega), hh]
  · rw [hFn _ le_rfl (by omega) (by omega), loopEnd_head q _ m st1 (by omega)]
  · rw [hFn _ (by omega) (by omega) (by omega)]; exact hi3
  · rw [hFn m (by omega) hm' (by omega), loopEnd_last q _ m st1 (by omega)]
  · rw [hFn _ le_rfl (by omega) (by omega), loopEnd_head q _ m st1 (by omega), hh]

theorem frag_brk (k : Prg) (hk : FragAll k) : FragAll (.brk k) := by
  intro bt c st l st' F hp h E
  obtain ⟨b, hb, h1⟩ := build_brk h
  have hc := hp.hc
  have hbc := (hp.hb b hb).2
  have hbn := (hp.hb b hb).1
  have g1 : Grew st.next bt c (st.blk c).sub st ((st.setAct c (.goto b)).setState b) :=
    (Grew.goto (.inl rfl) hc).trans (Grew.setState (.inr (.inr hb)))
  have g : Grew st.next bt c (st.blk c).sub st (((st.setAct c (.goto b)).setState b).add c) := g1.trans (Grew.add (g1.sub c hc) (by simp))
  have hp1 : Pre bt st.next (((st.setAct c (.goto b)).setState b).add c) :=
    ⟨by simp, fun n hn => by have := hp.bound n hn; simp; omega, g.own hp.own⟩
  have B := built_all k bt _ _ l st' hp1 h1
  have f := hk bt _ _ l st' F hp1 h1 (E.tail g.le le_rfl)
  have hFc := E.start hp B le_rfl g.le
  rw [PSt.add_blk, if_neg (by simp; omega), PSt.setState_blk, if_neg (by omega), PSt.setAct_blk, if_pos rfl] at hFc
  have e1 : (((st.setAct c (.goto b)).setState b).add c).blk st.next = { sub := (st.blk c).sub } := by
    rw [PSt.add_blk, if_pos (by simp), g1.sub c hc]
  have hFb : (F b).isState = true := by
    refine E.brk b hb (B.grew.state b (by simp; omega) ?_)
    rw [PSt.add_blk, if_neg (by simp; omega), PSt.setState_blk, if_pos rfl]
  rw [e1] at f
  rw [hb] at f ⊢
  exact .brk (by rw [hFc]) (by rw [hFc]) hFb f

theorem frag_call (s x y : Nat) (o : Bool) (k : Prg) (hk : FragAll k) : FragAll (.call s x y o k) := by
  intro bt c st l st' F hp h E
  obtain ⟨t, ht, h1⟩ := build_call h
  have hc := hp.hc
  have g1 : Grew st.next bt c (st.blk c).sub st (st.push c (.plain x)) := Grew.push (.inl rfl)
  have g2 : Grew st.next bt c (st.blk c).sub st ((((st.push c (.plain x)).add c).setState st.next).setAct c (.call t st.next)) :=
    ((g1.trans (Grew.add (g1.sub c hc) (by simp))).trans (Grew.setState (.inr (.inl le_rfl)))).trans
      (Grew.setAct (.inl rfl) (by simp; omega) (by simp [afterOf]))
  have g : Grew st.next bt c (st.blk c).sub st (((((st.push c (.plain x)).add c).setState st.next).setAct c (.call t st.next)).push st.next
      (.readback y o)) := g2.trans (Grew.push (.inr le_rfl))
  have hp1 : Pre bt st.next (((((st.push c (.plain x)).add c).setState st.next).setAct c (.call t st.next)).push st.next (.readback y o)) :=
    ⟨by simp, fun n hn => by have := hp.bound n hn; simp; omega, g.own hp.own⟩
  have B := built_all k bt _ _ l st' hp1 h1
  have f := hk bt _ _ l st' F hp1 h1 (E.tail g.le le_rfl)
  have hFc := E.start hp B le_rfl g.le
  have hFn := E.next B le_rfl (by simp)
  have e1 : (((((st.push c (.plain x)).add c).setState st.next).setAct c (.call t st.next)).push st.next (.readback y o)).blk st.next
      = { sub := (st.blk c).sub, isState := true, ins := [.readback y o] } := by
    rw [PSt.push_blk, if_pos rfl, PSt.setAct_blk, if_neg (by omega), PSt.setState_blk, if_pos rfl, PSt.add_blk, if_pos (by simp), g1.sub c hc]
    rfl
  rw [PSt.push_blk, if_neg (by omega), PSt.setAct_blk, if_pos rfl, PSt.setState_blk, if_neg (by omega), PSt.add_blk,
    if_neg (by simp; omega), PSt.push_blk, if_pos rfl] at hFc
  rw [e1] at f hFn
  exact .call (by rw [hFc]) ht (by rw [hFc]) (by rw [hFn.1]; rfl) f hFn.2

theorem frag_join (i y : Nat) (o : Bool) (k : Prg) (hk : FragAll k) : FragAll (.join i y o k) := by
  intro bt c st l st' F hp h E
  have h1 := build_join h
  have hc := hp.hc
  have g1 : Grew st.next bt c (st.blk c).sub st (((st.add c).setState st.next).setAct c (.goto st.next)) :=
    ((Grew.add rfl le_rfl).trans (Grew.setState (.inr (.inl le_rfl)))).trans (Grew.goto (.inl rfl) (by simp; omega))
  have g : Grew st.next bt c (st.blk c).sub st (joinMid i y o c st) :=
    (((g1.trans (Grew.add (g1.sub c hc) (by simp))).trans (Grew.setState (.inr (.inl (by omega))))).trans
      (Grew.setAct (.inr le_rfl) (by simp; omega) (by simp [afterOf]))).trans (Grew.push (.inr (by omega)))
  have hp1 : Pre bt (st.next + 1) (joinMid i y o c st) :=
    ⟨by simp [joinMid], fun n hn => by have := hp.bound n hn; simp [joinMid]; omega, g.own hp.own⟩
  have B := built_all k bt _ _ l st' hp1 h1
  have f := hk bt _ _ l st' F hp1 h1 (E.tail g.le (by omega))
  have hFc := E.start hp B (by omega) g.le
  have hFn := E.next B (by omega) (by simp [joinMid])
  have hFw := E.settled hp B (n := st.next) le_rfl (by simp [joinMid]; omega) (by omega)
  have e1 : (joinMid i y o c st).blk (st.next + 1) = { sub := (st.blk c).sub, isState := true, ins := [.readback y o] } := by
    unfold joinMid
    rw [PSt.push_blk, if_pos rfl, PSt.setAct_blk, if_neg (by omega), PSt.setState_blk, if_pos rfl, PSt.add_blk, if_pos (by simp), g1.sub c hc]
    rfl
  have e2 : (joinMid i y o c st).blk c = { st.blk c with act := .goto st.next } := by
    unfold joinMid
    rw [PSt.push_blk, if_neg (by omega), PSt.setAct_blk, if_neg (by omega), PSt.setState_blk, if_neg (by omega), PSt.add_blk,
      if_neg (by simp; omega), PSt.setAct_blk, if_pos rfl, PSt.setState_blk, if_neg (by omega), PSt.add_blk, if_neg (by omega)]
  have e3 : (joinMid i y o c st).blk st.next = { sub := (st.blk c).sub, isState := true, act := .wait i st.next (st.next + 1) } := by
    unfold joinMid
    rw [PSt.push_blk, if_neg (by omega), PSt.setAct_blk, if_pos rfl, PSt.setState_blk, if_neg (by omega), PSt.add_blk,
      if_neg (by simp), PSt.setAct_blk, if_neg (by omega), PSt.setState_blk, if_pos rfl, PSt.add_blk, if_pos rfl]
  rw [e1] at f hFn
  rw [e2] at hFc
  rw [e3] at hFw
  exact .join (by rw [hFc]) (by rw [hFc]) (by rw [hFw]) (by rw [hFw]) (by rw [hFw]) (by rw [hFn.1]; rfl) f ⟨by rw [hFw], hFn.2⟩

theorem frag_ret (k : Prg) (hk : FragAll k) : FragAll (.ret k) := by
  intro bt c st l st' F hp h E
  obtain ⟨s, hs, h1⟩ := build_ret h
  have hc := hp.hc
  have g1 : Grew st.next bt c (st.blk c).sub st (st.setAct c (.ret s)) := Grew.setAct (.inl rfl) hc (by simp [afterOf])
  have g : Grew st.next bt c (st.blk c).sub st (((st.setAct c (.ret s)).add c).setState c) :=
    (g1.trans (Grew.add (g1.sub c hc) (by simp))).trans (Grew.setState (.inl rfl))
  have hp1 : Pre bt st.next (((st.setAct c (.ret s)).add c).setState c) :=
    ⟨by simp, fun n hn => by have := hp.bound n hn; simp; omega, g.own hp.own⟩
  have B := built_all k bt _ _ l st' hp1 h1
  have f := hk bt _ _ l st' F hp1 h1 (E.tail g.le le_rfl)
  have hFc := E.start hp B le_rfl g.le
  rw [PSt.setState_blk, if_pos rfl, PSt.add_blk, if_neg (by simp; omega), PSt.setAct_blk, if_pos rfl] at hFc
  have e1 : (((st.setAct c (.ret s)).add c).setState c).blk st.next = { sub := (st.blk c).sub } := by
    rw [PSt.setState_blk, if_neg (by omega), PSt.add_blk, if_pos (by simp), g1.sub c hc]
  rw [e1] at f
  exact .ret (by rw [hFc]) hs (by rw [hFc]) (by rw [hFc]) f

theorem frag_cases (cs : List (Option Nat × Prg)) (hcs : ∀ p ∈ cs, FragAll p.2) :
    ∀ (bt : Option Nat) (c a : Nat) (st : PSt) (es : List (Option Nat × Nat)) (st' : PSt) (G : Nat → PBlk), c < st.next → a < st.next →
      (∀ n, bt = some n → n < st.next) → Own st → buildCases cs bt c a st = some (es, st') →
      (∀ n, st.next ≤ n → n < st'.next → G n = st'.blk n) →
      (∀ x n, afterOf (G x).act = some n → st.next ≤ n → n < st'.next → afterOf (st'.blk x).act = some n) →
      (∀ b, bt = some b → (st'.blk b).isState = true → (G b).isState = true) →
      ∃ bb mm : Nat → Nat, bb 0 = st.next ∧ bb cs.length = st'.next ∧ es.length = cs.length ∧
        (∀ j v p, cs[j]? = some (v, p) → es[j]? = some (v, bb j)) ∧
        (∀ j v p, cs[j]? = some (v, p) → Frag G st.tops (st.blk c).sub (.block p .nil) bt (bb j) [] (mm j) (bb j + 1) (bb (j + 1))) ∧
        (∀ j v p, cs[j]? = some (v, p) → (G (mm j)).act = .goto a ∧ (G (bb j)).isState = false ∧ Local G (bb j) (bb j + 1) (bb (j + 1))) := by
  induction cs with
  | nil =>
    intro bt c a st es st' G _ _ _ _ h _ _ _
    rw [buildCases] at h
    cases h
    exact ⟨fun _ => st.next, fun _ => 0, rfl, rfl, rfl, by simp, by simp, by simp⟩
  | cons x cs ih =>
    obtain ⟨v, p⟩ := x
    intro bt c a st es st' G hc ha hbt ho h hG hold hbrk
    obtain ⟨m, st1, es', h1, h2, rfl⟩ := build_cons h
    have g0 : Grew st.next bt st.next (st.blk c).sub st (st.add c) := Grew.add rfl le_rfl
    obtain ⟨b1, g1⟩ := Built.within (built_all (.block p .nil)) ho g0 le_rfl (by simp) (.inl ⟨rfl, hbt⟩) h1
    have hle : st.next + 1 ≤ st1.next := by simpa using b1.grew.le
    have hm := b1.cur
    have hm' := b1.lt
    simp only [PSt.add_next] at hm
    have g2 : Grew st.next bt st.next (st.blk c).sub st (st1.setAct m (.goto a)) := g1.trans (Grew.goto (.inr (by omega)) hm')
    have hbt2 : ∀ n, bt = some n → n < (st1.setAct m (.goto a)).next := fun n hn => by have := hbt n hn; simp; omega
    have g3 := (built_cases cs (fun p _ => built_all p.2) bt c a _ es' st' (by simp; omega) hbt2 (g2.own ho) h2).1
    have hle3 : st1.next ≤ st'.next := by simpa using g3.le
    have hbn : ∀ n, st.next ≤ n → bt ≠ some n := fun n hn e => by have := hbt n e; omega
    have hG1 : ∀ n, st.next ≤ n → n < st1.next → G n = (st1.setAct m (.goto a)).blk n := by
      intro n n1 n2
      rw [hG n n1 (by omega), g3.frame n (by simp; omega) (by simp; omega) (hbn n n1)]
    have hGm : G m = { st1.blk m with act := .goto a } := by
      rw [hG1 m (by omega) hm', PSt.setAct_blk, if_pos rfl]
    have hGn : ∀ n, st.next ≤ n → n < st1.next → n ≠ m → G n = st1.blk n := by
      intro n n1 n2 n3
      rw [hG1 n n1 n2, PSt.setAct_blk, if_neg n3]
    have hp0 : Pre bt st.next (st.add c) := ⟨by simp, fun n hn => by have := hbt n hn; simp; omega, g0.own ho⟩
    have E1 : Ext bt st.next (st.add c) m st1 G := by
      refine ⟨fun n n1 n2 n3 => ?_, by rw [hGm], fun x n hx h0 hn => ?_, fun b hb hs => ?_⟩
      · simp only [PSt.add_next] at n1
        exact hGn n (by omega) n2 n3
      · simp only [PSt.add_next] at h0
        rcases g3.old x n (hold x n hx (by omega) (by omega)) with e | e
        · exact after_goto e
        · simp at e; omega
      · have := hbt b hb
        refine hbrk b hb (g3.state b (by simp; omega) ?_)
        rw [PSt.setAct_blk, if_neg (by omega)]
        exact hs
    have e0 : (st.add c).blk st.next = { sub := (st.blk c).sub } := by rw [PSt.add_blk, if_pos rfl]
    have f1 := frag_side (hcs _ List.mem_cons_self) bt _ _ m st1 G hp0 h1 E1
    rw [e0] at f1
    have hflag : (st1.blk st.next).isState = false := by rw [b1.flag, e0]; rfl
    have hflagG : (G st.next).isState = false := by
      by_cases e : st.next = m
      · rw [e, hGm, ← e]; exact hflag
      · rw [hGn _ le_rfl (by omega) e]; exact hflag
    have hloc := E1.local b1 hp0.own (fun x hx => ho.fresh le_rfl x (after_add hx)) (by simp)
    obtain ⟨bb, mm, i0, i1, i2, i3, i4, i5⟩ := ih (fun p hp => hcs p (List.mem_cons_of_mem _ hp)) bt c a _ es' st' G (by simp; omega)
      (by simp; omega) hbt2 (g2.own ho) h2 (fun n n1 n2 => hG n (by simp at n1; omega) n2)
      (fun x n hx n1 n2 => hold x n hx (by simp at n1; omega) n2) hbrk
    rw [g2.sub c hc, g2.tops] at i4
    simp only [PSt.setAct_next] at i0
    refine ⟨fun j => match j with | 0 => st.next | j + 1 => bb j, fun j => match j with | 0 => m | j + 1 => mm j, rfl, by simpa using i1,
      by simp [i2], ?_, ?_, ?_⟩
    · intro j v' p' hj
      cases j with
      | zero => simp at hj; simp [hj]
      | succ j => simp at hj; simpa using i3 j v' p' hj
    · intro j v' p' hj
      cases j with
      | zero =>
        simp at hj
        obtain ⟨rfl, rfl⟩ := hj
        show Frag G st.tops (st.blk c).sub (.block p .nil) bt st.next [] m (st.next + 1) (bb 0)
        rw [i0]
        exact f1
      | succ j => simp at hj; exact i4 j v' p' hj
    · intro j v' p' hj
      cases j with
      | zero =>
        show (G m).act = .goto a ∧ (G st.next).isState = false ∧ Local G st.next (st.next + 1) (bb 0)
        rw [i0]
        exact ⟨by rw [hGm], hflagG, hloc⟩
      | succ j => simp at hj; exact i5 j v' p' hj

theorem frag_switch (q : Nat) (cs : List (Option Nat × Prg)) (k : Prg) (hcs : ∀ p ∈ cs, FragAll p.2) (hk : FragAll k) :
    FragAll (.switch q cs k) := by
  intro bt c st l st' F hp h E
  obtain ⟨es, st1, h1, h2⟩ := build_switch h
  have hc := hp.hc
  have g1 : Grew st.next bt c (st.blk c).sub st (st.add c) := Grew.add rfl le_rfl
  have hbt1 : ∀ n, bt = some n → n < (st.add c).next := fun n hn => by have := hp.bound n hn; simp; omega
  have g2 := (built_cases cs (fun p _ => built_all p.2) bt c st.next (st.add c) es st1 (by simp; omega) hbt1 (g1.own hp.own) h1).1
  rw [g1.sub c hc] at g2
  have hle : st.next + 1 ≤ st1.next := by simpa using g2.le
  have g12 : Grew st.next bt c (st.blk c).sub st st1 := g1.trans (g2.inner g1.le (.inr g1.le) (.inl rfl))
  have hfr : ∀ x, afterOf (st1.blk x).act ≠ some st.next := by
    intro x hx
    rcases g2.old x _ hx with e | e
    · exact hp.own.fresh le_rfl x (after_add e)
    · simp only [PSt.add_next] at e; omega
  have g3 : Grew st.next bt c (st.blk c).sub st1 (st1.setAct c (.switch q es st.next)) := by
    refine Grew.setAct (.inl rfl) (by omega) ?_
    intro a ha
    cases ha
    exact ⟨le_rfl, by omega, hfr⟩
  have g4 : Grew st.next bt c (st.blk c).sub st1 (switchEnd q c st.next es st1) := by
    unfold switchEnd
    split_ifs
    · exact g3
    · exact g3.trans (Grew.setState (.inr (.inl le_rfl)))
  have g := g12.trans g4
  have sw : ∀ n, n ≠ c → n ≠ st.next → (switchEnd q c st.next es st1).blk n = st1.blk n := by
    intro n n1 n2
    unfold switchEnd
    split_ifs
    · rw [PSt.setAct_blk, if_neg n1]
    · rw [PSt.setState_blk, if_neg n2, PSt.setAct_blk, if_neg n1]
  have swc : (switchEnd q c st.next es st1).blk c = { st1.blk c with act := .switch q es st.next } := by
    unfold switchEnd
    split_ifs
    · rw [PSt.setAct_blk, if_pos rfl]
    · rw [PSt.setState_blk, if_neg (by omega), PSt.setAct_blk, if_pos rfl]
  have swo : ∀ x n, afterOf ((switchEnd q c st.next es st1).blk x).act = some n → n ≠ st.next → afterOf (st1.blk x).act = some n := by
    intro x n hx hn
    by_cases e : x = c
    · rw [e, swc] at hx
      simp only [afterOf, Option.some.injEq] at hx
      omega
    · by_cases e2 : x = st.next
      · unfold switchEnd at hx
        split_ifs at hx
        · rw [PSt.setAct_blk, if_neg e] at hx; exact hx
        · rw [after_setState, PSt.setAct_blk, if_neg e] at hx; exact hx
      · rw [sw x e e2] at hx; exact hx
  have ha1 : st1.blk st.next = { sub := (st.blk c).sub } := by
    rw [g2.frame _ (by simp) (by simp) (fun e => by have := hp.bound _ e; omega), PSt.add_blk, if_pos rfl]
  have hcx : c < (st.add c).next := by simp; omega
  -- seen by the compiler
  obtain ⟨bb, mm, i0, i1, i2, i3, i4, i5⟩ := frag_cases cs hcs bt c st.next (st.add c) es st1
    (st1.setAct c (.switch q es st.next)).blk hcx (by simp) hbt1 (g1.own hp.own) h1
    (fun n n1 n2 => by simp at n1; rw [PSt.setAct_blk, if_neg (by omega)])
    (fun x n hx n1 n2 => by
      simp at n1
      rcases after_setAct hx with ⟨_, e⟩ | ⟨_, e⟩
      · cases e; omega
      · exact e)
    (fun b hb hs => by rw [PSt.setAct_blk, if_neg (hp.hb b hb).2]; exact hs)
  have hsl : es.all (fun p => (st1.setAct c (.switch q es st.next)).isStateless p.2) = casesStateless cs := by
    have hmono := seq_le (bb := bb) (n := cs.length) (fun j hj => by
      obtain ⟨⟨v, p⟩, hg⟩ := get_of_lt hj
      exact (i4 j v p hg).range.1)
    have hone : ∀ j v p, cs[j]? = some (v, p) → (st1.setAct c (.switch q es st.next)).isStateless (bb j) = p.stateless := by
      intro j v p hg
      obtain ⟨j1, j2, _⟩ := i5 j v p hg
      have hj : j < cs.length := (List.getElem?_eq_some_iff.mp hg).1
      refine (i4 j v p hg).isStateless_eq j2 j1 ?_ ?_ ?_
      · rw [PSt.setAct_blk, if_neg (by omega), ha1]
      · rw [PSt.setAct_blk, if_neg (by omega), ha1]
      · have := (hmono (j + 1) (by omega)).2
        simp
        omega
    rw [Bool.eq_iff_iff, List.all_eq_true, casesStateless_iff]
    constructor
    · intro hall ⟨v, p⟩ hm
      obtain ⟨j, hj⟩ := List.mem_iff_getElem?.mp hm
      rw [← hone j v p hj]
      exact hall _ (List.mem_of_getElem? (i3 j v p hj))
    · intro hall e he
      obtain ⟨j, hj⟩ := List.mem_iff_getElem?.mp he
      obtain ⟨⟨v, p⟩, hg⟩ := get_of_lt (show j < cs.length by rw [← i2]; exact (List.getElem?_eq_some_iff.mp hj).1)
      rw [i3 j v p hg] at hj
      cases hj
      rw [hone j v p hg]
      exact hall _ (List.mem_of_getElem? hg)
  have swa : (switchEnd q c st.next es st1).blk st.next = { sub := (st.blk c).sub, isState := !casesStateless cs } := by
    unfold switchEnd
    rw [hsl]
    cases casesStateless cs with
    | true => rw [if_pos rfl, PSt.setAct_blk, if_neg (by omega), ha1]; rfl
    | false => rw [if_neg (by simp), PSt.setState_blk, if_pos rfl, PSt.setAct_blk, if_neg (by omega), ha1]; rfl
  have hp3 : Pre bt st.next (switchEnd q c st.next es st1) :=
    ⟨by simp; omega, fun n hn => by have := hp.bound n hn; simp; omega, g.own hp.own⟩
  have B := built_all k bt _ _ l st' hp3 h2
  have hle' : st1.next ≤ st'.next := by simpa using B.grew.le
  have hF : ∀ n, st.next < n → n < st1.next → F n = st1.blk n := by
    intro n n1 n2
    rw [E.settled hp B (by omega) (by simp; omega) (by omega), sw n (by omega) (by omega)]
  have f2 := hk bt _ _ l st' F hp3 h2 (E.tail g.le le_rfl)
  have hFc := E.start hp B le_rfl g.le
  rw [swc, g2.frame c (by simp; omega) (by simp; omega) hp.ne, PSt.add_blk, if_neg (by omega)] at hFc
  have hFa := E.next B le_rfl (by simp; omega)
  obtain ⟨bb', mm', k0, k1, k2, k3, k4, k5⟩ := frag_cases cs hcs bt c st.next (st.add c) es st1 F hcx (by simp) hbt1 (g1.own hp.own) h1
    (fun n n1 n2 => hF n (by simp at n1; omega) n2)
    (fun x n hx n1 n2 => by
      simp at n1
      rcases B.grew.old x n (E.old x n hx (.inr (by omega)) (by omega)) with e | e
      · exact swo x n e (by omega)
      · simp at e; omega)
    (fun b hb hs => by
      have := hp.hb b hb
      refine E.brk b hb (B.grew.state b (by simp; omega) ?_)
      rw [sw b this.2 (by omega)]
      exact hs)
  rw [swa] at f2 hFa
  have t2 : (switchEnd q c st.next es st1).tops = st.tops := g.tops
  rw [t2, switchEnd_next] at f2
  rw [g1.sub c hc] at k4
  refine .switch (bb := bb') (mm := mm') (by rw [hFc]) (by rw [hFc]) k2 k3 k0 k1 k4 k5 ?_ hFa.1 f2 hFa.2
  intro y hy
  have h3 := E.old y _ hy (.inr le_rfl) (by omega)
  rcases B.grew.old y _ h3 with e | e
  · have hc' : afterOf ((switchEnd q c st.next es st1).blk c).act = some st.next := by rw [swc]; rfl
    exact hp3.own.uniq y c _ e hc'
  · simp at e; omega

theorem frag_all (p : Prg) : FragAll p :=
  Prg.ind frag_nil frag_instr frag_step frag_block frag_ifThen frag_ifElse frag_loop frag_brk frag_switch frag_call frag_join frag_ret p

end Silice
