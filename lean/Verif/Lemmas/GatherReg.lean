import Verif.Lemmas.GatherFlow
import Verif.Spec.FsmRun

/-! Blocks that come from statements are well structured. -/

set_option autoImplicit false

namespace Silice
variable {B : Type}

/-- The blocks of graph `g` are the blocks `F`, under the names given by `f`; more of them may be states. -/
structure Over (F : Nat → PBlk) (f : Nat → B) (N : Nat) (g : Cfg B) : Prop where
  inj : ∀ m n, m < N → n < N → f m = f n → m = n
  act : ∀ n, n < N → (g.blk (f n)).act = (F n).act.map f
  state : ∀ n, n < N → (F n).isState = true → (g.blk (f n)).isState = true

variable {F : Nat → PBlk} {tops : List Nat} {s : Option Nat} {p : Prg} {bt : Option Nat} {c : Nat} {pre : List PIns} {l lo hi : Nat}
variable {f : Nat → B} {N : Nat} {g g0 : Cfg B} {ff ff0 : B → B} {num : Num B}

namespace Over
variable (O : Over F f N g)
include O

theorem goto {b n : Nat} (hb : b < N) (h : (F b).act = .goto n) : (g.blk (f b)).act = .goto (f n) := by rw [O.act b hb, h]; rfl

theorem ifElse {b q i it e et a : Nat} {x y : Bool} (hb : b < N) (h : (F b).act = .ifElse q i x it e y et a) :
    (g.blk (f b)).act = .ifElse q (f i) x (f it) (f e) y (f et) (f a) := by rw [O.act b hb, h]; rfl

theorem switch {b q a : Nat} {cs : List (Option Nat × Nat)} (hb : b < N) (h : (F b).act = .switch q cs a) :
    (g.blk (f b)).act = .switch q (cs.map fun p => (p.1, f p.2)) (f a) := by rw [O.act b hb, h]; rfl

theorem loop {b q i a : Nat} (hb : b < N) (h : (F b).act = .loop q i a) : (g.blk (f b)).act = .loop q (f i) (f a) := by
  rw [O.act b hb, h]; rfl

theorem wait {b k w n : Nat} (hb : b < N) (h : (F b).act = .wait k w n) : (g.blk (f b)).act = .wait k (f w) (f n) := by
  rw [O.act b hb, h]; rfl

theorem ret {b z : Nat} (hb : b < N) (h : (F b).act = .ret z) : (g.blk (f b)).act = .ret z := by rw [O.act b hb, h]; rfl

theorem call {b t r : Nat} (hb : b < N) (h : (F b).act = .call t r) : (g.blk (f b)).act = .call (f t) (f r) := by
  rw [O.act b hb, h]; rfl

end Over

theorem Reached.plain {b n : B} (h : Reached g ff b) (hc : n ∈ g.children b) (hs : (g.blk n).isState = false) : Reached g ff n := by
  have := Reached.child h hc
  rw [arrive, if_neg (by rw [hs]; simp)] at this
  exact this

theorem Reached.goto {b n : B} (h : Reached g ff b) (ha : (g.blk b).act = .goto n) (hs : (g.blk n).isState = false) : Reached g ff n :=
  h.plain (by simp [Cfg.children, ha]) hs

/-- Statements that fit in a cycle are passed. -/
theorem Frag.pass (h : Frag F tops s p bt c pre l lo hi) (hs : p.stateless = true) (O : Over F f N g)
    (hq : ∀ n, lo ≤ n → n < hi → (g.blk (f n)).isState = false) (hc : c < N) (hN : hi ≤ N) (hr : Reached g ff (f c)) :
    Reached g ff (f l) := by
  induction h with
  | nil => exact hr
  | instr _ ih => exact ih (by rw [Prg.stateless] at hs; exact hs) hq hc hN hr
  | @block b k bt c pre l lo hi m x h1 ha h3 f1 hm h5 f2 hz ih1 ih2 =>
    have r1 := f1.range
    have r2 := f2.range
    rw [Prg.stateless, Bool.and_eq_true] at hs
    have a1 := hr.goto (O.goto hc ha) (hq lo le_rfl (by omega))
    have a2 := ih1 hs.1 (fun n _ _ => hq n (by omega) (by omega)) (by omega) (by omega) a1
    have a3 := a2.goto (O.goto (by omega) hm) (hq x (by omega) (by omega))
    exact ih2 hs.2 (fun n _ _ => hq n (by omega) (by omega)) (by omega) (by omega) a3
  | @ifThen q t k bt c pre l lo hi it a h1 ha f1 hm h4 h5 h6 he h8 h9 h10 f2 hz ih1 ih2 =>
    have r1 := f1.range
    have r2 := f2.range
    rw [Prg.stateless, Bool.and_eq_true] at hs
    have a3 := hr.plain (n := f a) (by simp [Cfg.children, O.ifElse hc ha]) (hq a (by omega) (by omega))
    exact ih2 hs.2 (fun n _ _ => hq n (by omega) (by omega)) (by omega) (by omega) a3
  | @ifElse q t e k bt c pre l lo hi it et m a h1 ha f1 hm h4 h5 f2 he h8 h9 h10 f3 hz ih1 ih2 ih3 =>
    have r1 := f1.range
    have r2 := f2.range
    have r3 := f3.range
    rw [Prg.stateless, Bool.and_eq_true] at hs
    have a3 := hr.plain (n := f a) (by simp [Cfg.children, O.ifElse hc ha]) (hq a (by omega) (by omega))
    exact ih3 hs.2 (fun n _ _ => hq n (by omega) (by omega)) (by omega) (by omega) a3
  | @switch q cs k bt c pre l lo hi x es bb mm h1 ha h3 h4 h5 h6 f1 h7 h8 h9 f2 hz ih1 ih2 =>
    have r2 := f2.range
    have hm := (seq_le (bb := bb) (n := cs.length) (fun j hj => by
      obtain ⟨⟨v, p⟩, hg⟩ := get_of_lt hj
      exact (f1 j v p hg).range.1) 0 (by omega)).2
    rw [Prg.stateless, Bool.and_eq_true] at hs
    have a3 := hr.plain (n := f lo) (by simp [Cfg.children, O.switch hc ha]) (hq lo (by omega) (by omega))
    exact ih2 hs.2 (fun n _ _ => hq n (by omega) (by omega)) (by omega) (by omega) a3
  | _ => simp [Prg.stateless] at hs

/-- In statements that fit in a cycle, the sides of conditionals do, and their ends are reached. -/
theorem Frag.sides (h : Frag F tops s p bt c pre l lo hi) (hs : p.stateless = true) (O : Over F f N g)
    (hq : ∀ n, lo ≤ n → n < hi → (g.blk (f n)).isState = false) (hc : c < N) (hN : hi ≤ N) :
    ∀ x, x = c ∨ (lo ≤ x ∧ x < hi) → x ≠ l → ∀ q i u it e v et a, (F x).act = .ifElse q i u it e v et a →
      u = true ∧ v = true ∧ (Reached g ff (f x) → Reached g ff (f it) ∧ Reached g ff (f et)) := by
  induction h with
  | nil => intro x hx hl; omega
  | instr _ ih => exact ih (by rw [Prg.stateless] at hs; exact hs) hq hc hN
  | @block b k bt c pre l lo hi m x h1 ha h3 f1 hm h5 f2 hz ih1 ih2 =>
    have r1 := f1.range
    have r2 := f2.range
    rw [Prg.stateless, Bool.and_eq_true] at hs
    intro y hy hl q i u it e v et a hact
    by_cases e1 : y = c
    · rw [e1, ha] at hact; cases hact
    by_cases e2 : y = m
    · rw [e2, hm] at hact; cases hact
    by_cases e3 : y < x
    · exact ih1 hs.1 (fun n _ _ => hq n (by omega) (by omega)) (by omega) (by omega) y (by omega) e2 _ _ _ _ _ _ _ _ hact
    · exact ih2 hs.2 (fun n _ _ => hq n (by omega) (by omega)) (by omega) (by omega) y (by omega) hl _ _ _ _ _ _ _ _ hact
  | @ifThen q t k bt c pre l lo hi it a h1 ha f1 hm h4 h5 h6 he h8 h9 h10 f2 hz ih1 ih2 =>
    have r1 := f1.range
    have r2 := f2.range
    rw [Prg.stateless, Bool.and_eq_true] at hs
    have hst : (Prg.block t .nil).stateless = true := by simp [Prg.stateless, hs.1]
    intro y hy hl q' i u it' e v et a' hact
    by_cases e1 : y = c
    · subst e1
      have hact' := hact
      rw [ha] at hact'
      cases hact'
      refine ⟨hs.1, rfl, fun hr => ⟨?_, ?_⟩⟩
      · have hr1 := hr.plain (n := f lo) (by simp [Cfg.children, O.ifElse hc ha]) (hq lo (by omega) (by omega))
        exact f1.pass hst O (fun n _ _ => hq n (by omega) (by omega)) (by omega) (by omega) hr1
      · exact hr.plain (n := f (lo + 1)) (by simp [Cfg.children, O.ifElse hc ha]) (hq _ (by omega) (by omega))
    by_cases e2 : y = it
    · rw [e2, hm] at hact; cases hact
    by_cases e4 : y = lo + 1
    · rw [e4, he] at hact; cases hact
    by_cases e3 : y < a
    · exact ih1 hst (fun n _ _ => hq n (by omega) (by omega)) (by omega) (by omega) y (by omega) e2 _ _ _ _ _ _ _ _ hact
    · exact ih2 hs.2 (fun n _ _ => hq n (by omega) (by omega)) (by omega) (by omega) y (by omega) hl _ _ _ _ _ _ _ _ hact
  | @ifElse q t e k bt c pre l lo hi it et m a h1 ha f1 hm h4 h5 f2 he h8 h9 h10 f3 hz ih1 ih2 ih3 =>
    have r1 := f1.range
    have r2 := f2.range
    have r3 := f3.range
    rw [Prg.stateless, Bool.and_eq_true, Bool.and_eq_true] at hs
    have hst : (Prg.block t .nil).stateless = true := by simp [Prg.stateless, hs.1.1]
    have hse : (Prg.block e .nil).stateless = true := by simp [Prg.stateless, hs.1.2]
    intro y hy hl q' i u it' e' v et' a' hact
    by_cases e1 : y = c
    · subst e1
      have hact' := hact
      rw [ha] at hact'
      cases hact'
      refine ⟨hs.1.1, hs.1.2, fun hr => ⟨?_, ?_⟩⟩
      · have hr1 := hr.plain (n := f lo) (by simp [Cfg.children, O.ifElse hc ha]) (hq lo (by omega) (by omega))
        exact f1.pass hst O (fun n _ _ => hq n (by omega) (by omega)) (by omega) (by omega) hr1
      · have hr1 := hr.plain (n := f (lo + 1)) (by simp [Cfg.children, O.ifElse hc ha]) (hq _ (by omega) (by omega))
        exact f2.pass hse O (fun n _ _ => hq n (by omega) (by omega)) (by omega) (by omega) hr1
    by_cases e2 : y = it
    · rw [e2, hm] at hact; cases hact
    by_cases e4 : y = et
    · rw [e4, he] at hact; cases hact
    by_cases e3 : y = lo ∨ (lo + 2 ≤ y ∧ y < m)
    · exact ih1 hst (fun n _ _ => hq n (by omega) (by omega)) (by omega) (by omega) y e3 e2 _ _ _ _ _ _ _ _ hact
    by_cases e5 : y < a
    · exact ih2 hse (fun n _ _ => hq n (by omega) (by omega)) (by omega) (by omega) y (by omega) e4 _ _ _ _ _ _ _ _ hact
    · exact ih3 hs.2 (fun n _ _ => hq n (by omega) (by omega)) (by omega) (by omega) y (by omega) hl _ _ _ _ _ _ _ _ hact
  | @switch q cs k bt c pre l lo hi x es bb mm h1 ha h3 h4 h5 h6 f1 h7 h8 h9 f2 hz ih1 ih2 =>
    have r2 := f2.range
    have hm := seq_le (bb := bb) (n := cs.length) (fun j hj => by
      obtain ⟨⟨v, p⟩, hg⟩ := get_of_lt hj
      exact (f1 j v p hg).range.1)
    have := (hm 0 (by omega)).2
    rw [Prg.stateless, Bool.and_eq_true] at hs
    intro y hy hl q' i u it' e' v et' a' hact
    by_cases e1 : y = c
    · rw [e1, ha] at hact; cases hact
    by_cases e3 : lo + 1 ≤ y ∧ y < x
    · obtain ⟨j, hj, g1, g2⟩ := seq_cover (bb := bb) (n := cs.length) (x := y) (by omega) (by omega)
      obtain ⟨⟨v, p⟩, hg⟩ := get_of_lt hj
      have r1 := (f1 j v p hg).range
      have := hm j (by omega)
      have := hm (j + 1) hj
      by_cases e4 : y = mm j
      · rw [e4, (h7 j v p hg).1] at hact; cases hact
      · have hst : (Prg.block p .nil).stateless = true := by
          simp [Prg.stateless, (casesStateless_iff cs).mp hs.1 _ (List.mem_of_getElem? hg)]
        exact ih1 j v p hg hst (fun n _ _ => hq n (by omega) (by omega)) (by omega) (by omega) y (by omega) e4 _ _ _ _ _ _ _ _ hact
    · exact ih2 hs.2 (fun n _ _ => hq n (by omega) (by omega)) (by omega) (by omega) y (by omega) hl _ _ _ _ _ _ _ _ hact
  | _ => simp [Prg.stateless] at hs

/-- Statements that fit in a cycle come to their end within the cycle. -/
theorem Frag.fall (h : Frag F tops s p bt c pre l lo hi) (hs : p.stateless = true) (O : Over F f N g)
    (hnum : ∀ b b', Reached g ff b → Reached g ff b' → (num.pid b).isSome = (num.pid b').isSome)
    (hq : ∀ n, lo ≤ n → n < hi → (g.blk (f n)).isState = false) (hc : c < N) (hN : hi ≤ N) (hr : Reached g ff (f c))
    (st : Option B) (k : Bool) (hst : ∀ n, lo ≤ n → n < hi → st ≠ some (f n)) (hl : Reg g num st (f l) k) : Reg g num st (f c) k := by
  induction h generalizing st k with
  | nil => exact hl
  | instr _ ih => exact ih (by rw [Prg.stateless] at hs; exact hs) hq hc hN hr st k hst hl
  | @block b k' bt c pre l lo hi m x h1 ha h3 f1 hm h5 f2 hz ih1 ih2 =>
    have r1 := f1.range
    have r2 := f2.range
    rw [Prg.stateless, Bool.and_eq_true] at hs
    have a1 := hr.goto (O.goto hc ha) (hq lo le_rfl (by omega))
    have a2 := f1.pass hs.1 O (fun n _ _ => hq n (by omega) (by omega)) (by omega) (by omega) a1
    have a3 := a2.goto (O.goto (by omega) hm) (hq x (by omega) (by omega))
    have b3 := ih2 hs.2 (fun n _ _ => hq n (by omega) (by omega)) (by omega) (by omega) a3 st k
      (fun n _ _ => hst n (by omega) (by omega)) hl
    have b2 := Reg.gotoMore (O.goto (by omega) hm) (hq x (by omega) (by omega)) (hst x (by omega) (by omega)) b3
    have b1 := ih1 hs.1 (fun n _ _ => hq n (by omega) (by omega)) (by omega) (by omega) a1 st k
      (fun n _ _ => hst n (by omega) (by omega)) b2
    exact .gotoMore (O.goto hc ha) (hq lo le_rfl (by omega)) (hst lo le_rfl (by omega)) b1
  | @ifThen q t k' bt c pre l lo hi it a h1 ha f1 hm h4 h5 h6 he h8 h9 h10 f2 hz ih1 ih2 =>
    have r1 := f1.range
    have r2 := f2.range
    rw [Prg.stateless, Bool.and_eq_true] at hs
    have hst' : (Prg.block t .nil).stateless = true := by simp [Prg.stateless, hs.1]
    have qa := hq a (by omega) (by omega)
    have ai := hr.plain (n := f lo) (by simp [Cfg.children, O.ifElse hc ha]) (hq lo (by omega) (by omega))
    have ae := hr.plain (n := f (lo + 1)) (by simp [Cfg.children, O.ifElse hc ha]) (hq _ (by omega) (by omega))
    have a3 := hr.plain (n := f a) (by simp [Cfg.children, O.ifElse hc ha]) qa
    have ait := f1.pass hst' O (fun n _ _ => hq n (by omega) (by omega)) (by omega) (by omega) ai
    have b3 := ih2 hs.2 (fun n _ _ => hq n (by omega) (by omega)) (by omega) (by omega) a3 st k
      (fun n _ _ => hst n (by omega) (by omega)) hl
    have b1 := ih1 hst' (fun n _ _ => hq n (by omega) (by omega)) (by omega) (by omega) ai (some (f a)) false
      (fun n _ _ e => by have := O.inj a n (by omega) (by omega) (by simpa using e); omega)
      (.gotoStop (O.goto (by omega) hm) qa)
    exact .ifBoth (O.ifElse hc ha) qa (hnum _ _ ait ae) (hq lo (by omega) (by omega)) b1
      (hq _ (by omega) (by omega)) (.gotoStop (O.goto (by omega) he) qa) (fun e => absurd e (hst a (by omega) (by omega))) (fun _ => b3)
  | @ifElse q t e k' bt c pre l lo hi it et m a h1 ha f1 hm h4 h5 f2 he h8 h9 h10 f3 hz ih1 ih2 ih3 =>
    have r1 := f1.range
    have r2 := f2.range
    have r3 := f3.range
    rw [Prg.stateless, Bool.and_eq_true, Bool.and_eq_true] at hs
    have hst' : (Prg.block t .nil).stateless = true := by simp [Prg.stateless, hs.1.1]
    have hse' : (Prg.block e .nil).stateless = true := by simp [Prg.stateless, hs.1.2]
    have qa := hq a (by omega) (by omega)
    have ai := hr.plain (n := f lo) (by simp [Cfg.children, O.ifElse hc ha]) (hq lo (by omega) (by omega))
    have ae := hr.plain (n := f (lo + 1)) (by simp [Cfg.children, O.ifElse hc ha]) (hq _ (by omega) (by omega))
    have a3 := hr.plain (n := f a) (by simp [Cfg.children, O.ifElse hc ha]) qa
    have ait := f1.pass hst' O (fun n _ _ => hq n (by omega) (by omega)) (by omega) (by omega) ai
    have aet := f2.pass hse' O (fun n _ _ => hq n (by omega) (by omega)) (by omega) (by omega) ae
    have b3 := ih3 hs.2 (fun n _ _ => hq n (by omega) (by omega)) (by omega) (by omega) a3 st k
      (fun n _ _ => hst n (by omega) (by omega)) hl
    have b1 := ih1 hst' (fun n _ _ => hq n (by omega) (by omega)) (by omega) (by omega) ai (some (f a)) false
      (fun n _ _ e => by have := O.inj a n (by omega) (by omega) (by simpa using e); omega)
      (.gotoStop (O.goto (by omega) hm) qa)
    have b2 := ih2 hse' (fun n _ _ => hq n (by omega) (by omega)) (by omega) (by omega) ae (some (f a)) false
      (fun n _ _ e => by have := O.inj a n (by omega) (by omega) (by simpa using e); omega)
      (.gotoStop (O.goto (by omega) he) qa)
    exact .ifBoth (O.ifElse hc ha) qa (hnum _ _ ait aet) (hq lo (by omega) (by omega)) b1
      (hq _ (by omega) (by omega)) b2 (fun e => absurd e (hst a (by omega) (by omega))) (fun _ => b3)
  | @switch q cs k' bt c pre l lo hi x es bb mm h1 ha h3 h4 h5 h6 f1 h7 h8 h9 f2 hz ih1 ih2 =>
    have r2 := f2.range
    have hm := seq_le (bb := bb) (n := cs.length) (fun j hj => by
      obtain ⟨⟨v, p⟩, hg⟩ := get_of_lt hj
      exact (f1 j v p hg).range.1)
    have := (hm 0 (by omega)).2
    rw [Prg.stateless, Bool.and_eq_true] at hs
    have qa := hq lo (by omega) (by omega)
    have a3 := hr.plain (n := f lo) (by simp [Cfg.children, O.switch hc ha]) qa
    have b3 := ih2 hs.2 (fun n _ _ => hq n (by omega) (by omega)) (by omega) (by omega) a3 st k
      (fun n _ _ => hst n (by omega) (by omega)) hl
    have each : ∀ e ∈ es.map (fun p => (p.1, f p.2)), (g.blk e.2).isState = false ∧ Reg g num (some (f lo)) e.2 false := by
      intro e he
      obtain ⟨⟨v, n⟩, hn, rfl⟩ := List.mem_map.mp he
      obtain ⟨j, hj⟩ := List.mem_iff_getElem?.mp hn
      have hlt := (List.getElem?_eq_some_iff.mp hj).1
      rw [h3] at hlt
      obtain ⟨⟨v', p⟩, hg⟩ := get_of_lt hlt
      rw [h4 j v' p hg] at hj
      cases hj
      have r1 := (f1 j _ _ hg).range
      have := hm j (by omega)
      have := hm (j + 1) hlt
      have hst' : (Prg.block p .nil).stateless = true := by
        simp [Prg.stateless, (casesStateless_iff cs).mp hs.1 _ (List.mem_of_getElem? hg)]
      have qb := hq (bb j) (by omega) (by omega)
      have ab := hr.plain (n := f (bb j)) (by
        simp only [Cfg.children, O.switch hc ha, List.mem_append, List.mem_map]
        exact .inl ⟨(_, f (bb j)), ⟨_, hn, rfl⟩, rfl⟩) qb
      exact ⟨qb, ih1 j _ p hg hst' (fun n _ _ => hq n (by omega) (by omega)) (by omega) (by omega) ab (some (f lo)) false
        (fun n _ _ e => by have := O.inj lo n (by omega) (by omega) (by simpa using e); omega)
        (.gotoStop (O.goto (by omega) (h7 j _ p hg).1) qa)⟩
    exact .switchFall (O.switch hc ha) qa (fun e he => (each e he).1) (fun e he => (each e he).2)
      (fun e => absurd e (hst lo (by omega) (by omega))) (fun _ => b3)
  | _ => simp [Prg.stateless] at hs

/-- What is known about the states added to the graph `g0` of the blocks `F`, giving `g`. -/
structure Promoted (F : Nat → PBlk) (f : Nat → B) (N : Nat) (g g0 : Cfg B) (ff ff0 : B → B) (num : Num B) : Prop where
  over : Over F f N g
  over0 : Over F f N g0
  flag0 : ∀ n, n < N → (g0.blk (f n)).isState = (F n).isState
  num : ∀ b, (num.pid b).isSome = true ↔ Reached g ff b
  reached : ∀ b, Reached g ff b → Reached g0 ff0 b
  /-- a block that was made a state follows a conditional that is reached, and there was a reason -/
  why : ∀ n, n < N → (g.blk (f n)).isState = true → (F n).isState = true ∨
    ∃ x q i u it e v et, x < N ∧ Reached g0 ff0 (f x) ∧ (F x).act = .ifElse q i u it e v et n ∧
      ((Reached g0 ff0 (f it) ∧ u = false) ∨ (Reached g0 ff0 (f et) ∧ v = false) ∨ (¬ Reached g0 ff0 (f it) ∧ ¬ Reached g0 ff0 (f et)))
  /-- whenever there is a reason, the block was made a state -/
  when : ∀ x q i u it e v et n, x < N → Reached g0 ff0 (f x) → (F x).act = .ifElse q i u it e v et n → (g.blk (f n)).isState = false →
    (u = true ∨ ¬ Reached g0 ff0 (f it)) ∧ (v = true ∨ ¬ Reached g0 ff0 (f et)) ∧ (Reached g0 ff0 (f it) ∨ Reached g0 ff0 (f et))

variable (P : Promoted F f N g g0 ff ff0 num)
include P

/-- No state is added inside of a part that fits in a cycle. -/
theorem Frag.quiet (h : Frag F tops s p bt c pre l lo hi) (hs : p.stateless = true) (hc : c < N) (hN : hi ≤ N) (hl : ∃ n, (F l).act = .goto n)
    (hf : (F c).isState = false) (hL : Local F c lo hi) : ∀ n, n = c ∨ (lo ≤ n ∧ n < hi) → (g.blk (f n)).isState = false := by
  intro n hn
  by_contra hg
  have hF : (F n).isState = false := by
    rcases hn with rfl | hn
    · exact hf
    · exact h.plain hs n hn.1 hn.2
  rcases P.why n (by omega) (by simpa using hg) with e | ⟨x, q, i, u, it, e, v, et, hx, hr, ha, hw⟩
  · rw [hF] at e; cases e
  · have hin := hL x n (by rw [ha]; rfl) hn
    have hxl : x ≠ l := by
      rintro rfl
      obtain ⟨m, hm⟩ := hl
      rw [ha] at hm
      cases hm
    obtain ⟨h1, h2, h3⟩ := h.sides (ff := ff0) hs P.over0 (fun n h1 h2 => by rw [P.flag0 n (by omega)]; exact h.plain hs n h1 h2) hc hN x hin hxl
      _ _ _ _ _ _ _ _ ha
    have h4 := h3 hr
    rcases hw with ⟨_, e⟩ | ⟨_, e⟩ | ⟨e, _⟩
    · rw [h1] at e; cases e
    · rw [h2] at e; cases e
    · exact e h4.1

theorem cont {st : Option B} {b n : Nat} (hb : b < N) (ha : (F b).act = .goto n) (hst : st ≠ some (f n))
    (h : Reached g ff (f n) → Reg g num st (f n) true) (hr : Reached g ff (f b)) : Reg g num st (f b) true := by
  by_cases hs : (g.blk (f n)).isState = true
  · exact .gotoState (P.over.goto hb ha) hs
  · have hs : (g.blk (f n)).isState = false := by simpa using hs
    exact .gotoMore (P.over.goto hb ha) hs hst (h (hr.goto (P.over.goto hb ha) hs))

/-- A conditional: what comes from its sides and from what follows it. -/
theorem cond {st : Option B} {c q i it e et a : Nat} {u v : Bool} (hc : c < N) (ha : (F c).act = .ifElse q i u it e v et a)
    (hr : Reached g ff (f c))
    (hi : (Reached g ff (f it) → (g.blk (f a)).isState = true) → Reached g ff (f i) → Reg g num (some (f a)) (f i) true)
    (he : (Reached g ff (f et) → (g.blk (f a)).isState = true) → Reached g ff (f e) → Reg g num (some (f a)) (f e) true)
    (hi0 : u = true → (g.blk (f i)).isState = false ∧ (Reached g0 ff0 (f i) → Reached g0 ff0 (f it)) ∧
      (Reached g ff (f i) → Reached g ff (f it) ∧ ((g.blk (f a)).isState = false → Reg g num (some (f a)) (f i) false)))
    (he0 : v = true → (g.blk (f e)).isState = false ∧ (Reached g0 ff0 (f e) → Reached g0 ff0 (f et)) ∧
      (Reached g ff (f e) → Reached g ff (f et) ∧ ((g.blk (f a)).isState = false → Reg g num (some (f a)) (f e) false)))
    (hst : st ≠ some (f a)) (hn : Reached g ff (f a) → Reg g num st (f a) true) : Reg g num st (f c) true := by
  have O := P.over
  have act := O.ifElse hc ha
  have ri : (g.blk (f i)).isState = false → Reached g ff (f i) := fun h => hr.plain (by simp [Cfg.children, act]) h
  have re : (g.blk (f e)).isState = false → Reached g ff (f e) := fun h => hr.plain (by simp [Cfg.children, act]) h
  by_cases hs : (g.blk (f a)).isState = true
  · exact .ifState act hs (fun h => hi (fun _ => hs) (ri h)) (fun h => he (fun _ => hs) (re h))
  · have hs : (g.blk (f a)).isState = false := by simpa using hs
    have ra := hn (hr.plain (by simp [Cfg.children, act]) hs)
    obtain ⟨w1, w2, w3⟩ := P.when c q i u it e v et a hc (P.reached _ hr) ha hs
    cases u with
    | true =>
      obtain ⟨i1, i2, i3⟩ := hi0 rfl
      obtain ⟨i4, i5⟩ := i3 (ri i1)
      cases v with
      | true =>
        obtain ⟨e1, e2, e3⟩ := he0 rfl
        obtain ⟨e4, e5⟩ := e3 (re e1)
        exact .ifBoth act hs (by rw [(P.num _).mpr i4, (P.num _).mpr e4]) i1 (i5 hs) e1 (e5 hs) (fun h => absurd h hst) (fun _ => ra)
      | false =>
        have hd : ¬ Reached g ff (f et) := fun h => (w2.resolve_left (by simp)) (P.reached _ h)
        have hd' : (num.pid (f et)).isSome = false := Bool.eq_false_iff.mpr fun h => hd ((P.num _).mp h)
        exact .ifElseEnds act hs ((P.num _).mpr i4) hd' i1 (i5 hs) (fun h => he (fun h' => absurd h' hd) (re h)) ra
    | false =>
      have hd : ¬ Reached g ff (f it) := fun h => (w1.resolve_left (by simp)) (P.reached _ h)
      have hd' : (num.pid (f it)).isSome = false := Bool.eq_false_iff.mpr fun h => hd ((P.num _).mp h)
      cases v with
      | true =>
        obtain ⟨e1, e2, e3⟩ := he0 rfl
        obtain ⟨e4, e5⟩ := e3 (re e1)
        exact .ifIfEnds act hs hd' ((P.num _).mpr e4) (fun h => hi (fun h' => absurd h' hd) (ri h)) e1 (e5 hs) ra
      | false =>
        exact absurd w3 (by
          rintro (h | h)
          · exact (w1.resolve_left (by simp)) h
          · exact (w2.resolve_left (by simp)) h)

end Silice
