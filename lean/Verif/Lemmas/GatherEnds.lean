import Verif.Lemmas.GatherReg

/-! Blocks that come from statements are well structured: what ends the cycle. -/

set_option autoImplicit false

namespace Silice
variable {B : Type}
variable {F : Nat → PBlk} {tops : List Nat} {s : Option Nat} {p : Prg} {bt : Option Nat} {c : Nat} {pre : List PIns} {l lo hi : Nat}
variable {f : Nat → B} {N : Nat} {g g0 : Cfg B} {ff ff0 : B → B} {num : Num B} (P : Promoted F f N g g0 ff ff0 num)
include P

/-- A part that fits in a cycle, in both graphs. -/
theorem Frag.side {n : Nat} (h : Frag F tops s p bt c pre l lo hi) (hs : p.stateless = true) (hc : c < N) (hN : hi ≤ N) (hl : (F l).act = .goto n)
    (hf : (F c).isState = false) (hL : Local F c lo hi) (hn : n < N) (hno : n < lo ∨ hi ≤ n) :
    (g.blk (f c)).isState = false ∧ (Reached g0 ff0 (f c) → Reached g0 ff0 (f l)) ∧
      (Reached g ff (f c) → Reached g ff (f l) ∧ ((g.blk (f n)).isState = false → Reg g num (some (f n)) (f c) false)) := by
  have hq := h.quiet P hs hc hN ⟨n, hl⟩ hf hL
  have r := h.range
  refine ⟨hq c (.inl rfl), fun hr => ?_, fun hr => ⟨?_, fun hn' => ?_⟩⟩
  · exact h.pass hs P.over0 (fun n h1 h2 => by rw [P.flag0 n (by omega)]; exact h.plain hs n h1 h2) hc hN hr
  · exact h.pass hs P.over (fun n h1 h2 => hq n (.inr ⟨h1, h2⟩)) hc hN hr
  · refine h.fall hs P.over (fun b b' h h' => by rw [(P.num b).mpr h, (P.num b').mpr h']) (fun n h1 h2 => hq n (.inr ⟨h1, h2⟩)) hc hN hr _ _ (fun m h1 h2 e => ?_)
      (.gotoStop (P.over.goto (by omega) hl) hn')
    have := P.over.inj n m hn (by omega) (by simpa using e)
    omega

/-- From the start of the statements, the cycle ends, provided it does from their end. -/
theorem Frag.ends (h : Frag F tops s p bt c pre l lo hi) (hok : p.switchOk = true) (hc : c < N) (hN : hi ≤ N) (hb : ∀ b, bt = some b → b < N)
    (st : Option B) (hst : ∀ n, lo ≤ n → n < hi → st ≠ some (f n)) (hl : Reached g ff (f l) → Reg g num st (f l) true)
    (hr : Reached g ff (f c)) : Reg g num st (f c) true := by
  induction h generalizing st with
  | nil => exact hl hr
  | instr _ ih => exact ih (by rw [Prg.switchOk] at hok; exact hok) hc hN hb st hst hl hr
  | @step k bt c pre l lo hi h1 ha hs h4 f1 ih =>
    have r := f1.range
    exact .gotoState (P.over.goto hc ha) (P.over.state lo (by omega) hs)
  | @block b k bt c pre l lo hi m x h1 ha h3 f1 hm h5 f2 hz ih1 ih2 =>
    have r1 := f1.range
    have r2 := f2.range
    rw [Prg.switchOk, Bool.and_eq_true] at hok
    refine cont P hc ha (hst lo le_rfl (by omega)) (fun hr1 => ?_) hr
    refine ih1 hok.1 (by omega) (by omega) hb st (fun n _ _ => hst n (by omega) (by omega)) (fun hr2 => ?_) hr1
    refine cont P (by omega) hm (hst x (by omega) (by omega)) (fun hr3 => ?_) hr2
    exact ih2 hok.2 (by omega) (by omega) hb st (fun n _ _ => hst n (by omega) (by omega)) hl hr3
  | @ifThen q t k bt c pre l lo hi it a h1 ha f1 hm h4 h5 h6 he h8 h9 h10 f2 hz ih1 ih2 =>
    have r1 := f1.range
    have r2 := f2.range
    rw [Prg.switchOk, Bool.and_eq_true] at hok
    have hno : ∀ n, lo + 2 ≤ n → n < a → some (f a) ≠ some (f n) := fun n _ _ e => by
      have := P.over.inj a n (by omega) (by omega) (by simpa using e)
      omega
    refine cond P hc ha hr (fun hx hi => ?_) (fun hx hi => ?_) (fun hu => ?_) (fun _ => ?_) (hst a (by omega) (by omega)) (fun hra => ?_)
    · exact ih1 (by simp [Prg.switchOk, hok.1]) (by omega) (by omega) hb _ hno
        (fun hm' => .gotoState (P.over.goto (by omega) hm) (hx hm')) hi
    · exact .gotoState (P.over.goto (by omega) he) (hx hi)
    · exact f1.side P (by simp [Prg.stateless, hu]) (by omega) (by omega) hm h4 h5 (by omega) (by omega)
    · have f0 : Frag F tops s .nil bt (lo + 1) [] (lo + 1) (lo + 2) (lo + 2) := .nil h6
      refine f0.side P (by simp [Prg.stateless]) (by omega) (by omega) he h8 (fun x n hx hn => ?_) (by omega) (by omega)
      have := h9 x n hx (by omega)
      omega
    · exact ih2 hok.2 (by omega) (by omega) hb st (fun n _ _ => hst n (by omega) (by omega)) hl hra
  | @ifElse q t e k bt c pre l lo hi it et m a h1 ha f1 hm h4 h5 f2 he h8 h9 h10 f3 hz ih1 ih2 ih3 =>
    have r1 := f1.range
    have r2 := f2.range
    have r3 := f3.range
    rw [Prg.switchOk, Bool.and_eq_true, Bool.and_eq_true] at hok
    have hno : ∀ n, lo + 2 ≤ n → n < a → some (f a) ≠ some (f n) := fun n _ _ e => by
      have := P.over.inj a n (by omega) (by omega) (by simpa using e)
      omega
    refine cond P hc ha hr (fun hx hi => ?_) (fun hx hi => ?_) (fun hu => ?_) (fun hu => ?_) (hst a (by omega) (by omega)) (fun hra => ?_)
    · exact ih1 (by simp [Prg.switchOk, hok.1.1]) (by omega) (by omega) hb _
        (fun n _ _ => hno n (by omega) (by omega)) (fun hm' => .gotoState (P.over.goto (by omega) hm) (hx hm')) hi
    · exact ih2 (by simp [Prg.switchOk, hok.1.2]) (by omega) (by omega) hb _
        (fun n _ _ => hno n (by omega) (by omega)) (fun hm' => .gotoState (P.over.goto (by omega) he) (hx hm')) hi
    · exact f1.side P (by simp [Prg.stateless, hu]) (by omega) (by omega) hm h4 h5 (by omega) (by omega)
    · exact f2.side P (by simp [Prg.stateless, hu]) (by omega) (by omega) he h8 h9 (by omega) (by omega)
    · exact ih3 hok.2 (by omega) (by omega) hb st (fun n _ _ => hst n (by omega) (by omega)) hl hra
  | @loop q b k bt c pre l lo hi m x h1 ha hs h4 hh h6 f1 hm f2 hz ih1 ih2 =>
    have r1 := f1.range
    have r2 := f2.range
    exact .gotoState (P.over.goto hc ha) (P.over.state lo (by omega) hs)
  | @brk k b c pre l lo hi h1 ha hs f1 ih =>
    exact .gotoState (P.over.goto hc ha) (P.over.state b (hb b rfl) hs)
  | @switch q cs k bt c pre l lo hi x es bb mm h1 ha h3 h4 h5 h6 f1 h7 h8 h9 f2 hz ih1 ih2 =>
    have r2 := f2.range
    have hm := seq_le (bb := bb) (n := cs.length) (fun j hj => by
      obtain ⟨⟨v, p⟩, hg⟩ := get_of_lt hj
      exact (f1 j v p hg).range.1)
    have := (hm 0 (by omega)).2
    rw [Prg.switchOk, Bool.and_eq_true, Bool.and_eq_true, casesSwitchOk_iff] at hok
    have act := P.over.switch hc ha
    have hkid : ∀ e ∈ es.map (fun p => (p.1, f p.2)), (g.blk e.2).isState = false → Reached g ff e.2 := fun e he h => by
      refine hr.plain ?_ h
      simp only [Cfg.children, act, List.mem_append, List.mem_map]
      exact .inl ⟨e, List.mem_map.mp he, rfl⟩
    have each : ∀ e ∈ es.map (fun p => (p.1, f p.2)), ∃ j p, j < cs.length ∧ cs[j]? = some (e.1, p) ∧ e.2 = f (bb j) := by
      intro e he
      obtain ⟨⟨v, n⟩, hn, rfl⟩ := List.mem_map.mp he
      obtain ⟨j, hj⟩ := List.mem_iff_getElem?.mp hn
      have hlt := (List.getElem?_eq_some_iff.mp hj).1
      rw [h3] at hlt
      obtain ⟨⟨v', p⟩, hg⟩ := get_of_lt hlt
      rw [h4 j v' p hg] at hj
      cases hj
      exact ⟨j, p, hlt, hg, rfl⟩
    by_cases hs : (g.blk (f lo)).isState = true
    · -- only a conditional makes its following block a state
      have hF : (F lo).isState = true := by
        rcases P.why lo (by omega) hs with e | ⟨x, q', i, u, it, e, v, et, hx, _, ha', _⟩
        · exact e
        · have := h8 x (by rw [ha']; rfl)
          rw [this, ha] at ha'
          cases ha'
      refine .switchState act hs ?_ (fun e he hq => ?_)
      · rw [h9] at hF
        have hd : cs.any (fun p => p.1.isNone) = true := by
          have := hok.1.1
          by_contra hc
          rw [Bool.eq_false_iff.mpr hc, Bool.false_or, Bool.and_eq_true] at this
          simp [this.1] at hF
          simp [hF] at this
        obtain ⟨⟨v, p⟩, hmem, hv⟩ := List.any_eq_true.mp hd
        obtain ⟨j, hj⟩ := List.mem_iff_getElem?.mp hmem
        exact ⟨(v, f (bb j)), List.mem_map.mpr ⟨_, List.mem_of_getElem? (h4 j v p hj), rfl⟩, by simpa using hv⟩
      · obtain ⟨j, p, hlt, hg, he2⟩ := each e he
        have hre := hkid e he hq
        rw [he2] at hre ⊢
        have r1 := (f1 j _ _ hg).range
        have := hm j (by omega)
        have := hm (j + 1) hlt
        refine ih1 j _ p hg (by simp [Prg.switchOk, hok.1.2 _ (List.mem_of_getElem? hg)]) (by omega) (by omega) hb
          _ (fun n _ _ e => ?_)
          (fun _ => .gotoState (P.over.goto (by omega) (h7 j _ p hg).1) hs) hre
        have := P.over.inj lo n (by omega) (by omega) (by simpa using e)
        omega
    · have hs : (g.blk (f lo)).isState = false := by simpa using hs
      have hF : (F lo).isState = false := by
        by_contra hc
        rw [P.over.state lo (by omega) (by simpa using hc)] at hs
        cases hs
      rw [h9, Bool.or_eq_false_iff] at hF
      have hcs : casesStateless cs = true := by simpa using hF.1
      have each' : ∀ e ∈ es.map (fun p => (p.1, f p.2)), (g.blk e.2).isState = false ∧ Reg g num (some (f lo)) e.2 false := by
        intro e he
        obtain ⟨j, p, hlt, hg, he2⟩ := each e he
        have r1 := (f1 j _ _ hg).range
        have := hm j (by omega)
        have := hm (j + 1) hlt
        obtain ⟨g1, g2, g3⟩ := h7 j _ p hg
        have sd := (f1 j _ _ hg).side P (by simp [Prg.stateless, (casesStateless_iff cs).mp hcs _ (List.mem_of_getElem? hg)]) (by omega) (by omega) g1
          g2 g3 (by omega) (by omega)
        rw [← he2] at sd
        exact ⟨sd.1, (sd.2.2 (hkid e he sd.1)).2 hs⟩
      refine .switchFall act hs (fun e he => (each' e he).1) (fun e he => (each' e he).2) (fun e => absurd e (hst lo (by omega) (by omega)))
        (fun _ => ?_)
      exact ih2 hok.2 (by omega) (by omega) hb st (fun n _ _ => hst n (by omega) (by omega)) hl
        (hr.plain (by simp [Cfg.children, act]) hs)
  | call _ _ ha _ f hz ih => exact .call (P.over.call hc ha)
  | @join inst take outs k bt c pre l lo hi h1 ha hs h4 hh h6 f1 hz ih =>
    have r := f1.range
    exact .gotoState (P.over.goto hc ha) (P.over.state lo (by omega) hs)
  | ret _ _ ha _ f ih => exact .ret (P.over.ret hc ha)

omit P in
theorem fst_ne_of {a b : Nat} (O : Over F f N g) (ha : a < N) (hb : b < N) (h : a ≠ b) : some (f a) ≠ some (f b) := fun e =>
  h (O.inj a b ha hb (by simpa using e))

/-- From every block of the statements that is reached, the cycle ends, provided it does from their end. -/
theorem Frag.all (h : Frag F tops s p bt c pre l lo hi) (hok : p.switchOk = true) (hc : c < N) (hN : hi ≤ N) (hb : ∀ b, bt = some b → b < N)
    (hl : Reached g ff (f l) → Reg g num none (f l) true) :
    ∀ b, b = c ∨ (lo ≤ b ∧ b < hi) → Reached g ff (f b) → Reg g num none (f b) true := by
  -- the first block is known already
  suffices h : ∀ b, b ≠ c → (lo ≤ b ∧ b < hi) → Reached g ff (f b) → Reg g num none (f b) true by
    intro b hb' hr
    by_cases e : b = c
    · subst e
      rename_i h0
      exact h0.ends P hok hc hN hb none (by simp) hl hr
    · exact h b e (by omega) hr
  induction h with
  | nil => intro b _ hb'; omega
  | instr _ ih => exact ih (by rw [Prg.switchOk] at hok; exact hok) hc hN hb hl
  | @step k bt c pre l lo hi h1 ha hs h4 f1 ih =>
    rw [Prg.switchOk] at hok
    intro b hb1 hb2 hr
    by_cases e : b = lo
    · subst e
      exact f1.ends P hok (by omega) hN hb none (by simp) hl hr
    · exact ih hok (by omega) hN hb hl b e (by omega) hr
  | @block b k bt c pre l lo hi m x h1 ha h3 f1 hm h5 f2 hz ih1 ih2 =>
    have r1 := f1.range
    have r2 := f2.range
    rw [Prg.switchOk, Bool.and_eq_true] at hok
    have hx := f2.ends P hok.2 (by omega) (by omega) hb none (by simp) hl
    have hm' := cont P (st := none) (by omega) hm (by simp) hx
    intro y _ hy hr
    by_cases e : y = x
    · subst e; exact hx hr
    by_cases e' : y = lo
    · subst e'
      exact f1.ends P hok.1 (by omega) (by omega) hb none (by simp) hm' hr
    by_cases e2 : y < x
    · exact ih1 hok.1 (by omega) (by omega) hb hm' y e' (by omega) hr
    · exact ih2 hok.2 (by omega) (by omega) hb hl y e (by omega) hr
  | @ifThen q t k bt c pre l lo hi it a h1 ha f1 hm h4 h5 h6 he h8 h9 h10 f2 hz ih1 ih2 =>
    have r1 := f1.range
    have r2 := f2.range
    rw [Prg.switchOk, Bool.and_eq_true] at hok
    have hok1 : (Prg.block t .nil).switchOk = true := by simp [Prg.switchOk, hok.1]
    have hx := f2.ends P hok.2 (by omega) (by omega) hb none (by simp) hl
    have hm' := cont P (st := none) (by omega) hm (by simp) hx
    intro y _ hy hr
    by_cases e : y = a
    · subst e; exact hx hr
    by_cases e' : y = lo
    · subst e'
      exact f1.ends P hok1 (by omega) (by omega) hb none (by simp) hm' hr
    by_cases e3 : y = lo + 1
    · subst e3
      exact cont P (by omega) he (by simp) hx hr
    by_cases e2 : y < a
    · exact ih1 hok1 (by omega) (by omega) hb hm' y e' (by omega) hr
    · exact ih2 hok.2 (by omega) (by omega) hb hl y e (by omega) hr
  | @ifElse q t e0 k bt c pre l lo hi it et m a h1 ha f1 hm h4 h5 f2 he h8 h9 h10 f3 hz ih1 ih2 ih3 =>
    have r1 := f1.range
    have r2 := f2.range
    have r3 := f3.range
    rw [Prg.switchOk, Bool.and_eq_true, Bool.and_eq_true] at hok
    have hok1 : (Prg.block t .nil).switchOk = true := by simp [Prg.switchOk, hok.1.1]
    have hok2 : (Prg.block e0 .nil).switchOk = true := by simp [Prg.switchOk, hok.1.2]
    have hx := f3.ends P hok.2 (by omega) (by omega) hb none (by simp) hl
    have hm' := cont P (st := none) (by omega) hm (by simp) hx
    have he' := cont P (st := none) (by omega) he (by simp) hx
    intro y _ hy hr
    by_cases e : y = a
    · subst e; exact hx hr
    by_cases e' : y = lo
    · subst e'
      exact f1.ends P hok1 (by omega) (by omega) hb none (by simp) hm' hr
    by_cases e3 : y = lo + 1
    · subst e3
      exact f2.ends P hok2 (by omega) (by omega) hb none (by simp) he' hr
    by_cases e2 : y < m
    · exact ih1 hok1 (by omega) (by omega) hb hm' y e' (by omega) hr
    by_cases e4 : y < a
    · exact ih2 hok2 (by omega) (by omega) hb he' y e3 (by omega) hr
    · exact ih3 hok.2 (by omega) (by omega) hb hl y e (by omega) hr
  | @loop q b k bt c pre l lo hi m x h1 ha hs h4 hh h6 f1 hm f2 hz ih1 ih2 =>
    have r1 := f1.range
    have r2 := f2.range
    rw [Prg.switchOk, Bool.and_eq_true] at hok
    have hok1 : (Prg.block b .nil).switchOk = true := by simp [Prg.switchOk, hok.1]
    have hlo := P.over.state lo (by omega) hs
    have hx := f2.ends P hok.2 (by omega) (by omega) hb none (by simp) hl
    have hm' : ∀ st, Reg g num st (f m) true := fun st => .gotoState (P.over.goto (by omega) hm) hlo
    have hbt : ∀ b, some (lo + 2) = some b → b < N := by rintro _ ⟨⟩; omega
    intro y _ hy hr
    by_cases e : y = lo
    · subst e
      have act := P.over.loop (by omega) hh
      refine .loop act (fun h => ?_) (fun h => hx (hr.plain (by simp [Cfg.children, act]) h))
      refine f1.ends P hok1 (by omega) (by omega) hbt _ (fun n _ _ => fst_ne_of P.over (by omega) (by omega) (by omega)) (fun _ => hm' _)
        (hr.plain (by simp [Cfg.children, act]) h)
    by_cases e' : y = lo + 1
    · subst e'
      exact f1.ends P hok1 (by omega) (by omega) hbt none (by simp) (fun _ => hm' _) hr
    by_cases e3 : y = lo + 2
    · subst e3; exact hx hr
    by_cases e2 : y < x
    · exact ih1 hok1 (by omega) (by omega) hbt (fun _ => hm' _) y e' (by omega) hr
    · exact ih2 hok.2 (by omega) (by omega) hb hl y e3 (by omega) hr
  | @brk k b c pre l lo hi h1 ha hs f1 ih =>
    rw [Prg.switchOk] at hok
    intro b hb1 hb2 hr
    by_cases e : b = lo
    · subst e
      exact f1.ends P hok (by omega) hN hb none (by simp) hl hr
    · exact ih hok (by omega) hN hb hl b e (by omega) hr
  | @switch q cs k bt c pre l lo hi x es bb mm h1 ha h3 h4 h5 h6 f1 h7 h8 h9 f2 hz ih1 ih2 =>
    have r2 := f2.range
    have hm := seq_le (bb := bb) (n := cs.length) (fun j hj => by
      obtain ⟨⟨v, p⟩, hg⟩ := get_of_lt hj
      exact (f1 j v p hg).range.1)
    have := (hm 0 (by omega)).2
    rw [Prg.switchOk, Bool.and_eq_true, Bool.and_eq_true, casesSwitchOk_iff] at hok
    have hx := f2.ends P hok.2 (by omega) (by omega) hb none (by simp) hl
    intro y _ hy hr
    by_cases e : y = lo
    · subst e; exact hx hr
    by_cases e3 : y < x
    · obtain ⟨j, hj, g1, g2⟩ := seq_cover (bb := bb) (n := cs.length) (x := y) (by omega) (by omega)
      obtain ⟨⟨v, p⟩, hg⟩ := get_of_lt hj
      have r1 := (f1 j v p hg).range
      have := hm j (by omega)
      have := hm (j + 1) hj
      have hok1 : (Prg.block p .nil).switchOk = true := by simp [Prg.switchOk, hok.1.2 _ (List.mem_of_getElem? hg)]
      have hm' := cont P (st := none) (by omega) (h7 j v p hg).1 (by simp) hx
      by_cases e4 : y = bb j
      · subst e4
        exact (f1 j v p hg).ends P hok1 (by omega) (by omega) hb none (by simp) hm' hr
      · exact ih1 j v p hg hok1 (by omega) (by omega) hb hm' y e4 (by omega) hr
    · exact ih2 hok.2 (by omega) (by omega) hb hl y e (by omega) hr
  | @call z give take outs k bt c pre l lo hi t h1 ht ha hs f1 hz ih =>
    rw [Prg.switchOk] at hok
    intro b hb1 hb2 hr
    by_cases e : b = lo
    · subst e
      exact f1.ends P hok (by omega) hN hb none (by simp) hl hr
    · exact ih hok (by omega) hN hb hl b e (by omega) hr
  | @join inst take outs k bt c pre l lo hi h1 ha hs h4 hh h6 f1 hz ih =>
    rw [Prg.switchOk] at hok
    have r := f1.range
    intro b hb1 hb2 hr
    by_cases e : b = lo
    · subst e
      exact .wait (P.over.wait (by omega) hh) (P.over.state _ (by omega) hs) (P.over.state _ (by omega) h6)
    by_cases e : b = lo + 1
    · subst e
      exact f1.ends P hok (by omega) hN hb none (by simp) hl hr
    · exact ih hok (by omega) hN hb hl b e (by omega) hr
  | @ret k bt c pre l lo hi z h1 hz ha hs f1 ih =>
    rw [Prg.switchOk] at hok
    intro b hb1 hb2 hr
    by_cases e : b = lo
    · subst e
      exact f1.ends P hok (by omega) hN hb none (by simp) hl hr
    · exact ih hok (by omega) hN hb hl b e (by omega) hr

omit P in
/-- Control comes to the end of the statements, unless it returns or breaks. `hcall` says that the subroutines called return. -/
theorem Frag.comes (h : Frag F tops s p bt c pre l lo hi) (O : Over F f N g) (hff : IsFF g ff) (hc : c < N) (hN : hi ≤ N)
    (hcall : ∀ b t r, b < N → (F b).act = .call t r → (∃ z : Nat, tops[z]? = some t) → Reached g ff (f b) → Comes g ff (f r))
    (hr : Comes g ff (f c)) :
    Comes g ff (f l) ∨ (∃ z b, s = some z ∧ b < N ∧ (F b).act = .ret z ∧ Reached g ff (f b)) ∨ ∃ b, bt = some b ∧ Comes g ff (f b) := by
  induction h with
  | nil => exact .inl hr
  | instr _ ih => exact ih hc hN hr
  | @step k bt c pre l lo hi h1 ha hs h4 f1 ih =>
    have r := f1.range
    exact ih (by omega) hN (hr.next hff (O.goto hc ha))
  | @block b k bt c pre l lo hi m x h1 ha h3 f1 hm h5 f2 hz ih1 ih2 =>
    have r1 := f1.range
    have r2 := f2.range
    rcases ih1 (by omega) (by omega) (hr.next hff (O.goto hc ha)) with e | e
    · exact ih2 (by omega) hN (e.next hff (O.goto (by omega) hm))
    · exact .inr e
  | @ifThen q t k bt c pre l lo hi it a h1 ha f1 hm h4 h5 h6 he h8 h9 h10 f2 hz ih1 ih2 =>
    have r1 := f1.range
    have r2 := f2.range
    have act := O.ifElse hc ha
    have hr := hr.reached (by rw [act]; simp)
    exact ih2 (by omega) hN (hr.comesChild hff (by simp [Cfg.children, act]))
  | @ifElse q t e0 k bt c pre l lo hi it et m a h1 ha f1 hm h4 h5 f2 he h8 h9 h10 f3 hz ih1 ih2 ih3 =>
    have r1 := f1.range
    have r2 := f2.range
    have r3 := f3.range
    have act := O.ifElse hc ha
    have hr := hr.reached (by rw [act]; simp)
    exact ih3 (by omega) hN (hr.comesChild hff (by simp [Cfg.children, act]))
  | @loop q b k bt c pre l lo hi m x h1 ha hs h4 hh h6 f1 hm f2 hz ih1 ih2 =>
    have r1 := f1.range
    have r2 := f2.range
    have act := O.loop (b := lo) (by omega) hh
    have hr := (hr.next hff (O.goto hc ha)).reached (by rw [act]; simp)
    exact ih2 (by omega) hN (hr.comesChild hff (by simp [Cfg.children, act]))
  | @brk k b c pre l lo hi h1 ha hs f1 ih => exact .inr (.inr ⟨b, rfl, hr.next hff (O.goto hc ha)⟩)
  | @switch q cs k bt c pre l lo hi x es bb mm h1 ha h3 h4 h5 h6 f1 h7 h8 h9 f2 hz ih1 ih2 =>
    have r2 := f2.range
    have hm := seq_le (bb := bb) (n := cs.length) (fun j hj => by
      obtain ⟨⟨v, p⟩, hg⟩ := get_of_lt hj
      exact (f1 j v p hg).range.1)
    have := (hm 0 (by omega)).2
    have act := O.switch hc ha
    have hr := hr.reached (by rw [act]; simp)
    exact ih2 (by omega) hN (hr.comesChild hff (by simp [Cfg.children, act]))
  | @call z give take outs k bt c pre l lo hi t h1 ht ha hs f1 hz ih =>
    have r := f1.range
    have hr := hr.reached (by rw [O.call hc ha]; simp)
    exact ih (by omega) hN (hcall c t lo hc ha ⟨z, ht⟩ hr)
  | @join inst take outs k bt c pre l lo hi h1 ha hs h4 hh h6 f1 hz ih =>
    have r := f1.range
    have act := O.wait (b := lo) (by omega) hh
    have hr := (hr.next hff (O.goto hc ha)).reached (by rw [act]; simp)
    exact ih (by omega) hN (hr.comesChild hff (by simp [Cfg.children, act]))
  | @ret k bt c pre l lo hi z h1 hz ha hs f1 ih =>
    exact .inr (.inl ⟨z, c, hz, hc, ha, hr.reached (by rw [O.ret hc ha]; simp)⟩)

end Silice
