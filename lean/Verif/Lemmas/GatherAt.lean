import Verif.Lemmas.GatherFlags

/-! The blocks of a statement, the blocks that follow it, and which of them are states. -/

set_option autoImplicit false

namespace Silice

/-- What is known about the graph `g` with the states that the compiler makes for unit `u`. -/
structure Comp (u : AlgUnit) (st : PSt) (last n0 l lo : Nat) (g : Cfg (Fin (last + 1))) (ff ff0 : Fin (last + 1) → Fin (last + 1))
    (num : Num (Fin (last + 1))) : Prop where
  U : UnitFrag u st.blk st.tops last n0 l lo
  M : MoreStates (st.cfg last) g
  hff0 : IsFF (st.cfg last) ff0
  hff : IsFF g ff
  P : Promoted st.blk (Fin.ofNat (last + 1)) (last + 1) g (st.cfg last) ff ff0 num
  tidy : u.tidy = true

/-- Statements `p` start in block `c`, which already has instructions `pre`, and end in block `l`; `break` goes to `bt` and `return` leaves `s`. -/
def At (st : PSt) (last : Nat) (s : Option Nat) (p : Prg) (bt : Option Nat) (c : Nat) (pre : List PIns) (l : Nat) : Prop :=
  ∃ tops' lo hi, (∀ z t : Nat, tops'[z]? = some t → st.tops[z]? = some t) ∧ Frag st.blk tops' s p bt c pre l lo hi ∧
    Inlet st.blk st.tops (last + 1) bt c l lo hi ∧ p.tidy = true ∧ c < last + 1

/-- Names of blocks. -/
abbrev nm (last : Nat) (n : Nat) : Fin (last + 1) := Fin.ofNat (last + 1) n

/-- The graph with the states the rule for conditionals gives. -/
noncomputable abbrev ruled (st : PSt) (last : Nat) (ff0 : Fin (last + 1) → Fin (last + 1)) (g : Cfg (Fin (last + 1))) : Cfg (Fin (last + 1)) :=
  withRule st.blk (Fin.ofNat (last + 1)) (last + 1) (st.cfg last) ff0 g

section
variable {u : AlgUnit} {st : PSt} {last n0 l0 lo0 : Nat} {g : Cfg (Fin (last + 1))} {ff ff0 : Fin (last + 1) → Fin (last + 1)}
  {num : Num (Fin (last + 1))} (C : Comp u st last n0 l0 lo0 g ff ff0 num)
  {s : Option Nat} {p t e k b : Prg} {bt : Option Nat} {c l : Nat} {pre : List PIns}

/-- Block `n` is a state. -/
def Ruled (st : PSt) (last : Nat) (ff0 : Fin (last + 1) → Fin (last + 1)) (g : Cfg (Fin (last + 1))) (n : Nat) (b : Bool) : Prop :=
  ((ruled st last ff0 g).blk (nm last n)).isState = b

theorem nm_val {n : Nat} (h : n < last + 1) : ((nm last n : Fin (last + 1)) : Nat) = n := Nat.mod_eq_of_lt h

section
include C

theorem Comp.act {n : Nat} (h : n < last + 1) : ((ruled st last ff0 g).blk (nm last n)).act = (st.blk n).act.map (nm last) := by
  rw [withRule_more.act, C.M.act, cfg_blk n h]

theorem Comp.empty {n : Nat} (h : n < last + 1) : ((ruled st last ff0 g).blk (nm last n)).empty = insEmpty (st.blk n).ins := by
  rw [withRule_more.blk, C.M.blk, cfg_blk n h]

theorem Comp.noSkip {n : Nat} (h : n < last + 1) : ((ruled st last ff0 g).blk (nm last n)).noSkip = (st.blk n).noSkip := by
  rw [withRule_more.blk, C.M.blk, cfg_blk n h]

theorem Comp.plain {n : Nat} (h : n < last + 1) (hi : NoIf st.blk (last + 1) n) : Ruled st last ff0 g n (st.blk n).isState := rule_plain C.P h hi

theorem Comp.state {n : Nat} (h : n < last + 1) (hs : (st.blk n).isState = true) : Ruled st last ff0 g n true :=
  (withRule_state _).mpr (.inl (C.P.over.state n h hs))

theorem Comp.goto {b n : Nat} (hb : b < last + 1) (ha : (st.blk b).act = .goto n) (hw : Walked (st.cfg last) (nm last b)) :
    Walked (st.cfg last) (nm last n) := .child hw (by simp only [Cfg.children, C.P.over0.goto hb ha, List.mem_singleton])

theorem Comp.reached {b : Nat} (hb : b < last + 1) (ha : ∀ n, (st.blk b).act ≠ .goto n) (hw : Walked (st.cfg last) (nm last b)) :
    Reached (st.cfg last) ff0 (nm last b) := by
  refine hw.reached (fsm := 0) C.hff0 (fun _ => rfl) (fun n hn => ?_)
  rw [C.P.over0.act b hb] at hn
  cases h : (st.blk b).act with
  | goto m => exact ha m h
  | _ => rw [h] at hn; cases hn

/-- Statements that come to their end. -/
theorem Comp.walks {tops' : List Nat} {lo hi : Nat} (h : Frag st.blk tops' s p bt c pre l lo hi)
    (hc : c < last + 1) (hN : hi ≤ last + 1) (hp : p.canEnd = true)
    (hw : Walked (st.cfg last) (nm last c)) : Walked (st.cfg last) (nm last l) :=
  h.walks C.P.over0 hc hN (fun _ _ _ hb ha _ hw => walk_call C.U C.hff0 hb ha hw) hp hw

/-- Statements that do not. -/
theorem Comp.dead {tops' : List Nat} {lo hi : Nat} (h : Frag st.blk tops' s p bt c pre l lo hi) (I : Inlet st.blk st.tops (last + 1) bt c l lo hi)
    (ht : p.tidy = true) (hp : p.canEnd = false) : ¬ Walked (st.cfg last) (nm last l) :=
  h.dead (D := fun n => Walked (st.cfg last) (nm last n)) (fun _ h1 h2 h3 h4 => walk_pred C.U h1 h2 h3 h4) I ht hp

end

theorem At.nil (h : At st last s .nil bt c pre l) : l = c ∧ (st.blk c).ins = pre := by
  obtain ⟨_, _, _, _, f, _⟩ := h
  cases f with
  | nil h => exact ⟨rfl, h⟩

theorem At.lt (h : At st last s p bt c pre l) : c < last + 1 ∧ l < last + 1 := by
  obtain ⟨_, _, _, _, f, I, _, hc⟩ := h
  have := f.range
  have := I.le
  omega

theorem At.instr {i : Nat} (h : At st last s (.instr i k) bt c pre l) : At st last s k bt c (pre ++ [.plain i]) l := by
  obtain ⟨tops', lo, hi, ht, f, I, hp, hc⟩ := h
  cases f with
  | instr f => exact ⟨tops', lo, hi, ht, f, I, by rw [Prg.tidy] at hp; exact hp, hc⟩

theorem At.step (h : At st last s (.step k) bt c pre l) : ∃ x, (st.blk c).ins = pre ∧ (st.blk c).act = .goto x ∧ x < last + 1 ∧
    (st.blk x).isState = true ∧ (st.blk x).noSkip = true ∧ At st last s k bt x [] l := by
  obtain ⟨tops', lo, hi, ht, f, I, hp, hc⟩ := h
  cases f with
  | step h1 ha hs h4 f =>
    have r := f.range
    have := I.le
    rw [Prg.tidy] at hp
    exact ⟨lo, h1, ha, by omega, hs, h4, tops', _, _, ht, f, I.step ha f, hp, by omega⟩

theorem At.call {z give take : Nat} {outs : Bool} (h : At st last s (.call z give take outs k) bt c pre l) : ∃ t r,
    (st.blk c).ins = pre ++ [.plain give] ∧ st.tops[z]? = some t ∧ (st.blk c).act = .call t r ∧ r < last + 1 ∧ (st.blk r).isState = true ∧
    (st.blk r).noSkip = false ∧ At st last s k bt r [.readback take outs] l := by
  obtain ⟨tops', lo, hi, ht, f, I, hp, hc⟩ := h
  cases f with
  | call h1 hz ha hs f hsk =>
    have r := f.range
    have := I.le
    rw [Prg.tidy] at hp
    exact ⟨_, lo, h1, ht _ _ hz, ha, by omega, hs, hsk, tops', _, _, ht, f, I.call ha f, hp, by omega⟩

theorem At.join {inst take : Nat} {outs : Bool} (h : At st last s (.join inst take outs k) bt c pre l) : ∃ w,
    (st.blk c).ins = pre ∧ (st.blk c).act = .goto w ∧ w + 1 < last + 1 ∧ (st.blk w).isState = true ∧ (st.blk w).noSkip = false ∧
    (st.blk w).ins = [] ∧ (st.blk w).act = .wait inst w (w + 1) ∧ (st.blk (w + 1)).isState = true ∧ (st.blk (w + 1)).noSkip = false ∧
    At st last s k bt (w + 1) [.readback take outs] l := by
  obtain ⟨tops', lo, hi, ht, f, I, hp, hc⟩ := h
  cases f with
  | join h1 ha hs h4 hh h6 f hsk =>
    have r := f.range
    have := I.le
    rw [Prg.tidy] at hp
    exact ⟨lo, h1, ha, by omega, hs, hsk.1, h4, hh, h6, hsk.2, tops', _, _, ht, f, I.join ha hh f, hp, by omega⟩

theorem At.ret (h : At st last s (.ret k) bt c pre l) : ∃ z, s = some z ∧ (st.blk c).ins = pre ∧ (st.blk c).act = .ret z := by
  obtain ⟨_, _, _, _, f, _⟩ := h
  cases f with
  | ret h1 hz ha => exact ⟨_, hz, h1, ha⟩

theorem At.brk (h : At st last s (.brk k) bt c pre l) : ∃ b, bt = some b ∧ (st.blk c).ins = pre ∧ (st.blk c).act = .goto b ∧
    (st.blk b).isState = true := by
  obtain ⟨_, _, _, _, f, _⟩ := h
  cases f with
  | brk h1 ha hs => exact ⟨_, rfl, h1, ha, hs⟩

theorem At.notRet (h : At st last none p bt c pre l) : p.endsAtRet = false := by
  obtain ⟨_, lo, hi, _, f, _⟩ := h
  have key : ∀ {tops s p bt c pre l lo hi}, Frag st.blk tops s p bt c pre l lo hi → s = none → p.endsAtRet = false := by
    intro tops s p bt c pre l lo hi f hs
    induction f with
    | ret _ hz => rw [hs] at hz; cases hz
    | instr _ ih => rw [Prg.endsAtRet]; exact ih
    | _ => rfl
  exact key f rfl

section
include C

theorem At.block (h : At st last s (.block b k) bt c pre l) : ∃ i m x, (st.blk c).ins = pre ∧ (st.blk c).act = .goto i ∧ i < last + 1 ∧
    (st.blk i).noSkip = false ∧ Ruled st last ff0 g i b.endsAtRet ∧ At st last s b bt i [] m ∧ (st.blk m).act = .goto x ∧ x < last + 1 ∧
    (st.blk x).noSkip = false ∧ Ruled st last ff0 g x k.endsAtRet ∧ At st last s k bt x [] l := by
  obtain ⟨tops', lo, hi, ht, f, I, hp, hc⟩ := h
  cases f with
  | @block _ _ _ _ _ _ _ _ m x h1 ha hs f1 hm hx f2 hsk =>
    obtain ⟨I1, I2, e1, e2⟩ := I.block ha f1 hm f2
    have r1 := f1.range
    have r2 := f2.range
    have := I.le
    rw [Prg.tidy, Bool.and_eq_true, Bool.and_eq_true] at hp
    refine ⟨lo, m, x, h1, ha, by omega, hsk.1, ?_, ⟨tops', _, _, ht, f1, I1, hp.1.1, by omega⟩, hm, by omega, hsk.2, ?_,
      tops', _, _, ht, f2, I2, hp.1.2, by omega⟩
    · rw [← hs]
      refine C.plain (by omega) (noIf_of fun y hy hn => ?_)
      rw [e1 y hy hn, ha]
      simp
    · rw [← hx]
      refine C.plain (by omega) (noIf_of fun y hy hn => ?_)
      rw [e2 y hy hn, hm]
      simp

/-- The blocks of a conditional with sides `t` and `e`, followed by `k`; the cycle ends after it or not according to `cut`. -/
structure IfAt (st : PSt) (last : Nat) (ff0 : Fin (last + 1) → Fin (last + 1)) (g : Cfg (Fin (last + 1))) (s : Option Nat) (q : Nat) (t e k : Prg)
    (cut : Bool) (bt : Option Nat) (c : Nat) (pre : List PIns) (l i it el et a : Nat) (u v : Bool) : Prop where
  ins : (st.blk c).ins = pre
  act : (st.blk c).act = .ifElse q i u it el v et a
  lt : i < last + 1 ∧ el < last + 1 ∧ a < last + 1
  si : Ruled st last ff0 g i false
  se : Ruled st last ff0 g el false
  ti : At st last s t bt i [] it
  te : At st last s e bt el [] et
  ei : (st.blk it).act = .goto a
  ee : (st.blk et).act = .goto a
  skip : (st.blk a).noSkip = false
  flag : Walked (st.cfg last) (nm last c) → t.canEnd = true ∨ e.canEnd = true → Ruled st last ff0 g a cut
  tk : At st last s k bt a [] l

theorem At.ifElse {q : Nat} (h : At st last s (.ifElse q t e k) bt c pre l) : ∃ i it el et a u v,
    IfAt st last ff0 g s q (.block t .nil) (.block e .nil) k (t.isLong || e.isLong || k.endsAtRet) bt c pre l i it el et a u v := by
  obtain ⟨tops', lo, hi, ht, f, I, hp, hc⟩ := h
  cases f with
  | @ifElse _ _ _ _ _ _ _ _ _ _ it et m a h1 ha f1 hm h4 h5 f2 he h8 h9 h10 f3 hsk =>
    obtain ⟨I1, I2, I3, n1, n2, one⟩ := I.ifElse ha f1 hm f2 he f3
    have r1 := f1.range
    have r2 := f2.range
    have r3 := f3.range
    have hle := I.le
    rw [Prg.tidy, Bool.and_eq_true, Bool.and_eq_true] at hp
    have hpt : (Prg.block t .nil).tidy = true := by simp [Prg.tidy, hp.1.1, Prg.isNil]
    have hpe : (Prg.block e .nil).tidy = true := by simp [Prg.tidy, hp.1.2, Prg.isNil]
    have e1 : (Prg.block t .nil).canEnd = t.canEnd := by simp [Prg.canEnd]
    have e2 : (Prg.block e .nil).canEnd = e.canEnd := by simp [Prg.canEnd]
    refine ⟨lo, it, lo + 1, et, a, _, _, h1, ha, by omega, ?_, ?_, ⟨tops', _, _, ht, f1, I1, hpt, by omega⟩, ⟨tops', _, _, ht, f2, I2, hpe, by omega⟩, hm,
      he, hsk, fun hw hor => ?_, tops', _, _, ht, f3, I3, hp.2, by omega⟩
    · have := C.plain (n := lo) (by omega) n1
      rwa [h4] at this
    · have := C.plain (n := lo + 1) (by omega) n2
      rwa [h8] at this
    · rw [e1, e2] at hor
      have hr := C.reached hc (by rw [ha]; simp) hw
      have O := C.P.over0
      have act0 := O.ifElse hc ha
      have w1 : Walked (st.cfg last) (nm last lo) := .child hw (by simp only [Cfg.children, act0]; simp)
      have w2 : Walked (st.cfg last) (nm last (lo + 1)) := .child hw (by simp only [Cfg.children, act0]; simp)
      have q1 : Reached (st.cfg last) ff0 (nm last lo) := hr.plain (by simp only [Cfg.children, act0]; simp)
        (by rw [C.P.flag0 lo (by omega)]; exact h4)
      have q2 : Reached (st.cfg last) ff0 (nm last (lo + 1)) := hr.plain (by simp only [Cfg.children, act0]; simp)
        (by rw [C.P.flag0 (lo + 1) (by omega)]; exact h8)
      exact rule_if C.P C.hff0 hc (by omega) (by omega) (by omega) ha one h10 hm he hr
        (fun h => C.walks f1 (by omega) (by omega) (e1.trans h) w1) (fun h => C.dead f1 I1 hpt (e1.trans h))
        (fun h => f1.pass (by simp [Prg.stateless, h]) O (fun n a b => by
          rw [C.P.flag0 n (by omega)]; exact f1.plain (by simp [Prg.stateless, h]) n a b) (by omega) (by omega) q1)
        (fun h => C.walks f2 (by omega) (by omega) (e2.trans h) w2) (fun h => C.dead f2 I2 hpe (e2.trans h))
        (fun h => f2.pass (by simp [Prg.stateless, h]) O (fun n a b => by
          rw [C.P.flag0 n (by omega)]; exact f2.plain (by simp [Prg.stateless, h]) n a b) (by omega) (by omega) q2) hor

theorem At.ifThen {q : Nat} (h : At st last s (.ifThen q t k) bt c pre l) : ∃ i it el et a u v,
    IfAt st last ff0 g s q (.block t .nil) .nil k (t.isLong || k.endsAtRet) bt c pre l i it el et a u v := by
  obtain ⟨tops', lo, hi, ht, f, I, hp, hc⟩ := h
  cases f with
  | @ifThen _ _ _ _ _ _ _ _ _ it a h1 ha f1 hm h4 h5 h6 he h8 h9 h10 f3 hsk =>
    have f2 : Frag st.blk tops' s .nil bt (lo + 1) [] (lo + 1) a a := .nil h6
    obtain ⟨I1, I2, I3, n1, n2, one⟩ := I.ifElse ha f1 hm f2 he f3
    have r1 := f1.range
    have r3 := f3.range
    have hle := I.le
    rw [Prg.tidy, Bool.and_eq_true] at hp
    have hpt : (Prg.block t .nil).tidy = true := by simp [Prg.tidy, hp.1, Prg.isNil]
    have e1 : (Prg.block t .nil).canEnd = t.canEnd := by simp [Prg.canEnd]
    refine ⟨lo, it, lo + 1, lo + 1, a, _, _, h1, ha, by omega, ?_, ?_, ⟨tops', _, _, ht, f1, I1, hpt, by omega⟩, ⟨tops', _, _, ht, f2, I2, rfl, by omega⟩, hm,
      he, hsk, fun hw _ => ?_, tops', _, _, ht, f3, I3, hp.2, by omega⟩
    · have := C.plain (n := lo) (by omega) n1
      rwa [h4] at this
    · have := C.plain (n := lo + 1) (by omega) n2
      rwa [h8] at this
    · have hr := C.reached hc (by rw [ha]; simp) hw
      have O := C.P.over0
      have act0 := O.ifElse hc ha
      have w1 : Walked (st.cfg last) (nm last lo) := .child hw (by simp only [Cfg.children, act0]; simp)
      have w2 : Walked (st.cfg last) (nm last (lo + 1)) := .child hw (by simp only [Cfg.children, act0]; simp)
      have q1 : Reached (st.cfg last) ff0 (nm last lo) := hr.plain (by simp only [Cfg.children, act0]; simp)
        (by rw [C.P.flag0 lo (by omega)]; exact h4)
      have q2 : Reached (st.cfg last) ff0 (nm last (lo + 1)) := hr.plain (by simp only [Cfg.children, act0]; simp)
        (by rw [C.P.flag0 (lo + 1) (by omega)]; exact h8)
      have := rule_if (ec := true) C.P C.hff0 hc (by omega) (by omega) (by omega) ha one h10 hm he hr
        (fun h => C.walks f1 (by omega) (by omega) (e1.trans h) w1) (fun h => C.dead f1 I1 hpt (e1.trans h))
        (fun h => f1.pass (by simp [Prg.stateless, h]) O (fun n a b => by
          rw [C.P.flag0 n (by omega)]; exact f1.plain (by simp [Prg.stateless, h]) n a b) (by omega) (by omega) q1)
        (fun _ => w2) (by simp) (fun _ => q2) (.inr rfl)
      simp only [Bool.not_true, Bool.and_false, Bool.or_false] at this
      exact this

/-- The blocks of a loop with head `h`. -/
structure LoopAt (st : PSt) (last : Nat) (ff0 : Fin (last + 1) → Fin (last + 1)) (g : Cfg (Fin (last + 1))) (s : Option Nat) (q : Nat) (b k : Prg)
    (bt : Option Nat) (h m l : Nat) : Prop where
  lt : h + 2 < last + 1
  state : (st.blk h).isState = true
  skip : (st.blk h).noSkip = false ∧ (st.blk (h + 2)).noSkip = false
  ins : (st.blk h).ins = []
  act : (st.blk h).act = .loop q (h + 1) (h + 2)
  si : Ruled st last ff0 g (h + 1) false
  sa : Ruled st last ff0 g (h + 2) (b.breaks || k.endsAtRet)
  body : At st last s (.block b .nil) (some (h + 2)) (h + 1) [] m
  again : (st.blk m).act = .goto h
  rest : At st last s k bt (h + 2) [] l

theorem At.loop {q : Nat} (h : At st last s (.loop q b k) bt c pre l) : ∃ h m, (st.blk c).ins = pre ∧ (st.blk c).act = .goto h ∧
    LoopAt st last ff0 g s q b k bt h m l := by
  obtain ⟨tops', lo, hi, ht, f, I, hp, hc⟩ := h
  cases f with
  | @loop _ _ _ _ _ _ _ _ _ m x h1 ha hs h4 hh h6 f1 hm f2 hz =>
    obtain ⟨I1, I2, n1, n2⟩ := I.loop ha hh f1 hm f2
    have r1 := f1.range
    have r2 := f2.range
    have hle := I.le
    obtain ⟨z1, z2, z3⟩ := hz
    rw [Prg.tidy, Bool.and_eq_true] at hp
    refine ⟨lo, m, h1, ha, by omega, hs, ⟨z1, z2⟩, h4, hh, ?_, ?_, ⟨tops', _, _, ht, f1, I1, by simp [Prg.tidy, hp.1, Prg.isNil], by omega⟩, hm,
      tops', _, _, ht, f2, I2, hp.2, by omega⟩
    · have := C.plain (n := lo + 1) (by omega) n1
      rwa [h6] at this
    · rw [← z3]
      exact C.plain (by omega) n2

omit C in
theorem casesTidy_mem {cs : List (Option Nat × Prg)} (h : casesTidy cs = true) : ∀ x ∈ cs, x.2.tidy = true := by
  induction cs with
  | nil => intro x hx; cases hx
  | cons y cs ih =>
    obtain ⟨v, p⟩ := y
    rw [casesTidy, Bool.and_eq_true] at h
    intro x hx
    rcases List.mem_cons.mp hx with rfl | hx
    · exact h.1
    · exact ih h.2 x hx

/-- The blocks of a case. -/
structure CaseAt (st : PSt) (last : Nat) (ff0 : Fin (last + 1) → Fin (last + 1)) (g : Cfg (Fin (last + 1))) (s : Option Nat) (p : Prg)
    (bt : Option Nat) (i m a : Nat) : Prop where
  lt : i < last + 1
  si : Ruled st last ff0 g i false
  body : At st last s (.block p .nil) bt i [] m
  leave : (st.blk m).act = .goto a

theorem At.switch {q : Nat} {cs : List (Option Nat × Prg)} (h : At st last s (.switch q cs k) bt c pre l) : ∃ (es : List (Option Nat × Nat)) (a : Nat) (bb mm : Nat → Nat),
    (st.blk c).ins = pre ∧ (st.blk c).act = .switch q es a ∧ a < last + 1 ∧ (st.blk a).noSkip = false ∧
    Ruled st last ff0 g a (!casesStateless cs || k.endsAtRet) ∧ es.length = cs.length ∧
    (∀ (j : Nat) v p, cs[j]? = some (v, p) → es[j]? = some (v, bb j) ∧ CaseAt st last ff0 g s p bt (bb j) (mm j) a) ∧
    At st last s k bt a [] l := by
  obtain ⟨tops', lo, hi, ht, f, I, hp, hc⟩ := h
  cases f with
  | @switch _ _ _ _ _ _ _ _ _ x es bb mm h1 ha h3 h4 h5 h6 f1 h7 h8 h9 f2 hsk =>
    obtain ⟨Ic, I2⟩ := I.switch ha h3 h4 h5 h6 f1 (fun j v p hg => (h7 j v p hg).1) f2
    have hmn := seq_le (bb := bb) (n := cs.length) (fun j hj => by
      obtain ⟨⟨v, p⟩, hg⟩ := get_of_lt hj
      exact (f1 j v p hg).range.1)
    have r2 := f2.range
    have := (hmn 0 (by omega)).2
    have hle := I.le
    rw [Prg.tidy, Bool.and_eq_true] at hp
    refine ⟨es, lo, bb, mm, h1, ha, by omega, hsk, ?_, h3, fun j v p hg => ⟨h4 j v p hg, ?_⟩, tops', _, _, ht, f2, I2, hp.2, by omega⟩
    · rw [← h9]
      refine C.plain (by omega) (fun y hy q i u it e v et hact => ?_)
      have := h8 y (by rw [hact]; rfl)
      rw [this, ha] at hact
      cases hact
    · have hj := (List.getElem?_eq_some_iff.mp hg).1
      have r1 := (f1 j v p hg).range
      have := hmn (j + 1) hj
      obtain ⟨I1, n1⟩ := Ic j v p hg
      refine ⟨by omega, ?_, ⟨tops', _, _, ht, f1 j v p hg, I1, ?_, by omega⟩, (h7 j v p hg).1⟩
      · have := C.plain (n := bb j) (by omega) n1
        rwa [(h7 j v p hg).2.1] at this
      · simp [Prg.tidy, Prg.isNil, casesTidy_mem hp.1 _ (List.mem_of_getElem? hg)]

end

end

end Silice
