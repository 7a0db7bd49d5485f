import Verif.Spec.Gather

/-! What gathering statements does to the blocks. -/

set_option autoImplicit false

namespace Silice

/-- Induction on sequences of statements. -/
theorem Prg.ind {P : Prg → Prop} (nil : P .nil) (instr : ∀ i k, P k → P (.instr i k)) (step : ∀ k, P k → P (.step k))
    (block : ∀ b k, P b → P k → P (.block b k)) (ifThen : ∀ q t k, P t → P k → P (.ifThen q t k))
    (ifElse : ∀ q t e k, P t → P e → P k → P (.ifElse q t e k)) (loop : ∀ q b k, P b → P k → P (.loop q b k))
    (brk : ∀ k, P k → P (.brk k)) (switch : ∀ q cs k, (∀ p ∈ cs, P p.2) → P k → P (.switch q cs k))
    (call : ∀ s x y o k, P k → P (.call s x y o k)) (join : ∀ i y o k, P k → P (.join i y o k))
    (ret : ∀ k, P k → P (.ret k)) : ∀ p, P p
  | .nil => nil
  | .instr i k => instr i k (Prg.ind nil instr step block ifThen ifElse loop brk switch call join ret k)
  | .step k => step k (Prg.ind nil instr step block ifThen ifElse loop brk switch call join ret k)
  | .block b k => block b k (Prg.ind nil instr step block ifThen ifElse loop brk switch call join ret b)
      (Prg.ind nil instr step block ifThen ifElse loop brk switch call join ret k)
  | .ifThen q t k => ifThen q t k (Prg.ind nil instr step block ifThen ifElse loop brk switch call join ret t)
      (Prg.ind nil instr step block ifThen ifElse loop brk switch call join ret k)
  | .ifElse q t e k => ifElse q t e k (Prg.ind nil instr step block ifThen ifElse loop brk switch call join ret t)
      (Prg.ind nil instr step block ifThen ifElse loop brk switch call join ret e)
      (Prg.ind nil instr step block ifThen ifElse loop brk switch call join ret k)
  | .loop q b k => loop q b k (Prg.ind nil instr step block ifThen ifElse loop brk switch call join ret b)
      (Prg.ind nil instr step block ifThen ifElse loop brk switch call join ret k)
  | .brk k => brk k (Prg.ind nil instr step block ifThen ifElse loop brk switch call join ret k)
  | .switch q cs k => switch q cs k (fun p _ => Prg.ind nil instr step block ifThen ifElse loop brk switch call join ret p.2)
      (Prg.ind nil instr step block ifThen ifElse loop brk switch call join ret k)
  | .call s x y o k => call s x y o k (Prg.ind nil instr step block ifThen ifElse loop brk switch call join ret k)
  | .join i y o k => join i y o k (Prg.ind nil instr step block ifThen ifElse loop brk switch call join ret k)
  | .ret k => ret k (Prg.ind nil instr step block ifThen ifElse loop brk switch call join ret k)
termination_by p => sizeOf p
decreasing_by
  all_goals simp_wf
  all_goals try omega
  rename_i h
  have h1 := List.sizeOf_lt_of_mem h
  have h2 : sizeOf p = 1 + sizeOf p.1 + sizeOf p.2 := by cases p; rfl
  omega

namespace PSt
variable (st : PSt)

@[simp] theorem add_next (p : Nat) : (st.add p).next = st.next + 1 := rfl
@[simp] theorem add_tops (p : Nat) : (st.add p).tops = st.tops := rfl
@[simp] theorem setAct_next (b : Nat) (a : Act Nat) : (st.setAct b a).next = st.next := rfl
@[simp] theorem setAct_tops (b : Nat) (a : Act Nat) : (st.setAct b a).tops = st.tops := rfl
@[simp] theorem setState_next (b : Nat) : (st.setState b).next = st.next := rfl
@[simp] theorem setState_tops (b : Nat) : (st.setState b).tops = st.tops := rfl
@[simp] theorem setNoSkip_next (b : Nat) : (st.setNoSkip b).next = st.next := rfl
@[simp] theorem setNoSkip_tops (b : Nat) : (st.setNoSkip b).tops = st.tops := rfl
@[simp] theorem push_next (b : Nat) (i : PIns) : (st.push b i).next = st.next := rfl
@[simp] theorem push_tops (b : Nat) (i : PIns) : (st.push b i).tops = st.tops := rfl
theorem add_blk (p n : Nat) : (st.add p).blk n = if n = st.next then { sub := (st.blk p).sub } else st.blk n := rfl
theorem setAct_blk (b n : Nat) (a : Act Nat) :
    (st.setAct b a).blk n = if n = b then { st.blk b with act := a } else st.blk n := rfl
theorem setState_blk (b n : Nat) :
    (st.setState b).blk n = if n = b then { st.blk b with isState := true } else st.blk n := rfl
theorem setNoSkip_blk (b n : Nat) :
    (st.setNoSkip b).blk n = if n = b then { st.blk b with noSkip := true } else st.blk n := rfl
theorem push_blk (b n : Nat) (i : PIns) :
    (st.push b i).blk n = if n = b then { st.blk b with ins := (st.blk b).ins ++ [i] } else st.blk n := rfl

end PSt

/-- The block after the statement that ends a block. -/
def afterOf {B : Type} : Act B → Option B
  | .ifElse _ _ _ _ _ _ _ a => some a
  | .switch _ _ a => some a
  | .loop _ _ a => some a
  | _ => none

/-- Each block comes after one statement at most. -/
structure Own (st : PSt) : Prop where
  bound : ∀ x a, afterOf (st.blk x).act = some a → a < st.next ∧ x < st.next
  uniq : ∀ x y a, afterOf (st.blk x).act = some a → afterOf (st.blk y).act = some a → x = y

/-- Gathering, with current block `c`, changes nothing in the blocks before `base` except in `c`, and may make a state of the block to go to on
`break`. New blocks belong to subroutine `s`. -/
structure Grew (base : Nat) (bt : Option Nat) (c : Nat) (s : Option Nat) (st st' : PSt) : Prop where
  le : st.next ≤ st'.next
  tops : st'.tops = st.tops
  frame : ∀ n, n < base → n ≠ c → bt ≠ some n → st'.blk n = st.blk n
  brkF : ∀ n, n < base → n ≠ c → st'.blk n = st.blk n ∨ st'.blk n = { st.blk n with isState := true }
  sub : ∀ n, n < st.next → (st'.blk n).sub = (st.blk n).sub
  subN : ∀ n, st.next ≤ n → n < st'.next → (st'.blk n).sub = s
  noSkip : ∀ n, n < st.next → (st'.blk n).noSkip = (st.blk n).noSkip
  state : ∀ n, n < st.next → (st.blk n).isState = true → (st'.blk n).isState = true
  old : ∀ x a, afterOf (st'.blk x).act = some a → afterOf (st.blk x).act = some a ∨ base ≤ a
  own : Own st → Own st'

namespace Grew
variable {base : Nat} {bt : Option Nat} {c : Nat} {s : Option Nat} {st st1 st2 : PSt}

theorem refl : Grew base bt c s st st :=
  ⟨le_rfl, rfl, fun _ _ _ _ => rfl, fun _ _ _ => .inl rfl, fun _ _ => rfl, fun n h1 h2 => by omega, fun _ _ => rfl,
    fun _ _ h => h, fun _ _ h => .inl h, id⟩

theorem trans (h : Grew base bt c s st st1) (h' : Grew base bt c s st1 st2) : Grew base bt c s st st2 := by
  constructor
  · exact h.le.trans h'.le
  · rw [h'.tops, h.tops]
  · intro n h1 h2 h3
    rw [h'.frame n h1 h2 h3, h.frame n h1 h2 h3]
  · intro n h1 h2
    rcases h'.brkF n h1 h2 with e | e <;> rcases h.brkF n h1 h2 with e' | e' <;> rw [e, e']
    · exact .inl rfl
    · exact .inr rfl
    · exact .inr rfl
    · exact .inr rfl
  · intro n hn
    rw [h'.sub n (lt_of_lt_of_le hn h.le), h.sub n hn]
  · intro n h1 h2
    by_cases hn : n < st1.next
    · rw [h'.sub n hn, h.subN n h1 hn]
    · exact h'.subN n (by omega) h2
  · intro n hn
    rw [h'.noSkip n (lt_of_lt_of_le hn h.le), h.noSkip n hn]
  · intro n hn hs
    exact h'.state n (lt_of_lt_of_le hn h.le) (h.state n hn hs)
  · intro x a hx
    rcases h'.old x a hx with e | e
    · exact h.old x a e
    · exact .inr e
  · exact h'.own ∘ h.own

/-- Gathering inside, from a later block. -/
theorem inner {base' : Nat} {bt' : Option Nat} {c' : Nat} (h : Grew base' bt' c' s st st1) (hb : base ≤ base')
    (hc : c' = c ∨ base ≤ c') (ht : bt' = bt ∨ ∃ a, bt' = some a ∧ base ≤ a) : Grew base bt c s st st1 := by
  constructor
  · exact h.le
  · exact h.tops
  · intro n h1 h2 h3
    refine h.frame n (by omega) (by omega) ?_
    rcases ht with e | ⟨a, e, ha⟩
    · rw [e]; exact h3
    · rw [e]; simp; omega
  · intro n h1 h2
    exact h.brkF n (by omega) (by omega)
  · exact h.sub
  · exact h.subN
  · exact h.noSkip
  · exact h.state
  · intro x a hx
    rcases h.old x a hx with e | e
    · exact .inl e
    · exact .inr (by omega)
  · exact h.own

theorem add {p : Nat} (hs : (st.blk p).sub = s) (hb : base ≤ st.next) : Grew base bt c s st (st.add p) := by
  have hb' : ∀ n, n < st.next → (st.add p).blk n = st.blk n := fun n hn => by
    rw [PSt.add_blk, if_neg (by omega)]
  have ha : ∀ x a, afterOf ((st.add p).blk x).act = some a → afterOf (st.blk x).act = some a := by
    intro x a hx
    rw [PSt.add_blk] at hx
    split_ifs at hx
    · cases hx
    · exact hx
  constructor
  · simp
  · simp
  · intro n h1 _ _; exact hb' n (by omega)
  · intro n h1 _; exact .inl (hb' n (by omega))
  · intro n h1; rw [hb' n h1]
  · intro n h1 h2
    simp only [PSt.add_next] at h2
    rw [PSt.add_blk, if_pos (by omega), hs]
  · intro n h1; rw [hb' n h1]
  · intro n h1; rw [hb' n h1]; exact id
  · intro x a hx; exact .inl (ha x a hx)
  · intro ho
    refine ⟨fun x a hx => ?_, fun x y a hx hy => ho.uniq x y a (ha x a hx) (ha y a hy)⟩
    have := ho.bound x a (ha x a hx)
    simp; omega

/-- A new state that is not skipped. -/
theorem addStep {p : Nat} (hs : (st.blk p).sub = s) (hb : base ≤ st.next) :
    Grew base bt c s st (((st.add p).setState st.next).setNoSkip st.next) := by
  have h := add (bt := bt) (c := c) (s := s) (base := base) hs hb
  have hb' : ∀ n, n ≠ st.next → (((st.add p).setState st.next).setNoSkip st.next).blk n = (st.add p).blk n := fun n hn => by
    rw [PSt.setNoSkip_blk, if_neg hn, PSt.setState_blk, if_neg hn]
  have hn' : (((st.add p).setState st.next).setNoSkip st.next).blk st.next
      = { (st.add p).blk st.next with isState := true, noSkip := true } := by
    rw [PSt.setNoSkip_blk, if_pos rfl, PSt.setState_blk, if_pos rfl]
  have ha : ∀ x, ((((st.add p).setState st.next).setNoSkip st.next).blk x).act = ((st.add p).blk x).act := by
    intro x
    by_cases e : x = st.next
    · subst e; rw [hn']
    · rw [hb' x e]
  constructor
  · exact h.le
  · exact h.tops
  · intro n h1 h2 h3; rw [hb' n (by omega)]; exact h.frame n h1 h2 h3
  · intro n h1 h2; rw [hb' n (by omega)]; exact h.brkF n h1 h2
  · intro n h1; rw [hb' n (by omega)]; exact h.sub n h1
  · intro n h1 h2
    have := h.subN n h1 h2
    by_cases e : n = st.next
    · subst e; rw [hn']; exact this
    · rw [hb' n e]; exact this
  · intro n h1; rw [hb' n (by omega)]; exact h.noSkip n h1
  · intro n h1; rw [hb' n (by omega)]; exact h.state n h1
  · intro x a hx; rw [ha] at hx; exact h.old x a hx
  · intro ho
    have := h.own ho
    exact ⟨fun x a hx => this.bound x a (by rw [← ha]; exact hx),
      fun x y a hx hy => this.uniq x y a (by rw [← ha]; exact hx) (by rw [← ha]; exact hy)⟩

theorem setAct {b : Nat} {act : Act Nat} (hb : b = c ∨ base ≤ b) (hlt : b < st.next)
    (ha : ∀ a, afterOf act = some a → base ≤ a ∧ a < st.next ∧ ∀ x, afterOf (st.blk x).act ≠ some a) :
    Grew base bt c s st (st.setAct b act) := by
  have hb' : ∀ n, n ≠ b → (st.setAct b act).blk n = st.blk n := fun n hn => by
    rw [PSt.setAct_blk, if_neg hn]
  have hn' : (st.setAct b act).blk b = { st.blk b with act := act } := by rw [PSt.setAct_blk, if_pos rfl]
  constructor
  · simp
  · simp
  · intro n h1 h2 h3; exact hb' n (by omega)
  · intro n h1 h2; exact .inl (hb' n (by omega))
  · intro n h1
    by_cases e : n = b
    · rw [e, hn']
    · rw [hb' n e]
  · intro n h1 h2; simp at h2; omega
  · intro n h1
    by_cases e : n = b
    · rw [e, hn']
    · rw [hb' n e]
  · intro n h1
    by_cases e : n = b
    · rw [e, hn']; exact id
    · rw [hb' n e]; exact id
  · intro x a hx
    by_cases e : x = b
    · rw [e, hn'] at hx; exact .inr (ha a hx).1
    · rw [hb' x e] at hx; exact .inl hx
  · intro ho
    constructor
    · intro x a hx
      by_cases e : x = b
      · rw [e, hn'] at hx; exact ⟨(ha a hx).2.1, e ▸ hlt⟩
      · rw [hb' x e] at hx; exact ho.bound x a hx
    · intro x y a hx hy
      by_cases e : x = b <;> by_cases e' : y = b
      · rw [e, e']
      · rw [e, hn'] at hx; rw [hb' y e'] at hy; exact absurd hy ((ha a hx).2.2 y)
      · rw [e', hn'] at hy; rw [hb' x e] at hx; exact absurd hx ((ha a hy).2.2 x)
      · rw [hb' x e] at hx; rw [hb' y e'] at hy; exact ho.uniq x y a hx hy

theorem goto {b n : Nat} (hb : b = c ∨ base ≤ b) (hlt : b < st.next) : Grew base bt c s st (st.setAct b (.goto n)) :=
  setAct hb hlt (by simp [afterOf])

theorem setState {b : Nat} (hb : b = c ∨ base ≤ b ∨ bt = some b) : Grew base bt c s st (st.setState b) := by
  have hb' : ∀ n, n ≠ b → (st.setState b).blk n = st.blk n := fun n hn => by
    rw [PSt.setState_blk, if_neg hn]
  have hn' : (st.setState b).blk b = { st.blk b with isState := true } := by rw [PSt.setState_blk, if_pos rfl]
  have ha : ∀ x, ((st.setState b).blk x).act = (st.blk x).act := by
    intro x
    by_cases e : x = b
    · rw [e, hn']
    · rw [hb' x e]
  constructor
  · simp
  · simp
  · intro n h1 h2 h3
    refine hb' n fun e => ?_
    subst e
    rcases hb with h | h | h
    · exact h2 h
    · omega
    · exact h3 h
  · intro n h1 h2
    by_cases e : n = b
    · right; rw [e, hn']
    · left; exact hb' n e
  · intro n h1
    by_cases e : n = b
    · rw [e, hn']
    · rw [hb' n e]
  · intro n h1 h2; simp at h2; omega
  · intro n h1
    by_cases e : n = b
    · rw [e, hn']
    · rw [hb' n e]
  · intro n h1
    by_cases e : n = b
    · intro _; rw [e, hn']
    · rw [hb' n e]; exact id
  · intro x a hx; rw [ha] at hx; exact .inl hx
  · intro ho
    exact ⟨fun x a hx => ho.bound x a (by rw [← ha]; exact hx),
      fun x y a hx hy => ho.uniq x y a (by rw [← ha]; exact hx) (by rw [← ha]; exact hy)⟩

theorem push {b : Nat} {i : PIns} (hb : b = c ∨ base ≤ b) : Grew base bt c s st (st.push b i) := by
  have hb' : ∀ n, n ≠ b → (st.push b i).blk n = st.blk n := fun n hn => by
    rw [PSt.push_blk, if_neg hn]
  have hn' : (st.push b i).blk b = { st.blk b with ins := (st.blk b).ins ++ [i] } := by rw [PSt.push_blk, if_pos rfl]
  have ha : ∀ x, ((st.push b i).blk x).act = (st.blk x).act := by
    intro x
    by_cases e : x = b
    · rw [e, hn']
    · rw [hb' x e]
  constructor
  · simp
  · simp
  · intro n h1 h2 h3; exact hb' n (by omega)
  · intro n h1 h2; exact .inl (hb' n (by omega))
  · intro n h1
    by_cases e : n = b
    · rw [e, hn']
    · rw [hb' n e]
  · intro n h1 h2; simp at h2; omega
  · intro n h1
    by_cases e : n = b
    · rw [e, hn']
    · rw [hb' n e]
  · intro n h1
    by_cases e : n = b
    · rw [e, hn']; exact id
    · rw [hb' n e]; exact id
  · intro x a hx; rw [ha] at hx; exact .inl hx
  · intro ho
    exact ⟨fun x a hx => ho.bound x a (by rw [← ha]; exact hx),
      fun x y a hx hy => ho.uniq x y a (by rw [← ha]; exact hx) (by rw [← ha]; exact hy)⟩

end Grew

/-- What is assumed when gathering starts: the current block is a block, and so is the one to go to on `break`. -/
structure Pre (bt : Option Nat) (c : Nat) (st : PSt) : Prop where
  hc : c < st.next
  hb : ∀ n, bt = some n → n < st.next ∧ n ≠ c
  own : Own st

theorem Pre.bound {bt : Option Nat} {c : Nat} {st : PSt} (hp : Pre bt c st) (n : Nat) (hn : bt = some n) : n < st.next :=
  (hp.hb n hn).1

theorem Pre.ne {bt : Option Nat} {c : Nat} {st : PSt} (hp : Pre bt c st) : bt ≠ some c := fun e => (hp.hb c e).2 rfl

/-- What gathering a sequence does. -/
structure Built (p : Prg) (bt : Option Nat) (c : Nat) (st : PSt) (l : Nat) (st' : PSt) : Prop where
  grew : Grew st.next bt c (st.blk c).sub st st'
  cur : l = c ∨ st.next ≤ l
  lt : l < st'.next
  flag : (st'.blk c).isState = ((st.blk c).isState || p.endsAtRet)
  brk : ∀ b, bt = some b → (st'.blk b).isState = ((st.blk b).isState || p.breaks)

namespace PSt
variable {st : PSt} {b n : Nat}

theorem add_isState {p : Nat} (h : n < st.next) : ((st.add p).blk n).isState = (st.blk n).isState := by
  rw [add_blk, if_neg (by omega)]

theorem setAct_isState {a : Act Nat} : ((st.setAct b a).blk n).isState = (st.blk n).isState := by
  rw [setAct_blk]
  split_ifs with e
  · rw [e]
  · rfl

theorem setState_isState (h : n ≠ b) : ((st.setState b).blk n).isState = (st.blk n).isState := by
  rw [setState_blk, if_neg h]

theorem setNoSkip_isState : ((st.setNoSkip b).blk n).isState = (st.blk n).isState := by
  rw [setNoSkip_blk]
  split_ifs with e
  · rw [e]
  · rfl

theorem push_isState {i : PIns} : ((st.push b i).blk n).isState = (st.blk n).isState := by
  rw [push_blk]
  split_ifs with e
  · rw [e]
  · rfl

end PSt

theorem Own.fresh {st : PSt} (h : Own st) {a : Nat} (ha : st.next ≤ a) (x : Nat) : afterOf (st.blk x).act ≠ some a := by
  intro hx
  have := h.bound x a hx
  omega

theorem build_block_nil (t : Prg) (bt : Option Nat) (c : Nat) (st : PSt) :
    build (.block t .nil) bt c st = bracket (build t bt) c st := by
  rw [build]
  cases bracket (build t bt) c st with
  | none => rfl
  | some r => simp [build]

/-! The blocks after each part of a statement. -/

/-- After the condition and the sides of an if. -/
def sideStart (c : Nat) (st : PSt) : PSt := (st.add c).add c

/-- With the ends of the sides `it`, `et` joined. -/
def sideJoin (c it et : Nat) (st : PSt) : PSt := ((st.add c).setAct it (.goto st.next)).setAct et (.goto st.next)

/-- After an if. -/
def ifEnd (q c i it e et : Nat) (es : PSt → Bool) (st : PSt) : PSt :=
  (sideJoin c it et st).setAct c
    (.ifElse q i ((sideJoin c it et st).isStateless i) it e (es (sideJoin c it et st)) et st.next)

/-- Before the body of a loop. -/
def loopStart (c : Nat) (st : PSt) : PSt := (((st.add c).setAct c (.goto st.next)).add c).add c

/-- After a loop with head `h`. -/
def loopEnd (q h m : Nat) (st : PSt) : PSt := ((st.setAct m (.goto h)).setAct h (.loop q (h + 1) (h + 2))).setState h

/-- After a switch. -/
def switchEnd (q c a : Nat) (es : List (Option Nat × Nat)) (st : PSt) : PSt :=
  if es.all (fun p => (st.setAct c (.switch q es a)).isStateless p.2) then st.setAct c (.switch q es a)
  else (st.setAct c (.switch q es a)).setState a

theorem build_block {b k : Prg} {bt : Option Nat} {c l : Nat} {st st' : PSt} (h : build (.block b k) bt c st = some (l, st')) :
    ∃ m st2, build b bt st.next ((st.add c).setAct c (.goto st.next)) = some (m, st2) ∧
      build k bt st2.next ((st2.add c).setAct m (.goto st2.next)) = some (l, st') := by
  rw [build] at h
  obtain ⟨⟨x, st3⟩, h1, h2⟩ := Option.bind_eq_some_iff.mp h
  unfold bracket at h1
  obtain ⟨⟨m, st2⟩, h3, h4⟩ := Option.map_eq_some_iff.mp h1
  cases h4
  exact ⟨m, st2, h3, h2⟩

theorem build_ifThen {q : Nat} {t k : Prg} {bt : Option Nat} {c l : Nat} {st st' : PSt}
    (h : build (.ifThen q t k) bt c st = some (l, st')) :
    ∃ it st1, build (.block t .nil) bt st.next (sideStart c st) = some (it, st1) ∧
      build k bt st1.next (ifEnd q c st.next it (st.next + 1) (st.next + 1) (fun _ => true) st1) = some (l, st') := by
  rw [build] at h
  obtain ⟨⟨it, st1⟩, h1, h2⟩ := Option.bind_eq_some_iff.mp h
  rw [← build_block_nil] at h1
  exact ⟨it, st1, h1, h2⟩

theorem build_ifElse {q : Nat} {t f k : Prg} {bt : Option Nat} {c l : Nat} {st st' : PSt}
    (h : build (.ifElse q t f k) bt c st = some (l, st')) :
    ∃ it st1 et st2, build (.block t .nil) bt st.next (sideStart c st) = some (it, st1) ∧
      build (.block f .nil) bt (st.next + 1) st1 = some (et, st2) ∧
      build k bt st2.next (ifEnd q c st.next it (st.next + 1) et (fun s => s.isStateless (st.next + 1)) st2) = some (l, st') := by
  rw [build] at h
  obtain ⟨⟨it, st1⟩, h1, h2⟩ := Option.bind_eq_some_iff.mp h
  obtain ⟨⟨et, st2⟩, h3, h4⟩ := Option.bind_eq_some_iff.mp h2
  rw [← build_block_nil] at h1 h3
  exact ⟨it, st1, et, st2, h1, h3, h4⟩

theorem build_loop {q : Nat} {b k : Prg} {bt : Option Nat} {c l : Nat} {st st' : PSt}
    (h : build (.loop q b k) bt c st = some (l, st')) :
    ∃ m st1, build (.block b .nil) (some (st.next + 2)) (st.next + 1) (loopStart c st) = some (m, st1) ∧
      build k bt (st.next + 2) (loopEnd q st.next m st1) = some (l, st') := by
  rw [build] at h
  obtain ⟨⟨m, st1⟩, h1, h2⟩ := Option.bind_eq_some_iff.mp h
  rw [← build_block_nil] at h1
  exact ⟨m, st1, h1, h2⟩

theorem build_brk {k : Prg} {bt : Option Nat} {c l : Nat} {st st' : PSt} (h : build (.brk k) bt c st = some (l, st')) :
    ∃ b, bt = some b ∧ build k bt st.next (((st.setAct c (.goto b)).setState b).add c) = some (l, st') := by
  cases bt with
  | none => rw [build] at h; cases h
  | some b => rw [build] at h; exact ⟨b, rfl, h⟩

theorem build_switch {q : Nat} {cs : List (Option Nat × Prg)} {k : Prg} {bt : Option Nat} {c l : Nat} {st st' : PSt}
    (h : build (.switch q cs k) bt c st = some (l, st')) :
    ∃ es st1, buildCases cs bt c st.next (st.add c) = some (es, st1) ∧
      build k bt st.next (switchEnd q c st.next es st1) = some (l, st') := by
  rw [build] at h
  obtain ⟨⟨es, st1⟩, h1, h2⟩ := Option.bind_eq_some_iff.mp h
  exact ⟨es, st1, h1, h2⟩

theorem build_cons {v : Option Nat} {p : Prg} {cs : List (Option Nat × Prg)} {bt : Option Nat} {c a : Nat} {st st' : PSt}
    {es : List (Option Nat × Nat)} (h : buildCases ((v, p) :: cs) bt c a st = some (es, st')) :
    ∃ m st1 es', build (.block p .nil) bt st.next (st.add c) = some (m, st1) ∧
      buildCases cs bt c a (st1.setAct m (.goto a)) = some (es', st') ∧ es = (v, st.next) :: es' := by
  rw [buildCases] at h
  obtain ⟨⟨m, st1⟩, h1, h2⟩ := Option.bind_eq_some_iff.mp h
  obtain ⟨⟨es', st2⟩, h3, h4⟩ := Option.map_eq_some_iff.mp h2
  cases h4
  rw [← build_block_nil] at h1
  exact ⟨m, st1, es', h1, h3, rfl⟩

theorem build_call {s x y : Nat} {o : Bool} {k : Prg} {bt : Option Nat} {c l : Nat} {st st' : PSt}
    (h : build (.call s x y o k) bt c st = some (l, st')) :
    ∃ t, st.tops[s]? = some t ∧
      build k bt st.next (((((st.push c (.plain x)).add c).setState st.next).setAct c (.call t st.next)).push st.next
        (.readback y o)) = some (l, st') := by
  rw [build] at h
  obtain ⟨t, h1, h2⟩ := Option.bind_eq_some_iff.mp h
  exact ⟨t, h1, h2⟩

theorem build_ret {k : Prg} {bt : Option Nat} {c l : Nat} {st st' : PSt} (h : build (.ret k) bt c st = some (l, st')) :
    ∃ s, (st.blk c).sub = some s ∧ build k bt st.next (((st.setAct c (.ret s)).add c).setState c) = some (l, st') := by
  rw [build] at h
  split at h
  · cases h
  · rename_i s hs
    exact ⟨s, hs, h⟩

/-- The claim about gathering a sequence. -/
def BuiltAll (p : Prg) : Prop :=
  ∀ bt c st l st', Pre bt c st → build p bt c st = some (l, st') → Built p bt c st l st'

theorem after_add {st : PSt} {p x a : Nat} (h : afterOf ((st.add p).blk x).act = some a) : afterOf (st.blk x).act = some a := by
  rw [PSt.add_blk] at h
  split_ifs at h
  · cases h
  · exact h

theorem after_setAct {st : PSt} {b x a : Nat} {act : Act Nat} (h : afterOf ((st.setAct b act).blk x).act = some a) :
    (x = b ∧ afterOf act = some a) ∨ (x ≠ b ∧ afterOf (st.blk x).act = some a) := by
  rw [PSt.setAct_blk] at h
  split_ifs at h with e
  · exact .inl ⟨e, h⟩
  · exact .inr ⟨e, h⟩

theorem after_goto {st : PSt} {b x a n : Nat} (h : afterOf ((st.setAct b (.goto n)).blk x).act = some a) :
    afterOf (st.blk x).act = some a := by
  rcases after_setAct h with ⟨_, h⟩ | ⟨_, h⟩
  · cases h
  · exact h

theorem after_setState {st : PSt} {b x : Nat} : afterOf ((st.setState b).blk x).act = afterOf (st.blk x).act := by
  rw [PSt.setState_blk]
  split_ifs with e
  · rw [e]
  · rfl

theorem after_push {st : PSt} {b x : Nat} {i : PIns} : afterOf ((st.push b i).blk x).act = afterOf (st.blk x).act := by
  rw [PSt.push_blk]
  split_ifs with e
  · rw [e]
  · rfl

/-- A statement that goes on with `k` in the new block `a`. -/
theorem Built.cons {p k : Prg} {bt : Option Nat} {c a l : Nat} (β : Bool) {st st1 st' : PSt} (hk : BuiltAll k) (hp : Pre bt c st)
    (g : Grew st.next bt c (st.blk c).sub st st1) (ha : st.next ≤ a) (ha' : a < st1.next)
    (hf : (st1.blk c).isState = ((st.blk c).isState || p.endsAtRet))
    (hβ : p.breaks = (β || k.breaks)) (hbr : ∀ b, bt = some b → b < st.next → b ≠ c → (st1.blk b).isState = ((st.blk b).isState || β))
    (h : build k bt a st1 = some (l, st')) : Built p bt c st l st' := by
  have hle := g.le
  have hc := hp.hc
  have b := hk bt a st1 l st' ⟨ha', fun n hn => by have := hp.hb n hn; omega, g.own hp.own⟩ h
  have hs := g.subN a ha ha'
  have hcur := b.cur
  refine ⟨g.trans ?_, .inr (by rcases hcur with e | e <;> omega), b.lt, ?_, fun b' hb' => ?_⟩
  · have := b.grew
    rw [hs] at this
    exact this.inner g.le (.inr ha) (.inl rfl)
  · rw [b.grew.frame c (by omega) (by omega) hp.ne, hf]
  · rw [b.brk b' hb', hbr b' hb' (hp.hb b' hb').1 (hp.hb b' hb').2, hβ, Bool.or_assoc]

theorem built_nil : BuiltAll .nil := by
  intro bt c st l st' hp h
  rw [build] at h
  cases h
  exact ⟨.refl, .inl rfl, hp.hc, by simp [Prg.endsAtRet], by simp [Prg.breaks]⟩

theorem Pre.push {bt : Option Nat} {c : Nat} {st : PSt} (hp : Pre bt c st) (i : PIns) : Pre bt c (st.push c i) :=
  ⟨hp.hc, hp.hb, (Grew.push (base := st.next) (bt := bt) (c := c) (s := none) (.inl rfl)).own hp.own⟩

theorem built_instr (i : Nat) (k : Prg) (hk : BuiltAll k) : BuiltAll (.instr i k) := by
  intro bt c st l st' hp h
  rw [build] at h
  have b := hk bt c (st.push c (.plain i)) l st' (hp.push _) h
  have e : (st.push c (.plain i)).blk c = { st.blk c with ins := (st.blk c).ins ++ [.plain i] } := by
    rw [PSt.push_blk, if_pos rfl]
  have g := b.grew
  rw [e] at g
  refine ⟨(Grew.push (.inl rfl)).trans g, b.cur, b.lt, ?_, fun b' hb' => ?_⟩
  · rw [b.flag, e]
    rfl
  · rw [b.brk b' hb', PSt.push_isState]
    rfl

theorem built_step (k : Prg) (hk : BuiltAll k) : BuiltAll (.step k) := by
  intro bt c st l st' hp h
  rw [build] at h
  have hc := hp.hc
  refine Built.cons false hk hp ((Grew.addStep rfl le_rfl).trans (Grew.goto (.inl rfl) (by simp; omega))) le_rfl (by simp) ?_ rfl
    (fun b _ hb hbc => ?_) h
  · rw [PSt.setAct_blk, if_pos rfl, PSt.setNoSkip_blk, if_neg (by omega), PSt.setState_blk, if_neg (by omega), PSt.add_blk,
      if_neg (by omega)]
    simp [Prg.endsAtRet]
  · rw [PSt.setAct_isState, PSt.setNoSkip_isState, PSt.setState_isState (by omega), PSt.add_isState hb, Bool.or_false]

/-- Gathering of an enclosed sequence from the new block `i`. -/
theorem Built.within {p : Prg} {bt bt' : Option Nat} {c i m : Nat} {s : Option Nat} {st st1 st2 : PSt} (hb : BuiltAll p)
    (ho : Own st) (g : Grew st.next bt c s st st1) (hi : st.next ≤ i) (hi' : i < st1.next)
    (hbt : (bt' = bt ∧ ∀ n, bt = some n → n < st.next) ∨ ∃ a, bt' = some a ∧ st.next ≤ a ∧ a < st1.next ∧ a ≠ i)
    (h : build p bt' i st1 = some (m, st2)) :
    Built p bt' i st1 m st2 ∧ Grew st.next bt c s st st2 := by
  have hle := g.le
  have b := hb bt' i st1 m st2 ⟨hi', fun n hn => ?_, g.own ho⟩ h
  · refine ⟨b, g.trans ?_⟩
    have hs := g.subN i hi hi'
    have := b.grew
    rw [hs] at this
    refine this.inner g.le (.inr hi) ?_
    rcases hbt with ⟨e, _⟩ | ⟨a, e, ha, _⟩
    · exact .inl e
    · exact .inr ⟨a, e, ha⟩
  · rcases hbt with ⟨e, hp⟩ | ⟨a, e, ha, ha', ha2⟩
    · have := hp n (by rw [← e]; exact hn)
      omega
    · rw [e] at hn
      cases hn
      exact ⟨ha', ha2⟩

theorem built_block (b k : Prg) (hb : BuiltAll b) (hk : BuiltAll k) : BuiltAll (.block b k) := by
  intro bt c st l st' hp h
  obtain ⟨m, st2, h1, h2⟩ := build_block h
  have hc := hp.hc
  have g1 : Grew st.next bt c (st.blk c).sub st ((st.add c).setAct c (.goto st.next)) :=
    (Grew.add rfl le_rfl).trans (Grew.goto (.inl rfl) (by simp; omega))
  obtain ⟨b2, g2⟩ := Built.within hb hp.own g1 le_rfl (by simp) (.inl ⟨rfl, hp.bound⟩) h1
  have hle2 : st.next + 1 ≤ st2.next := by simpa using b2.grew.le
  have hm := b2.cur
  have hm' := b2.lt
  simp only [PSt.setAct_next, PSt.add_next] at hm
  have g3 : Grew st.next bt c (st.blk c).sub st2 ((st2.add c).setAct m (.goto st2.next)) := by
    refine (Grew.add ?_ (by omega)).trans (Grew.goto (.inr (by rcases hm with e | e <;> omega)) (by simp; omega))
    rw [g2.sub c hc]
  refine Built.cons b.breaks hk hp (g2.trans g3) (show st.next ≤ st2.next by omega) (by simp) ?_ rfl (fun d hbt hd hdc => ?_) h2
  · rw [PSt.setAct_blk, if_neg (by rcases hm with e | e <;> omega), PSt.add_blk, if_neg (by omega),
      b2.grew.frame c (by simp; omega) (by omega) hp.ne, PSt.setAct_blk, if_pos rfl, PSt.add_blk,
      if_neg (by omega)]
    simp [Prg.endsAtRet]
  · rw [PSt.setAct_isState, PSt.add_isState (by omega), b2.brk d hbt, PSt.setAct_isState, PSt.add_isState hd]

/-- The side of a conditional. -/
theorem built_side {t : Prg} (ht : BuiltAll t) : BuiltAll (.block t .nil) := built_block t .nil ht built_nil

@[simp] theorem sideStart_next (c : Nat) (st : PSt) : (sideStart c st).next = st.next + 2 := rfl
@[simp] theorem sideJoin_next (c it et : Nat) (st : PSt) : (sideJoin c it et st).next = st.next + 1 := rfl
@[simp] theorem ifEnd_next (q c i it e et : Nat) (es : PSt → Bool) (st : PSt) : (ifEnd q c i it e et es st).next = st.next + 1 := rfl
@[simp] theorem loopStart_next (c : Nat) (st : PSt) : (loopStart c st).next = st.next + 3 := rfl
@[simp] theorem loopEnd_next (q h m : Nat) (st : PSt) : (loopEnd q h m st).next = st.next := rfl
@[simp] theorem switchEnd_next (q c a : Nat) (es : List (Option Nat × Nat)) (st : PSt) : (switchEnd q c a es st).next = st.next := by
  unfold switchEnd; split_ifs <;> rfl

theorem Grew.sideStart {base : Nat} {bt : Option Nat} {c : Nat} {s : Option Nat} {st : PSt} (hc : c < st.next) (hs : (st.blk c).sub = s)
    (hb : base ≤ st.next) : Grew base bt c s st (sideStart c st) := by
  refine (Grew.add hs hb).trans (Grew.add ?_ (by simp; omega))
  rw [PSt.add_blk, if_neg (by omega), hs]

theorem after_sideJoin {c it et x a : Nat} {st : PSt} (h : afterOf ((sideJoin c it et st).blk x).act = some a) :
    afterOf (st.blk x).act = some a := after_add (after_goto (after_goto h))

theorem Grew.ifEnd {base : Nat} {bt : Option Nat} {c q i it e et : Nat} {es : PSt → Bool} {s : Option Nat} {st : PSt} (ho : Own st)
    (hc : c < st.next) (hs : (st.blk c).sub = s) (hb : base ≤ st.next) (h1 : base ≤ it) (h1' : it < st.next) (h2 : base ≤ et)
    (h2' : et < st.next) : Grew base bt c s st (ifEnd q c i it e et es st) := by
  refine (((Grew.add hs hb).trans (Grew.goto (.inr h1) (by simp; omega))).trans (Grew.goto (.inr h2) (by simp; omega))).trans
    (Grew.setAct (.inl rfl) (by simp; omega) ?_)
  intro a ha
  cases ha
  exact ⟨hb, by simp, fun x hx => ho.fresh le_rfl x (after_sideJoin hx)⟩

theorem built_ifThen (q : Nat) (t k : Prg) (ht : BuiltAll t) (hk : BuiltAll k) : BuiltAll (.ifThen q t k) := by
  intro bt c st l st' hp h
  obtain ⟨it, st1, h1, h2⟩ := build_ifThen h
  have hc := hp.hc
  obtain ⟨b1, g1⟩ := Built.within (built_side ht) hp.own (Grew.sideStart hc rfl le_rfl) le_rfl (by simp) (.inl ⟨rfl, hp.bound⟩) h1
  have hle : st.next + 2 ≤ st1.next := by simpa using b1.grew.le
  have hm := b1.cur
  have hm' := b1.lt
  simp only [sideStart_next] at hm
  refine Built.cons t.breaks hk hp (g1.trans (Grew.ifEnd (g1.own hp.own) (by omega) (g1.sub c hc) (by omega)
    (by rcases hm with e | e <;> omega) hm' (by omega) (by omega))) (show st.next ≤ st1.next by omega) (by simp) ?_ rfl (fun d hbt hd hdc => ?_) h2
  swap
  · unfold ifEnd sideJoin
    rw [PSt.setAct_isState, PSt.setAct_isState, PSt.setAct_isState, PSt.add_isState (by omega), b1.brk d hbt]
    unfold sideStart
    rw [PSt.add_isState (by simp; omega), PSt.add_isState hd]
    simp [Prg.breaks]
  unfold ifEnd sideJoin
  rw [PSt.setAct_blk, if_pos rfl, PSt.setAct_blk, if_neg (by omega), PSt.setAct_blk, if_neg (by rcases hm with e | e <;> omega),
    PSt.add_blk, if_neg (by omega), b1.grew.frame c (by simp; omega) (by omega) hp.ne]
  unfold sideStart
  rw [PSt.add_blk, if_neg (by simp; omega), PSt.add_blk, if_neg (by omega)]
  simp [Prg.endsAtRet]

theorem built_ifElse (q : Nat) (t f k : Prg) (ht : BuiltAll t) (hf : BuiltAll f) (hk : BuiltAll k) : BuiltAll (.ifElse q t f k) := by
  intro bt c st l st' hp h
  obtain ⟨it, st1, et, st2, h1, h2, h3⟩ := build_ifElse h
  have hc := hp.hc
  obtain ⟨b1, g1⟩ := Built.within (built_side ht) hp.own (Grew.sideStart hc rfl le_rfl) le_rfl (by simp) (.inl ⟨rfl, hp.bound⟩) h1
  have hle : st.next + 2 ≤ st1.next := by simpa using b1.grew.le
  obtain ⟨b2, g2⟩ := Built.within (built_side hf) hp.own g1 (show st.next ≤ st.next + 1 by omega) (by omega) (.inl ⟨rfl, hp.bound⟩) h2
  have hle2 := b2.grew.le
  have hm := b1.cur
  have hm' := b1.lt
  have hn := b2.cur
  have hn' := b2.lt
  simp only [sideStart_next] at hm
  refine Built.cons (t.breaks || f.breaks) hk hp (g2.trans (Grew.ifEnd (g2.own hp.own) (by omega) (g2.sub c hc) (by omega)
    (by rcases hm with e | e <;> omega) (by omega) (by rcases hn with e | e <;> omega) hn')) (show st.next ≤ st2.next by omega) (by simp) ?_ rfl
    (fun d hbt hd hdc => ?_) h3
  swap
  · unfold ifEnd sideJoin
    rw [PSt.setAct_isState, PSt.setAct_isState, PSt.setAct_isState, PSt.add_isState (by omega), b2.brk d hbt, b1.brk d hbt]
    unfold sideStart
    rw [PSt.add_isState (by simp; omega), PSt.add_isState hd]
    simp [Prg.breaks, Bool.or_assoc]
  unfold ifEnd sideJoin
  rw [PSt.setAct_blk, if_pos rfl, PSt.setAct_blk, if_neg (by rcases hn with e | e <;> omega), PSt.setAct_blk,
    if_neg (by rcases hm with e | e <;> omega), PSt.add_blk, if_neg (by omega),
    b2.grew.frame c (by omega) (by omega) hp.ne,
    b1.grew.frame c (by simp; omega) (by omega) hp.ne]
  unfold sideStart
  rw [PSt.add_blk, if_neg (by simp; omega), PSt.add_blk, if_neg (by omega)]
  simp [Prg.endsAtRet]

theorem after_loopStart {c x a : Nat} {st : PSt} (h : afterOf ((loopStart c st).blk x).act = some a) :
    afterOf (st.blk x).act = some a := after_add (after_goto (after_add (after_add h)))

theorem Grew.loopStart {base : Nat} {bt : Option Nat} {c : Nat} {s : Option Nat} {st : PSt} (hc : c < st.next) (hs : (st.blk c).sub = s)
    (hb : base ≤ st.next) : Grew base bt c s st (loopStart c st) := by
  have g1 : Grew base bt c s st ((st.add c).setAct c (.goto st.next)) :=
    (Grew.add hs hb).trans (Grew.goto (.inl rfl) (by simp; omega))
  have g2 : Grew base bt c s st (((st.add c).setAct c (.goto st.next)).add c) :=
    g1.trans (Grew.add (by rw [g1.sub c hc, hs]) (by simp; omega))
  exact g2.trans (Grew.add (by rw [g2.sub c hc, hs]) (by simp; omega))

theorem built_loop (q : Nat) (b k : Prg) (hb : BuiltAll b) (hk : BuiltAll k) : BuiltAll (.loop q b k) := by
  intro bt c st l st' hp h
  obtain ⟨m, st1, h1, h2⟩ := build_loop h
  have hc := hp.hc
  obtain ⟨b1, g1⟩ := Built.within (built_side hb) hp.own (Grew.loopStart hc rfl le_rfl) (show st.next ≤ st.next + 1 by omega) (by simp)
    (.inr ⟨st.next + 2, rfl, by omega, by simp, by omega⟩) h1
  have hle : st.next + 3 ≤ st1.next := by simpa using b1.grew.le
  have hm := b1.cur
  have hm' := b1.lt
  simp only [loopStart_next] at hm
  have hfr : ∀ x, afterOf (st1.blk x).act ≠ some (st.next + 2) := by
    intro x hx
    rcases b1.grew.old x _ hx with e | e
    · exact hp.own.fresh (by omega) x (after_loopStart e)
    · simp only [loopStart_next] at e; omega
  have g2 : Grew st.next bt c (st.blk c).sub st1 (loopEnd q st.next m st1) := by
    refine ((Grew.goto (.inr (by rcases hm with e | e <;> omega)) hm').trans (Grew.setAct (.inr le_rfl) (by simp; omega) ?_)).trans
      (Grew.setState (.inr (.inl le_rfl)))
    intro a ha
    cases ha
    exact ⟨by omega, by simp; omega, fun x hx => hfr x (after_goto hx)⟩
  refine Built.cons false hk hp (g1.trans g2) (show st.next ≤ st.next + 2 by omega) (by simp; omega) ?_ rfl (fun d hbt hd hdc => ?_) h2
  swap
  · unfold loopEnd
    rw [PSt.setState_isState (by omega), PSt.setAct_isState, PSt.setAct_isState, b1.grew.frame d (by simp; omega) (by omega) (by simp; omega)]
    unfold loopStart
    rw [PSt.add_isState (by simp; omega), PSt.add_isState (by simp; omega), PSt.setAct_isState, PSt.add_isState hd, Bool.or_false]
  unfold loopEnd
  rw [PSt.setState_blk, if_neg (by omega), PSt.setAct_blk, if_neg (by omega), PSt.setAct_blk, if_neg (by rcases hm with e | e <;> omega),
    b1.grew.frame c (by simp; omega) (by omega) (by simp; omega)]
  unfold loopStart
  rw [PSt.add_blk, if_neg (by simp; omega), PSt.add_blk, if_neg (by simp; omega), PSt.setAct_blk, if_pos rfl, PSt.add_blk,
    if_neg (by omega)]
  simp [Prg.endsAtRet]

theorem built_brk (k : Prg) (hk : BuiltAll k) : BuiltAll (.brk k) := by
  intro bt c st l st' hp h
  obtain ⟨b, hb, h1⟩ := build_brk h
  have hc := hp.hc
  have hbc := (hp.hb b hb).2
  have g1 : Grew st.next bt c (st.blk c).sub st ((st.setAct c (.goto b)).setState b) :=
    (Grew.goto (.inl rfl) hc).trans (Grew.setState (.inr (.inr hb)))
  refine Built.cons true hk hp (g1.trans (Grew.add (g1.sub c hc) (by simp))) (le_refl st.next) (by simp) ?_ rfl (fun d hbt hd hdc => ?_) h1
  swap
  · rw [hb] at hbt
    cases hbt
    rw [PSt.add_isState (by simpa using hd), PSt.setState_blk, if_pos rfl, Bool.or_true]
  rw [PSt.add_blk, if_neg (by simp; omega), PSt.setState_blk, if_neg (by omega), PSt.setAct_blk, if_pos rfl]
  simp [Prg.endsAtRet]

theorem built_cases (cs : List (Option Nat × Prg)) (hcs : ∀ p ∈ cs, BuiltAll p.2) :
    ∀ (bt : Option Nat) (c a : Nat) (st : PSt) (es : List (Option Nat × Nat)) (st' : PSt), c < st.next →
      (∀ n, bt = some n → n < st.next) → Own st → buildCases cs bt c a st = some (es, st') →
      Grew st.next bt st.next (st.blk c).sub st st' ∧
        ∀ b, bt = some b → (st'.blk b).isState = ((st.blk b).isState || casesBreaks cs) := by
  induction cs with
  | nil =>
    intro bt c a st es st' _ _ _ h
    rw [buildCases] at h
    cases h
    exact ⟨.refl, by simp [casesBreaks]⟩
  | cons x cs ih =>
    obtain ⟨v, p⟩ := x
    intro bt c a st es st' hc hbt ho h
    obtain ⟨m, st1, es', h1, h2, _⟩ := build_cons h
    obtain ⟨b1, g1⟩ := Built.within (c := st.next) (bt := bt) (built_side (hcs _ List.mem_cons_self)) ho (Grew.add rfl le_rfl) le_rfl
      (by simp) (.inl ⟨rfl, hbt⟩) h1
    have hle : st.next + 1 ≤ st1.next := by simpa using b1.grew.le
    have hm := b1.cur
    have hm' := b1.lt
    simp only [PSt.add_next] at hm
    have g2 : Grew st.next bt st.next (st.blk c).sub st (st1.setAct m (.goto a)) :=
      g1.trans (Grew.goto (.inr (by rcases hm with e | e <;> omega)) hm')
    obtain ⟨g3, hb3⟩ := ih (fun p hp => hcs p (List.mem_cons_of_mem _ hp)) bt c a _ es' st' (by simp; omega)
      (fun n hn => by have := hbt n hn; simp; omega) (g2.own ho) h2
    rw [g2.sub c hc] at g3
    refine ⟨g2.trans (g3.inner g2.le (.inr g2.le) (.inl rfl)), fun d hd => ?_⟩
    rw [hb3 d hd, PSt.setAct_isState, b1.brk d hd, PSt.add_isState (hbt d hd)]
    simp [Prg.breaks, casesBreaks, Bool.or_assoc]

theorem built_switch (q : Nat) (cs : List (Option Nat × Prg)) (k : Prg) (hcs : ∀ p ∈ cs, BuiltAll p.2) (hk : BuiltAll k) :
    BuiltAll (.switch q cs k) := by
  intro bt c st l st' hp h
  obtain ⟨es, st1, h1, h2⟩ := build_switch h
  have hc := hp.hc
  have g1 : Grew st.next bt c (st.blk c).sub st (st.add c) := Grew.add rfl le_rfl
  obtain ⟨g2, hb2⟩ := built_cases cs hcs bt c st.next (st.add c) es st1 (by simp; omega) (fun n hn => by have := hp.bound n hn; simp; omega)
    (g1.own hp.own) h1
  rw [g1.sub c hc] at g2
  have hle : st.next + 1 ≤ st1.next := by simpa using g2.le
  have g12 : Grew st.next bt c (st.blk c).sub st st1 := g1.trans (g2.inner g1.le (.inr g1.le) (.inl rfl))
  have hfr : ∀ x, afterOf (st1.blk x).act ≠ some st.next := by
    intro x hx
    rcases g2.old x _ hx with e | e
    · exact hp.own.fresh le_rfl x (after_add e)
    · simp only [PSt.add_next] at e; omega
  have g3 : Grew st.next bt c (st.blk c).sub st1 (st1.setAct c (.switch q es st.next)) := by
    refine Grew.setAct (.inl rfl) (by omega) ?_
    intro a ha
    cases ha
    exact ⟨le_rfl, by omega, hfr⟩
  have g4 : Grew st.next bt c (st.blk c).sub st1 (switchEnd q c st.next es st1) := by
    unfold switchEnd
    split_ifs
    · exact g3
    · exact g3.trans (Grew.setState (.inr (.inl le_rfl)))
  refine Built.cons (casesBreaks cs) hk hp (g12.trans g4) le_rfl (by simp; omega) ?_ rfl (fun d hbt hd hdc => ?_) h2
  swap
  · have e' : ((switchEnd q c st.next es st1).blk d).isState = (st1.blk d).isState := by
      unfold switchEnd
      split_ifs
      · rw [PSt.setAct_isState]
      · rw [PSt.setState_isState (by omega), PSt.setAct_isState]
    rw [e', hb2 d hbt, PSt.add_isState hd]
  have e : (st1.blk c).isState = (st.blk c).isState := by
    rw [g2.frame c (by simp; omega) (by simp; omega) hp.ne, PSt.add_blk, if_neg (by omega)]
  have e' : ((switchEnd q c st.next es st1).blk c).isState = (st1.blk c).isState := by
    unfold switchEnd
    split_ifs
    · rw [PSt.setAct_blk, if_pos rfl]
    · rw [PSt.setState_blk, if_neg (by omega), PSt.setAct_blk, if_pos rfl]
  rw [e', e]
  simp [Prg.endsAtRet]

theorem built_call (s x y : Nat) (o : Bool) (k : Prg) (hk : BuiltAll k) : BuiltAll (.call s x y o k) := by
  intro bt c st l st' hp h
  obtain ⟨t, ht, h1⟩ := build_call h
  have hc := hp.hc
  have g1 : Grew st.next bt c (st.blk c).sub st (st.push c (.plain x)) := Grew.push (.inl rfl)
  have g2 : Grew st.next bt c (st.blk c).sub st ((((st.push c (.plain x)).add c).setState st.next).setAct c (.call t st.next)) :=
    ((g1.trans (Grew.add (g1.sub c hc) (by simp))).trans (Grew.setState (.inr (.inl le_rfl)))).trans
      (Grew.setAct (.inl rfl) (by simp; omega) (by simp [afterOf]))
  refine Built.cons false hk hp (g2.trans (Grew.push (.inr le_rfl))) (le_refl st.next) (by simp) ?_ rfl (fun d hbt hd hdc => ?_) h1
  swap
  · rw [PSt.push_isState, PSt.setAct_isState, PSt.setState_isState (by omega), PSt.add_isState (by simpa using hd), PSt.push_isState, Bool.or_false]
  rw [PSt.push_blk, if_neg (by omega), PSt.setAct_blk, if_pos rfl, PSt.setState_blk, if_neg (by omega), PSt.add_blk,
    if_neg (by simp; omega), PSt.push_blk, if_pos rfl]
  simp [Prg.endsAtRet]

/-- While waiting for an instance. -/
def joinMid (i y : Nat) (o : Bool) (c : Nat) (st : PSt) : PSt :=
  ((((((st.add c).setState st.next).setAct c (.goto st.next)).add c).setState (st.next + 1)).setAct st.next
    (.wait i st.next (st.next + 1))).push (st.next + 1) (.readback y o)

theorem build_join {i y : Nat} {o : Bool} {k : Prg} {bt : Option Nat} {c l : Nat} {st st' : PSt}
    (h : build (.join i y o k) bt c st = some (l, st')) : build k bt (st.next + 1) (joinMid i y o c st) = some (l, st') := by
  rw [build] at h
  exact h

theorem built_join (i y : Nat) (o : Bool) (k : Prg) (hk : BuiltAll k) : BuiltAll (.join i y o k) := by
  intro bt c st l st' hp h
  have h1 := build_join h
  have hc := hp.hc
  have g1 : Grew st.next bt c (st.blk c).sub st (((st.add c).setState st.next).setAct c (.goto st.next)) :=
    ((Grew.add rfl le_rfl).trans (Grew.setState (.inr (.inl le_rfl)))).trans (Grew.goto (.inl rfl) (by simp; omega))
  have g2 : Grew st.next bt c (st.blk c).sub st (joinMid i y o c st) :=
    (((g1.trans (Grew.add (g1.sub c hc) (by simp))).trans (Grew.setState (.inr (.inl (by omega))))).trans
      (Grew.setAct (.inr le_rfl) (by simp; omega) (by simp [afterOf]))).trans (Grew.push (.inr (by omega)))
  refine Built.cons false hk hp g2 (show st.next ≤ st.next + 1 by omega) (by simp [joinMid]) ?_ rfl (fun d hbt hd hdc => ?_) h1
  swap
  · unfold joinMid
    rw [PSt.push_isState, PSt.setAct_isState, PSt.setState_isState (by omega), PSt.add_isState (by simp; omega), PSt.setAct_isState,
      PSt.setState_isState (by omega), PSt.add_isState hd, Bool.or_false]
  unfold joinMid
  rw [PSt.push_blk, if_neg (by omega), PSt.setAct_blk, if_neg (by omega), PSt.setState_blk, if_neg (by omega), PSt.add_blk,
    if_neg (by simp; omega), PSt.setAct_blk, if_pos rfl, PSt.setState_blk, if_neg (by omega), PSt.add_blk, if_neg (by omega)]
  simp [Prg.endsAtRet]

theorem built_ret (k : Prg) (hk : BuiltAll k) : BuiltAll (.ret k) := by
  intro bt c st l st' hp h
  obtain ⟨s, hs, h1⟩ := build_ret h
  have hc := hp.hc
  have g1 : Grew st.next bt c (st.blk c).sub st (st.setAct c (.ret s)) := Grew.setAct (.inl rfl) hc (by simp [afterOf])
  refine Built.cons false hk hp ((g1.trans (Grew.add (g1.sub c hc) (by simp))).trans (Grew.setState (.inl rfl))) (le_refl st.next) (by simp) ?_
    rfl (fun d hbt hd hdc => ?_) h1
  swap
  · rw [PSt.setState_isState hdc, PSt.add_isState (by simpa using hd), PSt.setAct_isState, Bool.or_false]
  rw [PSt.setState_blk, if_pos rfl]
  simp [Prg.endsAtRet]

theorem built_all (p : Prg) : BuiltAll p :=
  Prg.ind built_nil built_instr built_step built_block built_ifThen built_ifElse built_loop built_brk built_switch built_call built_join
    built_ret p

end Silice
