import Verif.Lemmas.Always
import Verif.Lemmas.GatherBuild
import Verif.Lemmas.GatherUnit

/-! The blocks of an always block. -/

set_option autoImplicit false

namespace Silice

/-- Statements that fit in one cycle can always be gathered. -/
theorem stateless_builds (p : Prg) : p.stateless = true → ∀ bt c st, ∃ r, build p bt c st = some r := by
  have brk : ∀ {p : Prg} {bt : Option Nat} {c : Nat} {st : PSt}, (∀ bt c st, ∃ r, build p bt c st = some r) →
      ∃ r, bracket (build p bt) c st = some r := by
    intro p bt c st h
    obtain ⟨r, hr⟩ := h bt st.next ((st.add c).setAct c (.goto st.next))
    exact ⟨_, by rw [bracket, hr]; rfl⟩
  induction p using Prg.ind with
  | nil => intro _ bt c st; exact ⟨_, by rw [build]⟩
  | instr i k ih =>
    intro h bt c st
    rw [Prg.stateless] at h
    obtain ⟨r, hr⟩ := ih h bt c (st.push c (.plain i))
    exact ⟨r, by rw [build]; exact hr⟩
  | block b k ih1 ih2 =>
    intro h bt c st
    rw [Prg.stateless, Bool.and_eq_true] at h
    obtain ⟨r1, h1⟩ := brk (bt := bt) (c := c) (st := st) (ih1 h.1)
    obtain ⟨r2, h2⟩ := ih2 h.2 bt r1.1 r1.2
    exact ⟨r2, by rw [build, h1]; exact h2⟩
  | ifThen q t k ih1 ih2 =>
    intro h bt c st
    rw [Prg.stateless, Bool.and_eq_true] at h
    obtain ⟨r1, h1⟩ := brk (bt := bt) (c := st.next) (st := (st.add c).add c) (ih1 h.1)
    rw [build]
    simp only [h1, Option.bind_some]
    exact ih2 h.2 _ _ _
  | ifElse q t e k ih1 ih2 ih3 =>
    intro h bt c st
    rw [Prg.stateless, Bool.and_eq_true, Bool.and_eq_true] at h
    obtain ⟨r1, h1⟩ := brk (bt := bt) (c := st.next) (st := (st.add c).add c) (ih1 h.1.1)
    obtain ⟨r2, h2⟩ := brk (bt := bt) (c := st.next + 1) (st := r1.2) (ih2 h.1.2)
    rw [build]
    simp only [h1, h2, Option.bind_some]
    exact ih3 h.2 _ _ _
  | switch q cs k ih1 ih2 =>
    intro h bt c st
    rw [Prg.stateless, Bool.and_eq_true] at h
    have key : ∀ (l : List (Option Nat × Prg)), (∀ e ∈ l, e ∈ cs) → ∀ a st, ∃ r, buildCases l bt c a st = some r := by
      intro l
      induction l with
      | nil => intro _ a st; exact ⟨_, by rw [buildCases]⟩
      | cons e l ihl =>
        intro hl a st
        obtain ⟨v, p⟩ := e
        have hm := hl _ List.mem_cons_self
        obtain ⟨r1, h1⟩ := brk (bt := bt) (c := st.next) (st := st.add c) (ih1 _ hm ((casesStateless_iff cs).mp h.1 _ hm))
        obtain ⟨r2, h2⟩ := ihl (fun e he => hl e (List.mem_cons_of_mem _ he)) a (r1.2.setAct r1.1 (.goto a))
        rw [buildCases]
        simp only [h1, h2, Option.bind_some, Option.map_some]
        exact ⟨_, rfl⟩
    obtain ⟨r1, h1⟩ := key cs (fun _ h => h) st.next (st.add c)
    rw [build]
    simp only [h1, Option.bind_some]
    exact ih2 h.2 _ _ _
  | _ => intro h; simp [Prg.stateless] at h

theorem alwaysStart_eq (tops asg : List Nat) : alwaysStart tops asg =
    { (({ tops } : PSt).add 0) with blk := fun n => if n = 0 then { ins := asg.map .plain } else {} } := by
  have key : ∀ (asg : List Nat) (is : List PIns), asg.foldl (fun st i => st.push 0 (.plain i))
      ({ blk := fun n => if n = 0 then { ins := is } else {}, next := 1, tops } : PSt) =
      { blk := fun n => if n = 0 then { ins := is ++ asg.map .plain } else {}, next := 1, tops } := by
    intro asg
    induction asg with
    | nil => intro is; simp
    | cons i asg ih =>
      intro is
      rw [List.foldl_cons]
      have : PSt.push ({ blk := fun n => if n = 0 then { ins := is } else {}, next := 1, tops } : PSt) 0 (.plain i) =
          { blk := fun n => if n = 0 then { ins := is ++ [.plain i] } else {}, next := 1, tops } := by
        rw [PSt.push]
        congr 1
        funext n
        simp only [upd]
        split_ifs <;> rfl
      rw [this, ih]
      simp
  have h0 : ({ tops } : PSt).add 0 = { blk := fun n => if n = 0 then { ins := [] } else {}, next := 1, tops } := by
    rw [PSt.add]
    congr 1
  rw [alwaysStart, h0, key]
  simp

theorem alwaysStart_own (tops asg : List Nat) : Own (alwaysStart tops asg) := by
  rw [alwaysStart_eq]
  have : ∀ x a, afterOf ((if x = 0 then ({ ins := asg.map .plain } : PBlk) else {}).act) ≠ some a := by
    intro x a
    split_ifs <;> simp [afterOf]
  exact ⟨fun x a hx => absurd hx (this x a), fun x y a hx => absurd hx (this x a)⟩

/-- What is gathered from an always block. -/
structure AlwaysFrag (st : PSt) (tops asg : List Nat) (p : Prg) (last : Nat) : Prop where
  frag : Frag st.blk tops none (.block p .nil) none 0 (asg.map .plain) last 1 (last + 1)
  first : (st.blk 0).isState = false
  stop : st.blk last = {}
  next : st.next = last + 1
  pos : 0 < last

theorem always_frag {tops asg : List Nat} {p : Prg} {last : Nat} {st : PSt}
    (h : bracket (build p none) 0 (alwaysStart tops asg) = some (last, st)) : AlwaysFrag st tops asg p last := by
  have hb : build (.block p .nil) none 0 (alwaysStart tops asg) = some (last, st) := by rw [build_block_nil]; exact h
  have hp : Pre none 0 (alwaysStart tops asg) := ⟨by rw [alwaysStart_eq]; simp, by simp, alwaysStart_own tops asg⟩
  have B := built_all _ _ _ _ _ _ hp hb
  have f := frag_all _ _ _ _ _ _ st.blk hp hb ⟨fun _ _ _ _ => rfl, rfl, fun _ _ h _ _ => h, by simp⟩
  have e1 : (alwaysStart tops asg).next = 1 := by rw [alwaysStart_eq]; rfl
  have e2 : (alwaysStart tops asg).tops = tops := by rw [alwaysStart_eq]; rfl
  have e3 : (alwaysStart tops asg).blk 0 = { ins := asg.map .plain } := by rw [alwaysStart_eq]; rfl
  rw [e1, e2, e3] at f
  rw [bracket, Option.map_eq_some_iff] at h
  obtain ⟨⟨l, st1⟩, h1, h2⟩ := h
  simp only [Prod.mk.injEq] at h2
  obtain ⟨rfl, rfl⟩ := h2
  have hp1 : Pre none (alwaysStart tops asg).next (((alwaysStart tops asg).add 0).setAct 0 (.goto (alwaysStart tops asg).next)) := by
    refine ⟨by simp, by simp, ?_⟩
    have O := alwaysStart_own tops asg
    have : ∀ x a, afterOf ((((alwaysStart tops asg).add 0).setAct 0 (.goto (alwaysStart tops asg).next)).blk x).act = some a →
        afterOf ((alwaysStart tops asg).blk x).act = some a := fun x a h => after_add (after_goto h)
    refine ⟨fun x a h => ?_, fun x y a hx hy => O.uniq x y a (this x a hx) (this y a hy)⟩
    have := O.bound x a (this x a h)
    simp
    omega
  have B1 := built_all _ _ _ _ _ _ hp1 h1
  have hlt := B1.lt
  have hle := B1.grew.le
  simp only [PSt.setAct_next, PSt.add_next, e1] at hle
  have sub0 : (st1.blk 0).sub = none := by
    rw [B1.grew.sub 0 (by simp), PSt.setAct_blk, if_pos rfl, PSt.add_blk, if_neg (by omega), e3]
  refine ⟨f, ?_, ?_, rfl, ?_⟩
  · have := B.flag
    rw [e3] at this
    rw [this]
    rfl
  · show ((st1.add 0).setAct l (.goto st1.next)).blk st1.next = {}
    rw [PSt.setAct_blk, if_neg (by omega), PSt.add_blk, if_pos rfl, sub0]
  · show 0 < st1.next
    omega

theorem AlwaysFrag.stateless {st : PSt} {tops asg : List Nat} {p : Prg} {last : Nat} (A : AlwaysFrag st tops asg p last) :
    st.isStateless 0 = p.stateless := by
  cases hs : p.stateless with
  | true =>
    refine A.frag.noState_of (by simp [Prg.stateless, hs]) A.first (fun d => ?_) _
    cases d with
    | zero => rfl
    | succ d => rw [PSt.noState_succ]; simp [PSt.isCall, PSt.children, A.stop]
  | false => exact A.frag.seen (by simp [Prg.stateless, hs]) _ (by rw [A.next]; omega)

/-- An always block as it is gathered when no error is reported. -/
theorem buildAlways_some {tops asg : List Nat} {p : Prg} {last : Nat} {st : PSt} :
    buildAlways tops asg (some p) = some (last, st) ↔
      bracket (build p none) 0 (alwaysStart tops asg) = some (last, st) ∧ p.stateless = true := by
  simp only [buildAlways, Option.bind_eq_some_iff]
  constructor
  · rintro ⟨⟨l, s⟩, h1, h2⟩
    split_ifs at h2 with hs
    cases h2
    exact ⟨h1, by rw [← (always_frag h1).stateless]; exact hs⟩
  · rintro ⟨h1, h2⟩
    refine ⟨_, h1, ?_⟩
    rw [if_pos (by rw [(always_frag h1).stateless]; exact h2)]

end Silice
