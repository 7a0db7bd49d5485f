import Verif.Model.Always
import Verif.Lemmas.GatherWF
import Verif.Lemmas.GatherSim
import Verif.Lemmas.Whole
import Mathlib.Tactic.Choose

/-! The code written for statements that fit in one cycle executes them. -/

set_option autoImplicit false

namespace Silice

section
variable {B : Type}

/-- Control goes from block to block: it starts in `b`, executes `tr` and comes to `n`. -/
inductive Steps (g : Cfg B) : B → List B → B → Prop where
  | one {b n : B} : n ∈ g.children b → Steps g b [b] n
  | cons {b m n : B} {tr : List B} : m ∈ g.children b → Steps g m tr n → Steps g b (b :: tr) n

theorem Steps.trans {g : Cfg B} {b m n : B} {t1 t2 : List B} (h1 : Steps g b t1 m) (h2 : Steps g m t2 n) : Steps g b (t1 ++ t2) n := by
  induction h1 with
  | one h => exact .cons h h2
  | cons h _ ih => exact .cons h (ih h2)

theorem noHalt_entries : ∀ es : List (Option Nat × Code B), Code.noHalt.entries es = es.map fun e => (e.1, e.2.noHalt)
  | [] => rfl
  | (_, _) :: es => by rw [Code.noHalt.entries, noHalt_entries es]; rfl

theorem pickCase_map {A C : Type} (m : Nat → Bool) (φ : A → C) (l : List (Option Nat × A)) :
    pickCase m (l.map fun e => (e.1, φ e.2)) = (pickCase m l).map φ := by
  unfold pickCase
  rw [List.find?_map, List.find?_map]
  simp only [Function.comp_def]
  cases h : l.find? (fun e => labelMatches m e.1) with
  | some e => simp
  | none => simp only [Option.map_none, Option.map_map]; rfl

/-- Code for the cases of a switch. -/
theorem cases_exist {A : Type} (P : A → Code B → Prop) (nme : A → B) (en : Nat → B → Option (Code B)) (cs : List (Option Nat × A))
    (h : ∀ p ∈ cs, ∃ f0 code, (∀ f, f0 ≤ f → en f (nme p.2) = some code) ∧ P p.2 code) :
    ∃ f0, ∃ code : Option Nat × A → Code B, (∀ f, f0 ≤ f → ((cs.map fun p => (p.1, nme p.2)).mapM fun p => (en f p.2).map fun x => (p.1, x)) =
      some (cs.map fun p => (p.1, code p))) ∧ ∀ p ∈ cs, P p.2 (code p) := by
  have : Nonempty (Code B) := ⟨.skip⟩
  choose! F cd hcd using h
  obtain ⟨f0, hf0⟩ : ∃ f0, ∀ p ∈ cs, F p ≤ f0 := by
    clear hcd
    induction cs with
    | nil => exact ⟨0, fun p hp => by cases hp⟩
    | cons q cs ih =>
      obtain ⟨f0, h0⟩ := ih
      refine ⟨max f0 (F q), fun p hp => ?_⟩
      rcases List.mem_cons.mp hp with rfl | hp
      · omega
      · have := h0 p hp
        omega
  refine ⟨f0, cd, fun f hf => ?_, fun p hp => (hcd p hp).2⟩
  have key : ∀ p ∈ cs, en f (nme p.2) = some (cd p) := fun p hp => (hcd p hp).1 f (le_trans (hf0 p hp) hf)
  clear hcd hf0
  induction cs with
  | nil => rfl
  | cons q cs ih =>
    rw [List.map_cons, List.mapM_cons, ih fun p hp => key p (List.mem_cons_of_mem _ hp)]
    simp [key q List.mem_cons_self]

variable [DecidableEq B]

/-- What is written for going on to block `n`. -/
def contC (g : Cfg B) (num : Num B) (fuel : Nat) (stop : Option B) (n : B) : Option (Code B) :=
  if (g.blk n).isState then some (.jump n) else if stop = some n then some .skip else emitFrom g num fuel stop n

/-- `code`, written from block `c` on, executes the instructions `pre` and the statements `p` and goes on with `X`, which is written for block `n`. -/
structure Writes (g : Cfg B) (ins : B → List PIns) (p : Prg) (c : B) (pre : List PIns) (n : B) (X code : Code B) : Prop where
  stays : X.noHalt.stays → code.noHalt.stays
  shaped : X.noHalt.shaped → code.noHalt.shaped
  run : ∀ {σ : Type} (M : Meaning σ) (s : σ) (es : List Did) (s1 : σ), Runs M p (M.all (insDids pre) s) es s1 →
    ∀ (t : List B) (ctl : Option (Out B)), ∃ tr, Steps g c tr n ∧
      code.noHalt.run (M.sem ins) ⟨t, s, ctl⟩ = X.noHalt.run (M.sem ins) ⟨t ++ tr, s1, ctl⟩ ∧
      tr.flatMap (fun b => insDids (ins b)) = insDids pre ++ es

section
variable {F : Nat → PBlk} {tops : List Nat} {s : Option Nat} {p : Prg} {bt : Option Nat} {c : Nat} {pre : List PIns} {l lo hi n N : Nat}
  {f : Nat → B} {g : Cfg B} {num : Num B} {ins : B → List PIns} {stop : Option B} {X : Code B}

theorem emit_goto {f0 : Nat} {b : B} {n : B} (ha : (g.blk b).act = .goto n) (hX : ∀ fu, f0 ≤ fu → contC g num fu stop n = some X) :
    ∀ fu, f0 + 1 ≤ fu → emitFrom g num fu stop b = some (.seq (.body b) X) := by
  intro fu hfu
  obtain ⟨fu, rfl⟩ : ∃ e, fu = e + 1 := ⟨fu - 1, by omega⟩
  have := hX fu (by omega)
  unfold contC at this
  rw [emitFrom]
  simp only [ha, this, Option.map_some]

theorem frag_writes (h : Frag F tops s p bt c pre l lo hi) (O : Over F f N g) (hst : ∀ n, n < N → (g.blk (f n)).isState = (F n).isState)
    (hins : ∀ n, n < N → ins (f n) = (F n).ins) (hnum : ∀ b, num.pid b = none) :
    p.stateless = true → hi ≤ N → c < N → ∀ (n : Nat) (stop : Option B) (X : Code B), (F l).act = .goto n → n < N →
    (∀ m, lo ≤ m → m < hi → stop ≠ some (f m)) → (∃ f0, ∀ fu, f0 ≤ fu → contC g num fu stop (f n) = some X) →
    ∃ f0 code, (∀ fu, f0 ≤ fu → emitFrom g num fu stop (f c) = some code) ∧ Writes g ins p (f c) pre (f n) X code := by
  induction h with
  | @nil bt c pre lo hpre =>
    intro _ _ hc n stop X hl hn hstop ⟨f0, hX⟩
    have ha := O.goto hc hl
    refine ⟨f0 + 1, _, emit_goto ha hX, ?_⟩
    refine ⟨fun h => ⟨trivial, h⟩, fun h => ⟨trivial, trivial, h⟩, ?_⟩
    intro σ M s es s1 hr t ctl
    cases hr
    refine ⟨[f c], .one (by simp only [Cfg.children, ha, List.mem_singleton]), ?_, ?_⟩
    · show X.noHalt.run _ ((Code.body (f c)).run _ _) = _
      simp only [Code.run, Meaning.sem, hins c hc, hpre]
    · simp [hins c hc, hpre]
  | @instr i k bt c pre l lo hi _ ih =>
    intro hs hN hc n stop X hl hn hstop hX
    obtain ⟨f0, code, h1, h2⟩ := ih (by rw [Prg.stateless] at hs; exact hs) hN hc n stop X hl hn hstop hX
    refine ⟨f0, code, h1, h2.stays, h2.shaped, ?_⟩
    intro σ M s es s1 hr t ctl
    cases hr with
    | @instr _ _ _ _ es hr =>
      obtain ⟨tr, t1, t2, t3⟩ := h2.run M s es s1 (by
        rw [insDids_append]
        simpa [Meaning.all, insDids, PIns.dids, Meaning.did] using hr) t ctl
      refine ⟨tr, t1, t2, ?_⟩
      rw [t3, insDids_append]
      simp [insDids, PIns.dids]
  | @block b k bt c pre l lo hi m x hpre ha hs1 f1 ha' hs2 f2 hz ih1 ih2 =>
    intro hs hN hc n stop X hl hn hstop hX
    rw [Prg.stateless, Bool.and_eq_true] at hs
    have r1 := f1.range.1
    have r2 := f2.range.1
    obtain ⟨f2, c2, g2, w2⟩ := ih2 hs.2 hN (by omega) n stop X hl hn (fun m _ _ => hstop m (by omega) (by omega)) hX
    obtain ⟨f1', c1, g1, w1⟩ := ih1 hs.1 (by omega) (by omega) x stop c2 ha' (by omega) (fun m _ _ => hstop m (by omega) (by omega))
      ⟨f2, fun fu hfu => by
        rw [contC, hst x (by omega), hs2, stateless_noRet hs.2, if_neg (by simp), if_neg (hstop x (by omega) (by omega))]
        exact g2 fu hfu⟩
    have hac := O.goto hc ha
    refine ⟨f1' + 1, _, emit_goto hac (fun fu hfu => by
        rw [contC, hst lo (by omega), hs1, stateless_noRet hs.1, if_neg (by simp), if_neg (hstop lo (by omega) (by omega))]
        exact g1 fu hfu), ?_⟩
    refine ⟨fun h => ⟨trivial, w1.stays (w2.stays h)⟩, fun h => ⟨trivial, trivial, w1.shaped (w2.shaped h)⟩, ?_⟩
    intro σ M s es s1 hr t ctl
    cases hr with
    | @block _ _ _ s2 _ e1 e2 q1 q2 =>
      obtain ⟨tr1, t1, t2, t3⟩ := w1.run M (M.all (insDids pre) s) e1 s2 q1 (t ++ [f c]) ctl
      obtain ⟨tr2, t4, t5, t6⟩ := w2.run M s2 e2 s1 q2 (t ++ [f c] ++ tr1) ctl
      refine ⟨f c :: (tr1 ++ tr2), .cons (by simp only [Cfg.children, hac, List.mem_singleton]) (t1.trans t4), ?_, ?_⟩
      · have : ∀ z, (Code.seq (Code.body (f c)) c1).noHalt.run (M.sem ins) z =
            c1.noHalt.run (M.sem ins) ((Code.body (f c)).run (M.sem ins) z) := fun _ => rfl
        rw [this]
        simp only [Code.run, Meaning.sem, hins c hc, hpre] at t2 t5 ⊢
        rw [t2, t5]
        simp
      · simp only [List.flatMap_cons, List.flatMap_append, t3, t6, hins c hc, hpre]
        simp [insDids]
  | @ifThen q t k bt c pre l lo hi it a hpre ha f1 ha' hs1 hloc1 hpre2 ha2 hs2 hloc2 hs3 f2 hz ih1 ih2 =>
    intro hs hN hc n stop X hl hn hstop hX
    rw [Prg.stateless, Bool.and_eq_true] at hs
    have r1 := f1.range.1
    have r2 := f2.range.1
    have hta : (g.blk (f a)).isState = false := by rw [hst a (by omega), hs3, stateless_noRet hs.2]
    obtain ⟨f2', c2, g2, w2⟩ := ih2 hs.2 hN (by omega) n stop X hl hn (fun m _ _ => hstop m (by omega) (by omega)) hX
    have hskip : ∀ fu, 0 ≤ fu → contC g num fu (some (f a)) (f a) = some .skip := fun fu _ => by
      rw [contC, if_neg (by simp [hta]), if_pos rfl]
    have hne : ∀ m, m < a → some (f a) ≠ some (f m) := fun m hm h => by
      have := O.inj a m (by omega) (by omega) (Option.some.inj h)
      omega
    obtain ⟨f1', c1, g1, w1⟩ := ih1 (by simp [Prg.stateless, hs.1]) (by omega) (by omega) a (some (f a)) .skip ha' (by omega)
      (fun m _ _ => hne m (by omega)) ⟨0, hskip⟩
    have g3 := emit_goto (O.goto (by omega : lo + 1 < N) ha2) hskip
    have hac := O.ifElse hc ha
    have t1' : (g.blk (f lo)).isState = false := by rw [hst lo (by omega), hs1]
    have t2' : (g.blk (f (lo + 1))).isState = false := by rw [hst _ (by omega), hs2]
    refine ⟨max f2' (max f1' 1) + 1, .seq (.seq (.body (f c)) (.ite q c1 (.seq (.body (f (lo + 1))) .skip))) c2, ?_, ?_⟩
    · intro fu hfu
      obtain ⟨fu, rfl⟩ : ∃ e, fu = e + 1 := ⟨fu - 1, by omega⟩
      rw [emitFrom]
      simp only [hac, t1', t2', hta, hnum, g1 fu (by omega), g2 fu (by omega), g3 fu (by omega), if_neg (hstop a (by omega) (by omega))]
      simp
    refine ⟨fun h => ⟨⟨trivial, w1.stays trivial, trivial, trivial⟩, w2.stays h⟩,
      fun h => ⟨⟨trivial, w1.stays trivial, trivial, trivial⟩, ⟨trivial, trivial, w1.shaped trivial, trivial, trivial, trivial⟩, w2.shaped h⟩, ?_⟩
    intro σ M s es s1 hr t ctl
    cases hr with
    | @ifThen _ _ _ _ s2 _ e1 e2 q1 q2 =>
      have hbr : ∃ tr1, Steps g (f c) (f c :: tr1) (f a) ∧ (Code.ite q c1 (.seq (.body (f (lo + 1))) .skip)).noHalt.run (M.sem ins)
          ⟨t ++ [f c], M.all (insDids pre) s, ctl⟩ = ⟨t ++ [f c] ++ tr1, s2, ctl⟩ ∧ tr1.flatMap (fun b => insDids (ins b)) = e1 := by
        by_cases ht : M.test q (M.all (insDids pre) s) = true
        · rw [if_pos ht] at q1
          have q1' := Runs.block q1 (Runs.nil)
          rw [List.append_nil] at q1'
          obtain ⟨tr1, t1, t2, t3⟩ := w1.run M (M.all (insDids pre) s) e1 s2 q1' (t ++ [f c]) ctl
          refine ⟨tr1, .cons (by simp [Cfg.children, hac]) t1, ?_, t3⟩
          simp only [Code.noHalt, Code.run, Meaning.sem] at t2 ⊢
          rw [if_pos ht, t2]
        · rw [if_neg ht] at q1
          cases q1
          refine ⟨[f (lo + 1)], .cons (by simp [Cfg.children, hac]) (.one ?_), ?_, ?_⟩
          · simp only [Cfg.children, O.goto (by omega : lo + 1 < N) ha2, List.mem_singleton]
          · simp only [Code.noHalt, Code.run, Meaning.sem]
            rw [if_neg ht]
            simp [hins (lo + 1) (by omega), hpre2, insDids, Meaning.all]
          · simp [hins (lo + 1) (by omega), hpre2, insDids]
      obtain ⟨tr1, t1, t2, t3⟩ := hbr
      obtain ⟨tr2, t4, t5, t6⟩ := w2.run M s2 e2 s1 q2 (t ++ [f c] ++ tr1) ctl
      refine ⟨f c :: tr1 ++ tr2, t1.trans t4, ?_, ?_⟩
      · have : ∀ z, (Code.seq (Code.seq (Code.body (f c)) (.ite q c1 (.seq (.body (f (lo + 1))) .skip))) c2).noHalt.run (M.sem ins) z =
            c2.noHalt.run (M.sem ins) ((Code.ite q c1 (.seq (.body (f (lo + 1))) .skip)).noHalt.run (M.sem ins)
              ((Code.body (f c)).run (M.sem ins) z)) := fun _ => rfl
        rw [this]
        have e : (Code.body (f c)).run (M.sem ins) ⟨t, s, ctl⟩ = ⟨t ++ [f c], M.all (insDids pre) s, ctl⟩ := by
          simp only [Code.run, Meaning.sem, hins c hc, hpre]
        rw [e, t2, t5]
        simp
      · simp only [List.flatMap_cons, List.flatMap_append, t3, t6, hins c hc, hpre]
        simp [insDids]
  | @ifElse q t e k bt c pre l lo hi it et m a hpre ha f1 ha' hs1 hloc1 f3 ha2 hs2 hloc2 hs3 f2 hz ih1 ih3 ih2 =>
    intro hs hN hc n stop X hl hn hstop hX
    rw [Prg.stateless, Bool.and_eq_true, Bool.and_eq_true] at hs
    have r1 := f1.range.1
    have r2 := f2.range.1
    have r3 := f3.range.1
    have hta : (g.blk (f a)).isState = false := by rw [hst a (by omega), hs3, stateless_noRet hs.2]
    obtain ⟨f2', c2, g2, w2⟩ := ih2 hs.2 hN (by omega) n stop X hl hn (fun m _ _ => hstop m (by omega) (by omega)) hX
    have hskip : ∀ fu, 0 ≤ fu → contC g num fu (some (f a)) (f a) = some .skip := fun fu _ => by
      rw [contC, if_neg (by simp [hta]), if_pos rfl]
    have hne : ∀ m, m < a → some (f a) ≠ some (f m) := fun m hm h => by
      have := O.inj a m (by omega) (by omega) (Option.some.inj h)
      omega
    obtain ⟨f1', c1, g1, w1⟩ := ih1 (by simp [Prg.stateless, hs.1]) (by omega) (by omega) a (some (f a)) .skip ha' (by omega)
      (fun m _ _ => hne m (by omega)) ⟨0, hskip⟩
    obtain ⟨f3', c3, g3, w3⟩ := ih3 (by simp [Prg.stateless, hs.1]) (by omega) (by omega) a (some (f a)) .skip ha2 (by omega)
      (fun m _ _ => hne m (by omega)) ⟨0, hskip⟩
    have hac := O.ifElse hc ha
    have t1' : (g.blk (f lo)).isState = false := by rw [hst lo (by omega), hs1]
    have t2' : (g.blk (f (lo + 1))).isState = false := by rw [hst _ (by omega), hs2]
    refine ⟨max f2' (max f1' f3') + 1, .seq (.seq (.body (f c)) (.ite q c1 c3)) c2, ?_, ?_⟩
    · intro fu hfu
      obtain ⟨fu, rfl⟩ : ∃ e, fu = e + 1 := ⟨fu - 1, by omega⟩
      rw [emitFrom]
      simp only [hac, t1', t2', hta, hnum, g1 fu (by omega), g2 fu (by omega), g3 fu (by omega), if_neg (hstop a (by omega) (by omega))]
      simp
    refine ⟨fun h => ⟨⟨trivial, w1.stays trivial, w3.stays trivial⟩, w2.stays h⟩,
      fun h => ⟨⟨trivial, w1.stays trivial, w3.stays trivial⟩, ⟨trivial, trivial, w1.shaped trivial, w3.shaped trivial⟩, w2.shaped h⟩, ?_⟩
    intro σ M s es s1 hr t' ctl
    cases hr with
    | @ifElse _ _ _ _ _ s2 _ e1 e2 q1 q2 =>
      have hbr : ∃ tr1, Steps g (f c) (f c :: tr1) (f a) ∧ (Code.ite q c1 c3).noHalt.run (M.sem ins)
          ⟨t' ++ [f c], M.all (insDids pre) s, ctl⟩ = ⟨t' ++ [f c] ++ tr1, s2, ctl⟩ ∧ tr1.flatMap (fun b => insDids (ins b)) = e1 := by
        by_cases ht : M.test q (M.all (insDids pre) s) = true
        · rw [if_pos ht] at q1
          have q1' := Runs.block q1 (Runs.nil)
          rw [List.append_nil] at q1'
          obtain ⟨tr1, t1, t2, t3⟩ := w1.run M (M.all (insDids pre) s) e1 s2 q1' (t' ++ [f c]) ctl
          refine ⟨tr1, .cons (by simp [Cfg.children, hac]) t1, ?_, t3⟩
          simp only [Code.noHalt, Code.run, Meaning.sem] at t2 ⊢
          rw [if_pos ht, t2]
        · rw [if_neg ht] at q1
          have q1' := Runs.block q1 (Runs.nil)
          rw [List.append_nil] at q1'
          obtain ⟨tr1, t1, t2, t3⟩ := w3.run M (M.all (insDids pre) s) e1 s2 q1' (t' ++ [f c]) ctl
          refine ⟨tr1, .cons (by simp [Cfg.children, hac]) t1, ?_, t3⟩
          simp only [Code.noHalt, Code.run, Meaning.sem] at t2 ⊢
          rw [if_neg ht, t2]
      obtain ⟨tr1, t1, t2, t3⟩ := hbr
      obtain ⟨tr2, t4, t5, t6⟩ := w2.run M s2 e2 s1 q2 (t' ++ [f c] ++ tr1) ctl
      refine ⟨f c :: tr1 ++ tr2, t1.trans t4, ?_, ?_⟩
      · have : ∀ z, (Code.seq (Code.seq (Code.body (f c)) (.ite q c1 c3)) c2).noHalt.run (M.sem ins) z =
            c2.noHalt.run (M.sem ins) ((Code.ite q c1 c3).noHalt.run (M.sem ins) ((Code.body (f c)).run (M.sem ins) z)) := fun _ => rfl
        rw [this]
        have e : (Code.body (f c)).run (M.sem ins) ⟨t', s, ctl⟩ = ⟨t' ++ [f c], M.all (insDids pre) s, ctl⟩ := by
          simp only [Code.run, Meaning.sem, hins c hc, hpre]
        rw [e, t2, t5]
        simp
      · simp only [List.flatMap_cons, List.flatMap_append, t3, t6, hins c hc, hpre]
        simp [insDids]
  | @switch q cs k bt c pre l lo hi x es bb mm hpre ha hlen hes h0 hx f1 hh huniq hs3 f2 hz ih1 ih2 =>
    intro hs hN hc n stop X hl hn hstop hX
    rw [Prg.stateless, Bool.and_eq_true] at hs
    have r2 := f2.range.1
    have hbb : ∀ j, j ≤ cs.length → bb 0 ≤ bb j ∧ bb j ≤ bb cs.length := seq_le fun j hj => by
      obtain ⟨⟨v, p⟩, hg⟩ := get_of_lt hj
      exact (f1 j v p hg).range.1
    have hxx := hbb 0 (by omega)
    have hta : (g.blk (f lo)).isState = false := by rw [hst lo (by omega), hs3, stateless_noRet hs.2, hs.1]; rfl
    obtain ⟨f2', c2, g2, w2⟩ := ih2 hs.2 hN (by omega) n stop X hl hn (fun m _ _ => hstop m (by omega) (by omega)) hX
    have hskip : ∀ fu, 0 ≤ fu → contC g num fu (some (f lo)) (f lo) = some .skip := fun fu _ => by
      rw [contC, if_neg (by simp [hta]), if_pos rfl]
    have hac := O.switch hc ha
    -- the cases with their blocks
    let z : List (Option Nat × (Prg × B)) := cs.zipIdx.map fun e => (e.1.1, (e.1.2, f (bb e.2)))
    have hz1 : z.map (fun e => (e.1, e.2.1)) = cs := by
      apply List.ext_getElem?
      intro j
      simp only [z, List.getElem?_map, List.getElem?_zipIdx]
      cases cs[j]? <;> simp
    have hz2 : z.map (fun e => (e.1, e.2.2)) = es.map fun p => (p.1, f p.2) := by
      apply List.ext_getElem?
      intro j
      simp only [z, List.getElem?_map, List.getElem?_zipIdx]
      cases hj : cs[j]? with
      | none =>
        have : es[j]? = none := by
          rw [List.getElem?_eq_none_iff] at hj ⊢
          omega
        rw [this]; rfl
      | some e =>
        obtain ⟨v, p⟩ := e
        rw [hes j v p hj]
        simp
    have hz3 : ∀ e ∈ z, ∃ j v p, cs[j]? = some (v, p) ∧ e = (v, (p, f (bb j))) := by
      intro e he
      obtain ⟨⟨⟨v, p⟩, j⟩, h1, rfl⟩ := List.mem_map.mp he
      rw [List.mem_zipIdx_iff_getElem?] at h1
      exact ⟨j, v, p, h1, rfl⟩
    clear_value z
    obtain ⟨f1', cd, g1, w1⟩ := cases_exist (fun (a : Prg × B) code => Writes g ins (.block a.1 .nil) a.2 [] (f lo) .skip code) (fun a => a.2)
      (fun fu b => if (g.blk b).isState then some (.jump b) else emitFrom g num fu (some (f lo)) b) z (by
        intro e he
        obtain ⟨j, v, p, hj, rfl⟩ := hz3 e he
        have hjl : j < cs.length := (List.getElem?_eq_some_iff.mp hj).1
        have b1 := hbb j (by omega)
        have b2 := hbb (j + 1) (by omega)
        have hst' : (Prg.block p .nil).stateless = true := by
          have := (casesStateless_iff cs).mp hs.1 (v, p) (List.mem_of_getElem? hj)
          simp [Prg.stateless, this]
        obtain ⟨d1, d2, _⟩ := hh j v p hj
        have r4 := (f1 j v p hj).range.1
        obtain ⟨f0, code, e1, e2⟩ := ih1 j v p hj hst' (by omega) (by omega) lo (some (f lo)) .skip d1 (by omega) (fun m _ _ h => by
          have := O.inj lo m (by omega) (by omega) (Option.some.inj h)
          omega) ⟨0, hskip⟩
        refine ⟨f0, code, fun fu hfu => ?_, e2⟩
        show (if (g.blk (f (bb j))).isState then _ else _) = _
        rw [hst _ (by omega), d2, if_neg (by simp)]
        exact e1 fu hfu)
    refine ⟨max f2' f1' + 1, .seq (.seq (.body (f c)) (.case q (z.map fun p => (p.1, cd p)))) c2, ?_, ?_⟩
    · intro fu hfu
      obtain ⟨fu, rfl⟩ : ∃ e, fu = e + 1 := ⟨fu - 1, by omega⟩
      have := g1 fu (by omega)
      rw [hz2] at this
      rw [emitFrom]
      simp only [hac, hta, this, g2 fu (by omega), if_neg (hstop lo (by omega) (by omega))]
      simp
    have hce : (Code.case q (z.map fun p => (p.1, cd p))).noHalt = .case q (z.map fun p => (p.1, (cd p).noHalt)) := by
      rw [Code.noHalt, noHalt_entries]
      simp
    have hstay : (Code.case q (z.map fun p => (p.1, cd p))).noHalt.stays := by
      rw [hce, Code.stays]
      refine entriesStay_of fun e he => ?_
      obtain ⟨p, hp, rfl⟩ := List.mem_map.mp he
      exact (w1 p hp).stays trivial
    have hshape : (Code.case q (z.map fun p => (p.1, cd p))).noHalt.shaped := by
      rw [hce, Code.shaped]
      refine entriesShaped_of fun e he => ?_
      obtain ⟨p, hp, rfl⟩ := List.mem_map.mp he
      exact (w1 p hp).shaped trivial
    refine ⟨fun h => ⟨⟨trivial, hstay⟩, w2.stays h⟩, fun h => ⟨⟨trivial, hstay⟩, ⟨trivial, trivial, hshape⟩, w2.shaped h⟩, ?_⟩
    intro σ M s es' s1 hr t' ctl
    obtain ⟨s2, e1, e2, rfl, q2, hbr⟩ : ∃ s2 e1 e2, es' = e1 ++ e2 ∧ Runs M k s2 e2 s1 ∧
        ∃ tr1, Steps g (f c) (f c :: tr1) (f lo) ∧ (Code.case q (z.map fun p => (p.1, cd p))).noHalt.run (M.sem ins)
          ⟨t' ++ [f c], M.all (insDids pre) s, ctl⟩ = ⟨t' ++ [f c] ++ tr1, s2, ctl⟩ ∧ tr1.flatMap (fun b => insDids (ins b)) = e1 := by
      have hpick : ∀ (m : Nat → Bool) (S : Sem B σ), (pickCase m (z.map fun p => (p.1, p)) = none ∧ pickCase m cs = none ∧
            pickCase m (Code.run.runEntries S (z.map fun p => (p.1, (cd p).noHalt))) = none) ∨
          ∃ e ∈ z, pickCase m cs = some e.2.1 ∧ pickCase m (Code.run.runEntries S (z.map fun p => (p.1, (cd p).noHalt))) = some ((cd e).noHalt.run S) := by
        intro m S
        have p1 : pickCase m cs = (pickCase m (z.map fun p => (p.1, p))).map fun e => e.2.1 := by
          rw [← pickCase_map, List.map_map]
          exact congrArg (pickCase m) hz1.symm
        have p2 : pickCase m (Code.run.runEntries S (z.map fun p => (p.1, (cd p).noHalt))) =
            (pickCase m (z.map fun p => (p.1, p))).map fun e => (cd e).noHalt.run S := by
          rw [← pickCase_map, List.map_map, runEntries_eq, List.map_map]
          simp only [Function.comp_def]
        cases hp : pickCase m (z.map fun p => (p.1, p)) with
        | none =>
          rw [hp] at p1 p2
          exact .inl ⟨rfl, p1, p2⟩
        | some e =>
          rw [hp] at p1 p2
          obtain ⟨v, hv⟩ := pickCase_mem hp
          obtain ⟨e', he', h⟩ := List.mem_map.mp hv
          cases h
          exact .inr ⟨e, he', p1, p2⟩
      rcases hpick (fun v => M.label q v (M.all (insDids pre) s)) (M.sem ins) with ⟨_, p1, p2⟩ | ⟨e, he, p1, p2⟩
      · cases hr with
        | case h _ _ => rw [p1] at h; cases h
        | noCase h hk =>
          refine ⟨_, [], es', rfl, hk, [], .one (by simp [Cfg.children, hac]), ?_, rfl⟩
          rw [hce, Code.run]
          have : pickCase (fun v => (M.sem ins).label q v (M.all (insDids pre) s))
            (Code.run.runEntries (M.sem ins) (z.map fun p => (p.1, (cd p).noHalt))) = none := p2
          rw [this]
          simp
      · cases hr with
        | noCase h _ => rw [p1] at h; cases h
        | @case _ _ p _ _ s2 _ e1 e2 h hb hk =>
          rw [p1] at h
          cases h
          have q1' := Runs.block hb (Runs.nil)
          rw [List.append_nil] at q1'
          obtain ⟨tr1, t1, t2, t3⟩ := (w1 e he).run M (M.all (insDids pre) s) e1 s2 q1' (t' ++ [f c]) ctl
          refine ⟨s2, e1, e2, rfl, hk, tr1, .cons ?_ t1, ?_, t3⟩
          · have : e.2.2 ∈ (z.map (fun e => (e.1, e.2.2))).map (·.2) := List.mem_map.mpr ⟨(e.1, e.2.2), List.mem_map.mpr ⟨e, he, rfl⟩, rfl⟩
            rw [hz2] at this
            simp only [Cfg.children, hac, List.mem_append]
            exact .inl this
          · rw [hce, Code.run]
            have : pickCase (fun v => (M.sem ins).label q v (M.all (insDids pre) s))
              (Code.run.runEntries (M.sem ins) (z.map fun p => (p.1, (cd p).noHalt))) = some ((cd e).noHalt.run (M.sem ins)) := p2
            rw [this]
            simpa [Code.noHalt, Code.run] using t2
    obtain ⟨tr1, t1, t2, t3⟩ := hbr
    obtain ⟨tr2, t4, t5, t6⟩ := w2.run M s2 e2 s1 q2 (t' ++ [f c] ++ tr1) ctl
    refine ⟨f c :: tr1 ++ tr2, t1.trans t4, ?_, ?_⟩
    · have : ∀ y, (Code.seq (Code.seq (Code.body (f c)) (.case q (z.map fun p => (p.1, cd p)))) c2).noHalt.run (M.sem ins) y =
          c2.noHalt.run (M.sem ins) ((Code.case q (z.map fun p => (p.1, cd p))).noHalt.run (M.sem ins)
            ((Code.body (f c)).run (M.sem ins) y)) := fun _ => rfl
      rw [this]
      have e : (Code.body (f c)).run (M.sem ins) ⟨t', s, ctl⟩ = ⟨t' ++ [f c], M.all (insDids pre) s, ctl⟩ := by
        simp only [Code.run, Meaning.sem, hins c hc, hpre]
      rw [e, t2, t5]
      simp
    · simp only [List.flatMap_cons, List.flatMap_append, t3, t6, hins c hc, hpre]
      simp [insDids]
  | _ => intro hs; simp [Prg.stateless] at hs

end

end

end Silice
