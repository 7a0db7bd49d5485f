import Verif.Lemmas.WholeAlways
import Verif.Props.Whole
import Verif.Props.Always
import Verif.Props.AccessUnit

/-!
C53, for algorithms with their always blocks: the storage of all variables is the one the compiler chooses, nothing is assumed on the temporaries.
-/

set_option autoImplicit false

namespace Silice

/-! ### Temporaries -/

theorem temp_plain {B : Type} [DecidableEq B] {a : AccIn B} {log : List (B × List String)} {x : String}
    (h : usageOf a log x = .ok .temporary) : a.Plain x ∧ (accBits a log x).w = true := by
  have hb : accBits a log x = ⟨(accBits a log x).r, (accBits a log x).w, decide (x ∈ a.boundOut),
      decide (x ∈ a.boundInOut), decide (x ∈ a.internalFF)⟩ := by simp [accBits]
  generalize (accBits a log x).r = r at *
  generalize (accBits a log x).w = w at *
  simp only [usageOf, hb] at h
  clear hb
  by_cases h1 : x ∈ a.boundOut <;> by_cases h2 : x ∈ a.boundInOut <;> by_cases h3 : x ∈ a.internalFF <;>
    by_cases ht : x ∈ a.tables <;> by_cases hi : x ∈ globalInRead a log <;> cases r <;> cases w <;>
    simp_all [classify, AccIn.Plain]

theorem storeOf_temp {B : Type} [DecidableEq B] {a : AccIn B} {log : List (B × List String)} {outputs : List String} {x : String}
    (h : storeOf a log outputs x = .temp) : usageOf a log x = .ok .temporary := by
  unfold storeOf at h
  split at h
  · assumption
  · cases h

/-- What is read outside of the code is not a temporary. -/
theorem storeOf_end {B : Type} [DecidableEq B] {a : AccIn B} {log : List (B × List String)} {outputs : List String} {x : String}
    (h : x ∈ a.readEnd) : storeOf a log outputs x = .flipflop := by
  cases hs : storeOf a log outputs x with
  | flipflop => rfl
  | temp =>
    exfalso
    have hu := storeOf_temp hs
    have hr : (accBits a log x).r = true := by simp [accBits, h]
    have hi : x ∈ globalInRead a log := List.mem_append_right _ h
    simp only [usageOf] at hu
    generalize accBits a log x = c at *
    obtain ⟨r, w, b1, b2, b3⟩ := c
    simp only at hr
    subst hr
    by_cases ht : x ∈ a.tables <;> cases w <;> cases b1 <;> cases b2 <;> cases b3 <;> simp [classify, ht, hi] at hu

/-- A temporary is not read before it is written along any path from a head. -/
theorem temp_safe {B : Type} [DecidableEq B] {a : AccIn B} (hdom : ∀ h ∈ a.heads, Dominated a.g h) {fuel : Nat} {log : List (B × List String)}
    (e : accAll a fuel = some log) {outputs : List String} {x : String} (h : storeOf a log outputs x = .temp) :
    ∀ head ∈ a.heads, ∀ l c, Walk a.g head l c → Enters a.g l c → ¬ ReadsFirst a.g l c x := by
  intro head hh l c w en hr
  have hu := storeOf_temp h
  obtain ⟨hp, hw⟩ := temp_plain hu
  exact (((C32_register_when_needed_partial a hdom fuel log e x hp ((accBits_w e x).mp hw)).1).mp hu).2 (.inr ⟨head, hh, l, c, w, en, hr⟩)

theorem DataOf.Whole.unparted {V B : Type} {D : DataOf V} {x : String} (h : D.Whole x) (ins : B → List PIns) : Unparted D ins x := by
  intro b i hi
  obtain ⟨p, _, hi⟩ := List.mem_flatMap.mp hi
  cases p with
  | plain j => exact h j i (List.mem_append_left _ hi)
  | readback j outs =>
    cases outs with
    | true => exact h j i (List.mem_append_right _ hi)
    | false => cases hi

/-! ### Always blocks -/

/-- The code of an always block within the design. -/
structure AlwaysPart {V : Type} (D : DataOf V) (last : Nat) (st : PSt) (src : Prg) (code : Code (Fin (last + 1))) {L : Type} (s : Stm V L) : Prop where
  noExit : s.NoExit
  shape : s.Shape
  noField : ∀ x, D.NoField x → s.NoField x
  noRead : ∀ x, D.Unread x → s.NoRead x
  run : ∀ m d, ∃ es, Runs D.meaning src (m, d) es ((s.run m).env, d) ∧ ∀ e ∈ es, ∀ i ∈ D.did e, ∃ ev ∈ (s.run m).evs, ev.writes = i.writes
  written : ∀ x, D.Whole x →
    (∀ l c, Walk (accGraph (fun b : Fin (last + 1) => blockAcc D (st.blk b).ins ((st.cfg last).blk b).act) (st.cfg last)) (Fin.ofNat (last + 1) 0) l c →
      Enters (accGraph (fun b : Fin (last + 1) => blockAcc D (st.blk b).ins ((st.cfg last).blk b).act) (st.cfg last)) l c →
      ¬ ReadsFirst (accGraph (fun b : Fin (last + 1) => blockAcc D (st.blk b).ins ((st.cfg last).blk b).act) (st.cfg last)) l c x) →
    ∀ m, WrittenBeforeRead x (s.run m).evs

theorem always_part {tops asg : List Nat} {p : Option Prg} {last : Nat} {st : PSt} (h : buildAlways tops asg p = some (last, st)) :
    ∃ f0 code, (∀ fuel, f0 ≤ fuel → alwaysCode st last fuel = some code) ∧
      ∀ {V : Type} (D : DataOf V) (L : Type), AlwaysPart D last st (alwaysSource asg p) code (alwaysStm D st last code : Stm V L) := by
  obtain ⟨f0, code, h1, hc⟩ := always_code h
  obtain ⟨_, _, hreg⟩ := always_graph h
  refine ⟨f0, code, h1, fun {V} D L => ?_⟩
  have hne : (code.stm D fun b : Fin (last + 1) => (st.blk b).ins).NoExit := stm_noExit D _ code hc.stays
  refine ⟨Stm.inert_noExit _, Stm.inert_shape _ hne (stm_shape D _ code hc.shaped), fun x hx => ?_, fun x hx => ?_, fun m d => ?_, fun x hx hw m => ?_⟩
  · exact Stm.inert_noField _ (stm_noField _ (fun i s hs => hx i s (List.mem_append_left _ hs)) (fun i s hs => hx i s (List.mem_append_right _ hs)) code)
  · exact Stm.inert_noRead _ (stm_noRead hx code)
  · obtain ⟨es, ⟨m1, d1⟩, hr⟩ := runs_total D.meaning _ (alwaysSource_stateless h) (m, d)
    obtain ⟨tr, t1, t2, _⟩ := hc.run D.meaning (m, d) es (m1, d1) hr none
    obtain ⟨tr', t3, t4⟩ := stm_run D (fun b : Fin (last + 1) => (st.blk b).ins) d code hc.shaped m [] none
    rw [t1, CSt.mk.injEq, Prod.mk.injEq, List.nil_append] at t3
    obtain ⟨rfl, ⟨rfl, rfl⟩, _⟩ := t3
    obtain ⟨i1, i2, _⟩ := Stm.inert_run (L' := L) _ hne m
    rw [alwaysStm, i1, i2]
    refine ⟨es, hr, ?_⟩
    intro e he i hi
    rw [← t2] at he
    obtain ⟨b, hb, he⟩ := List.mem_flatMap.mp he
    obtain ⟨p, hp, he⟩ := List.mem_flatMap.mp he
    refine t4 b hb p hp i ?_
    rw [← dids_ins]
    exact List.mem_flatMap.mpr ⟨e, he, hi⟩
  · obtain ⟨_, i2, _⟩ := Stm.inert_run (L' := L) _ hne m
    rw [alwaysStm, i2]
    have e0 := h1 f0 le_rfl
    rw [alwaysCode, Option.map_eq_some_iff] at e0
    obtain ⟨c0, e0, rfl⟩ := e0
    have hR := hreg ⟨fun _ => none, fun _ => none⟩ (fun _ => rfl)
    rw [(noHalt_run c0 (emit_shaped hR e0).1 m).2]
    exact Trail.written (hx.unparted _) hw (emit_trail hR e0 m)

/-! ### The claim -/

theorem Runs.det {σ : Type} {M : Meaning σ} {p : Prg} {s s1 : σ} {e1 : List Did} (h : Runs M p s e1 s1) :
    ∀ {s2 : σ} {e2 : List Did}, Runs M p s e2 s2 → e1 = e2 ∧ s1 = s2 := by
  induction h with
  | nil => intro s2 e2 h2; cases h2; exact ⟨rfl, rfl⟩
  | instr _ ih =>
    intro s2 e2 h2
    cases h2 with
    | instr h3 =>
      obtain ⟨rfl, rfl⟩ := ih h3
      exact ⟨rfl, rfl⟩
  | block _ _ ih1 ih2 =>
    intro s2 e2 h2
    cases h2 with
    | block h3 h4 =>
      obtain ⟨rfl, rfl⟩ := ih1 h3
      obtain ⟨rfl, rfl⟩ := ih2 h4
      exact ⟨rfl, rfl⟩
  | ifThen _ _ ih1 ih2 =>
    intro s2 e2 h2
    cases h2 with
    | ifThen h3 h4 =>
      obtain ⟨rfl, rfl⟩ := ih1 h3
      obtain ⟨rfl, rfl⟩ := ih2 h4
      exact ⟨rfl, rfl⟩
  | ifElse _ _ ih1 ih2 =>
    intro s2 e2 h2
    cases h2 with
    | ifElse h3 h4 =>
      obtain ⟨rfl, rfl⟩ := ih1 h3
      obtain ⟨rfl, rfl⟩ := ih2 h4
      exact ⟨rfl, rfl⟩
  | case hp _ _ ih1 ih2 =>
    intro s2 e2 h2
    cases h2 with
    | case hp2 h3 h4 =>
      rw [hp] at hp2
      cases hp2
      obtain ⟨rfl, rfl⟩ := ih1 h3
      obtain ⟨rfl, rfl⟩ := ih2 h4
      exact ⟨rfl, rfl⟩
    | noCase hp2 _ => rw [hp] at hp2; cases hp2
  | noCase hp _ ih =>
    intro s2 e2 h2
    cases h2 with
    | case hp2 _ _ => rw [hp] at hp2; cases hp2
    | noCase _ h3 => exact ih h3

theorem PRun.det {V : Type} {subs : List Prg} {main before after : Prg} {D Dp Dq : DataOf V} {inputs : List String}
    {inp : Nat → String → V} {done : Nat → Nat → Bool} {m0 : String → V} {n : Nat} {t1 : List (List Did × List Did × List Did)}
    {o1 : Option (Ctl × Bool)} {m1 : String → V} (h1 : PRun subs main before after D Dp Dq inputs inp done m0 n t1 o1 m1) :
    ∀ {t2 : List (List Did × List Did × List Did)} {o2 : Option (Ctl × Bool)} {m2 : String → V},
      PRun subs main before after D Dp Dq inputs inp done m0 n t2 o2 m2 → t1 = t2 ∧ o1 = o2 ∧ m1 = m2 := by
  induction h1 with
  | start => intro t2 o2 m2 h2; cases h2; exact ⟨rfl, rfl, rfl⟩
  | next _ r1 hc r2 ih =>
    intro t2 o2 m2 h2
    cases h2 with
    | next h3 r3 hc3 r4 =>
      obtain ⟨rfl, e, rfl⟩ := ih h3
      cases e
      obtain ⟨rfl, e⟩ := r1.det r3
      cases e
      obtain ⟨rfl, e, rfl⟩ := hc.det hc3
      cases e
      obtain ⟨rfl, e⟩ := r2.det r4
      cases e
      exact ⟨rfl, rfl, rfl⟩
    | over h3 => have := (ih h3).2.1; cases this
  | over _ r1 r2 ih =>
    intro t2 o2 m2 h2
    cases h2 with
    | next h3 _ _ _ => have := (ih h3).2.1; cases this
    | over h3 r3 r4 =>
      obtain ⟨rfl, _, rfl⟩ := ih h3
      obtain ⟨rfl, e⟩ := r1.det r3
      cases e
      obtain ⟨rfl, e⟩ := r2.det r4
      cases e
      exact ⟨rfl, rfl, rfl⟩

/-- C53: the source gives one value to each variable, always blocks included: what is executed, where the program is and the variables after `n`
cycles are determined by the inputs, the `done` signals and the initial values. -/
theorem C53_program_deterministic {V : Type} (subs : List Prg) (main before after : Prg) (D Dp Dq : DataOf V) (inputs : List String)
    (inp : Nat → String → V) (done : Nat → Nat → Bool) (m0 : String → V) (n : Nat) (t1 t2 : List (List Did × List Did × List Did))
    (o1 o2 : Option (Ctl × Bool)) (m1 m2 : String → V) (h1 : PRun subs main before after D Dp Dq inputs inp done m0 n t1 o1 m1)
    (h2 : PRun subs main before after D Dp Dq inputs inp done m0 n t2 o2 m2) : t1 = t2 ∧ o1 = o2 ∧ m1 = m2 := h1.det h2

/-- Cycles with the always blocks as functions are cycles of the source. -/
theorem WTRun.program {V L L' : Type} {subs : List Prg} {main before after : Prg} {D Dp Dq : DataOf V} {lp lq : Nat} {sp sq : PSt}
    {cp : Code (Fin (lp + 1))} {cq : Code (Fin (lq + 1))} {pre : Stm V L} {post : Stm V L'} (P : AlwaysPart Dp lp sp before cp pre)
    (Q : AlwaysPart Dq lq sq after cq post) {inputs : List String} {inp : Nat → String → V} {done : Nat → Nat → Bool} {m0 : String → V} {n : Nat}
    {trs : List (List Did)} {o : Option (Ctl × Bool)} {m : String → V}
    (h : WTRun subs main D (fun m => (pre.run m).env) (fun m => (post.run m).env) inputs inp done m0 n trs o m) :
    ∃ ts, PRun subs main before after D Dp Dq inputs inp done m0 n ts o m := by
  induction h with
  | start => exact ⟨[], .start⟩
  | @next n trs tr c f o m m' d' _ hc ih =>
    obtain ⟨ts, h⟩ := ih
    obtain ⟨e1, r1, _⟩ := P.run (overlay inputs (inp n) m) (done n)
    obtain ⟨e3, r3, _⟩ := Q.run m' d'
    exact ⟨_, .next h r1 hc r3⟩
  | @over n trs m _ ih =>
    obtain ⟨ts, h⟩ := ih
    obtain ⟨e1, r1, _⟩ := P.run (overlay inputs (inp n) m) (done n)
    obtain ⟨e3, r3, _⟩ := Q.run (pre.run (overlay inputs (inp n) m)).env (done n)
    exact ⟨_, .over h r1 r3⟩

/-- C53: for every program (as in C52) with its `always_before` (and `x := e`) and `always_after` blocks, all meanings of the instructions and
conditions, all names of ports and bound variables, all inputs and `done` signals: with the storage that `determineAccess`, `determineUsage` and
the first pass of the writing choose for each variable, registers that start with the state index 1 and the values `m0` of the variables
hold after every cycle the values that the source gives to the variables kept in flip-flops; the index is 0 exactly when the program has ended.
In every cycle, what is seen at its end of flip-flops, of variables bound to the value of the cycle (whatever their storage) and of temporaries
assigned in the cycle is the value the source gives; a variable bound to the value at the start of the cycle is in a flip-flop.
While the index is 0 (reset, not started yet, ended) the always blocks are executed and nothing else. The exploration of the accesses (`accAll`) ends, C33.
Partial: a temporary must not be assigned in part (counterexample of C33); a variable that loses its flip-flop in the first pass of the writing
must not be assigned through a bit field, and must not be read after the statements by `always_after` or by a bound instance, unless no
statement assigns it, or the program never ends and no `while` is followed by a state (counterexamples of C30). -/
theorem C53_program_partial (u : AlgUnit) (last : Nat) (st : PSt) (ff : Cfg (Fin (last + 1)) → Fin (last + 1) → Fin (last + 1)) (hff : Skips ff)
    (h : buildUnit u = some (last, st)) (hok : u.switchOk = true) (ht : u.tidy = true) (tp tq asgs : List Nat) (before after : Option Prg)
    (lp lq : Nat) (sp sq : PSt) (hp : buildAlways tp asgs before = some (lp, sp)) (hq : buildAlways tq [] after = some (lq, sq)) :
    ∃ g rs, generateStates (st.cfg last) 0 ff (last + 1) (List.finRange (last + 1)) = some (g, rs) ∧
      ∃ efuel fuel entries afuel cp cq, emitStates g rs.num (ff g) efuel fuel = .ok entries ∧ alwaysCode sp lp afuel = some cp ∧
        alwaysCode sq lq afuel = some cq ∧
        ∀ (V : Type) (D Dp Dq : DataOf V) (N : AlgPorts) (a : Design V (Ctrl (Fin (last + 1))))
          (acc : AccIn (Fin (last + 1) ⊕ Fin (lp + 1) ⊕ Fin (lq + 1))) (cls0 : String → Store),
        a = wholeDesign D (fun b : Fin (last + 1) => (st.blk b).ins) entries (alwaysStm Dp sp lp cp) (alwaysStm Dq sq lq cq) N.bindQ N.bindD
          N.outs →
        acc = accWhole D Dp Dq N st g rs.num sp sq →
        (∃ kfuel log, accAll acc kfuel = some log ∧ cls0 = storeOf acc log (N.outs ++ N.comb)) →
        (∀ x, cls0 x = .temp → D.Whole x ∧ Dp.Whole x ∧ Dq.Whole x) →
        (∀ x, cls0 x = .flipflop → a.demote cls0 x = .temp → D.NoField x ∧ Dp.NoField x ∧ Dq.NoField x) →
        (∀ (junk inp : String → V) (done : Nat → Bool) (r : WReg V) (m : String → V), r.idx = 0 →
          (∀ x, a.demote cls0 x = .flipflop → r.q x = m x) →
          (∀ x, cls0 x = .flipflop → a.demote cls0 x = .temp → (Dq.Unread x ∧ x ∉ N.bindD) ∨ D.Keeps x) →
          ∃ h r' e1 e3 m1 m',
            wCycle g rs.num (ff g) (callIdsFrom g 0 (List.finRange (last + 1))) entries a (a.demote cls0) N.inputs junk inp done r =
              some (h, r') ∧ r'.idx = 0 ∧
            Runs Dp.meaning (alwaysSource asgs before) (overlay N.inputs inp m, done) e1 (m1, done) ∧
            Runs Dq.meaning (alwaysSource [] after) (m1, done) e3 (m', done) ∧
            (∀ x, a.demote cls0 x = .flipflop → h.v x = m' x ∧ r'.q x = m' x) ∧ (∀ x ∈ N.bindD, h.v x = m' x) ∧
            ∀ x, (∃ e ∈ e1, ∃ i ∈ Dp.did e, x ∈ i.writes) ∨ (∃ e ∈ e3, ∃ i ∈ Dq.did e, x ∈ i.writes) → h.v x = m' x) ∧
        ∀ (junk inp : Nat → String → V) (done : Nat → Nat → Bool) (r0 : WReg V) (m0 : String → V), r0.idx = 1 →
        (∀ x, a.demote cls0 x = .flipflop → r0.q x = m0 x) →
        (∀ x, cls0 x = .flipflop → a.demote cls0 x = .temp → (Dq.Unread x ∧ x ∉ N.bindD) ∨ D.Keeps x ∨
          ((∀ s ∈ a.states, s.Closed) ∧ ∀ j trs m, ¬ PRun (u.globals ++ u.locals) u.main (alwaysSource asgs before) (alwaysSource [] after) D Dp Dq
            N.inputs inp done m0 j trs none m)) →
        ∀ n : Nat, ∃ r h r' trs e1 e2 e3 o o' m m',
          wRun g rs.num (ff g) (callIdsFrom g 0 (List.finRange (last + 1))) entries a (a.demote cls0) N.inputs junk inp done r0 n = some r ∧
          wCycle g rs.num (ff g) (callIdsFrom g 0 (List.finRange (last + 1))) entries a (a.demote cls0) N.inputs (junk n) (inp n) (done n) r =
            some (h, r') ∧
          PRun (u.globals ++ u.locals) u.main (alwaysSource asgs before) (alwaysSource [] after) D Dp Dq N.inputs inp done m0 n trs o m ∧
          PRun (u.globals ++ u.locals) u.main (alwaysSource asgs before) (alwaysSource [] after) D Dp Dq N.inputs inp done m0 (n + 1)
            (trs ++ [(e1, e2, e3)]) o' m' ∧
          (r.idx = 0 ↔ o = none) ∧ (r'.idx = 0 ↔ o' = none) ∧
          (∀ x, a.demote cls0 x = .flipflop → r.q x = m x ∧ h.v x = m' x ∧ r'.q x = m' x) ∧
          (∀ x ∈ N.bindD, h.v x = m' x) ∧ (∀ x ∈ N.bindQ, a.demote cls0 x = .flipflop) ∧
          ∀ x, (∃ e ∈ e1, ∃ i ∈ Dp.did e, x ∈ i.writes) ∨ (∃ e ∈ e2, ∃ i ∈ D.did e, x ∈ i.writes) ∨
            (∃ e ∈ e3, ∃ i ∈ Dq.did e, x ∈ i.writes) → h.v x = m' x := by
  obtain ⟨g, rs, h1, ef, fu, es, he, C⟩ := C53_whole_partial u last st ff hff h hok ht
  obtain ⟨_, _, _, g', rs', h1', _, _, _, _, _, _, _, _, _, _, _, mc⟩ := unit_machine u last st ff hff h hok
  rw [h1, Option.some.injEq, Prod.mk.injEq] at h1'
  obtain ⟨rfl, rfl⟩ := h1'
  obtain ⟨f1, cp, p1, p2⟩ := always_part hp
  obtain ⟨f2, cq, q1, q2⟩ := always_part hq
  refine ⟨g, rs, h1, ef, fu, es, max f1 f2, cp, cq, he, p1 _ (by omega), q1 _ (by omega), ?_⟩
  intro V D Dp Dq N a acc cls0 ha hacc hcls hT hF
  obtain ⟨kf, log, hlog, hcls⟩ := hcls
  have P := p2 Dp (Ctrl (Fin (last + 1)))
  have Q := q2 Dq (Ctrl (Fin (last + 1)))
  have inv := emitStates_inv he
  have dist := (C20_entries_distinct g 0 (ff g) rs.num rs.maxState ef fu es mc.numbers he).2.2
  -- the three graphs within the whole one
  have G1 : ∀ b, acc.g (.inl b) = (accGraph (fun b : Fin (last + 1) => blockAcc D (st.blk b).ins (g.blk b).act) g b).map .inl := fun b => by
    rw [hacc]; rfl
  have G2 : ∀ b, acc.g ((.inr ∘ .inl) b) =
      (accGraph (fun b : Fin (lp + 1) => blockAcc Dp (sp.blk b).ins ((sp.cfg lp).blk b).act) (sp.cfg lp) b).map (.inr ∘ .inl) := fun b => by
    rw [hacc]; rfl
  have G3 : ∀ b, acc.g ((.inr ∘ .inr) b) =
      (accGraph (fun b : Fin (lq + 1) => blockAcc Dq (sq.blk b).ins ((sq.cfg lq).blk b).act) (sq.cfg lq) b).map (.inr ∘ .inr) := fun b => by
    rw [hacc]; rfl
  have heads : ∀ hd, hd ∈ acc.heads ↔ (∃ b, (g.blk b).isState = true ∧ (rs.num.sid b).isSome = true ∧ hd = .inl b) ∨
      hd = .inr (.inl (Fin.ofNat (lp + 1) 0)) ∨ hd = .inr (.inr (Fin.ofNat (lq + 1) 0)) := by
    intro hd
    rw [hacc]
    simp only [accWhole, List.mem_append, List.mem_map, List.mem_filter, List.mem_finRange, true_and, Bool.and_eq_true, List.mem_cons,
      List.not_mem_nil, or_false]
    constructor
    · rintro (⟨b, hb, rfl⟩ | hh)
      · exact .inl ⟨b, hb.1, hb.2, rfl⟩
      · exact .inr hh
    · rintro (⟨b, hb1, hb2, rfl⟩ | hh)
      · exact .inl ⟨b, ⟨hb1, hb2⟩, rfl⟩
      · exact .inr hh
  have hdom : ∀ hd ∈ acc.heads, Dominated acc.g hd := by
    intro hd hh
    rcases (heads hd).mp hh with ⟨b, _, hb, rfl⟩ | rfl | rfl
    · refine Dominated.embed G1 Sum.inl_injective (numbered_dominated u last st ff hff h hok g rs h1 _ b fun hn => ?_)
      rw [hn] at hb
      cases hb
    · exact Dominated.embed (f := Sum.inr ∘ Sum.inl) G2 (Sum.inr_injective.comp Sum.inl_injective) ((always_graph hp).2.1 _)
    · exact Dominated.embed (f := Sum.inr ∘ Sum.inr) G3 (Sum.inr_injective.comp Sum.inr_injective) ((always_graph hq).2.1 _)
  have safe : ∀ x, cls0 x = .temp → ∀ hd ∈ acc.heads, ∀ l c, Walk acc.g hd l c → Enters acc.g l c → ¬ ReadsFirst acc.g l c x := fun x hx => by
    rw [hcls] at hx
    exact temp_safe hdom hlog hx
  -- temporaries are written before they are read
  have hT' : ∀ x, cls0 x = .temp → ∀ k m, WrittenBeforeRead x (a.srcCycle ⟨k, m⟩).evs := by
    intro x hx k m
    obtain ⟨t1, t2, t3⟩ := hT x hx
    have s1 := P.written x t2 (fun l c w en hr => safe x hx _ ((heads _).mpr (.inr (.inl rfl))) _ _ (w.embed G2) (en.embed G2) (hr.embed G2))
    have s3 := Q.written x t3 (fun l c w en hr => safe x hx _ ((heads _).mpr (.inr (.inr rfl))) _ _ (w.embed G3) (en.embed G3) (hr.embed G3))
    rw [ha]
    refine ((s1 m).append ?_).append (s3 _)
    simp only [Design.stateRun, wholeDesign, List.getElem?_map]
    cases hk : es[k]? with
    | none => intro before e after hev; simp at hev
    | some e =>
      have hmem := List.mem_of_getElem? hk
      have hd := dist e hmem
      refine Trail.written (t1.unparted _) ?_ (emit_trail (mc.wf.region e.block hd.2.2.2.1 hd.2.2.2.2) (inv.code e hmem) _)
      intro l c w en hr
      refine safe x hx (.inl e.block) ((heads _).mpr (.inl ⟨e.block, ?_, ?_, rfl⟩)) _ _ (w.embed G1) (en.embed G1) (hr.embed G1)
      · exact hd.2.2.2.2
      · rw [hd.1]; rfl
  have ends : ∀ x, (x ∈ N.bindQ ∨ x ∈ N.bindD) ∨ x ∈ N.others → cls0 x = .flipflop := fun x hx => by
    rw [hcls]
    refine storeOf_end ?_
    rw [hacc]
    simpa only [accWhole, List.mem_append] using hx
  obtain ⟨C0, C⟩ := C V D (alwaysStm Dp sp lp cp)
    (alwaysStm Dq sq lq cq) N.bindQ N.bindD N.outs N.inputs cls0 a ha P.shape P.noExit Q.shape Q.noExit hT'
    (fun x x1 x2 => ⟨P.noField x (hF x x1 x2).2.1, Q.noField x (hF x x1 x2).2.2, (hF x x1 x2).1⟩)
  constructor
  · intro junk inp done r m hr0 hq0 hP
    obtain ⟨hh, r', c1, c2, c3, c4, c5⟩ := C0 junk inp done r m _ hr0 hq0
      (fun x x1 x2 => (hP x x1 x2).imp (fun y => ⟨Q.noRead x y.1, y.2⟩) id) rfl
    obtain ⟨e1, r1, w1⟩ := P.run (overlay N.inputs inp m) done
    obtain ⟨e3, r3, w3⟩ := Q.run ((alwaysStm Dp sp lp cp : Stm V (Ctrl (Fin (last + 1)))).run (overlay N.inputs inp m)).env done
    refine ⟨hh, r', e1, e3, _, _, c1, c2, r1, r3, c3, fun x hx => c4 x (ends x (.inl (.inr hx))) hx, fun x hx => c5 x ?_⟩
    rcases hx with ⟨e, he, i, hi, hx⟩ | ⟨e, he, i, hi, hx⟩
    · obtain ⟨ev, v1, v2⟩ := w1 e he i hi
      exact .inl ⟨ev, v1, v2 ▸ hx⟩
    · obtain ⟨ev, v1, v2⟩ := w3 e he i hi
      exact .inr ⟨ev, v1, v2 ▸ hx⟩
  intro junk inp done r0 m0 hi0 hq0 hP n
  obtain ⟨r, hh, r', trs, tr, o, o', m, m', m2, c1, c2, c3, c4, c5, c6, c7, c8, c9, c10, c11, c12, c13⟩ := C junk inp done r0 m0 hi0 hq0
    (fun x x1 x2 => by
      rcases hP x x1 x2 with y | y | y
      · exact .inl ⟨Q.noRead x y.1, y.2⟩
      · exact .inr (.inl y)
      · refine .inr (.inr ⟨y.1, fun j trs m w => ?_⟩)
        obtain ⟨ts, w⟩ := w.program P Q
        exact y.2 j ts m w) n
  obtain ⟨ts, d1⟩ := c3.program P Q
  obtain ⟨e1, r1, w1⟩ := P.run (overlay N.inputs (inp n) m) (done n)
  obtain ⟨e3, r3, w3⟩ := Q.run m2 (done n)
  refine ⟨r, hh, r', ts, e1, tr, e3, o, o', m, m', c1, c2, d1, ?_, c5, c6, c7, fun x hx => c8 x (ends x ?_) hx, fun x hx => c9 x (ends x ?_) hx, fun x hx => c13 x ?_⟩
  · rw [c10]
    cases o with
    | some cf => exact .next d1 r1 (c11 cf.1 cf.2 rfl) r3
    | none =>
      obtain ⟨z1, z2⟩ := c12 rfl
      have z3 := c4.det (.over c3)
      rw [z3.2.1, z2]
      rw [z1] at r3 ⊢
      exact .over d1 r1 r3
  · exact .inl (.inr hx)
  · exact .inl (.inl hx)
  · rcases hx with ⟨e, he, i, hi, hx⟩ | hx | ⟨e, he, i, hi, hx⟩
    · obtain ⟨ev, v1, v2⟩ := w1 e he i hi
      exact .inl ⟨ev, v1, v2 ▸ hx⟩
    · exact .inr (.inl hx)
    · obtain ⟨ev, v1, v2⟩ := w3 e he i hi
      exact .inr (.inr ⟨ev, v1, v2 ▸ hx⟩)

/-! ### Examples -/

/-- `dst = names + i` in each instruction, no test. -/
def exOnly (dst : String) (names : List String) : DataOf Nat where
  instr i := [{ reads := names, writes := [dst], fn := fun vs _ => vs.sum + i }]
  take _ := []
  testReads _ := []
  test _ _ := true
  labelReads _ := []
  label _ _ _ := true

theorem exOnly_whole (dst : String) (names : List String) (x : String) : (exOnly dst names).Whole x := by
  intro i s hs
  simp only [exOnly, List.append_nil, List.mem_singleton] at hs
  subst hs
  exact ⟨List.not_mem_nil, List.not_mem_nil⟩

theorem exData_whole (x : String) : exData.Whole x := by
  intro i s hs
  simp only [exData, List.mem_append, List.mem_singleton] at hs
  rcases hs with rfl | rfl <;> exact ⟨List.not_mem_nil, List.not_mem_nil⟩

/-- Non-vacuity: `exStructured` (nested loops, `break`, `++:`, a switch, subroutines, a wait) with the instructions of `exData`, `t := x + a`,
`always_before { t = x + a + 2; }`, `always_after { z = a; }`, output `z`, meets the hypotheses, for all inputs `a` and `done` signals. -/
example (last : Nat) (st : PSt) (ff : Cfg (Fin (last + 1)) → Fin (last + 1) → Fin (last + 1)) (hff : Skips ff)
    (h : buildUnit exStructured = some (last, st)) (inp : Nat → String → Nat) (done : Nat → Nat → Bool) (n : Nat) :
    ∃ (g : Cfg (Fin (last + 1))) (rs : RenSt (Fin (last + 1))) (entries : List (Entry (Fin (last + 1))))
      (a : Design Nat (Ctrl (Fin (last + 1)))) (cls : String → Store) (r : WReg Nat) (trs : List (List Did × List Did × List Did))
      (o : Option (Ctl × Bool)) (m : String → Nat),
      wRun g rs.num (ff g) (callIdsFrom g 0 (List.finRange (last + 1))) entries a (a.demote cls) ["a"] (fun _ _ => 7) inp done
        ⟨1, 0, fun _ => 0, fun _ => 0⟩ n = some r ∧
      PRun (exStructured.globals ++ exStructured.locals) exStructured.main (alwaysSource [0] (some (.instr 2 .nil)))
        (alwaysSource [] (some (.instr 0 .nil))) exData (exOnly "t" ["x", "a"]) (exOnly "z" ["a"]) ["a"] inp done (fun _ => 0) n trs o m ∧
      (∀ x, a.demote cls x = .flipflop → r.q x = m x) := by
  have hp : (buildAlways [] [0] (some (.instr 2 .nil))).isSome = true := by decide +kernel
  have hq : (buildAlways [] [] (some (.instr 0 .nil))).isSome = true := by decide +kernel
  obtain ⟨⟨lp, sp⟩, hp⟩ := Option.isSome_iff_exists.mp hp
  obtain ⟨⟨lq, sq⟩, hq⟩ := Option.isSome_iff_exists.mp hq
  obtain ⟨g, rs, _, _, _, es, _, cp, cq, _, _, _, C⟩ := C53_program_partial exStructured last st ff hff h (by decide +kernel) (by decide +kernel)
    [] [] [0] (some (.instr 2 .nil)) (some (.instr 0 .nil)) lp lq sp sq hp hq
  let N : AlgPorts := { inputs := ["a"], outs := ["z"] }
  obtain ⟨kf, log, hlog, _⟩ := C33_all_terminates (accWhole exData (exOnly "t" ["x", "a"]) (exOnly "z" ["a"]) N st g rs.num sp sq)
    ((List.finRange (last + 1)).map .inl ++ ((List.finRange (lp + 1)).map (.inr ∘ .inl) ++ (List.finRange (lq + 1)).map (.inr ∘ .inr)))
    (fun b => by rcases b with b | b | b <;> simp)
  obtain ⟨r, hh, r', trs, e1, e2, e3, o, o', m, m', h1, h2, h3, h4, h5, h6, h7, _⟩ := (C Nat exData (exOnly "t" ["x", "a"]) (exOnly "z" ["a"]) N _ _ _
    rfl rfl ⟨kf, log, hlog, rfl⟩ (fun x _ => ⟨exData_whole x, exOnly_whole _ _ x, exOnly_whole _ _ x⟩)
    (fun x _ _ => ⟨fun i s hs => (exData_whole x i s hs).2, fun i s hs => (exOnly_whole _ _ x i s hs).2, fun i s hs => (exOnly_whole _ _ x i s hs).2⟩)).2
    (fun _ _ => 7) inp done ⟨1, 0, fun _ => 0, fun _ => 0⟩ (fun _ => 0) rfl (fun _ _ => rfl)
    (fun x _ _ => by
      by_cases e : x = "a"
      · refine .inr (.inl fun i s hs => ?_)
        subst e
        simp only [exData, List.mem_append, List.mem_singleton] at hs
        rcases hs with rfl | rfl <;> simp
      · refine .inl ⟨⟨fun i s hs => ?_, fun q => ⟨List.not_mem_nil, List.not_mem_nil⟩⟩, List.not_mem_nil⟩
        simp only [exOnly, List.append_nil, List.mem_singleton] at hs
        subst hs
        simpa using e) n
  exact ⟨g, rs, es, _, _, r, trs, o, m, h1, h3, fun x hx => (h7 x hx).1⟩

/-- Odd instructions are `x = t + i`, even ones are `t = x + i`; conditions are `x % 2 == 0`. -/
def exTwo : DataOf Nat where
  instr i := if i % 2 = 1 then [{ reads := ["t"], writes := ["x"], fn := fun vs _ => vs.sum + i }]
    else [{ reads := ["x"], writes := ["t"], fn := fun vs _ => vs.sum + i }]
  take _ := []
  testReads _ := ["x"]
  test _ vs := vs.sum % 2 = 0
  labelReads _ := ["x"]
  label _ v vs := vs.sum = v

/-- Storage of `x`, `t` and `s` chosen by `determineUsage`, with `s := x + 1` before and `z = x` after the statements. -/
def programStores (u : AlgUnit) : Option (List Store) :=
  match buildUnit u, buildAlways [] [1] none, buildAlways [] [] (some (.instr 0 .nil)) with
  | some (last, st), some (lp, sp), some (lq, sq) =>
    match generateStates (st.cfg last) 0 (ffUpTo (last + 1)) (last + 1) (List.finRange (last + 1)) with
    | none => none
    | some (g, rs) =>
      let acc : AccIn (Fin (last + 1) ⊕ Fin (lp + 1) ⊕ Fin (lq + 1)) :=
        accWhole exTwo (exOnly "s" ["x"]) (exOnly "z" ["x"]) { outs := ["z"] } st g rs.num sp sq
      (accAll acc 50).map fun log => ["x", "t", "s", "z"].map (storeOf acc log ["z"])
  | _, _, _ => none

/-- `t = x + 2; x = t + 3; ++: t = x + 2; x = t + 5;`: `t` is a temporary, `x` is kept from one cycle to the next, `s` is only written,
outputs are never temporaries. -/
example : programStores ⟨[], [], .instr 2 (.instr 3 (.step (.instr 2 (.instr 5 .nil))))⟩ = some [.flipflop, .temp, .temp, .flipflop] := by decide +kernel

/-- `t = x + 2; ++: x = t + 3;`: `t` is kept as well. -/
example : programStores ⟨[], [], .instr 2 (.step (.instr 3 .nil))⟩ = some [.flipflop, .flipflop, .temp, .flipflop] := by decide +kernel

end Silice
