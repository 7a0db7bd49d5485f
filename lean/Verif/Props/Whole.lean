import Verif.Lemmas.Whole
import Verif.Props.GatherTime
import Verif.Props.Usage

/-!
C53: the hardware generated for an algorithm computes, cycle by cycle, what the source says, from the statements to the flip-flops.

Puts together C52 (which statements are executed in which cycle), C21 (state machine), C30 and C49 (storage of variables).
-/

set_option autoImplicit false

namespace Silice

theorem hwRun_congr {B σ : Type} [DecidableEq B] {g : Cfg B} {num : Num B} {ff : B → B} {ids : List (B × Nat)} {entries : List (Entry B)}
    {S : Sem B σ} {env env' : Nat → σ → σ} {h0 : HW σ} : ∀ n, (∀ i, i < n → env i = env' i) →
    hwRun g num ff ids entries S env h0 n = hwRun g num ff ids entries S env' h0 n
  | 0, _ => rfl
  | n + 1, h => by rw [hwRun, hwRun, hwRun_congr n fun i hi => h i (by omega), h n (by omega)]

theorem TRun.congr {σ : Type} {subs : List Prg} {main : Prg} {M : Meaning σ} {env env' : Nat → σ → σ} {s0 : σ} {n : Nat}
    {trs : List (List Did)} {o : Option (Ctl × Bool)} {s : σ} (h : TRun subs main M env s0 n trs o s) : (∀ i, i < n → env i = env' i) →
    TRun subs main M env' s0 n trs o s := by
  induction h with
  | start => exact fun _ => .start
  | @next n trs tr c f o s s' _ hc ih =>
    intro he
    rw [he n (by omega)]
    exact .next (ih fun i hi => he i (by omega)) hc
  | @over n trs s _ ih =>
    intro he
    rw [he n (by omega)]
    exact .over (ih fun i hi => he i (by omega))

theorem hwCycle_env {B σ : Type} [DecidableEq B] {g : Cfg B} {num : Num B} {ff : B → B} {ids : List (B × Nat)} {entries : List (Entry B)}
    {S : Sem B σ} {h h1 : HW σ} {tr : List B} (f : σ → σ) (hc : hwCycle g num ff ids entries S id h = some (tr, h1)) :
    hwCycle g num ff ids entries S f h = some (tr, { h1 with data := f h1.data }) := by
  unfold hwCycle at hc ⊢
  split
  · rename_i hz
    rw [if_pos hz] at hc
    cases hc
    rfl
  · rename_i hz
    rw [if_neg hz] at hc
    split at hc
    · cases hc
    · rename_i e he
      simp only [Option.map_eq_some_iff] at hc ⊢
      obtain ⟨k, hk, hc⟩ := hc
      refine ⟨k, hk, ?_⟩
      cases hc
      rfl

/-- The last cycle of an execution, when the rest of the design does nothing at its end. -/
theorem TRun.lastCycle {σ : Type} {subs : List Prg} {main : Prg} {M : Meaning σ} {env : Nat → σ → σ} {s0 : σ} {n : Nat} {trs : List (List Did)}
    {tr : List Did} {o o1 : Option (Ctl × Bool)} {s s1 : σ} (h1 : TRun subs main M env s0 (n + 1) (trs ++ [tr]) o1 s1) (he : env n = id)
    (h : TRun subs main M env s0 n trs o s) :
    (∃ c f, o = some (c, f) ∧ TCycle subs M c f s tr s1 o1) ∨ (o = none ∧ o1 = none ∧ tr = [] ∧ s1 = s) := by
  generalize hT : trs ++ [tr] = T at h1
  cases h1 with
  | @next _ trs0 tr0 c f _ s' s'' t1 t2 =>
    obtain ⟨rfl, rfl, rfl⟩ := t1.det h
    have := List.append_cancel_left hT
    cases this
    rw [he]
    exact .inl ⟨c, f, rfl, t2⟩
  | @over _ trs0 s' t1 =>
    obtain ⟨rfl, rfl, rfl⟩ := t1.det h
    have := List.append_cancel_left hT
    cases this
    rw [he]
    exact .inr ⟨rfl, rfl, rfl, rfl⟩

/-- No statement of the algorithm assigns `x`. -/
def DataOf.Keeps {V : Type} (D : DataOf V) (x : String) : Prop :=
  ∀ i, ∀ s ∈ D.instr i ++ D.take i, x ∉ s.writes ∧ x ∉ s.parts ∧ x ∉ s.fields

/-- C53: for every program (as in C52), all meanings of its instructions and conditions, all `always` blocks, bound variables, inputs and
`done` signals: registers that start with the state index 1 and the values `m0` of the variables hold after every cycle the values that the
source gives to the variables kept in flip-flops, where the source executes in each cycle the inputs, `always_before`, the statements that the
rules on cycles give, `always_after`; the index is 0 exactly when the program has ended. In every cycle, what is seen at its end (by outputs, or
by instances bound to the value of the cycle) of flip-flops, of bound variables and of temporaries assigned in the cycle (by a statement or
an always block) is the value the source gives. Variables bound to the value of the previous cycle are flip-flops. `m2` are the variables
between the statements and `always_after`. While the index is 0 (reset, not started yet, ended), the always blocks are executed and nothing else.
Partial: a variable that loses its flip-flop must not be assigned through a bit field, and must not be read after the statements by
`always_after` or by a bound instance, unless no statement assigns it, or the program never ends and no `while` is followed by a state; the
counterexamples are those of C30. Variables that were temporaries before this pass (`cls0`, decided by C33) are assumed to be written before
they are read. -/
theorem C53_whole_partial (u : AlgUnit) (last : Nat) (st : PSt) (ff : Cfg (Fin (last + 1)) → Fin (last + 1) → Fin (last + 1)) (hff : Skips ff)
    (h : buildUnit u = some (last, st)) (hok : u.switchOk = true) (ht : u.tidy = true) :
    ∃ g rs, generateStates (st.cfg last) 0 ff (last + 1) (List.finRange (last + 1)) = some (g, rs) ∧
      ∃ efuel fuel entries, emitStates g rs.num (ff g) efuel fuel = .ok entries ∧
        ∀ (V : Type) (D : DataOf V) (pre post : Stm V (Ctrl (Fin (last + 1)))) (bindQ bindD outs inputs : List String) (cls0 : String → Store)
          (a : Design V (Ctrl (Fin (last + 1)))), a = wholeDesign D (fun b : Fin (last + 1) => (st.blk b).ins) entries pre post bindQ bindD outs →
        pre.Shape → pre.NoExit → post.Shape → post.NoExit →
        (∀ x, cls0 x = .temp → ∀ k m, WrittenBeforeRead x (a.srcCycle ⟨k, m⟩).evs) →
        (∀ x, cls0 x = .flipflop → a.demote cls0 x = .temp →
          pre.NoField x ∧ post.NoField x ∧ ∀ i, ∀ s ∈ D.instr i ++ D.take i, x ∉ s.fields) →
        (∀ (junk inp : String → V) (done : Nat → Bool) (r : WReg V) (m m' : String → V), r.idx = 0 →
          (∀ x, a.demote cls0 x = .flipflop → r.q x = m x) →
          (∀ x, cls0 x = .flipflop → a.demote cls0 x = .temp → (post.NoRead x ∧ x ∉ bindD) ∨ D.Keeps x) →
          m' = (post.run (pre.run (overlay inputs inp m)).env).env →
          ∃ h r', wCycle g rs.num (ff g) (callIdsFrom g 0 (List.finRange (last + 1))) entries a (a.demote cls0) inputs junk inp done r =
              some (h, r') ∧ r'.idx = 0 ∧
            (∀ x, a.demote cls0 x = .flipflop → h.v x = m' x ∧ r'.q x = m' x) ∧
            (∀ x, cls0 x = .flipflop → x ∈ bindD → h.v x = m' x) ∧
            (∀ x, (∃ e ∈ (pre.run (overlay inputs inp m)).evs, x ∈ e.writes) ∨
              (∃ e ∈ (post.run (pre.run (overlay inputs inp m)).env).evs, x ∈ e.writes) → h.v x = m' x)) ∧
        ∀ (junk inp : Nat → String → V) (done : Nat → Nat → Bool) (r0 : WReg V) (m0 : String → V), r0.idx = 1 →
        (∀ x, a.demote cls0 x = .flipflop → r0.q x = m0 x) →
        (∀ x, cls0 x = .flipflop → a.demote cls0 x = .temp → (post.NoRead x ∧ x ∉ bindD) ∨ D.Keeps x ∨
          ((∀ s ∈ a.states, s.Closed) ∧ ∀ j trs m, ¬ WTRun (u.globals ++ u.locals) u.main D (fun m => (pre.run m).env)
            (fun m => (post.run m).env) inputs inp done m0 j trs none m)) →
        ∀ n : Nat, ∃ r h r' trs tr o o' m m' m2,
          wRun g rs.num (ff g) (callIdsFrom g 0 (List.finRange (last + 1))) entries a (a.demote cls0) inputs junk inp done r0 n = some r ∧
          wCycle g rs.num (ff g) (callIdsFrom g 0 (List.finRange (last + 1))) entries a (a.demote cls0) inputs (junk n) (inp n) (done n) r =
            some (h, r') ∧
          WTRun (u.globals ++ u.locals) u.main D (fun m => (pre.run m).env) (fun m => (post.run m).env) inputs inp done m0 n trs o m ∧
          WTRun (u.globals ++ u.locals) u.main D (fun m => (pre.run m).env) (fun m => (post.run m).env) inputs inp done m0 (n + 1)
            (trs ++ [tr]) o' m' ∧
          (r.idx = 0 ↔ o = none) ∧ (r'.idx = 0 ↔ o' = none) ∧
          (∀ x, a.demote cls0 x = .flipflop → r.q x = m x ∧ h.v x = m' x ∧ r'.q x = m' x) ∧
          (∀ x, cls0 x = .flipflop → x ∈ bindD → h.v x = m' x) ∧
          (∀ x, cls0 x = .flipflop → x ∈ bindQ → a.demote cls0 x = .flipflop) ∧
          m' = (post.run m2).env ∧
          (∀ c f, o = some (c, f) → TCycle (u.globals ++ u.locals) D.meaning c f ((pre.run (overlay inputs (inp n) m)).env, done n) tr
            (m2, done n) o') ∧
          (o = none → m2 = (pre.run (overlay inputs (inp n) m)).env ∧ tr = []) ∧
          (∀ x, (∃ e ∈ (pre.run (overlay inputs (inp n) m)).evs, x ∈ e.writes) ∨ (∃ e ∈ tr, ∃ i ∈ D.did e, x ∈ i.writes) ∨
            (∃ e ∈ (post.run m2).evs, x ∈ e.writes) → h.v x = m' x) := by
  obtain ⟨g, rs, h1, ef, fu, es, he, C⟩ := C52_cycles u last st ff hff h hok ht
  obtain ⟨_, _, _, g', rs', h1', _, _, _, _, _, _, _, _, _, es', _, mc⟩ := unit_machine u last st ff hff h hok
  rw [h1, Option.some.injEq, Prod.mk.injEq] at h1'
  obtain ⟨rfl, rfl⟩ := h1'
  refine ⟨g, rs, h1, ef, fu, es, he, ?_⟩
  intro V D pre post bindQ bindD outs inputs cls0 a ha hpre1 hpre2 hpost1 hpost2 hT hF
  have inv := emitStates_inv he
  have dist := (C20_entries_distinct g 0 (ff g) rs.num rs.maxState ef fu es mc.numbers he).2.2
  have hidx : ∀ e ∈ es, e.index ≠ 0 := fun e h => by have := (dist e h).2.1; omega
  have hsh : ∀ e ∈ es, e.code.shaped := fun e h =>
    (emit_shaped (mc.wf.region e.block (dist e h).2.2.2.1 (dist e h).2.2.2.2) (inv.code e h)).1
  have hs : a.Shape := by
    subst ha
    refine ⟨hpre1, hpre2, ?_, hpost1, hpost2⟩
    intro s hs
    obtain ⟨e, he, rfl⟩ := List.mem_map.mp hs
    exact stm_shape D _ e.code (hsh e he)
  have hfields : ∀ x, cls0 x = .flipflop → a.demote cls0 x = .temp → a.NoField x := by
    intro x h1 h2
    obtain ⟨f1, f2, f3⟩ := hF x h1 h2
    subst ha
    refine ⟨f1, ?_, f2⟩
    intro s hs
    obtain ⟨e, he, rfl⟩ := List.mem_map.mp hs
    exact stm_noField _ (fun i s hs => f3 i s (List.mem_append_left _ hs)) (fun i s hs => f3 i s (List.mem_append_right _ hs)) e.code
  have hkeeps : ∀ x, D.Keeps x → ∀ s ∈ a.states, s.NoWrite x := by
    intro x hk s hs
    subst ha
    obtain ⟨e, he, rfl⟩ := List.mem_map.mp hs
    exact stm_noWrite _ (fun i s hs => hk i s (List.mem_append_left _ hs)) (fun i s hs => hk i s (List.mem_append_right _ hs)) e.code
  have epost : a.post = post := by rw [ha]; rfl
  have ebD : a.bindD = bindD := by rw [ha]; rfl
  have ebQ : a.bindQ = bindQ := by rw [ha]; rfl
  have est : a.states = es.map fun e => e.code.stm D (fun b : Fin (last + 1) => (st.blk b).ins) := by rw [ha]; rfl
  have hdem : ∀ x, cls0 x = .flipflop → a.demote cls0 x = .temp → (a.endUse cls0 x).q = false ∧ a.endKeys x = true := by
    intro x hc ht
    unfold Design.demote at ht
    split at ht
    · next h => simp only [Bool.and_eq_true, Bool.not_eq_true'] at h; exact h.1
    · rw [hc] at ht; exact absurd ht (by simp)
  constructor
  · -- stopped
    intro junk inp done r m m' hr0 hq0 hP hm'
    have hcover : ∀ x, cls0 x = .flipflop → a.demote cls0 x = .temp → ∀ m, _ := fun x g1 g2 m =>
      a.cover g1 hs (hfields x g1 g2) (hdem x g1 g2).1 (es.findIdx fun e => e.index = r.idx)
        ((hP x g1 g2).elim (fun p => .inl ⟨by rw [epost]; exact p.1, by rw [ebD]; exact p.2⟩) fun p => .inr (.inl (hkeeps x p))) m
    have hcov : ∀ x, a.demote cls0 x = .temp → Covered x false (a.srcCycle
        ⟨es.findIdx fun e => e.index = r.idx, overlay inputs inp m⟩).evs := by
      intro x hx
      cases hc : cls0 x with
      | temp => exact covered_of_writtenBeforeRead (hT x hc _ _)
      | flipflop => exact (hcover x hc hx _).1
    subst ha
    let hw : HW ((String → V) × (Nat → Bool)) := ⟨r.idx, r.caller, r.saved, ((pre.run (overlay inputs inp m)).env, done)⟩
    obtain ⟨hh, r', w1, w2, w3, w4, w5, w6, w7, w8, w9, w10, w11⟩ := whole_cycle D (fun b : Fin (last + 1) => (st.blk b).ins) g rs.num (ff g)
      (callIdsFrom g 0 (List.finRange (last + 1)))
      es pre post bindQ bindD outs ((wholeDesign D (fun b : Fin (last + 1) => (st.blk b).ins) es pre post bindQ bindD outs).demote cls0) inputs hidx
      hsh hs junk inp done m r hw hw [] hcov rfl rfl rfl rfl hq0 (by simp [hwCycle, hw, hr0])
    have hd : hw.data.1 = (pre.run (overlay inputs inp m)).env := rfl
    rw [hd] at w6 w7 w8 w9 w11
    rw [← hm'] at w6 w7 w8 w9
    refine ⟨hh, r', w1, w2.symm.trans hr0, fun x hx => ⟨w8 x hx, w7 x hx⟩, fun x hc hx => ?_, fun x hw => ?_⟩
    · cases hd : (wholeDesign D (fun b : Fin (last + 1) => (st.blk b).ins) es pre post bindQ bindD outs).demote cls0 x with
      | flipflop => exact w8 x hd
      | temp => exact w9 x hd ((hcover x hc hd _).2.2 (by rw [ebD]; exact hx) (hdem x hc hd).2)
    · cases hd : (wholeDesign D (fun b : Fin (last + 1) => (st.blk b).ins) es pre post bindQ bindD outs).demote cls0 x with
      | flipflop => exact w8 x hd
      | temp =>
        refine w9 x hd ?_
        simp only [wrote, Bool.false_or, List.any_eq_true, decide_eq_true_eq]
        rcases hw with ⟨ev, h1, h2⟩ | ⟨ev, h1, h2⟩
        · exact ⟨ev, w11 ev (.inl h1), h2⟩
        · exact ⟨ev, w11 ev (.inr h1), h2⟩
  intro junk inp done r0 m0 hi0 hq0 hP
  -- the state machine with the data
  let env : Nat → (String → V) × (Nat → Bool) → (String → V) × (Nat → Bool) := fun n s =>
    ((pre.run (overlay inputs (inp (n + 1)) (post.run s.1).env)).env, done (n + 1))
  let h0 : HW ((String → V) × (Nat → Bool)) := ⟨r0.idx, r0.caller, r0.saved, ((pre.run (overlay inputs (inp 0) m0)).env, done 0)⟩
  let ids := callIdsFrom g 0 (List.finRange (last + 1))
  let sem : Sem (Fin (last + 1)) ((String → V) × (Nat → Bool)) := D.meaning.sem fun b : Fin (last + 1) => (st.blk b).ins
  let dids : List (List (Fin (last + 1))) → List (List Did) := fun trs => trs.map fun tr => tr.flatMap fun b : Fin (last + 1) => insDids (st.blk b).ins
  let WT := WTRun (u.globals ++ u.locals) u.main D (fun m => (pre.run m).env) (fun m => (post.run m).env) inputs inp done m0
  -- one cycle, from what is known before it
  have step : ∀ n trs hw o m r, hwRun g rs.num (ff g) ids es sem env h0 n = some (trs, hw) →
      TRun (u.globals ++ u.locals) u.main D.meaning env h0.data n (dids trs) o hw.data → (hw.idx = 0 ↔ o = none) →
      WT n (dids trs) o m → hw.idx = r.idx → hw.caller = r.caller → hw.saved = r.saved →
      hw.data = ((pre.run (overlay inputs (inp n) m)).env, done n) → (∀ x, a.demote cls0 x = .flipflop → r.q x = m x) →
      ∃ tr hw' o' m' h r' m2, hwRun g rs.num (ff g) ids es sem env h0 (n + 1) = some (trs ++ [tr], hw') ∧
        TRun (u.globals ++ u.locals) u.main D.meaning env h0.data (n + 1) (dids (trs ++ [tr])) o' hw'.data ∧ (hw'.idx = 0 ↔ o' = none) ∧
        WT (n + 1) (dids (trs ++ [tr])) o' m' ∧ hw'.idx = r'.idx ∧ hw'.caller = r'.caller ∧ hw'.saved = r'.saved ∧
        hw'.data = ((pre.run (overlay inputs (inp (n + 1)) m')).env, done (n + 1)) ∧
        wCycle g rs.num (ff g) ids es a (a.demote cls0) inputs (junk n) (inp n) (done n) r = some (h, r') ∧
        (∀ x, a.demote cls0 x = .flipflop → h.v x = m' x ∧ r'.q x = m' x) ∧
        (∀ x, cls0 x = .flipflop → x ∈ bindD → h.v x = m' x) ∧
        (∀ x, cls0 x = .flipflop → x ∈ bindQ → a.demote cls0 x = .flipflop) ∧
        m' = (post.run m2).env ∧
        (∀ c f, o = some (c, f) → TCycle (u.globals ++ u.locals) D.meaning c f ((pre.run (overlay inputs (inp n) m)).env, done n)
          (tr.flatMap fun b : Fin (last + 1) => insDids (st.blk b).ins) (m2, done n) o') ∧
        (o = none → m2 = (pre.run (overlay inputs (inp n) m)).env ∧ tr.flatMap (fun b : Fin (last + 1) => insDids (st.blk b).ins) = []) ∧
        (∀ x, (∃ e ∈ (pre.run (overlay inputs (inp n) m)).evs, x ∈ e.writes) ∨
          (∃ e ∈ tr.flatMap (fun b : Fin (last + 1) => insDids (st.blk b).ins), ∃ i ∈ D.did e, x ∈ i.writes) ∨
          (∃ e ∈ (post.run m2).evs, x ∈ e.writes) → h.v x = m' x) := by
    intro n trs hw o m r r1 r2 r3 r4 r5 r6 r7 r8 r9
    -- stop before the environment acts
    let env' : Nat → (String → V) × (Nat → Bool) → (String → V) × (Nat → Bool) := fun i => if i = n then id else env i
    have henv : ∀ i, i < n → env i = env' i := fun i hi => by simp only [env']; rw [if_neg (by omega)]
    have henvn : env' n = id := by simp [env']
    obtain ⟨trs1, hw1, o1, c1, c2, c3⟩ := C _ D.meaning env' h0 hi0 (n + 1)
    have c1' := c1
    rw [hwRun, ← hwRun_congr n henv] at c1'
    rw [show hwRun g rs.num (ff g) (callIdsFrom g 0 (List.finRange (last + 1))) es (D.meaning.sem fun b : Fin (last + 1) => (st.blk b).ins) env h0 n =
      some (trs, hw) from r1] at c1'
    simp only [Option.bind_some, Option.map_eq_some_iff, Prod.mk.injEq, Prod.exists] at c1'
    obtain ⟨tr, hw1', c4, rfl, rfl⟩ := c1'
    rw [henvn] at c4
    -- nothing undefined is read
    have hsafe : ∀ x, cls0 x = .flipflop → a.demote cls0 x = .temp → a.PostSafe x (es.findIdx fun e => e.index = r.idx) := by
      intro x g1 g2
      rcases hP x g1 g2 with p | p | p
      · exact .inl ⟨by rw [epost]; exact p.1, by rw [ebD]; exact p.2⟩
      · exact .inr (.inl (hkeeps x p))
      · have hne : hw.idx ≠ 0 := fun hz => by
          rw [r3.mp hz] at r4
          exact p.2 _ _ _ r4
        refine .inr (.inr ?_)
        unfold hwCycle at c4
        rw [if_neg hne] at c4
        split at c4
        · cases c4
        · rename_i e hf
          refine ⟨e.code.stm D (fun b : Fin (last + 1) => (st.blk b).ins), ?_, ?_⟩
          · rw [est, List.getElem?_map, ← r5, find_findIdx hf]
            rfl
          · exact p.1 _ (by rw [est]; exact List.mem_map_of_mem (List.mem_of_find?_eq_some hf))
    have hcover : ∀ x, cls0 x = .flipflop → a.demote cls0 x = .temp → ∀ m, _ := fun x g1 g2 m =>
      a.cover g1 hs (hfields x g1 g2) (hdem x g1 g2).1 _ (hsafe x g1 g2) m
    have hcov : ∀ x, a.demote cls0 x = .temp → Covered x false (a.srcCycle
        ⟨es.findIdx fun e => e.index = r.idx, overlay inputs (inp n) m⟩).evs := by
      intro x hx
      cases hc : cls0 x with
      | temp => exact covered_of_writtenBeforeRead (hT x hc _ _)
      | flipflop => exact (hcover x hc hx _).1
    subst ha
    obtain ⟨hh, r', w1, w2, w3, w4, w5, w6, w7, w8, w9, w10, w11⟩ := whole_cycle D (fun b : Fin (last + 1) => (st.blk b).ins) g rs.num (ff g) ids
      es pre post bindQ bindD outs ((wholeDesign D (fun b : Fin (last + 1) => (st.blk b).ins) es pre post bindQ bindD outs).demote cls0) inputs hidx
      hsh hs (junk n) (inp n) (done n) m r hw hw1' tr hcov r5 r6 r7 r8 r9 c4
    -- what the rules give
    have hdata : hw1'.data = (hw1'.data.1, done n) := by rw [← w5]
    have spec : TRun (u.globals ++ u.locals) u.main D.meaning env h0.data (n + 1) (dids (trs ++ [tr])) o1 (env n hw1'.data) ∧
        WT (n + 1) (dids (trs ++ [tr])) o1 (post.run hw1'.data.1).env ∧
        (∀ c f, o = some (c, f) → TCycle (u.globals ++ u.locals) D.meaning c f ((pre.run (overlay inputs (inp n) m)).env, done n)
          (tr.flatMap fun b : Fin (last + 1) => insDids (st.blk b).ins) (hw1'.data.1, done n) o1) ∧
        (o = none → hw1'.data.1 = (pre.run (overlay inputs (inp n) m)).env ∧
          tr.flatMap (fun b : Fin (last + 1) => insDids (st.blk b).ins) = []) := by
      have hlast : dids (trs ++ [tr]) = dids trs ++ [tr.flatMap fun b : Fin (last + 1) => insDids (st.blk b).ins] := by simp [dids]
      rw [hlast]
      have c2' : TRun (u.globals ++ u.locals) u.main D.meaning env' h0.data (n + 1) (dids (trs ++ [tr])) o1 hw1'.data := c2
      rw [hlast] at c2'
      rcases c2'.lastCycle henvn (r2.congr henv) with ⟨c, f, rfl, t⟩ | ⟨rfl, rfl, t1, t2⟩
      · refine ⟨.next r2 t, ?_⟩
        rw [r8, hdata] at t
        refine ⟨.next r4 t, fun c f e => ?_, fun e => by cases e⟩
        cases e
        exact t
      · rw [t1, t2]
        refine ⟨.over r2, ?_⟩
        rw [r8]
        exact ⟨.over r4, (fun c f e => by cases e), fun _ => ⟨rfl, rfl⟩⟩
    refine ⟨tr, { hw1' with data := env n hw1'.data }, o1, (post.run hw1'.data.1).env, hh, r', hw1'.data.1, ?_, spec.1, c3, spec.2.1, w2,
      w3, w4, rfl, w1, fun x hx => ⟨w8 x hx, w7 x hx⟩, ?_, ?_, rfl, spec.2.2.1, spec.2.2.2, ?_⟩
    · rw [hwRun, r1]
      simp only [Option.bind_some]
      rw [show hwCycle g rs.num (ff g) ids es sem (env n) hw = _ from hwCycle_env (env n) c4]
      rfl
    · intro x hc hx
      cases hd : (wholeDesign D (fun b : Fin (last + 1) => (st.blk b).ins) es pre post bindQ bindD outs).demote cls0 x with
      | flipflop => exact w8 x hd
      | temp => exact w9 x hd ((hcover x hc hd _).2.2 (by rw [ebD]; exact hx) (hdem x hc hd).2)
    · intro x hc hx
      cases hd : (wholeDesign D (fun b : Fin (last + 1) => (st.blk b).ins) es pre post bindQ bindD outs).demote cls0 x with
      | flipflop => rfl
      | temp => exact absurd (by rw [ebQ]; exact hx) (hcover x hc hd m).2.1
    · intro x hw
      cases hd : (wholeDesign D (fun b : Fin (last + 1) => (st.blk b).ins) es pre post bindQ bindD outs).demote cls0 x with
      | flipflop => exact w8 x hd
      | temp =>
        refine w9 x hd ?_
        simp only [wrote, Bool.false_or, List.any_eq_true, decide_eq_true_eq]
        rcases hw with ⟨ev, h1, h2⟩ | ⟨e, he, i, hi, hx⟩ | ⟨ev, h1, h2⟩
        · exact ⟨ev, w11 ev (.inl h1), h2⟩
        · obtain ⟨b, hb, he⟩ := List.mem_flatMap.mp he
          obtain ⟨p, hp, he⟩ := List.mem_flatMap.mp he
          have hi' : i ∈ D.ins p := by
            rw [← dids_ins]
            exact List.mem_flatMap.mpr ⟨e, he, hi⟩
          obtain ⟨ev, h1, h2⟩ := w10 b hb p hp i hi'
          exact ⟨ev, h1, h2 ▸ hx⟩
        · exact ⟨ev, w11 ev (.inr h1), h2⟩
  have main : ∀ n, ∃ trs hw o m r, hwRun g rs.num (ff g) ids es sem env h0 n = some (trs, hw) ∧
      TRun (u.globals ++ u.locals) u.main D.meaning env h0.data n (dids trs) o hw.data ∧ (hw.idx = 0 ↔ o = none) ∧
      WT n (dids trs) o m ∧ hw.idx = r.idx ∧ hw.caller = r.caller ∧ hw.saved = r.saved ∧
      hw.data = ((pre.run (overlay inputs (inp n) m)).env, done n) ∧ (∀ x, a.demote cls0 x = .flipflop → r.q x = m x) ∧
      wRun g rs.num (ff g) ids es a (a.demote cls0) inputs junk inp done r0 n = some r := by
    intro n
    induction n with
    | zero => exact ⟨[], h0, _, m0, r0, rfl, .start, by simp [h0, hi0], .start, rfl, rfl, rfl, rfl, hq0, rfl⟩
    | succ n ih =>
      obtain ⟨trs, hw, o, m, r, r1, r2, r3, r4, r5, r6, r7, r8, r9, r10⟩ := ih
      obtain ⟨tr, hw', o', m', hh, r', m2, s1, s2, s3, s4, s5, s6, s7, s8, s9, s10, _⟩ := step n trs hw o m r r1 r2 r3 r4 r5 r6 r7 r8 r9
      refine ⟨_, hw', o', m', r', s1, s2, s3, s4, s5, s6, s7, s8, fun x hx => (s10 x hx).2, ?_⟩
      rw [wRun, r10]
      simp only [Option.bind_some, s9, Option.map_some]
  intro n
  obtain ⟨trs, hw, o, m, r, r1, r2, r3, r4, r5, r6, r7, r8, r9, r10⟩ := main n
  obtain ⟨tr, hw', o', m', hh, r', m2, s1, s2, s3, s4, s5, s6, s7, s8, s9, s10, s11, s12, s13⟩ := step n trs hw o m r r1 r2 r3 r4 r5 r6 r7 r8 r9
  refine ⟨r, hh, r', dids trs, tr.flatMap fun b : Fin (last + 1) => insDids (st.blk b).ins, o, o', m, m', m2, r10, s9, r4, ?_, r5 ▸ r3, s5 ▸ s3,
    fun x hx => ⟨r9 x hx, s10 x hx⟩, s11, s12, s13⟩
  have : dids (trs ++ [tr]) = dids trs ++ [tr.flatMap fun b : Fin (last + 1) => insDids (st.blk b).ins] := by simp [dids]
  rw [← this]
  exact s4

theorem WTRun.det {V : Type} {subs : List Prg} {main : Prg} {D : DataOf V} {pre post : (String → V) → (String → V)} {inputs : List String}
    {inp : Nat → String → V} {done : Nat → Nat → Bool} {m0 : String → V} {n : Nat} {t1 : List (List Did)} {o1 : Option (Ctl × Bool)}
    {m1 : String → V} (h1 : WTRun subs main D pre post inputs inp done m0 n t1 o1 m1) :
    ∀ {t2 : List (List Did)} {o2 : Option (Ctl × Bool)} {m2 : String → V}, WTRun subs main D pre post inputs inp done m0 n t2 o2 m2 →
      t1 = t2 ∧ o1 = o2 ∧ m1 = m2 := by
  induction h1 with
  | start => intro t2 o2 m2 h2; cases h2; exact ⟨rfl, rfl, rfl⟩
  | next _ hc ih =>
    intro t2 o2 m2 h2
    cases h2 with
    | next h3 hc3 =>
      obtain ⟨rfl, e, rfl⟩ := ih h3
      cases e
      obtain ⟨rfl, e, rfl⟩ := hc.det hc3
      cases e
      exact ⟨rfl, rfl, rfl⟩
    | over h3 => have := (ih h3).2.1; cases this
  | over _ ih =>
    intro t2 o2 m2 h2
    cases h2 with
    | next h3 _ => have := (ih h3).2.1; cases this
    | over h3 =>
      obtain ⟨rfl, _, rfl⟩ := ih h3
      exact ⟨rfl, rfl, rfl⟩

/-- C53: the source gives one value to each variable: the instructions executed, where the program is and the variables after `n` cycles are
determined by the inputs, the `done` signals and the initial values. -/
theorem C53_source_deterministic {V : Type} (subs : List Prg) (main : Prg) (D : DataOf V) (pre post : (String → V) → (String → V))
    (inputs : List String) (inp : Nat → String → V) (done : Nat → Nat → Bool) (m0 : String → V) (n : Nat) (t1 t2 : List (List Did))
    (o1 o2 : Option (Ctl × Bool)) (m1 m2 : String → V) (h1 : WTRun subs main D pre post inputs inp done m0 n t1 o1 m1)
    (h2 : WTRun subs main D pre post inputs inp done m0 n t2 o2 m2) : t1 = t2 ∧ o1 = o2 ∧ m1 = m2 := h1.det h2

/-! ### Examples -/

/-- `dst = f(reads)`. -/
def asgTo {L : Type} (dst : String) (reads : List String) (f : List Nat → Nat) : Stm Nat L :=
  .ins { reads := reads, writes := [dst], fn := fun vs _ => f vs }

/-- Instruction `i` is `x = t + i`, reads of outputs are `y = x`, conditions are `x % 2 == 0` or compare `x % 4`. -/
def exData : DataOf Nat where
  instr i := [{ reads := ["t"], writes := ["x"], fn := fun vs _ => vs.sum + i }]
  take _ := [{ reads := ["x"], writes := ["y"], fn := fun vs _ => vs.sum }]
  testReads _ := ["x"]
  test _ vs := vs.sum % 2 = 0
  labelReads _ := ["x"]
  label _ v vs := vs.sum % 4 = v

/-- Non-vacuity: `exStructured` (nested loops, `break`, `++:`, a switch, subroutines, a wait) with these instructions and
`always_before { t = x + a; }` meets the hypotheses, for all inputs `a` and `done` signals. -/
example (last : Nat) (st : PSt) (ff : Cfg (Fin (last + 1)) → Fin (last + 1) → Fin (last + 1)) (hff : Skips ff)
    (h : buildUnit exStructured = some (last, st)) (inp : Nat → String → Nat) (done : Nat → Nat → Bool) (n : Nat) :
    ∃ (g : Cfg (Fin (last + 1))) (rs : RenSt (Fin (last + 1))) (entries : List (Entry (Fin (last + 1))))
      (a : Design Nat (Ctrl (Fin (last + 1)))) (r : WReg Nat) (trs : List (List Did)) (o : Option (Ctl × Bool)) (m : String → Nat),
      wRun g rs.num (ff g) (callIdsFrom g 0 (List.finRange (last + 1))) entries a (a.demote allFF) ["a"] (fun _ _ => 7) inp done
        ⟨1, 0, fun _ => 0, fun _ => 0⟩ n = some r ∧
      WTRun (exStructured.globals ++ exStructured.locals) exStructured.main exData
        (fun m x => if x = "t" then m "x" + m "a" else m x) id ["a"] inp done (fun _ => 0) n trs o m ∧
      (a.demote allFF "x" = .flipflop → r.q "x" = m "x") := by
  obtain ⟨g, rs, _, _, _, es, _, C⟩ := C53_whole_partial exStructured last st ff hff h (by decide +kernel) (by decide +kernel)
  obtain ⟨r, hh, r', trs, tr, o, o', m, m', m2, h1, h2, h3, h4, h5, h6, h7, h8⟩ := (C Nat exData
    (asgTo "t" ["x", "a"] List.sum) .skip [] [] ["x"] ["a"] allFF _ rfl trivial trivial trivial trivial
    (fun x hx => by cases hx) (fun x _ _ => ⟨List.not_mem_nil, trivial, fun i s hs => by
      simp only [exData, List.mem_append, List.mem_singleton] at hs
      rcases hs with rfl | rfl <;> exact List.not_mem_nil⟩)).2
    (fun _ _ => 7) inp done ⟨1, 0, fun _ => 0, fun _ => 0⟩ (fun _ => 0) rfl (fun _ _ => rfl)
    (fun x _ _ => .inl ⟨trivial, List.not_mem_nil⟩) n
  refine ⟨g, rs, es, _, r, trs, o, m, h1, ?_, fun hx => (h7 "x" hx).1⟩
  have e : (fun m : String → Nat => ((asgTo "t" ["x", "a"] List.sum : Stm Nat (Ctrl (Fin (last + 1)))).run m).env) =
      fun m x => if x = "t" then m "x" + m "a" else m x := by
    funext m x
    simp [asgTo, Stm.run, Ins.apply]
  rw [e] at h3
  exact h3

/-- State index and value of `x` in the registers made for a program, after each of `n` cycles, and whether `x` and `t` are flip-flops. -/
def wholeValues (u : AlgUnit) (n : Nat) : Option (Store × Store × List (Nat × Nat)) :=
  match buildUnit u with
  | none => none
  | some (last, st) =>
    match generateStates (st.cfg last) 0 (ffUpTo (last + 1)) (last + 1) (List.finRange (last + 1)) with
    | none => none
    | some (g, rs) =>
      match emitStates g rs.num (ffUpTo (last + 1) g) (last + 2) (2 * last + 4) with
      | .error _ => none
      | .ok es =>
        let a := wholeDesign exData (fun b : Fin (last + 1) => (st.blk b).ins) es (asgTo "t" ["x", "a"] List.sum) .skip [] [] ["x"]
        some (a.demote allFF "x", a.demote allFF "t", (List.range n).filterMap fun k =>
          (wRun g rs.num (ffUpTo (last + 1) g) (callIdsFrom g 0 (List.finRange (last + 1))) es a (a.demote allFF) ["a"] (fun _ _ => 7)
            (fun _ _ => 1) (fun _ _ => true) ⟨1, 0, fun _ => 0, fun _ => 0⟩ (k + 1)).map fun r => (r.idx, r.q "x"))

/-- `x = t + 2; while (x % 2 == 0) { x = t + 3; ++: x = t + 4; } x = t + 5;` with `always_before { t = x + 1; }`: `t` is a temporary, `x` is kept,
and the values are those of the source: 3, then the loop is left at once with 9. -/
example : wholeValues ⟨[], [], .instr 2 (.loop 0 (.instr 3 (.step (.instr 4 .nil))) (.instr 5 .nil))⟩ 3 =
    some (.flipflop, .temp, [(2, 3), (0, 9), (0, 9)]) := by
  decide +kernel

/-- The same starting with `x = t + 1`: one iteration in two cycles. -/
example : wholeValues ⟨[], [], .instr 1 (.loop 0 (.instr 3 (.step (.instr 4 .nil))) (.instr 5 .nil))⟩ 5 =
    some (.flipflop, .temp, [(2, 2), (3, 6), (2, 11), (0, 17), (0, 17)]) := by
  decide +kernel

end Silice
