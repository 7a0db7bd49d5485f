import Verif.Model.WholeRun
import Verif.Spec.WholeRun
import Verif.Props.WholeUnit
import Verif.Props.Regs

/-!
C53 under any history of reset and calls.
-/

set_option autoImplicit false

namespace Silice

/-- The update of a plain variable is the one of Model/Regs. -/
theorem ffNext_eq {V : Type} (K : AlgKind) (v : FFVar V) (rst run : Bool) (d : V) (hs : v.size = 0) :
    ffUpdate K v rst run [d] = some [ffNext K v rst run d] := by
  unfold ffUpdate ffNext
  cases initCond K v with
  | none => rfl
  | some c =>
    cases hi : v.init with
    | nil => simp [hs]
    | cons x l =>
      simp only [hs, if_true]
      split <;> rfl

/-- What a flip-flop takes: the initial value on reset, or when a callable algorithm is called. -/
theorem ffNext_onReset {V : Type} (K : AlgKind) (hK : K.noFsm = false) (v : FFVar V) (rst run : Bool) (d : V) :
    ffNext K v rst run d = if rst = true ∨ (K.autorun = false ∧ run = false) then (match v.onReset with | some x => x | none => d) else d := by
  obtain ⟨as, ni, sz, init⟩ := v
  obtain ⟨ar, nf⟩ := K
  simp only at hK
  subst hK
  cases as <;> cases ni <;> cases ar <;> cases init <;> cases rst <;> cases run <;>
    simp [ffNext, initCond, FFVar.onReset, AlgKind.notCallable, InitCond.holds]

theorem PCycle.det {V : Type} {subs : List Prg} {before after : Prg} {D Dp Dq : DataOf V} {inputs : List String} {inp : String → V}
    {done : Nat → Bool} {o o1 o2 : Option (Ctl × Bool)} {m m1 m2 : String → V} {e1 e2 : List Did × List Did × List Did}
    (h1 : PCycle subs before after D Dp Dq inputs inp done o m e1 o1 m1) (h2 : PCycle subs before after D Dp Dq inputs inp done o m e2 o2 m2) :
    e1 = e2 ∧ o1 = o2 ∧ m1 = m2 := by
  cases h1 with
  | next r1 hc r2 =>
    cases h2 with
    | next r3 hc3 r4 =>
      obtain ⟨rfl, e⟩ := r1.det r3
      cases e
      obtain ⟨rfl, e, rfl⟩ := hc.det hc3
      cases e
      obtain ⟨rfl, e⟩ := r2.det r4
      cases e
      exact ⟨rfl, rfl, rfl⟩
  | stopped r1 r2 =>
    cases h2 with
    | stopped r3 r4 =>
      obtain ⟨rfl, e⟩ := r1.det r3
      cases e
      obtain ⟨rfl, e⟩ := r2.det r4
      cases e
      exact ⟨rfl, rfl, rfl⟩

/-- The last cycle of a run. -/
theorem PRun.cycle {V : Type} {subs : List Prg} {main before after : Prg} {D Dp Dq : DataOf V} {inputs : List String}
    {inp : Nat → String → V} {done : Nat → Nat → Bool} {m0 : String → V} {n : Nat} {t1 : List (List Did × List Did × List Did)}
    {o1 o2 : Option (Ctl × Bool)} {m1 m2 : String → V} {e : List Did × List Did × List Did}
    (h1 : PRun subs main before after D Dp Dq inputs inp done m0 n t1 o1 m1)
    (h2 : PRun subs main before after D Dp Dq inputs inp done m0 (n + 1) (t1 ++ [e]) o2 m2) :
    PCycle subs before after D Dp Dq inputs (inp n) (done n) o1 m1 e o2 m2 := by
  generalize ht : t1 ++ [e] = t2 at h2
  cases h2 with
  | next h3 r1 hc r2 =>
    obtain ⟨rfl, rfl, rfl⟩ := h1.det h3
    rw [List.append_cancel_left_eq, List.cons.injEq] at ht
    rw [ht.1]
    exact .next r1 hc r2
  | over h3 r1 r2 =>
    obtain ⟨rfl, rfl, rfl⟩ := h1.det h3
    rw [List.append_cancel_left_eq, List.cons.injEq] at ht
    rw [ht.1]
    exact .stopped r1 r2

/-- C53: what an algorithm does since a reset is determined by its inputs (reset and run included) and what the reset left in the variables. -/
theorem C53_history_deterministic {V : Type} (subs : List Prg) (main before after : Prg) (D Dp Dq : DataOf V) (inputs : List String)
    (inp : Nat → String → V) (done : Nat → Nat → Bool) (decl : String → FFVar V) (auto : Bool) (rst run : Nat → Bool) (t0 : Nat) (m0 : String → V)
    (t : Nat) (f1 f2 : Bool) (o1 o2 : Option (Ctl × Bool)) (m1 m2 : String → V)
    (h1 : ARun subs main before after D Dp Dq inputs inp done decl auto rst run t0 m0 t f1 o1 m1)
    (h2 : ARun subs main before after D Dp Dq inputs inp done decl auto rst run t0 m0 t f2 o2 m2) : f1 = f2 ∧ o1 = o2 ∧ m1 = m2 := by
  have hlt : ∀ {t f o m}, ARun subs main before after D Dp Dq inputs inp done decl auto rst run t0 m0 t f o m → t0 < t := by
    intro t f o m h
    induction h <;> omega
  induction h1 generalizing f2 o2 m2 with
  | first =>
    generalize ht : t0 + 1 = t at h2
    cases h2 with
    | first => exact ⟨rfl, rfl, rfl⟩
    | reset h => have := hlt h; omega
    | start h => have := hlt h; omega
    | called h => have := hlt h; omega
    | go h => have := hlt h; omega
  | @reset t fresh o o' m m' e h c hr ih =>
    have := hlt h
    generalize ht : t + 1 = t' at h2
    cases h2 with
    | first => omega
    | reset h' c' =>
      obtain rfl := Nat.succ.inj ht
      obtain ⟨rfl, rfl, rfl⟩ := ih _ _ _ h'
      obtain ⟨rfl, rfl, rfl⟩ := c.det c'
      exact ⟨rfl, rfl, rfl⟩
    | start h' c' hr' => obtain rfl := Nat.succ.inj ht
                         rw [hr] at hr'; cases hr'
    | called h' c' hr' => obtain rfl := Nat.succ.inj ht
                          rw [hr] at hr'; cases hr'
    | go h' c' hr' => obtain rfl := Nat.succ.inj ht
                      rw [hr] at hr'; cases hr'
  | @start t o o' m m' e h c hr ha ih =>
    have := hlt h
    generalize ht : t + 1 = t' at h2
    cases h2 with
    | first => omega
    | reset h' c' hr' => obtain rfl := Nat.succ.inj ht
                         rw [hr] at hr'; cases hr'
    | start h' c' =>
      obtain rfl := Nat.succ.inj ht
      obtain ⟨_, rfl, rfl⟩ := ih _ _ _ h'
      obtain ⟨rfl, rfl, rfl⟩ := c.det c'
      exact ⟨rfl, rfl, rfl⟩
    | called h' c' hr' ha' => rw [ha] at ha'; cases ha'
    | go h' c' hr' hg =>
      obtain rfl := Nat.succ.inj ht
      obtain ⟨rfl, _⟩ := ih _ _ _ h'
      rw [if_pos ha] at hg
      cases hg
  | @called t fresh o o' m m' e h c hr ha hn ih =>
    have := hlt h
    generalize ht : t + 1 = t' at h2
    cases h2 with
    | first => omega
    | reset h' c' hr' => obtain rfl := Nat.succ.inj ht
                         rw [hr] at hr'; cases hr'
    | start h' c' hr' ha' => rw [ha] at ha'; cases ha'
    | called h' c' =>
      obtain rfl := Nat.succ.inj ht
      obtain ⟨rfl, rfl, rfl⟩ := ih _ _ _ h'
      obtain ⟨rfl, rfl, rfl⟩ := c.det c'
      exact ⟨rfl, rfl, rfl⟩
    | go h' c' hr' hg =>
      obtain rfl := Nat.succ.inj ht
      rw [if_neg (by rw [ha]; exact Bool.false_ne_true), hn] at hg
      cases hg
  | @go t fresh o o' m m' e h c hr hg ih =>
    have := hlt h
    generalize ht : t + 1 = t' at h2
    cases h2 with
    | first => omega
    | reset h' c' hr' => obtain rfl := Nat.succ.inj ht
                         rw [hr] at hr'; cases hr'
    | start h' c' hr' ha =>
      obtain rfl := Nat.succ.inj ht
      obtain ⟨rfl, _⟩ := ih _ _ _ h'
      rw [if_pos ha] at hg
      cases hg
    | called h' c' hr' ha hn =>
      obtain rfl := Nat.succ.inj ht
      rw [if_neg (by rw [ha]; exact Bool.false_ne_true), hn] at hg
      cases hg
    | go h' c' =>
      obtain rfl := Nat.succ.inj ht
      obtain ⟨rfl, rfl, rfl⟩ := ih _ _ _ h'
      obtain ⟨rfl, rfl, rfl⟩ := c.det c'
      exact ⟨rfl, rfl, rfl⟩

/-- C53, with reset and calls: for every program with its always blocks (as in `C53_program_partial`), algorithms on autorun as well as callable ones, every
history of the reset signal and of the run input, from every content of the registers at power-up. After the first reset, at the start of every cycle the
flip-flops hold the values that the source gives to the variables under this history (`ARun`): resets and calls may come at any time, also in
the middle of the execution. The index is 0 exactly when the algorithm is stopped. What is seen at the end of each cycle is as in
`C53_program_partial`, and variables bound with `<::` are in flip-flops. Variables that do not take a value on reset start with what the registers hold
after the reset.
Partial: a temporary must not be assigned in part (counterexample of C33); a variable that loses its flip-flop in the first pass of the writing
must not be assigned through a bit field, and must not be read after the statements by `always_after` or by a bound instance, unless no
statement assigns it (counterexamples of C30: an algorithm that is stopped executes no state). -/
theorem C53_history_partial (u : AlgUnit) (last : Nat) (st : PSt) (ff : Cfg (Fin (last + 1)) → Fin (last + 1) → Fin (last + 1)) (hff : Skips ff)
    (h : buildUnit u = some (last, st)) (hok : u.switchOk = true) (ht : u.tidy = true) (tp tq asgs : List Nat) (before after : Option Prg)
    (lp lq : Nat) (sp sq : PSt) (hp : buildAlways tp asgs before = some (lp, sp)) (hq : buildAlways tq [] after = some (lq, sq)) :
    ∃ g rs, generateStates (st.cfg last) 0 ff (last + 1) (List.finRange (last + 1)) = some (g, rs) ∧
      ∃ efuel fuel entries afuel cp cq, emitStates g rs.num (ff g) efuel fuel = .ok entries ∧ alwaysCode sp lp afuel = some cp ∧
        alwaysCode sq lq afuel = some cq ∧
        ∀ (V : Type) (D Dp Dq : DataOf V) (N : AlgPorts) (a : Design V (Ctrl (Fin (last + 1))))
          (acc : AccIn (Fin (last + 1) ⊕ Fin (lp + 1) ⊕ Fin (lq + 1))) (cls0 : String → Store),
        a = wholeDesign D (fun b : Fin (last + 1) => (st.blk b).ins) entries (alwaysStm Dp sp lp cp) (alwaysStm Dq sq lq cq) N.bindQ N.bindD
          N.outs →
        acc = accWhole D Dp Dq N st g rs.num sp sq →
        (∃ kfuel log, accAll acc kfuel = some log ∧ cls0 = storeOf acc log (N.outs ++ N.comb)) →
        (∀ x, cls0 x = .temp → D.Whole x ∧ Dp.Whole x ∧ Dq.Whole x) →
        (∀ x, cls0 x = .flipflop → a.demote cls0 x = .temp → D.NoField x ∧ Dp.NoField x ∧ Dq.NoField x) →
        (∀ x, cls0 x = .flipflop → a.demote cls0 x = .temp → (Dq.Unread x ∧ x ∉ N.bindD) ∨ D.Keeps x) →
        ∀ (K : AlgKind) (entry : Nat) (decl : String → FFVar V), K.noFsm = false → rs.num.sid g.first = some entry →
        ∀ (junk inp : Nat → String → V) (done : Nat → Nat → Bool) (undef : Nat → WReg V) (rst run : Nat → Bool) (s0 : WSt V)
          (comb : Nat → WReg V → Option (HSt V (Ctrl (Fin (last + 1))) × WReg V)) (X : Nat → WSt V),
        comb = (fun t r => wCycle g rs.num (ff g) (callIdsFrom g 0 (List.finRange (last + 1))) entries a (a.demote cls0) N.inputs (junk t) (inp t)
          (done t) r) →
        X = wHist K entry decl comb undef rst run s0 →
        ∀ t0, rst t0 = true → (∀ x v, (decl x).onReset = some v → (X (t0 + 1)).reg.q x = v) ∧
          (∀ x ∈ N.bindQ, a.demote cls0 x = .flipflop) ∧
          ∀ t, t0 < t → ∃ fresh o m e1 e2 e3 o' m' h r',
            ARun (u.globals ++ u.locals) u.main (alwaysSource asgs before) (alwaysSource [] after) D Dp Dq N.inputs inp done decl K.autorun rst run
              t0 (X (t0 + 1)).reg.q t fresh o m ∧
            PCycle (u.globals ++ u.locals) (alwaysSource asgs before) (alwaysSource [] after) D Dp Dq N.inputs (inp t) (done t) o m (e1, e2, e3)
              o' m' ∧
            comb t (X t).reg = some (h, r') ∧ ((X t).reg.idx = 0 ↔ o = none) ∧
            (∀ x, a.demote cls0 x = .flipflop → (X t).reg.q x = m x ∧ h.v x = m' x) ∧ (∀ x ∈ N.bindD, h.v x = m' x) ∧
            ∀ x, (∃ e ∈ e1, ∃ i ∈ Dp.did e, x ∈ i.writes) ∨ (∃ e ∈ e2, ∃ i ∈ D.did e, x ∈ i.writes) ∨
              (∃ e ∈ e3, ∃ i ∈ Dq.did e, x ∈ i.writes) → h.v x = m' x := by
  obtain ⟨g, rs, h1, ef, fu, es, af, cp, cq, he, h2, h3, C⟩ := C53_program_partial u last st ff hff h hok ht tp tq asgs before after lp lq sp sq hp hq
  obtain ⟨_, _, _, g', rs', h1', _, _, _, _, _, _, hone, _⟩ := unit_machine u last st ff hff h hok
  rw [h1, Option.some.injEq, Prod.mk.injEq] at h1'
  obtain ⟨rfl, rfl⟩ := h1'
  refine ⟨g, rs, h1, ef, fu, es, af, cp, cq, he, h2, h3, ?_⟩
  intro V D Dp Dq N a acc cls0 ha hacc hcls hT hF hP K entry decl hK hent junk inp done undef rst run s0 comb X hcomb hX t0 hr0
  rw [hone, Option.some.injEq] at hent
  subst hent
  obtain ⟨C0, C1⟩ := C V D Dp Dq N a acc cls0 ha hacc hcls hT hF
  clear C ha hacc hcls hT hF
  let AR := ARun (u.globals ++ u.locals) u.main (alwaysSource asgs before) (alwaysSource [] after) D Dp Dq N.inputs inp done decl K.autorun rst run
    t0 (X (t0 + 1)).reg.q
  let PR := fun s => PRun (u.globals ++ u.locals) u.main (alwaysSource asgs before) (alwaysSource [] after) D Dp Dq N.inputs
    (fun i => inp (s + i)) (fun i => done (s + i))
  let WR := fun s => wRun g rs.num (ff g) (callIdsFrom g 0 (List.finRange (last + 1))) es a (a.demote cls0) N.inputs (fun i => junk (s + i))
    (fun i => inp (s + i)) (fun i => done (s + i))
  have hstep : ∀ t h r', comb t (X t).reg = some (h, r') → X (t + 1) = wEdge K 1 decl (rst t) (run t) r' (X t) := by
    intro t h r' hc
    rw [hX] at hc ⊢
    rw [wHist]
    simp only [hc]
  have hload : ∀ t x v, rst t = true → (decl x).onReset = some v → (X (t + 1)).reg.q x = v := by
    intro t x v hr hv
    rw [hX, wHist]
    simp only [wEdge]
    rw [ffNext_onReset K hK, if_pos (.inl hr), hv]
  refine ⟨fun x v => hload t0 x v hr0, ?_, ?_⟩
  · obtain ⟨_, _, _, _, _, _, _, _, _, _, _, _, _, _, _, _, _, _, _, c9, _⟩ := C1 junk inp done { (X 0).reg with idx := 1 } (X 0).reg.q rfl
      (fun _ _ => rfl) (fun x x1 x2 => (hP x x1 x2).imp id .inl) 0
    exact c9
  -- one cycle, running or stopped
  have cyc : ∀ t o m, (∀ x, a.demote cls0 x = .flipflop → (X t).reg.q x = m x) →
      (((X t).reg.idx = 0 ∧ o = none) ∨ ∃ s k ms trs, s + k = t ∧ (X s).reg.idx = 1 ∧ (∀ x, a.demote cls0 x = .flipflop → (X s).reg.q x = ms x) ∧
        WR s (X s).reg k = some (X t).reg ∧ PR s ms k trs o m) →
      ∃ e1 e2 e3 o' m' h r', PCycle (u.globals ++ u.locals) (alwaysSource asgs before) (alwaysSource [] after) D Dp Dq N.inputs (inp t) (done t) o m
          (e1, e2, e3) o' m' ∧
        comb t (X t).reg = some (h, r') ∧ ((X t).reg.idx = 0 ↔ o = none) ∧
        (∀ x, a.demote cls0 x = .flipflop → (X t).reg.q x = m x ∧ h.v x = m' x) ∧ (∀ x ∈ N.bindD, h.v x = m' x) ∧
        (∀ x, (∃ e ∈ e1, ∃ i ∈ Dp.did e, x ∈ i.writes) ∨ (∃ e ∈ e2, ∃ i ∈ D.did e, x ∈ i.writes) ∨
          (∃ e ∈ e3, ∃ i ∈ Dq.did e, x ∈ i.writes) → h.v x = m' x) ∧
        (∀ x, a.demote cls0 x = .flipflop → r'.q x = m' x) ∧
        ((r'.idx = 0 ∧ o' = none) ∨ ∃ s k ms trs, s + k = t + 1 ∧ (X s).reg.idx = 1 ∧ (∀ x, a.demote cls0 x = .flipflop → (X s).reg.q x = ms x) ∧
          WR s (X s).reg k = some r' ∧ PR s ms k trs o' m') := by
    rintro t o m hq (⟨hi, rfl⟩ | ⟨s, k, ms, trs, rfl, hi, hms, hw, hpr⟩)
    · obtain ⟨hh, r', e1, e3, m1, m', c1, c2, c3, c4, c5, c6, c7⟩ := C0 (junk t) (inp t) (done t) (X t).reg m hi hq hP
      refine ⟨e1, [], e3, none, m', hh, r', .stopped c3 c4, by rw [hcomb]; exact c1, by simp [hi], fun x hx => ⟨hq x hx, (c5 x hx).1⟩, c6, ?_,
        fun x hx => (c5 x hx).2, .inl ⟨c2, rfl⟩⟩
      rintro x (hx | ⟨e, he, _⟩ | hx)
      · exact c7 x (.inl hx)
      · cases he
      · exact c7 x (.inr hx)
    · obtain ⟨r, hh, r', ts, e1, e2, e3, o2, o', m2, m', c1, c2, c3, c4, c5, c6, c7, c8, c9, c10⟩ := C1 (fun i => junk (s + i)) (fun i => inp (s + i))
        (fun i => done (s + i)) (X s).reg ms hi hms (fun x x1 x2 => (hP x x1 x2).imp id .inl) k
      obtain rfl : r = (X (s + k)).reg := by
        have : some r = some (X (s + k)).reg := c1.symm.trans hw
        exact Option.some.inj this
      obtain ⟨rfl, rfl, rfl⟩ := c3.det hpr
      refine ⟨e1, e2, e3, o', m', hh, r', c3.cycle c4, by rw [hcomb]; exact c2, c5, fun x hx => ⟨hq x hx, (c7 x hx).2.1⟩, c8, c10,
        fun x hx => (c7 x hx).2.2, .inr ⟨s, k + 1, ms, _, by omega, hi, hms, ?_, c4⟩⟩
      show wRun _ _ _ _ _ _ _ _ _ _ _ _ (k + 1) = _
      rw [wRun, show wRun _ _ _ _ _ _ _ _ _ _ _ _ k = _ from c1]
      simp only [Option.bind_some]
      rw [c2]
      rfl
  let Inv : Nat → Prop := fun t => ∃ fresh o m, AR t fresh o m ∧ (K.autorun = true → (X t).autorun = !fresh) ∧
      (∀ x, a.demote cls0 x = .flipflop → (X t).reg.q x = m x) ∧
      (((X t).reg.idx = 0 ∧ o = none) ∨ ∃ s k ms trs, s + k = t ∧ (X s).reg.idx = 1 ∧
        (∀ x, a.demote cls0 x = .flipflop → (X s).reg.q x = ms x) ∧
        WR s (X s).reg k = some (X t).reg ∧ PR s ms k trs o m)
  have inv : ∀ n, Inv (t0 + 1 + n) := by
    intro n
    induction n with
    | zero =>
      refine ⟨true, none, _, .first, fun hau => ?_, fun _ _ => rfl, .inl ⟨?_, rfl⟩⟩
      · rw [Nat.add_zero, hX, wHist]
        simp [wEdge, hau, hr0]
      · rw [Nat.add_zero, hX, wHist]
        simp [wEdge, hr0]
    | succ n ih =>
      obtain ⟨fresh, o, m, hA, hau, hq, hph⟩ := ih
      rw [show t0 + 1 + (n + 1) = t0 + 1 + n + 1 by omega]
      generalize t0 + 1 + n = t at *
      obtain ⟨e1, e2, e3, o', m', hh, r', p1, p2, p3, p4, p5, p6, p7, p8⟩ := cyc t o m hq hph
      have hX1 := hstep t hh r' p2
      have hau1 : K.autorun = true → (X (t + 1)).autorun = !rst t := fun ha => by rw [hX1]; simp [wEdge, ha]
      have hq1 : ∀ x, (X (t + 1)).reg.q x = if rst t = true ∨ (K.autorun = false ∧ run t = false) then
          (match (decl x).onReset with | some x => x | none => r'.q x) else r'.q x := fun x => by
        rw [hX1]
        exact ffNext_onReset K hK _ _ _ _
      have hre : (rst t = true ∨ (K.autorun = false ∧ run t = false)) → ∀ x, a.demote cls0 x = .flipflop →
          (X (t + 1)).reg.q x = reloaded decl m' x := fun hc x hx => by
        rw [hq1, if_pos hc, reloaded, ← p7 x hx]
        cases (decl x).onReset <;> rfl
      have hke : ¬ (rst t = true ∨ (K.autorun = false ∧ run t = false)) → (X (t + 1)).reg.q = r'.q := fun hc => by
        funext x
        rw [hq1, if_neg hc]
      have hidx : (X (t + 1)).reg.idx = if rst t then 0 else nextIdx K 1 (X t).autorun (run t) r'.idx := by rw [hX1]; rfl
      cases hr : rst t with
      | true =>
        refine ⟨true, none, _, .reset hA p1 hr, fun ha => by rw [hau1 ha, hr], hre (.inl hr), .inl ⟨?_, rfl⟩⟩
        rw [hidx, hr]
        rfl
      | false =>
        rw [hr] at hidx
        simp only [Bool.false_eq_true, if_false] at hidx
        have goes : (if K.autorun = true then fresh = false else run t = true) → (X (t + 1)).reg.idx = r'.idx →
            ¬ (rst t = true ∨ (K.autorun = false ∧ run t = false)) → Inv (t + 1) := fun hg hi hn => by
          refine ⟨false, o', m', .go hA p1 hr hg, fun ha => by rw [hau1 ha, hr], fun x hx => by rw [hke hn]; exact p7 x hx, ?_⟩
          have hreg : (X (t + 1)).reg = r' := by
            rw [hX1] at hi ⊢
            have hqq := hke hn
            rw [hX1] at hqq
            obtain ⟨i', c', s', q'⟩ := r'
            simp only [wEdge] at hi hqq ⊢
            rw [hi, hqq]
          rw [hreg]
          exact p8
        have restarts : ∀ ms, (X (t + 1)).reg.idx = 1 → (∀ x, a.demote cls0 x = .flipflop → (X (t + 1)).reg.q x = ms x) →
            (((X (t + 1)).reg.idx = 0 ∧ (some (Ctl.run u.main [], false) : Option (Ctl × Bool)) = none) ∨ ∃ s k ms' trs, s + k = t + 1 ∧
              (X s).reg.idx = 1 ∧ (∀ x, a.demote cls0 x = .flipflop → (X s).reg.q x = ms' x) ∧
              WR s (X s).reg k = some (X (t + 1)).reg ∧ PR s ms' k trs (some (Ctl.run u.main [], false)) ms) := fun ms hi hm =>
          .inr ⟨t + 1, 0, ms, [], rfl, hi, hm, rfl, .start⟩
        cases ha : K.autorun with
        | true =>
          have hau := hau ha
          have hn : ¬ (rst t = true ∨ (K.autorun = false ∧ run t = false)) := by simp [hr, ha]
          cases fresh with
          | true =>
            have hi : (X (t + 1)).reg.idx = 1 := by rw [hidx]; simp [nextIdx, ha, hau]
            have hm : ∀ x, a.demote cls0 x = .flipflop → (X (t + 1)).reg.q x = m' x := fun x hx => by rw [hke hn]; exact p7 x hx
            exact ⟨false, _, m', .start hA p1 hr ha, (fun _ => by rw [hau1 ha, hr]), hm, restarts m' hi hm⟩
          | false =>
            have hi : (X (t + 1)).reg.idx = r'.idx := by rw [hidx]; simp [nextIdx, ha, hau]
            exact goes (by rw [if_pos ha]) hi hn
        | false =>
          cases hn : run t with
          | false =>
            have hi : (X (t + 1)).reg.idx = 1 := by rw [hidx]; simp [nextIdx, ha, hn]
            have hm := hre (.inr ⟨ha, hn⟩)
            exact ⟨false, _, _, .called hA p1 hr ha hn, (fun hx => by rw [ha] at hx; cases hx), hm, restarts _ hi hm⟩
          | true =>
            have hi : (X (t + 1)).reg.idx = r'.idx := by rw [hidx]; simp [nextIdx, ha, hn]
            exact goes (by rw [if_neg (by simp [ha]), hn]) hi (by simp [hr, hn])
  intro t htt
  obtain ⟨n, rfl⟩ : ∃ n, t = t0 + 1 + n := ⟨t - (t0 + 1), by omega⟩
  obtain ⟨fresh, o, m, hA, _, hq, hph⟩ := inv n
  obtain ⟨e1, e2, e3, o', m', hh, r', p1, p2, p3, p4, p5, p6, _⟩ := cyc _ o m hq hph
  exact ⟨fresh, o, m, e1, e2, e3, o', m', hh, r', hA, p1, p2, p3, p4, p5, p6⟩

/-- Non-vacuity: `exStructured` on autorun with the always blocks of the example of `C53_program_partial`, variables that take 3 on reset except `y`,
which keeps its value, a reset in the third and in the tenth cycle, any content at power-up, for all inputs `a` and `done` signals. -/
example (last : Nat) (st : PSt) (ff : Cfg (Fin (last + 1)) → Fin (last + 1) → Fin (last + 1)) (hff : Skips ff)
    (h : buildUnit exStructured = some (last, st)) (inp : Nat → String → Nat) (done : Nat → Nat → Bool) (s0 : WSt Nat) (t : Nat) (ht : 2 < t) :
    ∃ (X : Nat → WSt Nat) (cls : String → Store) (fresh : Bool) (o : Option (Ctl × Bool)) (m : String → Nat), X 0 = s0 ∧
      (X 3).reg.q "x" = 3 ∧
      ARun (exStructured.globals ++ exStructured.locals) exStructured.main (alwaysSource [0] (some (.instr 2 .nil)))
        (alwaysSource [] (some (.instr 0 .nil))) exData (exOnly "t" ["x", "a"]) (exOnly "z" ["a"]) ["a"] inp done
        (fun x => ⟨x = "y", false, 0, [3]⟩) true (fun t => t = 2 ∨ t = 9) (fun _ => true) 2 (X 3).reg.q t fresh o m ∧
      ∀ x, cls x = .flipflop → (X t).reg.q x = m x := by
  have hp : (buildAlways [] [0] (some (.instr 2 .nil))).isSome = true := by decide +kernel
  have hq : (buildAlways [] [] (some (.instr 0 .nil))).isSome = true := by decide +kernel
  obtain ⟨⟨lp, sp⟩, hp⟩ := Option.isSome_iff_exists.mp hp
  obtain ⟨⟨lq, sq⟩, hq⟩ := Option.isSome_iff_exists.mp hq
  obtain ⟨g, rs, h1, _, _, es, _, cp, cq, _, _, _, C⟩ := C53_history_partial exStructured last st ff hff h (by decide +kernel) (by decide +kernel)
    [] [] [0] (some (.instr 2 .nil)) (some (.instr 0 .nil)) lp lq sp sq hp hq
  obtain ⟨_, _, _, g', rs', h1', _, _, _, _, _, _, hone, _⟩ := unit_machine exStructured last st ff hff h (by decide +kernel)
  rw [h1, Option.some.injEq, Prod.mk.injEq] at h1'
  obtain ⟨rfl, rfl⟩ := h1'
  let N : AlgPorts := { inputs := ["a"], outs := ["z"] }
  obtain ⟨kf, log, hlog, _⟩ := C33_all_terminates (accWhole exData (exOnly "t" ["x", "a"]) (exOnly "z" ["a"]) N st g rs.num sp sq)
    ((List.finRange (last + 1)).map .inl ++ ((List.finRange (lp + 1)).map (.inr ∘ .inl) ++ (List.finRange (lq + 1)).map (.inr ∘ .inr)))
    (fun b => by rcases b with b | b | b <;> simp)
  obtain ⟨z1, _, z2⟩ := C Nat exData (exOnly "t" ["x", "a"]) (exOnly "z" ["a"]) N _ _ _
    rfl rfl ⟨kf, log, hlog, rfl⟩ (fun x _ => ⟨exData_whole x, exOnly_whole _ _ x, exOnly_whole _ _ x⟩)
    (fun x _ _ => ⟨fun i s hs => (exData_whole x i s hs).2, fun i s hs => (exOnly_whole _ _ x i s hs).2, fun i s hs => (exOnly_whole _ _ x i s hs).2⟩)
    (fun x _ _ => by
      by_cases e : x = "a"
      · refine .inr fun i s hs => ?_
        subst e
        simp only [exData, List.mem_append, List.mem_singleton] at hs
        rcases hs with rfl | rfl <;> simp
      · refine .inl ⟨⟨fun i s hs => ?_, fun q => ⟨List.not_mem_nil, List.not_mem_nil⟩⟩, List.not_mem_nil⟩
        simp only [exOnly, List.append_nil, List.mem_singleton] at hs
        subst hs
        simpa using e)
    ⟨true, false⟩ 1 (fun x => ⟨x = "y", false, 0, [3]⟩) rfl hone (fun _ _ => 7) inp done (fun _ => ⟨0, 0, fun _ => 0, fun _ => 0⟩)
    (fun t => t = 2 ∨ t = 9) (fun _ => true) s0 _ _ rfl rfl 2 (by decide)
  obtain ⟨fresh, o, m, _, _, _, _, _, _, _, y1, _, _, _, y2, _⟩ := z2 t ht
  exact ⟨_, _, fresh, o, m, rfl, z1 "x" 3 (by decide), y1, fun x hx => (y2 x hx).1⟩

end Silice
