import Verif.Spec.Ports
import Verif.Props.WholeRun
import Mathlib.Tactic.Choose

/-!
# C59: ports have the timing they are declared with
-/

set_option autoImplicit false

namespace Silice

variable {V : Type}

theorem mem_portsQ_in {H : PortHost} {ins : List (InstMode × InPort)} {outs : List String} {I : InstMode} {p : InPort}
    (hp : (I, p) ∈ ins) (hs : p.seen I = .next) (hx : refusesQ H p.name = false) : p.name ∈ portsQ H ins outs := by
  unfold portsQ
  rw [List.mem_filter]
  refine ⟨List.mem_append_left _ (List.mem_filterMap.mpr ⟨_, hp, ?_⟩), by simp [hx]⟩
  cases p with
  | left x => simp [InPort.seen] at hs
  | leftQ x => rfl
  | dot x =>
    simp only [InPort.seen] at hs
    split at hs
    · next h => rcases h with h | h <;> simp [h, InPort.name]
    · cases hs

theorem mem_portsD_in {H : PortHost} {ins : List (InstMode × InPort)} {comb : List String} {I : InstMode} {p : InPort}
    (hp : (I, p) ∈ ins) (hs : p.seen I = .now) (hx : refusesQ H p.name = false) : p.name ∈ portsD H ins comb := by
  unfold portsD
  rw [List.mem_filter]
  refine ⟨List.mem_append_left _ (List.mem_filterMap.mpr ⟨_, hp, ?_⟩), by simp [hx]⟩
  cases p with
  | left x => rfl
  | leftQ x => simp [InPort.seen] at hs
  | dot x =>
    simp only [InPort.seen] at hs
    split at hs
    · cases hs
    · next h => simp only [not_or, Bool.not_eq_true] at h; simp [h.1, h.2, InPort.name]

theorem refusesQ_true {H : PortHost} {x : String} :
    refusesQ H x = true ↔ (x ∈ H.inputs ∨ x ∈ H.inouts ∨ x ∈ H.bound ∨ x ∈ H.tracked) := by
  simp only [refusesQ, Bool.or_eq_true, decide_eq_true_eq]; tauto

theorem refusesQ_false {H : PortHost} {x : String} (h : refusesQ H x = false) :
    ¬ (x ∈ H.inputs ∨ x ∈ H.inouts ∨ x ∈ H.bound ∨ x ∈ H.tracked) := fun hx => by
  rw [refusesQ_true.mpr hx] at h
  cases h

theorem bindSig_outside {H : PortHost} {cls : String → Store} {side : Side} {x : String} (ext q v : String → V) (hx : refusesQ H x = true) :
    (bindSig H cls side x).val ext q v = ext x := by
  rw [refusesQ_true] at hx
  unfold bindSig
  split_ifs <;> first | rfl | tauto

theorem bindSig_inside {H : PortHost} {cls : String → Store} {side : Side} {x : String} (hx : refusesQ H x = false) :
    bindSig H cls side x = match cls x with
      | .temp => .tmp x
      | .flipflop => match side with
        | .q => .q x
        | .v => .d x := by
  have := refusesQ_false hx
  simp only [not_or] at this
  unfold bindSig
  rw [if_neg this.1, if_neg this.2.1, if_neg this.2.2.1, if_neg this.2.2.2]
  cases cls x <;> cases side <;> rfl

/-- C59. What an instance gets at an input is what the documentation says: with `<:`, or the dot syntax, the value at the end of the cycle; with `<::`,
`<reginputs>`, or if it can be called, the value at the start of the cycle. For every accepted binding, whatever storage the variable ended up with. -/
theorem C59_input_timing (S : Story V) (H : PortHost) (cls : String → Store) (ins : List (InstMode × InPort)) (outs comb : List String)
    (q v : Nat → String → V) (T : Nat) (h : Carries S cls (portsQ H ins outs) (portsD H ins comb) q v T)
    (I : InstMode) (p : InPort) (hp : (I, p) ∈ ins) (s : PSig) (hs : inputSig H cls I p = some s) (t : Nat) (ht : T ≤ t) :
    s.val (S.ext t) (q t) (v t) = S.gives H (p.seen I) t p.name := by
  have key : s = bindSig H cls (match p.seen I with | .now => .v | .next => .q) p.name := by
    cases p with
    | left x => exact (Option.some.inj hs).symm
    | leftQ x =>
      simp only [inputSig] at hs
      split at hs
      · cases hs
      · exact (Option.some.inj hs).symm
    | dot x =>
      simp only [inputSig] at hs
      obtain ⟨c, r⟩ := I
      cases c <;> cases r <;> simp_all [InPort.seen, InPort.name]
  unfold Story.gives
  cases hr : refusesQ H p.name with
  | true => rw [key, bindSig_outside _ _ _ hr, if_pos (refusesQ_true.mp hr)]
  | false =>
    rw [if_neg (refusesQ_false hr), key, bindSig_inside hr]
    cases hn : p.seen I with
    | now =>
      have he := h.atEnd t ht _ (mem_portsD_in hp hn hr)
      cases cls p.name <;> exact he
    | next =>
      have hk := h.kept _ (mem_portsQ_in hp hn hr)
      rw [hk]
      exact (h.ff t ht _ hk).1

/-- C59. `<::` is refused exactly on names that have one value per cycle, so that it would have no effect: inputs, inouts, names bound to outputs
of instances, tracked expressions. Nothing else is refused. -/
theorem C59_refused (H : PortHost) (cls : String → Store) (I : InstMode) (p : InPort) :
    inputSig H cls I p = none ↔ ∃ x, p = .leftQ x ∧ (x ∈ H.inputs ∨ x ∈ H.inouts ∨ x ∈ H.bound ∨ x ∈ H.tracked) := by
  cases p with
  | left x => simp [inputSig]
  | leftQ x =>
    simp only [inputSig, InPort.leftQ.injEq, exists_eq_left']
    rw [← refusesQ_true]
    cases refusesQ H x <;> simp
  | dot x =>
    obtain ⟨c, r⟩ := I
    cases c <;> cases r <;> simp [inputSig]

/-- C59. What is seen of an output is what the documentation says: `output!` gives the value at the end of the cycle, `output` the one at its start.
Partial: not for an output bound to an output of an instance, which gives what the instance gives (counterexample below). -/
theorem C59_output_timing_partial (S : Story V) (H : PortHost) (cls : String → Store) (ins : List (InstMode × InPort)) (outs comb : List String)
    (q v : Nat → String → V) (T : Nat) (h : Carries S cls (portsQ H ins outs) (portsD H ins comb) q v T)
    (c : Bool) (x : String) (hx : if c = true then x ∈ comb else x ∈ outs)
    (hn : ¬ (x ∈ H.inputs ∨ x ∈ H.inouts ∨ x ∈ H.bound ∨ x ∈ H.tracked)) (t : Nat) (ht : T ≤ t) :
    (outputSig H cls c x).val (S.ext t) (q t) (v t) = S.gives H (outSeen c) t x := by
  have hr : refusesQ H x = false := by
    rw [← Bool.not_eq_true, refusesQ_true]
    exact hn
  unfold Story.gives
  rw [if_neg hn]
  simp only [not_or] at hn
  unfold outputSig
  rw [if_neg hn.2.2.1]
  cases c with
  | true =>
    have he := h.atEnd t ht x (by
      unfold portsD
      rw [List.mem_filter]
      exact ⟨List.mem_append_right _ (by simpa using hx), by simp [hr]⟩)
    cases cls x <;> exact he
  | false =>
    have hk := h.kept x (by
      unfold portsQ
      rw [List.mem_filter]
      exact ⟨List.mem_append_right _ (by simpa using hx), by simp [hr]⟩)
    rw [hk]
    exact (h.ff t ht x hk).1

/-- C59. An output bound to an output of an instance gives the value that the instance gives in the cycle, whether it is declared with `output` or
`output!`. -/
theorem C59_bound_output (H : PortHost) (cls : String → Store) (c : Bool) (x : String) (hx : x ∈ H.bound) (ext q v : String → V) :
    (outputSig H cls c x).val ext q v = ext x := by
  unfold outputSig
  rw [if_pos hx]
  rfl

/-! ### Algorithms carry the story of their source -/

/-- C59, with C53: the hardware of an algorithm carries the values that its source gives to its variables, under every history of resets, calls and
inputs. So the theorems above apply to it: `start t` are the variables at the start of cycle `t`, `fin t` those at its end, and unless the cycle ends
with a reset or a call, those at the start of the next cycle are those at the end of this one.
Partial: with the restrictions of `C53_history_partial`. -/
theorem C59_algorithm_partial (u : AlgUnit) (last : Nat) (st : PSt) (ff : Cfg (Fin (last + 1)) → Fin (last + 1) → Fin (last + 1)) (hff : Skips ff)
    (h : buildUnit u = some (last, st)) (hok : u.switchOk = true) (ht : u.tidy = true) (tp tq asgs : List Nat) (before after : Option Prg)
    (lp lq : Nat) (sp sq : PSt) (hp : buildAlways tp asgs before = some (lp, sp)) (hq : buildAlways tq [] after = some (lq, sq)) :
    ∃ g rs, generateStates (st.cfg last) 0 ff (last + 1) (List.finRange (last + 1)) = some (g, rs) ∧
      ∃ efuel fuel entries afuel cp cq, emitStates g rs.num (ff g) efuel fuel = .ok entries ∧ alwaysCode sp lp afuel = some cp ∧
        alwaysCode sq lq afuel = some cq ∧
        ∀ (V : Type) (D Dp Dq : DataOf V) (N : AlgPorts) (a : Design V (Ctrl (Fin (last + 1))))
          (acc : AccIn (Fin (last + 1) ⊕ Fin (lp + 1) ⊕ Fin (lq + 1))) (cls0 : String → Store),
        a = wholeDesign D (fun b : Fin (last + 1) => (st.blk b).ins) entries (alwaysStm Dp sp lp cp) (alwaysStm Dq sq lq cq) N.bindQ N.bindD
          N.outs →
        acc = accWhole D Dp Dq N st g rs.num sp sq →
        (∃ kfuel log, accAll acc kfuel = some log ∧ cls0 = storeOf acc log (N.outs ++ N.comb)) →
        (∀ x, cls0 x = .temp → D.Whole x ∧ Dp.Whole x ∧ Dq.Whole x) →
        (∀ x, cls0 x = .flipflop → a.demote cls0 x = .temp → D.NoField x ∧ Dp.NoField x ∧ Dq.NoField x) →
        (∀ x, cls0 x = .flipflop → a.demote cls0 x = .temp → (Dq.Unread x ∧ x ∉ N.bindD) ∨ D.Keeps x) →
        ∀ (K : AlgKind) (entry : Nat) (decl : String → FFVar V), K.noFsm = false → rs.num.sid g.first = some entry →
        ∀ (junk inp : Nat → String → V) (done : Nat → Nat → Bool) (undef : Nat → WReg V) (rst run : Nat → Bool) (s0 : WSt V)
          (comb : Nat → WReg V → Option (HSt V (Ctrl (Fin (last + 1))) × WReg V)) (X : Nat → WSt V),
        comb = (fun t r => wCycle g rs.num (ff g) (callIdsFrom g 0 (List.finRange (last + 1))) entries a (a.demote cls0) N.inputs (junk t) (inp t)
          (done t) r) →
        X = wHist K entry decl comb undef rst run s0 →
        ∀ t0, rst t0 = true → ∃ (S : Story V) (v : Nat → String → V), S.ext = inp ∧
          Carries S (a.demote cls0) N.bindQ N.bindD (fun t => (X t).reg.q) v (t0 + 1) ∧
          ∀ t, t0 < t → (∃ hh r', comb t (X t).reg = some (hh, r') ∧ hh.v = v t) ∧
            (∃ fresh o e o', ARun (u.globals ++ u.locals) u.main (alwaysSource asgs before) (alwaysSource [] after) D Dp Dq N.inputs inp done decl
                K.autorun rst run t0 (X (t0 + 1)).reg.q t fresh o (S.start t) ∧
              PCycle (u.globals ++ u.locals) (alwaysSource asgs before) (alwaysSource [] after) D Dp Dq N.inputs (inp t) (done t) o (S.start t) e
                o' (S.fin t)) ∧
            (rst t = false → K.autorun = true ∨ run t = true → S.start (t + 1) = S.fin t) := by
  obtain ⟨g, rs, h1, ef, fu, es, af, cp, cq, he, h2, h3, C⟩ := C53_history_partial u last st ff hff h hok ht tp tq asgs before after lp lq sp sq hp hq
  refine ⟨g, rs, h1, ef, fu, es, af, cp, cq, he, h2, h3, ?_⟩
  intro V D Dp Dq N a acc cls0 ha hacc hcls hT hF hP K entry decl hK hent junk inp done undef rst run s0 comb X hcomb hX t0 hr0
  obtain ⟨_, hkept, hall⟩ := C V D Dp Dq N a acc cls0 ha hacc hcls hT hF hP K entry decl hK hent junk inp done undef rst run s0 comb X hcomb hX t0 hr0
  have : Nonempty V := ⟨s0.reg.q ""⟩
  have : Nonempty (WReg V) := ⟨s0.reg⟩
  have : Nonempty (HSt V (Ctrl (Fin (last + 1)))) := ⟨⟨s0.reg.q, s0.reg.q, none, []⟩⟩
  choose! fresh o m e1 e2 e3 o' m' hh r' hA hC hc _ hff hend _ using fun t => fun ht : t0 < t => hall t ht
  refine ⟨⟨inp, m, m'⟩, fun t => (hh t).v, rfl, ⟨fun t ht => hff t (by omega), fun t ht => hend t (by omega), hkept⟩, fun t ht =>
    ⟨⟨_, _, hc t ht, rfl⟩, ⟨_, _, _, _, hA t ht, hC t ht⟩, fun hr hg => ?_⟩⟩
  show m (t + 1) = m' t
  by_cases hau : K.autorun = true
  · cases hf : fresh t with
    | true =>
      have hA' := hA t ht
      rw [hf] at hA'
      exact (C53_history_deterministic _ _ _ _ _ _ _ _ _ _ _ _ _ _ _ _ _ _ _ _ _ _ _ (hA (t + 1) (by omega)) (.start hA' (hC t ht) hr hau)).2.2
    | false =>
      have hA' := hA t ht
      rw [hf] at hA'
      exact (C53_history_deterministic _ _ _ _ _ _ _ _ _ _ _ _ _ _ _ _ _ _ _ _ _ _ _ (hA (t + 1) (by omega))
        (.go hA' (hC t ht) hr (by rw [if_pos hau]))).2.2
  · have hrun : run t = true := hg.resolve_left hau
    exact (C53_history_deterministic _ _ _ _ _ _ _ _ _ _ _ _ _ _ _ _ _ _ _ _ _ _ _ (hA (t + 1) (by omega))
      (.go (hA t ht) (hC t ht) hr (by rw [if_neg hau]; exact hrun))).2.2

/-! ### Designs made of several units -/

/-- C59. In a design of any number of units, instantiated in one another in any way: if the hardware of each unit carries a story (as C53 shows), and
the modules are connected as written (inputs of instances and outputs of instances), then in each cycle each unit gets from the others what the
documentation says. Hence what each unit computes from its inputs is what the sources of all units, connected as documented, compute. -/
theorem C59_design {U : Type} (S : U → Story V) (H : U → PortHost) (cls : U → String → Store) (ins : U → List (InstMode × InPort))
    (outs comb : U → List String) (q v : U → Nat → String → V) (T : Nat)
    (hc : ∀ i, Carries (S i) (cls i) (portsQ (H i) (ins i) (outs i)) (portsD (H i) (ins i) (comb i)) (q i) (v i) T)
    (link : U → String → Link U)
    (hw : ∀ i p t, T ≤ t →
      match link i p with
      | .outside => True
      | .host j m b => (m, b) ∈ ins j ∧ ∃ s, inputSig (H j) (cls j) m b = some s ∧ (S i).ext t p = s.val ((S j).ext t) (q j t) (v j t)
      | .inst j c o => (if c = true then o ∈ comb j else o ∈ outs j) ∧ (o ∈ (H j).inputs ++ (H j).inouts ++ (H j).tracked → False) ∧
          (S i).ext t p = (outputSig (H j) (cls j) c o).val ((S j).ext t) (q j t) (v j t))
    (i : U) (p : String) (t : Nat) (ht : T ≤ t) :
    match link i p with
    | .outside => True
    | .host j m b => (S i).ext t p = (S j).gives (H j) (b.seen m) t b.name
    | .inst j c o => (S i).ext t p = (S j).gives (H j) (outSeen c) t o := by
  have := hw i p t ht
  cases hl : link i p with
  | outside => trivial
  | host j m b =>
    rw [hl] at this
    obtain ⟨h1, s, h2, h3⟩ := this
    show (S i).ext t p = _
    rw [h3]
    exact C59_input_timing (S j) (H j) (cls j) (ins j) (outs j) (comb j) (q j) (v j) T (hc j) m b h1 s h2 t ht
  | inst j c o =>
    rw [hl] at this
    obtain ⟨h1, h2, h3⟩ := this
    show (S i).ext t p = _
    rw [h3]
    simp only [List.mem_append] at h2
    by_cases hb : o ∈ (H j).bound
    · rw [C59_bound_output _ _ _ _ hb]
      unfold Story.gives
      rw [if_pos (by tauto)]
    · exact C59_output_timing_partial (S j) (H j) (cls j) (ins j) (outs j) (comb j) (q j) (v j) T (hc j) c o h1 (by tauto) t ht

/-! ### Latencies -/

/-- A unit that copies its input `i` to its output `v` in every cycle (the example of the documentation), in a design: it gets `i` from where the
design says, its source gives `v` the value of `i` at the end of each cycle. -/
structure Copies (S : Story V) (i v : String) (T : Nat) : Prop where
  copies : ∀ t, T ≤ t → S.fin t v = S.ext t i
  goesOn : ∀ t, T ≤ t → S.start (t + 1) = S.fin t

/-- C59. Latencies add up: through a row of units that copy their input to their output, the first one connected to `x` of unit `a`, each
of the next ones to the output of the one before, what comes out is the value of `x` as many cycles ago as there are registered ports on the way (cases A
to D of the documentation for a single unit). -/
theorem C59_latency (a : Story V) (x : String) (T : Nat) (ha : ∀ t, T ≤ t → a.start (t + 1) = a.fin t) (first : Seen)
    (row : List (Story V × String × String × Bool)) (hrow : ∀ r ∈ row, Copies r.1 r.2.1 r.2.2.1 T)
    (hfirst : ∀ r ∈ row.head?, ∀ t, T ≤ t → r.1.ext t r.2.1 = match first with | .now => a.fin t x | .next => a.start t x)
    (hnext : ∀ k r s, row[k]? = some r → row[k + 1]? = some s → ∀ t, T ≤ t → s.1.ext t s.2.1 =
      match outSeen r.2.2.2 with | .now => r.1.fin t r.2.2.1 | .next => r.1.start t r.2.2.1)
    (k : Nat) (r : Story V × String × String × Bool) (hk : row[k]? = some r) (t : Nat) (ht : T ≤ t) :
    let δ := first.delay + ((row.take (k + 1)).map fun r => (outSeen r.2.2.2).delay).sum
    (match outSeen r.2.2.2 with | .now => r.1.fin (t + δ) r.2.2.1 | .next => r.1.start (t + δ) r.2.2.1) = a.fin t x := by
  intro δ
  induction k generalizing r t with
  | zero =>
    have hr : r ∈ row := List.mem_of_getElem? hk
    have hh : r ∈ row.head? := by rw [List.head?_eq_getElem?]; exact hk
    have hc := hrow r hr
    have hin : ∀ t, T ≤ t → r.1.fin (t + first.delay) r.2.2.1 = a.fin t x := fun t ht => by
      rw [hc.copies _ (by omega), hfirst r hh _ (by omega)]
      cases first with
      | now => rfl
      | next => exact congrFun (ha t ht) x
    have hδ : δ = first.delay + (outSeen r.2.2.2).delay := by
      show first.delay + ((row.take (0 + 1)).map _).sum = _
      cases row with
      | nil => cases hk
      | cons r' row => simp only [List.getElem?_cons_zero, Option.some.injEq] at hk; subst hk; simp
    rw [hδ]
    cases ho : outSeen r.2.2.2 with
    | now => exact hin t ht
    | next =>
      show r.1.start (t + (first.delay + 1)) _ = _
      rw [← Nat.add_assoc, hc.goesOn _ (by omega)]
      exact hin t ht
  | succ k ih =>
    have hr : r ∈ row := List.mem_of_getElem? hk
    obtain ⟨p, hp⟩ : ∃ p, row[k]? = some p := by
      have : k + 1 < row.length := by
        rcases List.getElem?_eq_some_iff.mp hk with ⟨h, _⟩
        exact h
      exact ⟨row[k], List.getElem?_eq_getElem (by omega)⟩
    have hc := hrow r hr
    have hprev := ih p hp
    have hδ : δ = first.delay + ((row.take (k + 1)).map fun r => (outSeen r.2.2.2).delay).sum + (outSeen r.2.2.2).delay := by
      show first.delay + ((row.take (k + 1 + 1)).map _).sum = _
      rw [List.take_add_one, hk]
      simp [Nat.add_assoc]
    generalize hd : first.delay + ((row.take (k + 1)).map fun r => (outSeen r.2.2.2).delay).sum = d at *
    have hin : r.1.fin (t + d) r.2.2.1 = a.fin t x := by
      rw [hc.copies _ (by omega), hnext k p r hp hk _ (by omega)]
      exact hprev t ht
    rw [hδ]
    cases ho : outSeen r.2.2.2 with
    | now => exact hin
    | next =>
      show r.1.start (t + (d + 1)) _ = _
      rw [← Nat.add_assoc, hc.goesOn _ (by omega)]
      exact hin

/-! ### Examples -/

/-- `main` of the documentation: `cycle` is incremented in every cycle, `value` is bound to output `v` of an instance of `Copy`. -/
def countStory : Story Nat := ⟨fun t _ => t, fun t _ => t, fun t _ => t + 1⟩

/-- `Copy` of the documentation, its input `i` bound with `<:` to `cycle`. -/
def copyStory : Story Nat := ⟨fun t _ => t + 1, fun t _ => t, fun t _ => t + 1⟩

def noPorts : PortHost := ⟨[], [], [], []⟩

theorem carries_ff (S : Story V) (bQ bD : List String) : Carries S (fun _ => .flipflop) bQ bD S.start S.fin 0 :=
  ⟨fun _ _ _ _ => ⟨rfl, rfl⟩, fun _ _ _ _ => rfl, fun _ _ => rfl⟩

/-- Non-vacuity: `<:` and `<::` on `cycle`: the instances get `t + 1` and `t` in cycle `t`. -/
example (t : Nat) :
    (∃ s, inputSig noPorts (fun _ => .flipflop) ⟨false, false⟩ (.left "cycle") = some s ∧
      s.val (countStory.ext t) (countStory.start t) (countStory.fin t) = t + 1) ∧
    ∃ s, inputSig noPorts (fun _ => .flipflop) ⟨false, false⟩ (.leftQ "cycle") = some s ∧
      s.val (countStory.ext t) (countStory.start t) (countStory.fin t) = t :=
  ⟨⟨_, rfl, C59_input_timing countStory noPorts _ [(⟨false, false⟩, .left "cycle"), (⟨false, false⟩, .leftQ "cycle")] [] [] _ _ 0 (carries_ff _ _ _)
      ⟨false, false⟩ (.left "cycle") (by simp) _ rfl t (Nat.zero_le _)⟩,
    ⟨_, rfl, C59_input_timing countStory noPorts _ [(⟨false, false⟩, .left "cycle"), (⟨false, false⟩, .leftQ "cycle")] [] [] _ _ 0 (carries_ff _ _ _)
      ⟨false, false⟩ (.leftQ "cycle") (by simp) _ rfl t (Nat.zero_le _)⟩⟩

/-- Non-vacuity: an input assigned with the dot syntax, kept in a temporary. Its flip-flop holds anything (here 0). -/
example (t : Nat) : ∃ s, inputSig noPorts (fun _ => .temp) ⟨false, false⟩ (.dot "_inst_i") = some s ∧
    s.val (countStory.ext t) (fun _ => 0) (countStory.fin t) = t + 1 :=
  ⟨_, rfl, C59_input_timing countStory noPorts (fun _ => .temp) [(⟨false, false⟩, .dot "_inst_i")] [] [] (fun _ _ => 0) countStory.fin 0
    ⟨fun _ _ _ h => by simp at h, fun _ _ _ _ => rfl, fun x h => by simp [portsQ] at h⟩ ⟨false, false⟩ (.dot "_inst_i") (by simp) _ rfl t (Nat.zero_le _)⟩

/-- Non-vacuity: outputs `v` of `Copy` declared with `output` and `output!`. -/
example (t : Nat) : (outputSig noPorts (fun _ => .flipflop) false "v").val (copyStory.ext t) (copyStory.start t) (copyStory.fin t) = t ∧
    (outputSig noPorts (fun _ => .flipflop) true "v").val (copyStory.ext t) (copyStory.start t) (copyStory.fin t) = t + 1 :=
  ⟨C59_output_timing_partial copyStory noPorts _ [] ["v"] [] _ _ 0 (carries_ff _ _ _) false "v" (by simp) (by simp [noPorts]) t (Nat.zero_le _),
    C59_output_timing_partial copyStory noPorts _ [] [] ["v"] _ _ 0 (carries_ff _ _ _) true "v" (by simp) (by simp [noPorts]) t (Nat.zero_le _)⟩

/-- C59, counterexample: an output declared with `output` that is bound to an `output!` of an instance (`o :> o`) changes in the same cycle as the
output of the instance, not in the next one. -/
theorem C59_counterexample_bound_output : ∃ (H : PortHost) (ext : Nat → String → Nat), "o" ∈ H.bound ∧
    ∀ (cls : String → Store) (q v : String → Nat) (t : Nat), (outputSig H cls false "o").val (ext (t + 1)) q v = ext (t + 1) "o" ∧
      (outputSig H cls false "o").val (ext (t + 1)) q v ≠ ext t "o" :=
  ⟨⟨[], [], ["o"], []⟩, fun t _ => t, by simp, fun cls q v t => by
    rw [C59_bound_output _ cls false "o" (by simp)]
    exact ⟨rfl, by simp⟩⟩

/-- Non-vacuity of `C59_design`: case A of the documentation. In cycle `t`, `main` sees `t` at `value`, as `cycle` becomes `t + 1`. -/
example (t : Nat) : countStory.ext t "value" = copyStory.gives ⟨["i"], [], [], []⟩ .next t "v" := by
  let S : Bool → Story Nat := fun b => if b then copyStory else countStory
  let H : Bool → PortHost := fun b => if b then ⟨["i"], [], [], []⟩ else ⟨[], [], ["value"], []⟩
  have := C59_design (U := Bool) S H (fun _ _ => .flipflop) (fun b => if b then [] else [(⟨false, false⟩, .left "cycle")])
    (fun b => if b then ["v"] else []) (fun _ => []) (fun b => (S b).start) (fun b => (S b).fin) 0 (fun b => carries_ff _ _ _)
    (fun b p => if b = true ∧ p = "i" then .host false ⟨false, false⟩ (.left "cycle") else
      if b = false ∧ p = "value" then .inst true false "v" else .outside)
    (by
      intro b p t _
      cases b with
      | true =>
        by_cases hp : p = "i"
        · subst hp
          exact ⟨by simp, _, rfl, rfl⟩
        · simp [hp]
      | false =>
        by_cases hp : p = "value"
        · subst hp
          exact ⟨by simp, by simp [H], rfl⟩
        · simp [hp])
    false "value" t (Nat.zero_le _)
  exact this

/-- Non-vacuity of `C59_latency`: cases A to D of the documentation are 1, 0, 2, 1 cycles; here C, for `<::` and `output`. -/
example (t : Nat) : (⟨fun t _ => t, fun t _ => t - 1, fun t _ => t⟩ : Story Nat).start (t + 2) "v" = t + 1 :=
  C59_latency countStory "cycle" 0 (fun _ _ => rfl) .next [(⟨fun t _ => t, fun t _ => t - 1, fun t _ => t⟩, "i", "v", false)]
    (by
      intro r hr
      simp only [List.mem_singleton] at hr
      subst hr
      exact ⟨fun _ _ => rfl, fun t _ => by simp⟩)
    (by
      intro r hr t _
      simp only [List.head?_cons, Option.mem_def, Option.some.injEq] at hr
      subst hr
      rfl)
    (by
      intro k r s h1 h2
      simp at h2)
    0 _ rfl t (Nat.zero_le _)

end Silice
