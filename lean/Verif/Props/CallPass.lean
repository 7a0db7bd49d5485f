import Verif.Lemmas.CallPass
import Verif.Props.Select

/-!
# C64: a call passes the values of its arguments, a join stores the results
-/

set_option autoImplicit false

namespace Silice

/-- The inputs of an instance, as variables of the source. -/
theorem inputs_words {D : Declared} (hd : Distinct D) {i : String} {p : InstPorts} (hi : D.insts.lookup i = some p) (hb : ∀ q ∈ p.inputs, q.1 ∉ p.bound)
    (hw : ∀ q ∈ p.inputs, q.2.size = 0) : ∀ q ∈ p.inputs, D.Word (.input i q.1) ∧ D.name (.input i q.1) = p.pre ++ "_" ++ q.1 := by
  intro q hq
  have hn := (List.nodup_append.mp (hd.ports _ (lookupS_mem hi))).1
  refine ⟨⟨q.2, ?_, hw q hq, ?_⟩, ?_⟩
  · simp [Declared.ty, hi, lookupS_of_mem hn hq]
  · intro p' hp'
    rw [hi, Option.some.injEq] at hp'
    subst hp'
    exact hb q hq
  · simp [Declared.name, hi]

/-- A call of an instance is accepted exactly when it is an algorithm that can be called, on the same clock, and either no argument is given, or as many as there are inputs,
none of which is given by a binding, and all arguments make sense. -/
theorem C64_call_accepted_iff {D : Declared} (hd : Distinct D) (c : SelCtx) (k : CalleeIs) (i : String) (p : InstPorts) (hi : D.insts.lookup i = some p) (args : List GArg)
    (ha : ∀ a ∈ args, a.Grouped D ∧ Visible D a.toEx.ids) :
    (∃ vs, writeAlgCall D c k p args = .ok vs) ↔ k.algorithm = true ∧ k.sameClock = true ∧ k.callable = true ∧
      (args = [] ∨ (args.length = p.inputs.length ∧ (∀ q ∈ p.inputs, q.1 ∉ p.bound) ∧ ∀ a ∈ args, a.toEx.Sensible D)) := by
  unfold writeAlgCall
  cases h1 : k.algorithm
  · simp
  cases h2 : k.sameClock
  · simp
  cases h3 : k.callable
  · simp
  cases args with
  | nil => simp
  | cons a as =>
    simp only [not_true_eq_false, if_false, List.isEmpty_cons, Bool.false_eq_true, true_and, reduceCtorEq, false_or]
    by_cases h4 : (a :: as).length = p.inputs.length
    · rw [if_neg (by simpa using h4)]
      by_cases h5 : ∀ q ∈ p.inputs, q.1 ∉ p.bound
      · rw [if_neg (by simpa using h5)]
        rw [writeParams_iff hd c _ _ ?_ (by simpa using h4.symm) ha]
        · exact ⟨fun h => ⟨h4, h5, h⟩, fun h => h.2.2⟩
        · intro x hx
          obtain ⟨q, hq, rfl⟩ := List.mem_map.mp hx
          have hn := (List.nodup_append.mp (hd.ports _ (lookupS_mem hi))).1
          have ht : D.ty (.input i q.1) = some q.2 := by simp [Declared.ty, hi, lookupS_of_mem hn hq]
          have hf : D.Free (.input i q.1) := by
            intro p' hp'
            rw [hi, Option.some.injEq] at hp'
            subst hp'
            exact h5 q hq
          obtain ⟨r, hr, -⟩ := rewriteName_stored hd (c := c) (rw := .wr) ht hf trivial
          simp only [Declared.name, hi] at hr
          exact ⟨r, hr⟩
      · have : (p.inputs.any fun q => decide (q.1 ∈ p.bound)) = true := by simpa using h5
        rw [if_pos this]
        constructor
        · rintro ⟨_, h⟩; cases h
        · rintro ⟨_, h, _⟩; exact absurd h h5
    · rw [if_pos (by simpa using h4)]
      constructor
      · rintro ⟨_, h⟩; cases h
      · rintro ⟨h, _⟩; exact absurd h h4

/-- A call of a subroutine is accepted exactly when it is not within a pipeline, has as many arguments as there are inputs, and all make sense. -/
theorem C64_subroutine_accepted_iff {D : Declared} (hd : Distinct D) (c : SelCtx) (inPipe : Bool) (ins : List String) (hi : ∀ y ∈ ins, (D.ty (.var y)).isSome) (args : List GArg)
    (ha : ∀ a ∈ args, a.Grouped D ∧ Visible D a.toEx.ids) :
    (∃ vs, writeSubCall D c inPipe ins args = .ok vs) ↔ inPipe = false ∧ args.length = ins.length ∧ ∀ a ∈ args, a.toEx.Sensible D := by
  unfold writeSubCall
  cases inPipe
  · simp only [Bool.false_eq_true, if_false, true_and]
    by_cases h4 : args.length = ins.length
    · rw [if_neg (by simpa using h4), writeParams_iff hd c _ _ ?_ h4.symm ha]
      · exact ⟨fun h => ⟨h4, h⟩, fun h => h.2⟩
      · intro x hx
        obtain ⟨t, ht⟩ := Option.isSome_iff_exists.mp (hi x hx)
        obtain ⟨r, hr, -⟩ := rewriteName_stored hd (c := c) (rw := .wr) ht trivial trivial
        exact ⟨r, hr⟩
    · rw [if_pos (by simpa using h4)]
      constructor
      · rintro ⟨_, h⟩; cases h
      · rintro ⟨h, _⟩; exact absurd h h4
  · simp

/-- A join is accepted exactly when the instance is an algorithm with states, on the same clock, and either nothing is received, or as many results as there are outputs,
in existing variables that are not bound to outputs or in accesses that can be assigned. -/
theorem C64_join_accepted_iff {D : Declared} (hd : Distinct D) (held : String → Held) (k : CalleeIs) (p : InstPorts) (rs : List Recv)
    (hr : ∀ r ∈ rs, r.Grouped D ∧ Visible D r.ids) :
    (∃ vs, writeAlgJoin D held k p rs = .ok vs) ↔ k.algorithm = true ∧ k.sameClock = true ∧ k.stateless = false ∧
      (rs = [] ∨ (rs.length = p.outputs.length ∧ ∀ r ∈ rs, r.Sensible D held true)) := by
  unfold writeAlgJoin
  cases h1 : k.algorithm
  · simp
  cases h2 : k.sameClock
  · simp
  cases h3 : k.stateless
  · cases rs with
    | nil => simp
    | cons r rs =>
      simp only [not_true_eq_false, if_false, List.isEmpty_cons, Bool.false_eq_true, true_and, reduceCtorEq, false_or]
      by_cases h4 : (r :: rs).length = p.outputs.length
      · rw [if_neg (by simpa using h4), writeResults_iff hd held true _ _ _ (fun o _ => ⟨_, rfl⟩) (by simpa using h4.symm) hr]
        exact ⟨fun h => ⟨h4, h⟩, fun h => h.2⟩
      · rw [if_pos (by simpa using h4)]
        constructor
        · rintro ⟨_, h⟩; cases h
        · rintro ⟨h, _⟩; exact absurd h h4
  · simp

/-- Results of a subroutine are received exactly when there are as many receivers as outputs and all make sense. -/
theorem C64_return_accepted_iff {D : Declared} (hd : Distinct D) (held : String → Held) (outs : List String) (ho : ∀ y ∈ outs, (D.ty (.var y)).isSome) (rs : List Recv)
    (hr : ∀ r ∈ rs, r.Grouped D ∧ Visible D r.ids) :
    (∃ vs, writeSubJoin D held outs rs = .ok vs) ↔ rs.length = outs.length ∧ ∀ r ∈ rs, r.Sensible D held false := by
  unfold writeSubJoin
  by_cases h4 : rs.length = outs.length
  · rw [if_neg (by simpa using h4), writeResults_iff hd held false _ _ _ ?_ h4.symm hr]
    · exact ⟨fun h => ⟨h4, h⟩, fun h => h.2⟩
    · intro o hoo
      obtain ⟨t, ht⟩ := Option.isSome_iff_exists.mp (ho o hoo)
      obtain ⟨r, h, -⟩ := rewriteName_stored hd (c := ⟨held, []⟩) (rw := .rd) ht trivial trivial
      simp only [Declared.name] at h
      exact ⟨_, by simp only [h]; rfl⟩
  · rw [if_pos (by simpa using h4)]
    constructor
    · rintro ⟨_, h⟩; cases h
    · rintro ⟨h, _⟩; exact absurd h h4

/-- A call without arguments writes nothing: inputs keep what was assigned to them. -/
theorem C64_call_nothing (D : Declared) (c : SelCtx) (k : CalleeIs) (p : InstPorts) {vs : List (VRef × VEx)} (h : writeAlgCall D c k p [] = .ok vs) : vs = [] := by
  unfold writeAlgCall at h
  simp only [List.isEmpty_nil, if_true] at h
  split at h
  · cases h
  split at h
  · cases h
  split at h
  · cases h
  · cases h; rfl

/-- What is written for a call gives to all inputs of the instance, in order, the values that the arguments have in the source before the call, and changes nothing else.
Partial: arguments do not read inputs of the instance which are written before in the cycle or are no flip-flops (`C64_counterexample_sequential`); inputs are words. -/
theorem C64_call_partial {D : Declared} (hd : Distinct D) (c : SelCtx) (k : CalleeIs) (i : String) (p : InstPorts) (hi : D.insts.lookup i = some p)
    (hw : ∀ q ∈ p.inputs, q.2.size = 0) (hr : ∀ q ∈ p.inputs, Written c.held (p.pre ++ "_" ++ q.1))
    (M : Module) (σ : SrcMem) (s : NetMem) (hh : Holds D c.held M c.deps σ s) (args : List GArg) (hne : args ≠ []) (vals : List Nat)
    (hg : List.Forall₂ (Gives D c σ (p.inputs.map fun q => .input i q.1)) args vals) (vs : List (VRef × VEx)) (h : writeAlgCall D c k p args = .ok vs) :
    ∃ s', s.run M vs = some s' ∧
      Holds D c.held M ((p.inputs.map fun q => p.pre ++ "_" ++ q.1).reverse ++ c.deps) (σ.putAll D ((p.inputs.map fun q => .input i q.1).zip vals)) s' ∧
      ∀ n, (∀ y, n ≠ .d y ∧ n ≠ .t y) → s' n = s n := by
  unfold writeAlgCall at h
  split at h
  · cases h
  split at h
  · cases h
  split at h
  · cases h
  split at h
  · rename_i hE
    exact absurd (List.isEmpty_iff.mp hE) hne
  split at h
  · cases h
  rename_i hl
  split at h
  · cases h
  rename_i hb
  have hb' : ∀ q ∈ p.inputs, q.1 ∉ p.bound := by simpa using hb
  have hww := inputs_words hd hi hb' hw
  have e : (p.inputs.map fun q => p.pre ++ "_" ++ q.1) = (p.inputs.map fun q => SVar.input i q.1).map D.name := by
    rw [List.map_map]
    refine List.map_congr_left fun q hq => (hww q hq).2.symm
  rw [e] at h ⊢
  refine params_pass hd hh _ ?_ args vals ?_ hg h
  · intro x hx
    obtain ⟨q, hq, rfl⟩ := List.mem_map.mp hx
    refine ⟨trivial, (hww q hq).1, ?_⟩
    rw [(hww q hq).2]
    exact hr q hq
  · rw [List.length_map]
    simpa using Eq.symm (not_not.mp hl)

/-- The same for the call of a subroutine: its inputs are the variables `ins`. -/
theorem C64_subroutine_partial {D : Declared} (hd : Distinct D) (c : SelCtx) (inPipe : Bool) (ins : List String) (hw : ∀ y ∈ ins, D.Word (.var y) ∧ Written c.held y)
    (M : Module) (σ : SrcMem) (s : NetMem) (hh : Holds D c.held M c.deps σ s) (args : List GArg) (vals : List Nat)
    (hg : List.Forall₂ (Gives D c σ (ins.map .var)) args vals) (vs : List (VRef × VEx)) (h : writeSubCall D c inPipe ins args = .ok vs) :
    ∃ s', s.run M vs = some s' ∧ Holds D c.held M (ins.reverse ++ c.deps) (σ.putAll D ((ins.map .var).zip vals)) s' ∧
      ∀ n, (∀ y, n ≠ .d y ∧ n ≠ .t y) → s' n = s n := by
  unfold writeSubCall at h
  split at h
  · cases h
  split at h
  · cases h
  rename_i hl
  have e : (ins.map SVar.var).map D.name = ins := by
    rw [List.map_map]
    simp [Function.comp_def, Declared.name]
  have := params_pass hd hh (ins.map SVar.var) ?_ args vals (by rw [List.length_map]; exact (not_not.mp hl).symm) hg (by rw [e]; exact h)
  · rw [e] at this
    exact this
  · intro x hx
    obtain ⟨y, hy, rfl⟩ := List.mem_map.mp hx
    exact ⟨trivial, (hw y hy).1, (hw y hy).2⟩

/-- Afterwards each input holds the value of the argument of the same rank, cut to the width of the input, and all other variables are as before. -/
theorem C64_inputs_hold {D : Declared} {σ : SrcMem} {xs : List SVar} {vals : List Nat} (hn : xs.Nodup) :
    (∀ (k : Nat) (x : SVar) (v : Nat) (t : VarTy), xs[k]? = some x → vals[k]? = some v → D.ty x = some t → (σ.putAll D (xs.zip vals)).word D x = v % 2 ^ t.width) ∧
    ∀ y, y ∉ xs → (σ.putAll D (xs.zip vals)) y = σ y := by
  constructor
  · intro k x v t hx hv ht
    have hm : (x, v) ∈ xs.zip vals := by
      refine List.mem_iff_getElem?.mpr ⟨k, ?_⟩
      rw [List.getElem?_zip_eq_some]
      exact ⟨hx, hv⟩
    refine putAll_word ht _ _ ?_ hm
    have hsub : ∀ (xs : List SVar) (vals : List Nat), ((xs.zip vals).map Prod.fst).Sublist xs := by
      intro xs
      induction xs with
      | nil => simp
      | cons x xs ih =>
        intro vals
        cases vals with
        | nil => simp
        | cons v vals => simpa using (ih vals).cons_cons x
    exact hn.sublist (hsub xs vals)
  · intro y hy
    refine putAll_frame _ _ ?_
    rintro ⟨x, v⟩ hp rfl
    exact hy (List.of_mem_zip hp).1

/-- What is written for a join stores the outputs of the instance, in order, in the places that are given, and changes nothing else.
Partial: indices within these places do not read flip-flops written before in the cycle (`C64_counterexample_index`), nor places which are no flip-flops; places are parts of variables
held by registers or temporaries, and not of inputs (`C64_counterexample_input`, `C64_counterexample_wire`, `C64_counterexample_bound`). -/
theorem C64_join_partial {D : Declared} (hd : Distinct D) (held : String → Held) (k : CalleeIs) (i : String) (p : InstPorts) (hi : D.insts.lookup i = some p)
    (hw : ∀ q ∈ p.outputs, q.2.size = 0) (M : Module) (deps : List String) (σ : SrcMem) (s : NetMem) (hh : Holds D held M deps σ s)
    (rs : List Recv) (hne : rs ≠ []) (places : List (SVar × Bits)) (hr : List.Forall₂ (Receives D held deps σ (places.map Prod.fst)) rs places)
    (vs : List (VRef × VEx)) (h : writeAlgJoin D held k p rs = .ok vs) :
    ∃ s', s.run M vs = some s' ∧
      Holds D held M ((places.map fun q => D.name q.1).reverse ++ deps) (σ.storeAll (places.zip (p.outputs.map fun o => σ.word D (.output i o.1)))) s' ∧
      ∀ n, (∀ y, n ≠ .d y ∧ n ≠ .t y) → s' n = s n := by
  unfold writeAlgJoin at h
  split at h
  · cases h
  split at h
  · cases h
  split at h
  · cases h
  split at h
  · rename_i hE
    exact absurd (List.isEmpty_iff.mp hE) hne
  split at h
  · cases h
  rename_i hl
  have hl' := not_not.mp hl
  have := results_store hd hh (p.outputs.map fun o => (o.1, σ.word D (.output i o.1))) rs places (by rw [List.length_map]; exact hl'.symm) hr ?_ (by
    rw [List.map_map]
    exact h)
  · rw [List.map_map] at this
    exact this
  · intro o ho s' e _ hs he
    obtain ⟨q, hq, rfl⟩ := List.mem_map.mp ho
    cases he
    have hn := (List.nodup_append.mp (hd.ports _ (lookupS_mem hi))).2.1
    have ht : D.ty (.output i q.1) = some q.2 := by simp [Declared.ty, hi, lookupS_of_mem hn hq]
    have hcur : Net.o (p.pre ++ "_" ++ q.1) ∈ currentIn D held deps (.output i q.1) := by
      simp [currentIn, Declared.name, hi]
    have hty := hh.ty _ _ ht trivial _ hcur
    have hval := hh.val _ _ ht trivial _ hcur
    simp only [VEx.val, hty, nil_bits (hw q hq)]
    rw [SrcMem.word, ht]
    simp only [Option.map_some, Nat.zero_add, Option.some.injEq]
    refine bitsVal_congr fun j hj => ?_
    rw [hs _ (by simp), hval]

/-- The same for the results of a subroutine, which are the variables `outs`. -/
theorem C64_return_partial {D : Declared} (hd : Distinct D) (held : String → Held) (outs : List String) (M : Module) (deps : List String) (σ : SrcMem) (s : NetMem)
    (hh : Holds D held M deps σ s) (rs : List Recv) (places : List (SVar × Bits)) (hr : List.Forall₂ (Receives D held deps σ (places.map Prod.fst)) rs places)
    (ho : ∀ y ∈ outs, D.Word (.var y) ∧ RecvMay D held deps (places.map Prod.fst) (.var y))
    (vs : List (VRef × VEx)) (h : writeSubJoin D held outs rs = .ok vs) :
    ∃ s', s.run M vs = some s' ∧
      Holds D held M ((places.map fun q => D.name q.1).reverse ++ deps) (σ.storeAll (places.zip (outs.map fun y => σ.word D (.var y)))) s' ∧
      ∀ n, (∀ y, n ≠ .d y ∧ n ≠ .t y) → s' n = s n := by
  unfold writeSubJoin at h
  split at h
  · cases h
  rename_i hl
  have hl' := not_not.mp hl
  have := results_store hd hh (outs.map fun y => (y, σ.word D (.var y))) rs places (by rw [List.length_map]; exact hl'.symm) hr ?_ (by
    rw [List.map_map, show (Prod.fst ∘ fun y : String => (y, σ.word D (.var y))) = id from rfl, List.map_id]
    exact h)
  · rw [List.map_map] at this
    exact this
  · intro o hoo s' e hon hs he
    obtain ⟨y, hy, rfl⟩ := List.mem_map.mp hoo
    obtain ⟨⟨t, ht, h0, hf⟩, hmay⟩ := ho y hy
    simp only at he
    split at he
    · cases he
    rename_i r hrr
    cases he
    have := refOf_val (c := ⟨held, []⟩) hon hmay ht (rewriteName_ref hd (c := ⟨held, []⟩) (M := M) (s := s') trivial ht h0 hf hrr)
    rw [this, SrcMem.word, ht]
    simp

/-! ### A concrete case -/

/-- The ports of `m`. -/
def exPassP : InstPorts := ⟨"_m", [("p", ⟨4, 0⟩)], [("r", ⟨4, 0⟩)], []⟩

/-- Called algorithm. -/
def exPassK : CalleeIs := ⟨true, true, true, false⟩

/-- `t[i]` -/
def exPassT : SAcc := .mk (.id "t") (.at (.read (.mk (.id "i") .no none .no))) none .no

/-- `m <- (t[i] + m.p)` -/
def exPassArgs : List GArg := [.ex (.bin (· + ·) (.read exPassT) (.read (.mk (.io "m" "p") .no none .no)))]

example : exSelD.insts.lookup "m" = some exPassP := rfl
example : Written exSelHeld "_m_p" := .inl (by decide +kernel)

theorem exPassT_place : SPlace exSelD exSelMem exPassT (.var "t") ⟨0, 0, 8⟩ := by
  have hi : SIdxVal exSelD exSelMem (.at (.read (.mk (.id "i") .no none .no))) (some 0) := by
    have := SIdxVal.at (SVal.read (SPlace.mk (D := exSelD) (σ := exSelMem) (t := ⟨2, 0⟩) (StandsFor.var (x := "i") (by decide +kernel)) (by decide +kernel) SIdxVal.no SPartVal.no
      (.word (k := 0) (.inl ⟨rfl, rfl, rfl⟩))))
    simpa [bitsVal, exSelMem] using this
  exact .mk (t := ⟨8, 4⟩) (.var (by decide +kernel)) (by decide +kernel) hi .no (.word (.inr ⟨rfl, by decide⟩))

theorem exSel_noMacro (x : String) : exSelHeld x ≠ .textMacro := by unfold exSelHeld; split <;> simp

/-- The argument has the value 255 + 15. -/
example : List.Forall₂ (Gives exSelD ⟨exSelHeld, []⟩ exSelMem (exPassP.inputs.map fun q => .input "m" q.1)) exPassArgs [270] := by
  refine .cons ⟨trivial, ?_, ?_, ?_⟩ .nil
  · simp [GArg.toEx, exPassT, SEx.MacroWhole, SAcc.MacroWhole, SIdx.MacroWhole, SPart.MacroWhole, exSel_noMacro]
  · simp only [GArg.toEx, exPassT, SEx.Within, SAcc.Within, SIdx.Within, SPart.Within, and_true]
    have h : ∀ v, ArgMay exSelD ⟨exSelHeld, []⟩ (exPassP.inputs.map fun q => .input "m" q.1) v := by
      intro v hv
      simp only [exPassP, List.map_cons, List.map_nil, List.mem_singleton] at hv
      subst hv
      exact ⟨by decide +kernel, by simp⟩
    exact ⟨⟨fun v _ => h v, fun v _ => h v⟩, fun v _ => h v⟩
  · have h1 := SVal.read exPassT_place
    have h2 := SVal.read (SPlace.mk (D := exSelD) (σ := exSelMem) (t := ⟨4, 0⟩) (StandsFor.input (i := "m") (m := "p") (by decide +kernel)) (by decide +kernel) SIdxVal.no SPartVal.no
      (.word (k := 0) (.inl ⟨rfl, rfl, rfl⟩)))
    exact .bin (f := (· + ·)) h1 h2

example : ∃ vs, writeAlgCall exSelD ⟨exSelHeld, []⟩ exPassK exPassP exPassArgs = .ok vs := ⟨_, rfl⟩

/-- So the input holds 14. -/
example : (exSelMem.putAll exSelD [(.input "m" "p", 270)]).word exSelD (.input "m" "p") = 14 := by decide +kernel

/-- `(t[i]) <- m` -/
example : List.Forall₂ (Receives exSelD exSelHeld [] exSelMem [.var "t"]) [.acc exPassT] [(.var "t", ⟨0, 0, 8⟩)] := by
  refine .cons ⟨trivial, ⟨exPassT, rfl, ?_, ?_, exPassT_place⟩, by simp, .inl (by decide +kernel)⟩ .nil
  · simp [exPassT, SAcc.MacroWhole, SIdx.MacroWhole, SPart.MacroWhole, SEx.MacroWhole, exSel_noMacro]
  · have h : ∀ v, RecvMay exSelD exSelHeld [] [.var "t"] v := by
      intro v
      refine ⟨by simp, fun hv => ?_⟩
      simp only [List.mem_singleton] at hv
      subst hv
      decide +kernel
    exact SAcc.indices_all h _

example : ∃ vs, writeAlgJoin exSelD exSelHeld exPassK exPassP [.acc exPassT] = .ok vs := ⟨_, rfl⟩
example : ∃ vs, writeSubJoin exSelD exSelHeld ["w"] [.acc exPassT] = .ok vs := ⟨_, rfl⟩
example : ∃ vs, writeSubCall exSelD ⟨exSelHeld, []⟩ false ["w"] exPassArgs = .ok vs := ⟨_, rfl⟩
example : exSelD.Word (.var "w") ∧ Written exSelHeld "w" ∧ RecvMay exSelD exSelHeld [] [.var "t"] (.var "w") :=
  ⟨⟨⟨8, 0⟩, by decide +kernel, rfl, trivial⟩, .inl (by decide +kernel), by simp, by simp⟩

/-- Visible, as needed for the theorems on what is accepted. -/
example : ∀ a ∈ exPassArgs, a.Grouped exSelD ∧ Visible exSelD a.toEx.ids := by
  intro a ha
  simp only [exPassArgs, List.mem_singleton] at ha
  subst ha
  exact ⟨trivial, by unfold Visible; decide +kernel⟩

/-! ### Findings -/

/-- An instance with two inputs. -/
def exTwoP : InstPorts := ⟨"_m", [("p", ⟨4, 0⟩), ("q", ⟨4, 0⟩)], [("r", ⟨4, 0⟩)], []⟩

/-- Declarations with this instance. -/
def exTwoD : Declared where
  vars := []
  ins := []
  groups := []
  insts := [("m", exTwoP)]
  fields := []

/-- `m.p = 1; m.q = 2; m <- (m.q, m.p);` gives the value of `m.q` to both inputs: the second argument is read after the first input is assigned. -/
theorem C64_counterexample_sequential :
    ∃ vs, writeAlgCall exTwoD ⟨fun _ => .flipflop, ["_m_p", "_m_q"]⟩ exPassK exTwoP
        [.ex (.read (.mk (.io "m" "q") .no none .no)), .ex (.read (.mk (.io "m" "p") .no none .no))] = .ok vs ∧
      ∀ (M : Module) (s : NetMem), M.ty (.d "_m_p") = some ⟨4, 0⟩ → M.ty (.d "_m_q") = some ⟨4, 0⟩ →
        ∃ s', s.run M vs = some s' ∧ ∀ j < 4, s' (.d "_m_p") 0 j = s (.d "_m_q") 0 j ∧ s' (.d "_m_q") 0 j = s (.d "_m_q") 0 j := by
  refine ⟨[(.mk (.net (.d "_m_p")) .nil, .ref (.mk (.net (.d "_m_q")) .nil)), (.mk (.net (.d "_m_q")) .nil, .ref (.mk (.net (.d "_m_p")) .nil))], rfl, ?_⟩
  intro M s h1 h2
  refine ⟨_, by simp only [NetMem.run, NetMem.assign, VEx.val, h1, h2, nil_bits]; rfl, ?_⟩
  intro j hj
  have hb : ∀ (f : Nat → Bool) n j, j < n → (bitsVal f n).testBit j = f j := by
    intro f n j hj
    have hlt : ∀ n, bitsVal f n < 2 ^ n := by
      intro n
      induction n with
      | zero => simp [bitsVal]
      | succ n ih => simp only [bitsVal, Nat.pow_succ]; split <;> omega
    induction n with
    | zero => omega
    | succ n ih =>
      simp only [bitsVal]
      rcases Nat.lt_succ_iff_lt_or_eq.mp hj with h | rfl
      · split
        · rw [Nat.add_comm, Nat.testBit_two_pow_add_gt h]
          exact ih h
        · exact ih h
      · split
        · rename_i h
          rw [Nat.add_comm, Nat.testBit_two_pow_add_eq, Nat.testBit_lt_two_pow (hlt _)]
          simp [h]
        · rename_i h
          rw [Nat.add_zero, Nat.testBit_lt_two_pow (hlt _)]
          simpa using h
  simp [NetMem.set, hj, hb]

/-- An always block assigns `i`, and a join receives in `t[i]`: the index is the value that `i` had before the cycle, where an assignment would use the new value. -/
theorem C64_counterexample_index :
    writeAlgJoin exSelD exSelHeld exPassK exPassP [.acc exPassT] =
      .ok [(.mk (.net (.d "t")) (.index (.ref (.mk (.net (.q "i")) .nil)) .nil), .ref (.mk (.net (.o "_m_r")) .nil))] ∧
    writeAsg exSelD ⟨exSelHeld, ["i"]⟩ exPassT (.read (.mk (.io "m" "r") .no none .no)) =
      .ok (.mk (.net (.d "t")) (.index (.ref (.mk (.net (.d "i")) .nil)) .nil), .ref (.mk (.net (.o "_m_r")) .nil)) :=
  ⟨rfl, rfl⟩

/-- A join may receive in an input of the algorithm, which cannot be assigned otherwise: an input of the Verilog module is then assigned. -/
theorem C64_counterexample_input :
    writeAlgJoin exSelD exSelHeld exPassK exPassP [.name "a"] = .ok [(.mk (.net (.i "a")) .nil, .ref (.mk (.net (.o "_m_r")) .nil))] ∧
    writeAsg exSelD ⟨exSelHeld, []⟩ (.mk (.id "a") .no none .no) (.read (.mk (.io "m" "r") .no none .no)) = .error .writesInput :=
  ⟨rfl, rfl⟩

/-- A join may receive in a name given to an expression, which cannot be assigned otherwise. -/
theorem C64_counterexample_wire :
    (∃ l, writeAlgJoin exSelD (fun x => if x = "w" then .expr else .flipflop) exPassK exPassP [.name "w"] = .ok l) ∧
    ∃ e, writeAsg exSelD ⟨fun x => if x = "w" then .expr else .flipflop, []⟩ (.mk (.id "w") .no none .no) (.read (.mk (.io "m" "r") .no none .no)) = .error e :=
  ⟨⟨_, rfl⟩, ⟨_, rfl⟩⟩

/-- A variable bound to the output of another instance is refused as receiver, but not a part of it, and not by the call of a subroutine: the wire of the output is then assigned. -/
theorem C64_counterexample_bound :
    writeAlgJoin exSelD (fun x => if x = "w" then .bound "_k_o" else .flipflop) exPassK exPassP [.name "w"] = .error .boundReceiver ∧
    writeAlgJoin exSelD (fun x => if x = "w" then .bound "_k_o" else .flipflop) exPassK exPassP [.acc (.mk (.id "w") .no none (.at (.num 0) 4))] =
      .ok [(.mk (.net (.o "_k_o")) (.range (.ex (.num 0)) 4 .nil), .ref (.mk (.net (.o "_m_r")) .nil))] ∧
    writeSubJoin exSelD (fun x => if x = "w" then .bound "_k_o" else .flipflop) ["i"] [.name "w"] =
      .ok [(.mk (.net (.o "_k_o")) .nil, .ref (.mk (.net (.q "i")) .nil))] :=
  ⟨rfl, rfl, rfl⟩

end Silice
