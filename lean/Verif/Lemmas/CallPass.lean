import Verif.Lemmas.Select
import Verif.Spec.CallPass
import Mathlib.Data.List.Forall2

set_option autoImplicit false

namespace Silice

theorem run_append {M : Module} : ∀ (l l' : List (VRef × VEx)) (s : NetMem), s.run M (l ++ l') = (s.run M l).bind fun s' => s'.run M l'
  | [], _, _ => rfl
  | (r, e) :: l, l', s => by
    simp only [List.cons_append, NetMem.run]
    cases s.assign M r e with
    | none => rfl
    | some s' => simp only [run_append l l' s']

/-- A whole word is a place. -/
theorem word_place {D : Declared} {σ : SrcMem} {b : SBase} {x : SVar} {bt : Bits} (h : SPlace D σ (.mk b .no none .no) x bt) :
    StandsFor D b x ∧ ∃ t, D.ty x = some t ∧ t.size = 0 ∧ bt = ⟨0, 0, t.width⟩ := by
  cases h with
  | @mk _ _ _ _ _ t _ _ _ h1 h2 h3 h4 h5 =>
    cases h3
    cases h4
    cases h5 with
    | word h =>
      rcases h with ⟨h0, _, rfl⟩ | ⟨h, _⟩
      · exact ⟨h1, t, h2, h0, rfl⟩
      · cases h

theorem nil_bits {M : Module} {s : NetMem} {t : VarTy} (h : t.size = 0) : VSufs.nil.bits M s t = some ⟨0, 0, t.width⟩ := by
  simp only [VSufs.bits, h, if_true]

/-- The reference to a whole variable. -/
theorem rewriteName_ref {D : Declared} (hd : Distinct D) {c : SelCtx} {M : Module} {s : NetMem} {rw : RW} {x : SVar} {t : VarTy} {r : Root} (hs : x.Stored)
    (ht : D.ty x = some t) (h0 : t.size = 0) (hf : D.Free x) (h : rewriteName D c rw (D.name x) = .ok r) :
    RefOf D c M s rw x t ⟨0, 0, t.width⟩ (.mk r .nil) := by
  obtain ⟨r', h1, h2⟩ := rewriteName_stored hd (c := c) (rw := rw) ht hf hs
  rw [h1, Except.ok.injEq] at h
  subst h
  exact ⟨r', .nil, rfl, h2, hf, nil_bits h0, fun _ _ => rfl⟩

theorem member_stands {D : Declared} (hd : Distinct D) {g m : String} (hg : (D.ty (.member g m)).isSome = true) {x : SVar} (h : StandsFor D (.io g m) x) :
    x = .member g m := by
  obtain ⟨t, ht⟩ := Option.isSome_iff_exists.mp hg
  simp only [Declared.ty, Option.bind_eq_some_iff] at ht
  obtain ⟨ms, h1, h2⟩ := ht
  have h3 := insts_groups hd h1
  cases h with
  | member _ => rfl
  | input h => simp [Declared.ty, h3] at h
  | output h => simp [Declared.ty, h3] at h

theorem argEx_val {D : Declared} (hd : Distinct D) {c : SelCtx} {M : Module} {σ : SrcMem} {s : NetMem} {P : SVar → Prop} (hh : HoldsOn D c.held M c.deps σ s P)
    {a : GArg} (hg : a.Grouped D) {e : VEx} {v : Nat} (h : argEx D c a = .ok e) (hm : a.toEx.MacroWhole D c.held) (hW : a.toEx.Within D P) (hv : SVal D σ a.toEx v) :
    e.val M s = some v := by
  cases a with
  | ex e' => exact compEx_val hd hh e' h hm hW hv
  | member g m =>
    simp only [argEx] at h
    split at h
    · cases h
    rename_i r hr
    rw [Except.ok.injEq] at h
    subst h
    simp only [GArg.toEx] at hv hW
    cases hv with
    | @read _ x b hp =>
      obtain ⟨h1, t, h2, h3, rfl⟩ := word_place hp
      have hP : P x := hW.1 x h1
      obtain rfl := member_stands hd hg h1
      exact refOf_val hh hP h2 (rewriteName_ref hd trivial h2 h3 trivial hr)

/-- What is needed of each parameter. -/
structure ParamOk (D : Declared) (c : SelCtx) (σ : SrcMem) (P : SVar → Prop) (x : SVar) (a : GArg) (v : Nat) : Prop where
  stored : x.Stored
  word : D.Word x
  written : Written c.held (D.name x)
  kept : P x → c.held (D.name x) = .flipflop ∧ D.name x ∉ c.deps
  grouped : a.Grouped D
  whole : a.toEx.MacroWhole D c.held
  within : a.toEx.Within D P
  val : SVal D σ a.toEx v

theorem params_run {D : Declared} (hd : Distinct D) {c : SelCtx} {M : Module} {P : SVar → Prop} {σ : SrcMem} :
    ∀ (ps : List (SVar × GArg × Nat)) {deps : List String} {σ' : SrcMem} {s : NetMem} {vs : List (VRef × VEx)},
    HoldsOn D c.held M c.deps σ s P → Holds D c.held M deps σ' s →
    (∀ p ∈ ps, ParamOk D c σ P p.1 p.2.1 p.2.2) →
    writeParams D c (ps.map fun p => D.name p.1) (ps.map fun p => p.2.1) = .ok vs →
    ∃ s', s.run M vs = some s' ∧ Holds D c.held M ((ps.map fun p => D.name p.1).reverse ++ deps) (σ'.putAll D (ps.map fun p => (p.1, p.2.2))) s' ∧
      ∀ n, (∀ y, n ≠ .d y ∧ n ≠ .t y) → s' n = s n
  | [], deps, σ', s, vs, _, hh, _, h => by
    simp only [List.map_nil, writeParams, Except.ok.injEq] at h
    subst h
    exact ⟨s, rfl, by simpa [SrcMem.putAll] using hh, fun _ _ => rfl⟩
  | (x, a, v) :: ps, deps, σ', s, vs, hon, hh, hok, h => by
    simp only [List.map_cons, writeParams] at h
    split at h
    · cases h
    rename_i r hr
    split at h
    · cases h
    rename_i e he
    split at h
    · cases h
    rename_i vs' hvs
    rw [Except.ok.injEq] at h
    subst h
    have h1 := hok _ List.mem_cons_self
    simp only at h1
    obtain ⟨t, ht, h0, hf⟩ := h1.word
    have hval := argEx_val hd hon h1.grouped he h1.whole h1.within h1.val
    have href : RefOf D c M s .wr x t ⟨0, 0, t.width⟩ (.mk r .nil) := rewriteName_ref hd h1.stored ht h0 hf hr
    obtain ⟨s1, e1, hh1, hfr, hP⟩ := store_step hd hh ht (by rintro y rfl; exact h1.stored) h1.written href hval
    obtain ⟨s', e2, hh2, hfr2⟩ := params_run hd ps (hP P c.deps σ h1.kept hon) hh1 (fun p hp => hok p (List.mem_cons_of_mem _ hp)) hvs
    refine ⟨s', by simp only [NetMem.run, e1, e2], ?_, fun n hn => (hfr2 n hn).trans (hfr n hn)⟩
    have : σ'.putAll D (((x, a, v) :: ps).map fun p => (p.1, p.2.2)) = (σ'.set x ⟨0, 0, t.width⟩ v).putAll D (ps.map fun p => (p.1, p.2.2)) := by
      simp only [List.map_cons, SrcMem.putAll, SrcMem.put, ht]
    rw [this]
    simpa using hh2

theorem recv_ref {D : Declared} (hd : Distinct D) {held : String → Held} {M : Module} {σ : SrcMem} {s : NetMem} {P : SVar → Prop} (hh : HoldsOn D held M [] σ s P)
    {chk : Bool} {r : Recv} (hg : r.Grouped D) {l : VRef} (h : recvRef D held chk r = .ok l) {a : SAcc} (ha : r.toAcc = some a) (hm : a.MacroWhole D held)
    (hW : a.IndicesWithin D P) {x : SVar} {b : Bits} (hp : SPlace D σ a x b) (hx : ∀ y, x ≠ .own y) : ∃ t, D.ty x = some t ∧ RefOf D ⟨held, []⟩ M s .wr x t b l := by
  cases r with
  | name y =>
    simp only [Recv.toAcc, Option.some.injEq] at ha
    subst ha
    simp only [recvRef] at h
    split at h
    · cases h
    split at h
    · cases h
    rename_i r hr
    rw [Except.ok.injEq] at h
    subst h
    obtain ⟨h1, t, h2, h3, rfl⟩ := word_place hp
    cases h1 with
    | var _ => exact ⟨t, h2, rewriteName_ref hd trivial h2 h3 trivial hr⟩
    | own _ => exact absurd rfl (hx y)
  | member g m =>
    simp only [Recv.toAcc, Option.some.injEq] at ha
    subst ha
    simp only [recvRef] at h
    split at h
    · cases h
    split at h
    · cases h
    rename_i r hr
    rw [Except.ok.injEq] at h
    subst h
    obtain ⟨h1, t, h2, h3, rfl⟩ := word_place hp
    obtain rfl := member_stands hd hg h1
    exact ⟨t, h2, rewriteName_ref hd trivial h2 h3 trivial hr⟩
  | acc a' =>
    simp only [Recv.toAcc, Option.some.injEq] at ha
    subst ha
    simp only [recvRef] at h
    split at h
    · cases h
    rename_i r hr
    rw [Except.ok.injEq] at h
    subst h
    exact compAcc_ref hd (c := ⟨held, []⟩) hh .wr a' hr hm hW hp
  | other => cases ha

/-- What is needed of each receiver. -/
structure RecvOk (D : Declared) (held : String → Held) (σ : SrcMem) (P : SVar → Prop) (r : Recv) (x : SVar) (b : Bits) : Prop where
  grouped : r.Grouped D
  place : ∃ a, r.toAcc = some a ∧ a.MacroWhole D held ∧ a.IndicesWithin D P ∧ SPlace D σ a x b
  noInput : ∀ y, x ≠ .own y
  written : Written held (D.name x)
  kept : P x → held (D.name x) = .flipflop

theorem results_run {D : Declared} (hd : Distinct D) {held : String → Held} {chk : Bool} {rv : String → Except SelErr VEx} {M : Module} {P : SVar → Prop} {σ : SrcMem} {s0 : NetMem} :
    ∀ (ps : List (String × Recv × (SVar × Bits) × Nat)) {deps : List String} {σ' : SrcMem} {s : NetMem} {vs : List (VRef × VEx)},
    HoldsOn D held M [] σ s P → Holds D held M deps σ' s → (∀ n, (∀ y, n ≠ .d y ∧ n ≠ .t y) → s n = s0 n) →
    (∀ p ∈ ps, RecvOk D held σ P p.2.1 p.2.2.1.1 p.2.2.1.2) →
    (∀ p ∈ ps, ∀ s e, HoldsOn D held M [] σ s P → (∀ n, (∀ y, n ≠ .d y ∧ n ≠ .t y) → s n = s0 n) → rv p.1 = .ok e → e.val M s = some p.2.2.2) →
    writeResults D held chk rv (ps.map fun p => p.1) (ps.map fun p => p.2.1) = .ok vs →
    ∃ s', s.run M vs = some s' ∧ Holds D held M ((ps.map fun p => D.name p.2.2.1.1).reverse ++ deps) (σ'.storeAll (ps.map fun p => p.2.2)) s' ∧
      ∀ n, (∀ y, n ≠ .d y ∧ n ≠ .t y) → s' n = s0 n
  | [], deps, σ', s, vs, _, hh, hs, _, _, h => by
    simp only [List.map_nil, writeResults, Except.ok.injEq] at h
    subst h
    exact ⟨s, rfl, by simpa [SrcMem.storeAll] using hh, hs⟩
  | (o, r, (x, b), v) :: ps, deps, σ', s, vs, hon, hh, hs, hok, hrv, h => by
    simp only [List.map_cons, writeResults] at h
    split at h
    · cases h
    rename_i l hl
    split at h
    · cases h
    rename_i e he
    split at h
    · cases h
    rename_i vs' hvs
    rw [Except.ok.injEq] at h
    subst h
    have h1 := hok _ List.mem_cons_self
    simp only at h1
    obtain ⟨a, ha, hm, hW, hp⟩ := h1.place
    have hval := hrv _ List.mem_cons_self s e hon hs he
    obtain ⟨t, ht, href⟩ := recv_ref hd hon h1.grouped hl ha hm hW hp h1.noInput
    obtain ⟨s1, e1, hh1, hfr, hP⟩ := store_step hd (c := ⟨held, []⟩) hh ht h1.noInput h1.written href hval
    obtain ⟨s', e2, hh2, hfr2⟩ := results_run hd ps (hP P [] σ (fun h => ⟨h1.kept h, by simp⟩) hon) hh1 (fun n hn => (hfr n hn).trans (hs n hn))
      (fun p hp => hok p (List.mem_cons_of_mem _ hp)) (fun p hp => hrv p (List.mem_cons_of_mem _ hp)) hvs
    refine ⟨s', by simp only [NetMem.run, e1, e2], ?_, hfr2⟩
    simpa [SrcMem.storeAll] using hh2

/-- Variables read without knowing what was written: what is held on the `Q` side was not written in the cycle. -/
theorem holds_unwritten {D : Declared} {held : String → Held} {M : Module} {deps : List String} {σ : SrcMem} {s : NetMem} (hh : Holds D held M deps σ s)
    {P : SVar → Prop} (hP : ∀ v, P v → v.Stored → held (D.name v) = .flipflop → D.name v ∉ deps) : HoldsOn D held M [] σ s P := by
  refine ⟨hh.ty, fun v t hp ht hf n hn hq k j => hh.val v t ht hf n ?_ k j, fun v t _ => hh.mac v t⟩
  cases v with
  | own x => exact hn
  | output i m => exact hn
  | var x | member g m | input i m =>
    have h1 := hP _ hp trivial
    unfold currentIn at hn ⊢
    simp only [List.not_mem_nil, if_false] at hn ⊢
    split at hn
    · rename_i e
      rw [if_neg (h1 e)]
      exact hn
    all_goals exact hn

theorem zip3 {α β γ : Type} {xs : List α} {as : List β} {vs : List γ} (h1 : xs.length = as.length) (h2 : as.length = vs.length) :
    (xs.zip (as.zip vs)).map (fun p => p.1) = xs ∧ (xs.zip (as.zip vs)).map (fun p => p.2.1) = as ∧ (xs.zip (as.zip vs)).map (fun p => (p.1, p.2.2)) = xs.zip vs := by
  induction xs generalizing as vs with
  | nil =>
    cases as with
    | nil => simp
    | cons a as => simp at h1
  | cons x xs ih =>
    cases as with
    | nil => simp at h1
    | cons a as =>
      cases vs with
      | nil => simp at h2
      | cons v vs =>
        obtain ⟨e1, e2, e3⟩ := ih (as := as) (vs := vs) (by simpa using h1) (by simpa using h2)
        simp [e1, e2, e3]

theorem zip3_swap {α β γ δ : Type} (f : α → δ) {xs : List α} {as : List β} {vs : List γ} (h1 : xs.length = as.length) (h2 : as.length = vs.length) :
    (xs.zip (as.zip vs)).map (fun p => (p.2.2, f p.1)) = vs.zip (xs.map f) := by
  induction xs generalizing as vs with
  | nil =>
    cases vs with
    | nil => simp
    | cons v vs => rw [← h1] at h2; simp at h2
  | cons x xs ih =>
    cases as with
    | nil => simp at h1
    | cons a as =>
      cases vs with
      | nil => simp at h2
      | cons v vs => simp [ih (as := as) (vs := vs) (by simpa using h1) (by simpa using h2)]

/-- Parameters given to variables. -/
theorem params_pass {D : Declared} (hd : Distinct D) {c : SelCtx} {M : Module} {σ : SrcMem} {s : NetMem} (hh : Holds D c.held M c.deps σ s) (xs : List SVar)
    (hx : ∀ x ∈ xs, x.Stored ∧ D.Word x ∧ Written c.held (D.name x)) (args : List GArg) (vals : List Nat) (hl : xs.length = args.length)
    (hg : List.Forall₂ (Gives D c σ xs) args vals) {vs : List (VRef × VEx)} (h : writeParams D c (xs.map D.name) args = .ok vs) :
    ∃ s', s.run M vs = some s' ∧ Holds D c.held M ((xs.map D.name).reverse ++ c.deps) (σ.putAll D (xs.zip vals)) s' ∧
      ∀ n, (∀ y, n ≠ .d y ∧ n ≠ .t y) → s' n = s n := by
  obtain ⟨hl2, hz⟩ := List.forall₂_iff_zip.mp hg
  obtain ⟨e1, e2, e3⟩ := zip3 hl hl2
  have := params_run hd (c := c) (M := M) (P := ArgMay D c xs) (σ := σ) (xs.zip (args.zip vals)) (deps := c.deps) (σ' := σ) (s := s) (vs := vs) (hh.on _) hh ?_ ?_
  · rw [e3] at this
    rw [show (xs.zip (args.zip vals)).map (fun p => D.name p.1) = xs.map D.name by
      conv_rhs => rw [← e1, List.map_map]
      rfl] at this
    exact this
  · rintro ⟨x, a, v⟩ hp
    obtain ⟨hp1, hp2⟩ := List.of_mem_zip hp
    have hgv := hz hp2
    obtain ⟨h1, h2, h3⟩ := hx x hp1
    exact ⟨h1, h2, h3, fun h => h hp1, hgv.grouped, hgv.whole, hgv.within, hgv.val⟩
  · rw [show (xs.zip (args.zip vals)).map (fun p => D.name p.1) = xs.map D.name by
      conv_rhs => rw [← e1, List.map_map]
      rfl, e2]
    exact h

/-- Results stored in places. -/
theorem results_store {D : Declared} (hd : Distinct D) {held : String → Held} {chk : Bool} {rv : String → Except SelErr VEx} {M : Module} {deps : List String} {σ : SrcMem} {s : NetMem}
    (hh : Holds D held M deps σ s) (os : List (String × Nat)) (rs : List Recv) (places : List (SVar × Bits)) (hl : os.length = rs.length)
    (hr : List.Forall₂ (Receives D held deps σ (places.map Prod.fst)) rs places)
    (hrv : ∀ o ∈ os, ∀ s' e, HoldsOn D held M [] σ s' (RecvMay D held deps (places.map Prod.fst)) → (∀ n, (∀ y, n ≠ .d y ∧ n ≠ .t y) → s' n = s n) →
      rv o.1 = .ok e → e.val M s' = some o.2)
    {vs : List (VRef × VEx)} (h : writeResults D held chk rv (os.map Prod.fst) rs = .ok vs) :
    ∃ s', s.run M vs = some s' ∧ Holds D held M ((places.map fun p => D.name p.1).reverse ++ deps) (σ.storeAll (places.zip (os.map Prod.snd))) s' ∧
      ∀ n, (∀ y, n ≠ .d y ∧ n ≠ .t y) → s' n = s n := by
  obtain ⟨hl2, hz⟩ := List.forall₂_iff_zip.mp hr
  let ps : List (String × Recv × (SVar × Bits) × Nat) := (os.zip (rs.zip places)).map fun p => (p.1.1, p.2.1, p.2.2, p.1.2)
  obtain ⟨e1, e2, e3⟩ := zip3 hl hl2
  have m1 : ps.map (fun p => p.1) = os.map Prod.fst := by
    simp only [ps, List.map_map, Function.comp_def]
    conv_rhs => rw [← e1, List.map_map]
    rfl
  have m2 : ps.map (fun p => p.2.1) = rs := by
    simp only [ps, List.map_map, Function.comp_def]
    exact e2
  have m3 : ps.map (fun p => p.2.2) = places.zip (os.map Prod.snd) := by
    simp only [ps, List.map_map, Function.comp_def]
    exact zip3_swap Prod.snd hl hl2
  have m4 : ps.map (fun p => D.name p.2.2.1.1) = places.map fun p => D.name p.1 := by
    have hlp : (os.map Prod.snd).length = places.length := by rw [List.length_map, hl, hl2]
    have : ps.map (fun p => D.name p.2.2.1.1) = (ps.map fun p => p.2.2).map fun q => D.name q.1.1 :=
      (List.map_map (f := fun p : String × Recv × (SVar × Bits) × Nat => p.2.2) (g := fun q : (SVar × Bits) × Nat => D.name q.1.1) (l := ps)).symm
    rw [this, m3, show (fun q : (SVar × Bits) × Nat => D.name q.1.1) = (fun p : SVar × Bits => D.name p.1) ∘ Prod.fst from rfl, ← List.map_map,
      List.map_fst_zip (by omega)]
  have hon : HoldsOn D held M [] σ s (RecvMay D held deps (places.map Prod.fst)) := holds_unwritten hh fun v hv => hv.1
  have := results_run hd (chk := chk) (rv := rv) (M := M) (σ := σ) (s0 := s) ps hon hh (fun _ _ => rfl) ?_ ?_ (vs := vs) ?_
  · rw [m3, m4] at this
    exact this
  · intro q hq
    obtain ⟨⟨⟨o, v⟩, r, pl⟩, hp, rfl⟩ := List.mem_map.mp hq
    obtain ⟨hp1, hp2⟩ := List.of_mem_zip hp
    have h1 := hz hp2
    have h2 := (List.of_mem_zip hp2).2
    exact ⟨h1.grouped, h1.place, h1.noInput, h1.written, fun hP => hP.2 (List.mem_map.mpr ⟨pl, h2, rfl⟩)⟩
  · intro q hq s' e h1 h2 h3
    obtain ⟨⟨⟨o, v⟩, r, pl⟩, hp, rfl⟩ := List.mem_map.mp hq
    obtain ⟨hp1, hp2⟩ := List.of_mem_zip hp
    exact hrv (o, v) hp1 s' e h1 h2 h3
  · rw [m1, m2]
    exact h

/-! ### What is accepted -/

theorem rewriteName_id {D : Declared} (hd : Distinct D) {c : SelCtx} {rw : RW} {x : String} (hv : Visible D [x]) :
    (∃ r, rewriteName D c rw x = .ok r) ↔ ∃ v, StandsFor D (.id x) v := by
  constructor
  · rintro ⟨r, h⟩
    have : writeBase D c rw (.id x) .nil = .ok (.mk r .nil, D.typeOf x) := by simp only [writeBase, h]
    obtain ⟨v, t, h1, -⟩ := writeBase_sensible (fun y hy => by cases hy; exact hv x (by simp)) this
    exact ⟨v, h1⟩
  · rintro ⟨v, h⟩
    have ht : ∃ t, D.ty v = some t := by
      cases h <;> rename_i h <;> exact Option.isSome_iff_exists.mp h
    obtain ⟨t, ht⟩ := ht
    have hf : D.Free v := by cases h <;> trivial
    obtain ⟨r, hr⟩ := writeBase_accepts hd (c := c) (rw := rw) h ht hf (by cases h <;> simp) .nil
    simp only [writeBase] at hr
    split at hr
    · cases hr
    · rename_i r' hr'
      exact ⟨r', hr'⟩

theorem member_rewrite {D : Declared} (hd : Distinct D) {c : SelCtx} {rw : RW} {g m : String} (hg : (D.ty (.member g m)).isSome = true) :
    ∃ r, rewriteName D c rw (g ++ "_" ++ m) = .ok r := by
  obtain ⟨t, ht⟩ := Option.isSome_iff_exists.mp hg
  obtain ⟨r, h, -⟩ := rewriteName_stored hd (c := c) (rw := rw) ht trivial trivial
  exact ⟨r, h⟩

theorem argEx_iff {D : Declared} (hd : Distinct D) (c : SelCtx) (a : GArg) (hg : a.Grouped D) (hv : Visible D a.toEx.ids) :
    (∃ e, argEx D c a = .ok e) ↔ a.toEx.Sensible D := by
  cases a with
  | ex e => exact compEx_iff hd c e hv
  | member g m =>
    obtain ⟨r, hr⟩ := member_rewrite hd (c := c) (rw := .rd) hg
    obtain ⟨t, ht⟩ := Option.isSome_iff_exists.mp hg
    constructor
    · intro _
      exact ⟨.member g m, t, .member hg, ht, trivial, by simp, trivial, trivial, by simp⟩
    · intro _
      exact ⟨_, by simp only [argEx, hr]; rfl⟩

theorem writeParams_iff {D : Declared} (hd : Distinct D) (c : SelCtx) : ∀ (xs : List String) (args : List GArg), (∀ x ∈ xs, ∃ r, rewriteName D c .wr x = .ok r) →
    xs.length = args.length → (∀ a ∈ args, a.Grouped D ∧ Visible D a.toEx.ids) →
    ((∃ vs, writeParams D c xs args = .ok vs) ↔ ∀ a ∈ args, a.toEx.Sensible D)
  | [], [], _, _, _ => by simp [writeParams]
  | [], _ :: _, _, h, _ => by simp at h
  | _ :: _, [], _, h, _ => by simp at h
  | x :: xs, a :: as, hx, hl, hv => by
    have ih := writeParams_iff hd c xs as (fun y hy => hx y (List.mem_cons_of_mem _ hy)) (by simpa using hl) (fun b hb => hv b (List.mem_cons_of_mem _ hb))
    obtain ⟨r, hr⟩ := hx x List.mem_cons_self
    have ha := argEx_iff hd c a (hv a List.mem_cons_self).1 (hv a List.mem_cons_self).2
    simp only [writeParams, hr, List.forall_mem_cons]
    rw [← ha, ← ih]
    constructor
    · rintro ⟨vs, h⟩
      split at h
      · cases h
      rename_i e he
      split at h
      · cases h
      rename_i vs' hvs
      exact ⟨⟨e, he⟩, ⟨vs', hvs⟩⟩
    · rintro ⟨⟨e, he⟩, ⟨vs, hvs⟩⟩
      exact ⟨_, by simp only [he, hvs]; rfl⟩

theorem isBoundVar_iff {held : String → Held} {x : String} : isBoundVar held x = true ↔ ∃ w, held x = .bound w := by
  unfold isBoundVar
  cases held x <;> simp

theorem recvRef_iff {D : Declared} (hd : Distinct D) (held : String → Held) (chk : Bool) (r : Recv) (hg : r.Grouped D) (hv : Visible D r.ids) :
    (∃ l, recvRef D held chk r = .ok l) ↔ r.Sensible D held chk := by
  have key : ∀ x : String, (chk = true → ∀ w, held x ≠ .bound w) ↔ ¬ (chk && isBoundVar held x) = true := by
    intro x
    rw [Bool.and_eq_true, isBoundVar_iff]
    constructor
    · rintro h ⟨h1, w, hw⟩
      exact h h1 w hw
    · intro h h1 w hw
      exact h ⟨h1, w, hw⟩
  cases r with
  | name x =>
    simp only [recvRef, Recv.Sensible, key x]
    rw [← rewriteName_id hd (c := ⟨held, []⟩) (rw := .wr) hv]
    split
    · rename_i h
      simp [h]
    · rename_i h
      constructor
      · rintro ⟨l, hl⟩
        split at hl
        · cases hl
        · rename_i r hr
          exact ⟨⟨r, hr⟩, h⟩
      · rintro ⟨⟨r, hr⟩, -⟩
        exact ⟨_, by rw [hr]⟩
  | member g m =>
    obtain ⟨r, hr⟩ := member_rewrite hd (c := ⟨held, []⟩) (rw := .wr) hg
    simp only [recvRef, Recv.Sensible, key, hr]
    split
    · rename_i h
      simp [h]
    · rename_i h
      simp [h]
  | acc a =>
    simp only [recvRef, Recv.Sensible]
    rw [← compAcc_iff hd ⟨held, []⟩ .wr a hv]
    constructor
    · rintro ⟨l, hl⟩
      split at hl
      · cases hl
      · rename_i r hr
        exact ⟨r, hr⟩
    · rintro ⟨r, hr⟩
      exact ⟨r, by rw [hr]⟩
  | other => simp [recvRef, Recv.Sensible]

theorem writeResults_iff {D : Declared} (hd : Distinct D) (held : String → Held) (chk : Bool) (rv : String → Except SelErr VEx) : ∀ (os : List String) (rs : List Recv),
    (∀ o ∈ os, ∃ e, rv o = .ok e) → os.length = rs.length → (∀ r ∈ rs, r.Grouped D ∧ Visible D r.ids) →
    ((∃ vs, writeResults D held chk rv os rs = .ok vs) ↔ ∀ r ∈ rs, r.Sensible D held chk)
  | [], [], _, _, _ => by simp [writeResults]
  | [], _ :: _, _, h, _ => by simp at h
  | _ :: _, [], _, h, _ => by simp at h
  | o :: os, r :: rs, ho, hl, hv => by
    have ih := writeResults_iff hd held chk rv os rs (fun y hy => ho y (List.mem_cons_of_mem _ hy)) (by simpa using hl) (fun b hb => hv b (List.mem_cons_of_mem _ hb))
    obtain ⟨e, he⟩ := ho o List.mem_cons_self
    have hr := recvRef_iff hd held chk r (hv r List.mem_cons_self).1 (hv r List.mem_cons_self).2
    simp only [writeResults, he, List.forall_mem_cons]
    rw [← hr, ← ih]
    constructor
    · rintro ⟨vs, h⟩
      split at h
      · cases h
      rename_i l hl
      split at h
      · cases h
      rename_i vs' hvs
      exact ⟨⟨l, hl⟩, ⟨vs', hvs⟩⟩
    · rintro ⟨⟨l, hl⟩, ⟨vs, hvs⟩⟩
      exact ⟨_, by simp only [hl, hvs]; rfl⟩

/-! ### What the inputs hold -/

theorem bitsVal_congr {f g : Nat → Bool} {n : Nat} (h : ∀ j, j < n → f j = g j) : bitsVal f n = bitsVal g n := by
  induction n with
  | zero => rfl
  | succ n ih =>
    simp only [bitsVal]
    rw [ih fun j hj => h j (by omega), h n (by omega)]

theorem bitsVal_testBit (v : Nat) : ∀ n, bitsVal v.testBit n = v % 2 ^ n
  | 0 => by simp [bitsVal, Nat.mod_one]
  | n + 1 => by
    simp only [bitsVal]
    rw [bitsVal_testBit v n, Nat.mod_pow_succ, Nat.testBit_eq_decide_div_mod_eq]
    rcases Nat.mod_two_eq_zero_or_one (v / 2 ^ n) with h | h <;> simp [h]

theorem putAll_frame {D : Declared} {y : SVar} : ∀ (ps : List (SVar × Nat)) (σ : SrcMem), (∀ p ∈ ps, p.1 ≠ y) → σ.putAll D ps y = σ y
  | [], _, _ => rfl
  | (x, v) :: ps, σ, h => by
    rw [SrcMem.putAll, putAll_frame ps _ fun p hp => h p (List.mem_cons_of_mem _ hp)]
    have hx : y ≠ x := fun hh => h _ List.mem_cons_self hh.symm
    unfold SrcMem.put
    cases D.ty x with
    | none => rfl
    | some t =>
      funext k j
      simp [SrcMem.set, hx]

theorem putAll_word {D : Declared} {x : SVar} {v : Nat} {t : VarTy} (ht : D.ty x = some t) : ∀ (ps : List (SVar × Nat)) (σ : SrcMem), (ps.map Prod.fst).Nodup → (x, v) ∈ ps →
    (σ.putAll D ps).word D x = v % 2 ^ t.width
  | [], _, _, h => by cases h
  | (y, u) :: ps, σ, hn, h => by
    rw [List.map_cons, List.nodup_cons] at hn
    rcases List.mem_cons.mp h with h | h
    · cases h
      have hfr : σ.putAll D ((x, v) :: ps) x = (σ.put D x v) x := by
        rw [SrcMem.putAll]
        refine putAll_frame ps _ fun p hp hh => hn.1 (List.mem_map.mpr ⟨p, hp, hh⟩)
      unfold SrcMem.word
      simp only [ht, hfr]
      rw [← bitsVal_testBit]
      refine bitsVal_congr fun j hj => ?_
      simp [SrcMem.put, ht, SrcMem.set, hj]
    · rw [SrcMem.putAll]
      exact putAll_word ht ps _ hn.2 h

end Silice
