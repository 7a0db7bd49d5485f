import Verif.Spec.Regs
import Verif.Lemmas.PipeRun
import Verif.Props.PipeRun

/-!
Lemmas about register updates and `done`.
-/

set_option autoImplicit false

namespace Silice
variable {V E : Type}

theorem callable_iff (a : AlgKind) : a.notCallable = false ↔ a.Callable := by
  obtain ⟨x, y⟩ := a
  cases x <;> cases y <;> simp [AlgKind.notCallable, AlgKind.Callable]

/-- When the initial value is written. -/
def Inits (a : AlgKind) (rst run : Bool) : Prop := rst = true ∨ (a.Callable ∧ run = false)

theorem cond_holds (a : AlgKind) (v : FFVar V) (c : InitCond) (rst run : Bool) (h : initCond a v = some c) :
    v.ResetTime ∧ (c.holds rst run = true ↔ Inits a rst run) := by
  unfold initCond at h
  split_ifs at h with h1 h2
  · injection h with h
    subst h
    refine ⟨by simpa [FFVar.ResetTime] using h1, ?_⟩
    have : a.Callable := (callable_iff a).mp (by simpa using h2)
    simp [InitCond.holds, Inits, this]
  · injection h with h
    subst h
    refine ⟨by simpa [FFVar.ResetTime] using h1, ?_⟩
    have : ¬ a.Callable := fun hc => h2 (by simp [(callable_iff a).mpr hc])
    simp [InitCond.holds, Inits, this]

theorem cond_none (a : AlgKind) (v : FFVar V) (h : initCond a v = none) : ¬ v.ResetTime := by
  unfold initCond at h
  split_ifs at h with h1 h2
  simp only [FFVar.ResetTime]
  intro ⟨x, y⟩
  simp [x, y] at h1

theorem ffUpdate_ok (a : AlgKind) (v : FFVar V) (rst run : Bool) (d q : List V)
    (hv : v.ResetTime → v.Initialised) (h : ffUpdate a v rst run d = some q) :
    (v.ResetTime ∧ Inits a rst run → q = v.initial) ∧ (¬ (v.ResetTime ∧ Inits a rst run) → q = d) := by
  unfold ffUpdate at h
  cases hc : initCond a v with
  | none =>
    rw [hc] at h
    injection h with h
    exact ⟨fun hh => absurd hh.1 (cond_none a v hc), fun _ => h.symm⟩
  | some c =>
    rw [hc] at h
    obtain ⟨hr, hcc⟩ := cond_holds a v c rst run hc
    have hi := hv hr
    simp only at h
    by_cases hh : c.holds rst run = true
    · refine ⟨fun _ => ?_, fun hn => absurd ⟨hr, hcc.mp hh⟩ hn⟩
      simp only [hh, if_true] at h
      by_cases hs : v.size = 0
      · rw [if_pos hs] at h
        cases hx : v.init with
        | nil => exact absurd hx (hi.1 hs)
        | cons x xs =>
          rw [hx] at h
          injection h with h
          simp [FFVar.initial, hs, hx, ← h]
      · rw [if_neg hs, if_neg (by have := hi.2; omega)] at h
        injection h with h
        simp [FFVar.initial, hs, ← h]
    · refine ⟨fun hn => absurd (hcc.mpr hn.2) hh, fun _ => ?_⟩
      simp only [hh] at h
      by_cases hs : v.size = 0
      · rw [if_pos hs] at h
        cases hx : v.init with
        | nil => exact absurd hx (hi.1 hs)
        | cons x xs =>
          rw [hx] at h
          injection h with h
          simpa using h.symm
      · rw [if_neg hs, if_neg (by have := hi.2; omega)] at h
        injection h with h
        simpa using h.symm

theorem ffUpdate_some (a : AlgKind) (v : FFVar V) (rst run : Bool) (d : List V)
    (hv : v.ResetTime → v.Initialised) : ∃ q, ffUpdate a v rst run d = some q := by
  unfold ffUpdate
  cases hc : initCond a v with
  | none => exact ⟨d, rfl⟩
  | some c =>
    have hi := hv (cond_holds a v c rst run hc).1
    simp only
    by_cases hs : v.size = 0
    · rw [if_pos hs]
      cases hx : v.init with
      | nil => exact ⟨d, rfl⟩
      | cons x xs => exact ⟨_, rfl⟩
    · rw [if_neg hs, if_neg (by have := hi.2; omega)]
      exact ⟨_, rfl⟩

theorem ffUpdates_ok (a : AlgKind) (rst run : Bool) (vs : List (FFVar V)) :
    ∀ (ds qs : List (List V)), (∀ v ∈ vs, v.ResetTime → v.Initialised) → ffUpdates a rst run vs ds = some qs →
      Loaded (Inits a rst run) vs ds qs := by
  induction vs with
  | nil =>
    intro ds qs _ h
    injection h with h
    subst h
    exact ⟨rfl, fun k v hk => by simp at hk⟩
  | cons v vs ih =>
    intro ds qs hv h
    cases ds with
    | nil => simp [ffUpdates] at h
    | cons d ds =>
      simp only [ffUpdates, Option.bind_eq_bind, Option.bind_eq_some_iff, Option.pure_def, Option.some.injEq] at h
      obtain ⟨q, hq, qs', hqs, h⟩ := h
      subst h
      have h1 := ffUpdate_ok a v rst run d q (hv v (by simp)) hq
      have h2 := ih ds qs' (fun w hw => hv w (by simp [hw])) hqs
      refine ⟨by simp [h2.1], fun k w hk => ?_⟩
      cases k with
      | zero =>
        have hw : v = w := by simpa using hk
        subst hw
        simpa using h1
      | succ k => simpa using h2.2 k w (by simpa using hk)

theorem ffUpdates_some (a : AlgKind) (rst run : Bool) (vs : List (FFVar V)) :
    ∀ (ds : List (List V)), (∀ v ∈ vs, v.ResetTime → v.Initialised) → ds.length = vs.length →
      ∃ qs, ffUpdates a rst run vs ds = some qs := by
  induction vs with
  | nil => exact fun _ _ _ => ⟨[], rfl⟩
  | cons v vs ih =>
    intro ds hv hl
    cases ds with
    | nil => simp at hl
    | cons d ds =>
      obtain ⟨q, hq⟩ := ffUpdate_some a v rst run d (hv v (by simp))
      obtain ⟨qs, hqs⟩ := ih ds (fun w hw => hv w (by simp [hw])) (by simpa using hl)
      exact ⟨q :: qs, by simp [ffUpdates, hq, hqs]⟩

theorem coreStep_some (m : Mod V E) (hm : m.Ok) (i : CoreIn E) (q : Core V) : ∃ q', coreStep m i q = some q' := by
  obtain ⟨qs, h⟩ := ffUpdates_some m.kind i.rst i.run m.decls (m.comb i.ext q).2 hm.vals (hm.len _ _)
  exact ⟨_, by simp [coreStep, h]; rfl⟩

theorem coreRun_append (m : Mod V E) (hs : List (CoreIn E)) (i : CoreIn E) (q0 q' : Core V)
    (h : coreRun m (hs ++ [i]) q0 = some q') :
    ∃ q, coreRun m hs q0 = some q ∧ coreStep m i q = some q' := by
  induction hs generalizing q0 with
  | nil =>
    refine ⟨q0, rfl, ?_⟩
    simpa [coreRun] using h
  | cons x xs ih =>
    simp only [List.cons_append, coreRun, Option.bind_eq_bind, Option.bind_eq_some_iff] at h
    obtain ⟨q1, h1, h2⟩ := h
    obtain ⟨q, h3, h4⟩ := ih q1 h2
    exact ⟨q, by simp [coreRun, h1, h3], h4⟩

theorem coreStep_fields (m : Mod V E) (i : CoreIn E) (q q' : Core V) (h : coreStep m i q = some q') :
    ffUpdates m.kind i.rst i.run m.decls (m.comb i.ext q).2 = some q'.vars ∧
    q'.idx = (if i.rst then 0 else nextIdx m.kind m.entry q.autorun i.run (m.comb i.ext q).1) ∧
    q'.autorun = (if m.kind.autorun then !i.rst else q.autorun) := by
  simp only [coreStep, Option.bind_eq_bind, Option.bind_eq_some_iff, Option.pure_def, Option.some.injEq] at h
  obtain ⟨vs, h1, h⟩ := h
  subst h
  exact ⟨h1, rfl, rfl⟩

theorem coreStep_loaded (m : Mod V E) (hm : m.Ok) (i : CoreIn E) (q q' : Core V) (h : coreStep m i q = some q') :
    Loaded (Inits m.kind i.rst i.run) m.decls (m.comb i.ext q).2 q'.vars :=
  ffUpdates_ok _ _ _ _ _ _ hm.vals (coreStep_fields m i q q' h).1

/-- Registers not being initialised take exactly the computed values. -/
theorem loaded_plain {vs : List (FFVar V)} {ds qs : List (List V)} {P : Prop} (h : Loaded P vs ds qs) (hp : ¬ P)
    (hl : ds.length = vs.length) : qs = ds := by
  apply List.ext_getElem?
  intro k
  by_cases hk : k < vs.length
  · exact (h.2 k vs[k] (by simp [hk])).2 (fun hh => hp hh.2)
  · rw [List.getElem?_eq_none (by rw [h.1]; omega), List.getElem?_eq_none (by omega)]

theorem donePipe_iff (p : Pipe) (q : PipeSt V) (k : Nat) :
    donePipe p q k = true ↔ (∀ s, s < k → q.idx s = 0) ∧ ∀ s, s < k → s + 1 < p.n → q.full s = false := by
  induction k with
  | zero => simp [donePipe]
  | succ k ih =>
    simp only [donePipe, Bool.and_eq_true, decide_eq_true_eq, ih]
    constructor
    · rintro ⟨⟨⟨h1, h2⟩, h3⟩, h4⟩
      refine ⟨fun s hs => ?_, fun s hs hn => ?_⟩
      · by_cases hsk : s = k
        · rw [hsk]; exact h3
        · exact h1 s (by omega)
      · by_cases hsk : s = k
        · subst hsk
          rw [if_pos hn] at h4
          simpa using h4
        · exact h2 s (by omega) hn
    · rintro ⟨h1, h2⟩
      refine ⟨⟨⟨fun s hs => h1 s (by omega), fun s hs => h2 s (by omega)⟩, h1 k (by omega)⟩, ?_⟩
      split_ifs with hn
      · simp [h2 k (by omega) hn]
      · rfl

theorem doneOut_iff (a : AlgKind) (q : Core V) (pipes : List (Pipe × PipeSt V)) :
    doneOut a q pipes = true ↔ q.idx = 0 ∧ (a.autorun = true → q.autorun = true) ∧
      ∀ x ∈ pipes, donePipe x.1 x.2 x.1.n = true := by
  simp only [doneOut, Bool.and_eq_true, decide_eq_true_eq, List.all_eq_true, and_assoc]
  constructor
  · rintro ⟨h1, h2, h3⟩
    refine ⟨h1, fun ha => by simpa [ha] using h2, h3⟩
  · rintro ⟨h1, h2, h3⟩
    refine ⟨h1, ?_, h3⟩
    split_ifs with ha
    · exact h2 ha
    · rfl

/-- Between the start of the first stage and the end of stage `k`, counts only decrease, and they are all equal if
and only if nothing is inside or waiting. -/
theorem drained (p : Pipe) (inp : Nat → PipeIn V) (reg : Nat → V) (hg : GoodStages p inp)
    (hk : KeepsEnabled p inp reg) (hd : ∀ t, (inp t).disable = false) (t k : Nat) (hn : k < p.n) :
    finishes p inp reg k t ≤ starts p inp reg 0 t ∧
    (finishes p inp reg k t = starts p inp reg 0 t ↔
      (∀ s, s ≤ k → (pipeRun p inp reg t).idx s = 0) ∧ ∀ s, s < k → (pipeRun p inp reg t).full s = false) := by
  induction k with
  | zero =>
    have h := C26_one_item_at_a_time p inp reg hg 0 t hn (fun _ => hd)
    by_cases hi : (pipeRun p inp reg t).idx 0 = 0
    · simp only [hi, if_true] at h
      refine ⟨by omega, ?_⟩
      simp [hi, h]
    · simp only [hi, if_false] at h
      refine ⟨by omega, ?_⟩
      simp [hi]
      omega
  | succ k ih =>
    obtain ⟨ih1, ih2⟩ := ih (by omega)
    have h := C26_one_item_at_a_time p inp reg hg (k + 1) t hn (fun _ => hd)
    have h' := C26_started_once_each_partial p inp reg hg hk k t hn
    constructor
    · split_ifs at h h' <;> omega
    · constructor
      · intro he
        have he' : finishes p inp reg k t = starts p inp reg 0 t := by
          split_ifs at h h' <;> omega
        obtain ⟨h1, h2⟩ := ih2.mp he'
        have hi : (pipeRun p inp reg t).idx (k + 1) = 0 := by
          by_contra hc
          simp only [hc, if_false] at h
          split_ifs at h' <;> omega
        refine ⟨fun s hs => ?_, fun s hs => ?_⟩
        · by_cases hsk : s = k + 1
          · rw [hsk]; exact hi
          · exact h1 s (by omega)
        · by_cases hsk : s = k
          · subst hsk
            by_contra hc
            have hc' : (pipeRun p inp reg t).full s = true := by simpa using hc
            rw [if_pos ⟨hc', h1 s (le_refl _)⟩] at h'
            rw [if_pos hi] at h
            omega
          · exact h2 s (by omega)
      · rintro ⟨h1, h2⟩
        have he := ih2.mpr ⟨fun s hs => h1 s (by omega), fun s hs => h2 s (by omega)⟩
        rw [if_pos (h1 (k + 1) (le_refl _))] at h
        rw [if_neg (by simp [h2 k (by omega)])] at h'
        omega

end Silice
