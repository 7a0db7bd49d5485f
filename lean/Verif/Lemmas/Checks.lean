import Verif.Spec.Checks
import Verif.Lemmas.Regs
import Mathlib.Data.List.Forall2

set_option autoImplicit false

namespace Silice
variable {X V E : Type}

theorem noFsm_gather (g : ChkGather X) : g.noFsm (fun _ => none) = (!g.frontInstr && !g.frontEnd) := by
  unfold ChkGather.noFsm
  cases g.frontInstr <;> cases g.frontEnd <;> simp

theorem noFsm_front (g : ChkGather X) (h : (g.frontInstr || g.frontEnd) = true) (sid : Nat → Option Nat) :
    g.noFsm sid = false := by
  unfold ChkGather.noFsm
  rcases hi : g.frontInstr with _ | _
  · rcases he : g.frontEnd with _ | _
    · simp [hi, he] at h
    · simp
  · simp

/-- What a fold of steps does. -/
theorem gather_fold (evs : List (ChkEv X)) : ∀ (g : ChkGather X) (n inside : Nat) (started : Bool),
    g.states.length = n + 1 → (g.frontInstr || g.frontEnd) = started → (n ≠ 0 → started = true) →
    (evs.foldl ChkGather.step g).recs = g.recs ++ (srcChecksFrom started n inside evs).map
      (fun c => ⟨c.kind, if c.started then some c.block else none⟩) ∧
    (evs.foldl ChkGather.step g).states = g.states ++ (blocksOf evs).map (fun b => b.1.isNone) ∧
    (((evs.foldl ChkGather.step g).frontInstr || (evs.foldl ChkGather.step g).frontEnd) = true ↔
      started = true ∨ HasBody evs) := by
  induction evs with
  | nil => intro g n inside started _ h _; simp [srcChecksFrom, blocksOf, HasBody, h]
  | cons ev r ih =>
    intro g n inside started hn hs h0
    have hcur : g.cur = n := by simp [ChkGather.cur, hn]
    cases ev with
    | instr =>
      have hb : HasBody (ChkEv.instr :: r : List (ChkEv X)) := ⟨.instr, by simp, by simp⟩
      obtain ⟨h1, h2, h3⟩ := ih (g.step .instr) n inside true
        (by simp only [ChkGather.step]; split <;> simp [hn])
        (by
          simp only [ChkGather.step, hcur]
          split
          · simp
          · rename_i h; rw [← h0 h]; exact hs) (fun _ => rfl)
      have e1 : (g.step .instr).recs = g.recs := by simp only [ChkGather.step]; split <;> rfl
      have e2 : (g.step .instr).states = g.states := by simp only [ChkGather.step]; split <;> rfl
      rw [List.foldl_cons]
      refine ⟨?_, ?_, ?_⟩
      · rw [h1, e1]; rfl
      · rw [h2, e2]; simp [blocksOf]
      · rw [h3]; simp [hb]
    | block i l =>
      have hb : HasBody (ChkEv.block i l :: r : List (ChkEv X)) := ⟨.block i l, by simp, by simp⟩
      have key : ∀ inside', (r.foldl ChkGather.step (g.step (.block i l))).recs = g.recs ++ (srcChecksFrom true (n + 1) inside' r).map
          (fun c => ⟨c.kind, if c.started then some c.block else none⟩) ∧
        (r.foldl ChkGather.step (g.step (.block i l))).states = g.states ++ [i.isNone] ++ (blocksOf r).map (fun b => b.1.isNone) ∧
        ((r.foldl ChkGather.step (g.step (.block i l))).frontInstr || (r.foldl ChkGather.step (g.step (.block i l))).frontEnd) = true := by
        intro inside'
        obtain ⟨h1, h2, h3⟩ := ih (g.step (.block i l)) (n + 1) inside' true
          (by simp [ChkGather.step, hn])
          (by
            simp only [ChkGather.step, hcur]
            split
            · simp
            · rename_i h; rw [← h0 h]; exact hs) (fun _ => rfl)
        exact ⟨by rw [h1]; rfl, by rw [h2]; rfl, h3.2 (Or.inl rfl)⟩
      rw [List.foldl_cons]
      cases i with
      | none =>
        obtain ⟨h1, h2, h3⟩ := key (n + 1)
        exact ⟨h1, by rw [h2]; simp [blocksOf], by rw [h3]; simp [hb]⟩
      | some p =>
        obtain ⟨h1, h2, h3⟩ := key p
        exact ⟨h1, by rw [h2]; simp [blocksOf], by rw [h3]; simp [hb]⟩
    | check c =>
      have hb : HasBody (ChkEv.check c :: r) ↔ HasBody r := by
        constructor
        · rintro ⟨e, he, hc⟩
          rcases List.mem_cons.1 he with rfl | he
          · exact absurd rfl (hc c)
          · exact ⟨e, he, hc⟩
        · rintro ⟨e, he, hc⟩; exact ⟨e, List.mem_cons_of_mem _ he, hc⟩
      obtain ⟨h1, h2, h3⟩ := ih (g.step (.check c)) n inside started hn hs h0
      rw [List.foldl_cons]
      refine ⟨?_, ?_, ?_⟩
      · rw [h1]
        simp only [ChkGather.step, srcChecksFrom, noFsm_gather, hcur, List.map_cons, List.append_assoc, List.singleton_append]
        congr 3
        rw [← hs]
        cases g.frontInstr <;> cases g.frontEnd <;> simp
      · rw [h2]; simp [blocksOf, ChkGather.step]
      · rw [h3]; simp [hb]

/-- Labels gathered from the list of blocks. -/
def labelsFrom : Nat → List (Option Nat × Option String) → List (String × Nat)
  | _, [] => []
  | n, (_, none) :: r => labelsFrom (n + 1) r
  | n, (_, some l) :: r => (l, n) :: labelsFrom (n + 1) r

theorem gather_labels (evs : List (ChkEv X)) : ∀ (g : ChkGather X),
    (evs.foldl ChkGather.step g).labels = g.labels ++ labelsFrom g.states.length (blocksOf evs) := by
  induction evs with
  | nil => intro g; simp [blocksOf, labelsFrom]
  | cons ev r ih =>
    intro g
    rw [List.foldl_cons, ih]
    cases ev with
    | instr => simp only [ChkGather.step]; split <;> simp [blocksOf]
    | block i l => cases l <;> simp [ChkGather.step, blocksOf, labelsFrom]
    | check c => simp [ChkGather.step, blocksOf]

theorem mem_labelsFrom (bs : List (Option Nat × Option String)) : ∀ (n : Nat) (l : String) (b : Nat),
    (l, b) ∈ labelsFrom n bs → ∃ b' i, b = n + b' ∧ bs[b']? = some (i, some l) := by
  induction bs with
  | nil => intro n l b h; simp [labelsFrom] at h
  | cons x r ih =>
    intro n l b h
    obtain ⟨i, o⟩ := x
    have hrec : (l, b) ∈ labelsFrom (n + 1) r → ∃ b' i', b = n + b' ∧ ((i, o) :: r)[b']? = some (i', some l) := by
      intro h
      obtain ⟨b', i', h1, h2⟩ := ih (n + 1) l b h
      exact ⟨b' + 1, i', by omega, by simpa using h2⟩
    cases o with
    | none => exact hrec h
    | some l' =>
      simp only [labelsFrom, List.mem_cons, Prod.mk.injEq] at h
      rcases h with ⟨rfl, rfl⟩ | h
      · exact ⟨0, i, rfl, rfl⟩
      · exact hrec h

theorem mem_of_lookup {α β : Type} [BEq α] [LawfulBEq α] (l : List (α × β)) (a : α) (b : β) (h : l.lookup a = some b) :
    (a, b) ∈ l := by
  induction l with
  | nil => simp at h
  | cons x r ih =>
    obtain ⟨x1, x2⟩ := x
    rw [List.lookup_cons] at h
    split at h
    · rename_i he
      have := eq_of_beq he
      subst this
      injection h with h
      subst h
      simp
    · exact List.mem_cons_of_mem _ (ih h)

/-- What the gathering of a unit gives. -/
theorem chkGather_eq (always : List (ChkKind X)) (evs : List (ChkEv X)) :
    (chkGather always evs).recs = (srcChecks always evs).map (fun c => ⟨c.kind, if c.started then some c.block else none⟩) ∧
    (chkGather always evs).states = true :: (blocksOf evs).map (fun b => b.1.isNone) ∧
    (chkGather always evs).labels = labelsFrom 1 (blocksOf evs) ∧
    (HasBody evs → ∀ sid, (chkGather always evs).noFsm sid = false) := by
  unfold chkGather
  obtain ⟨h1, h2, h3⟩ := gather_fold evs ⟨false, false, [true], [], always.map (fun c => ⟨c, if ChkGather.noFsm (X := X) ⟨false, false, [true], [], []⟩ (fun _ => none) then none else some 0⟩)⟩ 0 0 false rfl rfl (by simp)
  refine ⟨?_, ?_, ?_, ?_⟩
  · rw [h1, srcChecks, List.map_append, noFsm_gather]
    simp
  · rw [h2]; rfl
  · rw [gather_labels]; rfl
  · intro hb sid
    exact noFsm_front _ (h3.2 (Or.inr hb)) sid

/-- The target of a check that is written is the state of that name. -/
theorem pastText_target (always : List (ChkKind X)) (evs : List (ChkEv X)) (sid : Nat → Option Nat) (r : Bool) (l : String)
    (n : Nat) (cur : Option Nat) (x : ChkText X) (h : pastText (chkGather always evs) sid r l n cur = some x) :
    ∃ b, Labelled evs l b ∧ x = .past (cur.map (chkStateId sid)) r n (chkStateId sid b) := by
  obtain ⟨_, hst, hlab, _⟩ := chkGather_eq always evs
  unfold pastText at h
  split at h
  · cases h
  · rename_i b hb
    split at h
    · rename_i hs
      injection h with h
      rw [hlab] at hb
      obtain ⟨b', i, h1, h2⟩ := mem_labelsFrom _ _ _ _ (mem_of_lookup _ _ _ hb)
      refine ⟨b, ⟨b', by omega, ?_⟩, h.symm⟩
      rw [hst, h1, Nat.add_comm 1 b', List.getElem?_cons_succ, List.getElem?_map, h2] at hs
      cases i with
      | none => exact h2
      | some i => simp at hs
    · cases h

/-- A check that is not directly in a state is not in a state block. -/
theorem src_not_state (all : List (ChkEv X)) (evs : List (ChkEv X)) : ∀ (pre : List (ChkEv X)) (started : Bool) (n inside : Nat),
    all = pre ++ evs → (blocksOf pre).length = n → (inside ≠ n → ¬ StateBlock all n) →
    ∀ c ∈ srcChecksFrom started n inside evs, c.place ≠ some c.block → ¬ StateBlock all c.block := by
  induction evs with
  | nil => intro pre started n inside _ _ _ c hc; simp [srcChecksFrom] at hc
  | cons ev r ih =>
    intro pre started n inside hall hn hi c hc
    have hall' : all = (pre ++ [ev]) ++ r := by simp [hall]
    cases ev with
    | instr => exact ih (pre ++ [.instr]) true n inside hall' (by simpa [blocksOf] using hn) hi c hc
    | block i l =>
      have hn' : (blocksOf (pre ++ [ChkEv.block i l])).length = n + 1 := by simpa [blocksOf] using hn
      cases i with
      | none => exact ih _ true (n + 1) (n + 1) hall' hn' (by simp) c hc
      | some p =>
        refine ih _ true (n + 1) p hall' hn' (fun _ hs => ?_) c hc
        rcases hs with hs | ⟨b', l', hb, hs⟩
        · omega
        · have hb' : b' = (blocksOf pre).length := by omega
          have : blocksOf all = blocksOf pre ++ (some p, l) :: blocksOf r := by simp [hall, blocksOf]
          rw [this, hb', List.getElem?_append_right (le_refl _)] at hs
          simp at hs
    | check k =>
      simp only [srcChecksFrom, List.mem_cons] at hc
      rcases hc with rfl | hc
      · intro hp
        refine hi ?_
        intro h; subst h; exact hp rfl
      · exact ih (pre ++ [.check k]) started n inside hall' (by simpa [blocksOf] using hn) hi c hc

theorem src_block_state (always : List (ChkKind X)) (evs : List (ChkEv X)) (c : SrcChk X) (hc : c ∈ srcChecks always evs)
    (hs : c.started = true) (hp : c.place ≠ some c.block) : ¬ StateBlock evs c.block := by
  simp only [srcChecks, List.mem_append, List.mem_map] at hc
  rcases hc with ⟨k, _, rfl⟩ | hc
  · cases hs
  · exact src_not_state evs evs [] false 0 0 rfl rfl (by simp) c hc hp

theorem src_place (evs : List (ChkEv X)) : ∀ (started : Bool) (n inside : Nat), ∀ c ∈ srcChecksFrom started n inside evs,
    ∃ b, c.place = some b := by
  induction evs with
  | nil => intro _ _ _ c hc; simp [srcChecksFrom] at hc
  | cons ev r ih =>
    intro started n inside c hc
    rcases ev with _ | ⟨_ | p, l⟩ | k
    · exact ih _ _ _ c hc
    · exact ih _ _ _ c hc
    · exact ih _ _ _ c hc
    · simp only [srcChecksFrom, List.mem_cons] at hc
      rcases hc with rfl | hc
      · exact ⟨_, rfl⟩
      · exact ih _ _ _ c hc

theorem chkLit_nat (k : Nat) (h : k < 2 ^ 31) : chkLit (k : Int) = k := by
  unfold chkLit; omega

theorem chkLit_neg : chkLit (-1) = 2 ^ 32 - 1 := by decide

/-- In a state: the index is the number. -/
theorem cond_iff (f : FsmNfo) (hf : f.oneHot = false) (evs : List (ChkEv X)) (sid : Nat → Option Nat) (hsid : Numbers evs sid)
    (w : ChkWave X V) (st : Nat → Option Nat) (hw : ∀ t, w.idx t < 2 ^ 31) (hst : InStates f sid w.idx st) (b t : Nat) :
    w.idx t = chkLit (chkStateId sid b) ↔ st t = some b := by
  rw [hst]
  unfold chkStateId toFSMState
  cases h : sid b with
  | none =>
    have := hw t
    simp [chkLit_neg]; omega
  | some k =>
    simp only [hf, Option.some.injEq]
    rw [chkLit_nat k (hsid b k h).1]
    simp only [Bool.not_false, if_true, Option.some.injEq, exists_eq_left']
    exact eq_comm

/-- The text of a check on stability. -/
theorem stable_text (f : FsmNfo) (hf : f.oneHot = false) (evs : List (ChkEv X)) (sid : Nat → Option Nat) (hsid : Numbers evs sid)
    (w : ChkWave X V) (st : Nat → Option Nat) (hw : ∀ t, w.idx t < 2 ^ 31) (hst : InStates f sid w.idx st) (r a : Bool) (e : X)
    (c : SrcChk X) (hk : c.kind = .stable a e) (hd : c.Direct sid) :
    (∀ early t, (stableText sid r a e (if c.started then some c.block else none)).holdsAt { w with early := early } t) ↔
      c.Holds evs r w st := by
  obtain ⟨h1, h2, h3⟩ := hd
  rw [h1]
  constructor
  · intro h t ht hr hrun hin
    have := h w.early t
    simp only [stableText, if_true, Option.map_some, ChkText.holdsAt, ChkWave.cond] at this
    rw [hk]
    rcases this with h' | h'
    · exact absurd ⟨(cond_iff f hf evs sid hsid w st hw hst c.block t).2 (hin _ h2), hr, hrun, by omega⟩ h'
    · exact h'
  · intro h early t
    simp only [stableText, if_true, Option.map_some, ChkText.holdsAt, ChkWave.cond]
    by_contra hn
    push Not at hn
    obtain ⟨⟨hi, hr, hrun, ht⟩, hne⟩ := hn
    have := h t (by omega) hr hrun (by
      intro b hb
      rw [h2] at hb
      injection hb with hb
      subst hb
      exact (cond_iff f hf evs sid hsid w st hw hst c.block t).1 hi)
    rw [hk] at this
    exact hne this

/-- The text of a check on the past. -/
theorem past_text (f : FsmNfo) (hf : f.oneHot = false) (always : List (ChkKind X)) (evs : List (ChkEv X)) (sid : Nat → Option Nat)
    (hsid : Numbers evs sid) (hlab : LabelsDistinct evs)
    (w : ChkWave X V) (st : Nat → Option Nat) (hw : ∀ t, w.idx t < 2 ^ 31) (hst : InStates f sid w.idx st) (r : Bool) (l : String)
    (n : Nat) (c : SrcChk X) (hk : c.kind = .past l n) (hd : c.Direct sid) (x : ChkText X)
    (hx : pastText (chkGather always evs) sid r l n (if c.started then some c.block else none) = some x) :
    (∀ early t, x.holdsAt { w with early := early } t) ↔ c.Holds evs r w st := by
  obtain ⟨h1, h2, h3⟩ := hd
  obtain ⟨b, hb, rfl⟩ := pastText_target always evs sid r l n _ x hx
  rw [h1]
  constructor
  · intro h t ht hr hrun hin
    rw [hk]
    have hlt : ∀ early : Nat → Nat → Nat, (if n ≤ t then w.idx (t - n) else early n t) = chkLit (chkStateId sid b) := by
      intro early
      have := h early t
      simp only [if_true, Option.map_some, ChkText.holdsAt, ChkWave.cond, ChkWave.pastIdx] at this
      rcases this with h' | h'
      · exact absurd ⟨(cond_iff f hf evs sid hsid w st hw hst c.block t).2 (hin _ h2), hr, hrun, by omega⟩ h'
      · exact h'
    by_cases hnt : n ≤ t
    · refine ⟨hnt, b, hb, ?_⟩
      have := hlt w.early
      rw [if_pos hnt] at this
      exact (cond_iff f hf evs sid hsid w st hw hst b (t - n)).1 this
    · have := hlt (fun _ _ => chkLit (chkStateId sid b) + 1)
      rw [if_neg hnt] at this
      omega
  · intro h early t
    simp only [if_true, Option.map_some, ChkText.holdsAt, ChkWave.cond, ChkWave.pastIdx]
    by_contra hn
    push Not at hn
    obtain ⟨⟨hi, hr, hrun, ht⟩, hne⟩ := hn
    have := h t (by omega) hr hrun (by
      intro b hb
      rw [h2] at hb
      injection hb with hb
      subst hb
      exact (cond_iff f hf evs sid hsid w st hw hst c.block t).1 hi)
    rw [hk] at this
    obtain ⟨hnt, b', hb', hs⟩ := this
    rw [hlab l b' b hb' hb] at hs
    rw [if_pos hnt] at hne
    exact hne ((cond_iff f hf evs sid hsid w st hw hst b (t - n)).2 hs)

/-- A check that is not directly in a state is never tested. -/
theorem cond_false (evs : List (ChkEv X)) (always : List (ChkKind X)) (sid : Nat → Option Nat) (hsid : Numbers evs sid)
    (w : ChkWave X V) (hw : ∀ t, w.idx t < 2 ^ 31) (r : Bool) (c : SrcChk X) (hc : c ∈ srcChecks always evs)
    (hd : ¬ c.Direct sid) (t : Nat) :
    ¬ w.cond ((if c.started then some c.block else none).map (chkStateId sid)) r t := by
  rintro ⟨h, _⟩
  cases hs : c.started with
  | false => simp [hs] at h
  | true =>
    simp only [hs, if_true, Option.map_some] at h
    have hnone : sid c.block = none := by
      cases hk : sid c.block with
      | none => rfl
      | some k =>
        exfalso
        apply hd
        refine ⟨hs, ?_, by simp [hk]⟩
        by_contra hp
        exact src_block_state always evs c hc hs hp (hsid _ _ hk).2
    simp only [chkStateId, hnone, chkLit_neg] at h
    have := hw t
    omega

/-- A relation between checks and texts, list by list. -/
theorem pastTexts_forall (g : ChkGather X) (sid : Nat → Option Nat) (r : Bool) (P : SrcChk X → ChkText X → Prop)
    (l : List (SrcChk X)) : ∀ (xs : List (ChkText X)),
    (∀ c ∈ l, ∀ tg n x, c.kind = .past tg n → pastText g sid r tg n (if c.started then some c.block else none) = some x → P c x) →
    pastTexts g sid r (l.map (fun c => ⟨c.kind, if c.started then some c.block else none⟩)) = some xs →
    List.Forall₂ P (l.filter (fun c => match c.kind with | .past _ _ => true | .stable _ _ => false)) xs := by
  induction l with
  | nil =>
    intro xs _ h
    simp only [List.map_nil, pastTexts, Option.some.injEq] at h
    subst h
    exact .nil
  | cons c l ih =>
    intro xs hP h
    have hP' : ∀ c ∈ l, ∀ tg n x, c.kind = .past tg n →
        pastText g sid r tg n (if c.started then some c.block else none) = some x → P c x :=
      fun c hc => hP c (List.mem_cons_of_mem _ hc)
    obtain ⟨k, p, b, s⟩ := c
    cases k with
    | past tg n =>
      simp only [List.map_cons, pastTexts, Option.bind_eq_bind, Option.pure_def, Option.bind_eq_some_iff, Option.some.injEq] at h
      obtain ⟨x, hx, ys, hys, rfl⟩ := h
      rw [List.filter_cons_of_pos (by simp)]
      exact .cons (hP _ (by simp) tg n x rfl hx) (ih ys hP' hys)
    | stable a e =>
      simp only [List.map_cons, pastTexts] at h
      rw [List.filter_cons_of_neg (by simp)]
      exact ih xs hP' h

theorem stableTexts_forall (sid : Nat → Option Nat) (r : Bool) (P : SrcChk X → ChkText X → Prop) (l : List (SrcChk X))
    (hP : ∀ c ∈ l, ∀ a e, c.kind = .stable a e → P c (stableText sid r a e (if c.started then some c.block else none))) :
    List.Forall₂ P (l.filter (fun c => match c.kind with | .past _ _ => false | .stable _ _ => true))
      (stableTexts sid r (l.map (fun c => ⟨c.kind, if c.started then some c.block else none⟩))) := by
  induction l with
  | nil => exact .nil
  | cons c l ih =>
    have hP' := fun c hc => hP c (List.mem_cons_of_mem _ hc)
    obtain ⟨k, p, b, s⟩ := c
    cases k with
    | past tg n =>
      rw [List.filter_cons_of_neg (by simp)]
      exact ih hP'
    | stable a e =>
      rw [List.filter_cons_of_pos (by simp)]
      exact .cons (hP _ (by simp) a e rfl) (ih hP')

/-- The texts of a unit, check by check. -/
theorem texts_forall (autorun : Bool) (always : List (ChkKind X)) (evs : List (ChkEv X)) (sid : Nat → Option Nat)
    (hbody : HasBody evs) (xs : List (ChkText X)) (h : chkTexts autorun (chkGather always evs) sid = some xs)
    (P : SrcChk X → ChkText X → Prop)
    (hpast : ∀ c ∈ srcChecks always evs, ∀ tg n x, c.kind = .past tg n →
      pastText (chkGather always evs) sid (!autorun) tg n (if c.started then some c.block else none) = some x → P c x)
    (hstable : ∀ c ∈ srcChecks always evs, ∀ a e, c.kind = .stable a e →
      P c (stableText sid (!autorun) a e (if c.started then some c.block else none))) :
    List.Forall₂ P (srcOrder (srcChecks always evs)) xs := by
  obtain ⟨hrec, _, _, hfsm⟩ := chkGather_eq always evs
  have hrun : (!(AlgKind.mk autorun false).notCallable) = !autorun := by cases autorun <;> rfl
  unfold chkTexts at h
  simp only [hfsm hbody sid, Bool.not_false, if_true, hrun, hrec, Option.bind_eq_bind, Option.pure_def, Option.bind_eq_some_iff,
    Option.some.injEq] at h
  obtain ⟨ys, hys, rfl⟩ := h
  unfold srcOrder
  exact List.rel_append (pastTexts_forall _ _ _ P _ ys hpast hys) (stableTexts_forall _ _ P _ hstable)

/-- After the first cycle. -/
theorem admitted_later (m : Mod V E) (hm : m.Ok) (hc : m.kind.Callable) (is : List (CoreIn E)) : ∀ (t : Nat) (q : Core V),
    t ≠ 0 → (chkAdmitted m t is q = true ↔ ∀ pre i post, is = pre ++ i :: post → i.run = false →
      ∃ q', coreRun m pre q = some q' ∧ q'.idx = 0) := by
  have hn : m.kind.notCallable = false := (callable_iff m.kind).2 hc
  induction is with
  | nil => intro t q _; simp [chkAdmitted]
  | cons i is ih =>
    intro t q ht
    obtain ⟨q1, hq1⟩ := coreStep_some m hm i q
    have hdone : doneOut m.kind q [] = decide (q.idx = 0) := by simp [doneOut, hc.1]
    simp only [chkAdmitted, chkAssumed, hq1, ht, if_false, hm.fsm, hn, Bool.not_false, if_true, decide_false, Bool.false_or,
      Bool.true_and, Bool.and_eq_true, Bool.or_eq_true, hdone, decide_eq_true_eq]
    rw [ih (t + 1) q1 (by omega)]
    constructor
    · rintro ⟨h1, h2⟩ pre j post he hj
      cases pre with
      | nil =>
        simp only [List.nil_append, List.cons.injEq] at he
        rw [he.1, hj] at h1
        exact ⟨q, rfl, by simpa using h1⟩
      | cons k pre =>
        simp only [List.cons_append, List.cons.injEq] at he
        obtain ⟨q', h3, h4⟩ := h2 pre j post he.2 hj
        refine ⟨q', ?_, h4⟩
        rw [← he.1]
        simp [coreRun, hq1, h3]
    · intro h
      constructor
      · cases hr : i.run with
        | true => exact Or.inl rfl
        | false =>
          obtain ⟨q', h1, h2⟩ := h [] i is rfl hr
          simp only [coreRun, Option.some.injEq] at h1
          subst h1
          exact Or.inr h2
      · intro pre j post he hj
        obtain ⟨q', h1, h2⟩ := h (i :: pre) j post (by simp [he]) hj
        refine ⟨q', ?_, h2⟩
        simpa [coreRun, hq1] using h1

end Silice
