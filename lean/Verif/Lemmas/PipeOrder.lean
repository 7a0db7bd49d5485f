import Verif.Spec.PipeOrder
import Mathlib.Data.List.Perm.Subperm

set_option autoImplicit false

namespace Silice

theorem mustPrecede_iff (stages : List StageAcc) (s o : Nat) :
    mustPrecede stages s o = true ↔ Feeds stages s o := by
  unfold mustPrecede Feeds readsAny
  cases h1 : stages[s]? with
  | none => simp
  | some ss =>
    cases h2 : stages[o]? with
    | none => simp
    | some so =>
      simp only [Bool.or_eq_true, Bool.and_eq_true, decide_eq_true_eq, List.any_eq_true]
      constructor
      · rintro (⟨h, w, hw, hr⟩ | ⟨h, w, hw, hr⟩)
        · exact ⟨ss, so, w, rfl, rfl, hr, Or.inl ⟨h, hw⟩⟩
        · exact ⟨ss, so, w, rfl, rfl, hr, Or.inr ⟨h, hw⟩⟩
      · rintro ⟨ss', so', w, e1, e2, hr, h⟩
        cases e1; cases e2
        rcases h with ⟨h, hw⟩ | ⟨h, hw⟩
        · exact Or.inl ⟨h, w, hw, hr⟩
        · exact Or.inr ⟨h, w, hw, hr⟩

theorem Feeds.lt {stages : List StageAcc} {s o : Nat} (h : Feeds stages s o) :
    s < stages.length ∧ o < stages.length := by
  obtain ⟨ss, so, w, h1, h2, _⟩ := h
  exact ⟨(List.getElem?_eq_some_iff.mp h1).1, (List.getElem?_eq_some_iff.mp h2).1⟩

theorem Feeds.ne {stages : List StageAcc} {s o : Nat} (h : Feeds stages s o) : s ≠ o := by
  obtain ⟨ss, so, w, h1, h2, _, h | h⟩ := h <;> omega

theorem isFree_iff (stages : List StageAcc) (waiting : List Nat) (s : Nat) :
    isFree stages waiting s = true ↔ ∀ c, Feeds stages c s → c ∉ waiting := by
  unfold isFree cstrsOf
  simp only [List.all_eq_true, List.mem_filter, List.mem_range, decide_eq_true_eq]
  constructor
  · intro h c hc
    exact h c ⟨hc.lt.1, (mustPrecede_iff ..).mpr hc⟩
  · intro h c hc
    exact h c ((mustPrecede_iff ..).mp hc.2)

/-- What the selection loop guarantees when it succeeds. -/
theorem orderLoop_some (stages : List StageAcc) : ∀ (fuel : Nat) (waiting l : List Nat),
    orderLoop stages fuel waiting = some l → waiting.Pairwise (· < ·) →
    l.Perm waiting ∧ l.Pairwise (fun a b => ¬ Feeds stages b a) ∧
    (∀ (i s : Nat) (rest : List Nat), l.drop i = s :: rest → ∀ o ∈ rest, o < s →
      ∃ c ∈ s :: rest, Feeds stages c o) := by
  intro fuel
  induction fuel with
  | zero =>
    intro waiting l h _
    cases waiting with
    | nil => simp [orderLoop] at h; subst h; simp
    | cons w ws => simp [orderLoop] at h
  | succ fuel ih =>
    intro waiting l h hs
    cases waiting with
    | nil => simp [orderLoop] at h; subst h; simp
    | cons w ws =>
      simp only [orderLoop] at h
      cases hf : (w :: ws).find? (isFree stages (w :: ws)) with
      | none => rw [hf] at h; cases h
      | some s =>
        rw [hf] at h
        simp only [Option.map_eq_some_iff] at h
        obtain ⟨l', hl', rfl⟩ := h
        obtain ⟨hfree, as, bs, hsplit, has⟩ := List.find?_eq_some_iff_append.mp hf
        have hmem : s ∈ w :: ws := by rw [hsplit]; simp
        obtain ⟨hp, hpw, hnat⟩ := ih _ _ hl' (hs.erase s)
        have hperm : (s :: l').Perm (w :: ws) :=
          (hp.cons s).trans (List.perm_cons_erase hmem).symm
        refine ⟨hperm, ?_, ?_⟩
        · refine List.pairwise_cons.mpr ⟨?_, hpw⟩
          intro b hb hfb
          exact (isFree_iff ..).mp hfree b hfb (hperm.mem_iff.mp (List.mem_cons_of_mem _ hb))
        · intro i s' rest hd o ho hlt
          cases i with
          | succ i => exact hnat i s' rest (by simpa using hd) o ho hlt
          | zero =>
            simp only [List.drop_zero, List.cons.injEq] at hd
            obtain ⟨rfl, rfl⟩ := hd
            have how : o ∈ w :: ws := hperm.mem_iff.mp (List.mem_cons_of_mem _ ho)
            have hoas : o ∈ as := by
              rw [hsplit] at how hs
              rcases List.mem_append.mp how with h | h
              · exact h
              · exfalso
                rcases List.mem_cons.mp h with h | h
                · omega
                · have := (List.pairwise_cons.mp (List.pairwise_append.mp hs).2.1).1 o h
                  omega
            have hnf := has o hoas
            have : ¬ isFree stages (w :: ws) o = true := by simpa using hnf
            rw [isFree_iff] at this
            push Not at this
            obtain ⟨c, hc, hcw⟩ := this
            exact ⟨c, hperm.mem_iff.mpr hcw, hc⟩

/-- What failure of the selection loop means: a set of stages none of which can come first. -/
theorem orderLoop_none (stages : List StageAcc) : ∀ (fuel : Nat) (waiting : List Nat),
    orderLoop stages fuel waiting = none → waiting.length ≤ fuel →
    ∃ W : List Nat, W ≠ [] ∧ ∀ o ∈ W, ∃ c ∈ W, Feeds stages c o := by
  intro fuel
  induction fuel with
  | zero =>
    intro waiting h hl
    cases waiting with
    | nil => simp [orderLoop] at h
    | cons w ws => simp at hl
  | succ fuel ih =>
    intro waiting h hl
    cases waiting with
    | nil => simp [orderLoop] at h
    | cons w ws =>
      simp only [orderLoop] at h
      cases hf : (w :: ws).find? (isFree stages (w :: ws)) with
      | none =>
        refine ⟨w :: ws, by simp, ?_⟩
        intro o ho
        have := (List.find?_eq_none.mp hf) o ho
        rw [isFree_iff] at this
        push Not at this
        obtain ⟨c, hc, hcw⟩ := this
        exact ⟨c, hcw, hc⟩
      | some s =>
        rw [hf] at h
        simp only [Option.map_eq_none_iff] at h
        refine ih _ h ?_
        have hmem := List.mem_of_find?_eq_some hf
        rw [List.length_erase_of_mem hmem]
        simp at hl ⊢
        omega

/-- In a finite set where everything has a predecessor there is a cycle. -/
theorem exists_cycle {r : Nat → Nat → Prop} (W : List Nat) (hne : W ≠ [])
    (h : ∀ o ∈ W, ∃ c ∈ W, r c o) : ∃ s, Relation.TransGen r s s := by
  by_contra hno
  push Not at hno
  have : ∀ n, ∀ o ∈ W, ∃ l : List Nat, l.length = n ∧ l.Nodup ∧ l ⊆ W ∧ ∀ x ∈ l, ∃ y ∈ o :: l, r x y ∧
      Relation.TransGen r x o := by
    intro n
    induction n with
    | zero => intro o _; exact ⟨[], by simp⟩
    | succ n ih =>
      intro o ho
      obtain ⟨c, hc, hco⟩ := h o ho
      obtain ⟨l, hl, hnd, hsub, hall⟩ := ih c hc
      refine ⟨c :: l, by simp [hl], ?_, ?_, ?_⟩
      · refine List.nodup_cons.mpr ⟨?_, hnd⟩
        intro hmem
        obtain ⟨_, _, _, ht⟩ := hall c hmem
        exact hno c ht
      · intro x hx
        rcases List.mem_cons.mp hx with rfl | hx
        · exact hc
        · exact hsub hx
      · intro x hx
        rcases List.mem_cons.mp hx with rfl | hx
        · exact ⟨o, by simp, hco, Relation.TransGen.single hco⟩
        · obtain ⟨y, hy, hxy, ht⟩ := hall x hx
          exact ⟨y, List.mem_cons_of_mem _ hy, hxy, ht.tail hco⟩
  obtain ⟨w, hw⟩ := List.exists_mem_of_ne_nil W hne
  obtain ⟨l, hl, hnd, hsub, _⟩ := this (W.length + 1) w hw
  have := (List.Nodup.subperm hnd hsub).length_le
  omega

/-! ## Checks -/

theorem mem_special (s : StageIO) (v : String) : v ∈ s.special ↔ s.Special v := by
  simp [StageIO.special, StageIO.Special]

/-- One stage is compatible with what earlier stages recorded. -/
def Compat (nfo : PipeNfo) (s : StageIO) : Prop :=
  (∀ w ∈ s.written, w ∉ nfo.special) ∧ (∀ w ∈ s.outputs, w ∉ nfo.outputs) ∧
  (∀ w ∈ s.special, w ∉ nfo.special) ∧ (∀ w ∈ s.special, w ∉ s.plain) ∧
  (∀ w ∈ s.special, w ∉ nfo.writtenAt.map Prod.fst)

/-- The record after a stage. -/
def afterStage (nfo : PipeNfo) (id : Nat) (s : StageIO) : PipeNfo :=
  { special := nfo.special ++ s.special
    outputs := nfo.outputs ++ s.outputs
    readAt := nfo.readAt ++ s.read.map fun r => (r, id)
    writtenAt := nfo.writtenAt ++
      (s.written.filter fun w => decide (w ∉ s.special)).map fun w => (w, id) }

theorem find?_none_iff {l : List String} {q : List String} :
    l.find? (fun w => decide (w ∈ q)) = none ↔ ∀ w ∈ l, w ∉ q := by
  rw [List.find?_eq_none]; simp

theorem checkStage_ok (nfo nfo' : PipeNfo) (id : Nat) (s : StageIO) :
    checkStage nfo id s = .ok nfo' ↔ Compat nfo s ∧ nfo' = afterStage nfo id s := by
  unfold checkStage Compat
  split
  · rename_i w h
    have := List.find?_some h
    have hm := List.mem_of_find?_eq_some h
    simp only [reduceCtorEq, false_iff, not_and]
    intro hc; exact absurd (by simpa using this) (hc.1 w hm)
  · rename_i h1
    rw [find?_none_iff] at h1
    split
    · rename_i w h
      have := List.find?_some h
      have hm := List.mem_of_find?_eq_some h
      simp only [reduceCtorEq, false_iff, not_and]
      intro hc; exact absurd (by simpa using this) (hc.2.1 w hm)
    · rename_i h2
      rw [find?_none_iff] at h2
      split
      · rename_i w h
        have := List.find?_some h
        have hm := List.mem_of_find?_eq_some h
        simp only [reduceCtorEq, false_iff, not_and]
        intro hc; exact absurd (by simpa using this) (hc.2.2.1 w hm)
      · rename_i h3
        rw [find?_none_iff] at h3
        split
        · rename_i w h
          have := List.find?_some h
          have hm := List.mem_of_find?_eq_some h
          simp only [reduceCtorEq, false_iff, not_and]
          intro hc; exact absurd (by simpa using this) (hc.2.2.2.1 w hm)
        · rename_i h4
          rw [find?_none_iff] at h4
          split
          · rename_i w h
            have := List.find?_some h
            have hm := List.mem_of_find?_eq_some h
            simp only [reduceCtorEq, false_iff, not_and]
            intro hc; exact absurd (of_decide_eq_true this) (hc.2.2.2.2 w hm)
          · rename_i h5
            rw [find?_none_iff] at h5
            simp only [Except.ok.injEq]
            exact ⟨fun h => ⟨⟨h1, h2, h3, h4, h5⟩, h.symm⟩, fun h => h.2.symm⟩

/-- Two stages, the first one before the second one, are compatible. -/
def PairOk (a b : StageIO) : Prop :=
  (∀ w ∈ b.written, w ∉ a.special) ∧ (∀ w ∈ b.outputs, w ∉ a.outputs) ∧
  (∀ w ∈ b.special, w ∉ a.special) ∧ (∀ w ∈ b.special, w ∈ a.written → w ∈ a.special)

theorem compat_after (nfo : PipeNfo) (id : Nat) (a b : StageIO) :
    Compat (afterStage nfo id a) b ↔ Compat nfo b ∧ PairOk a b := by
  simp only [Compat, afterStage, PairOk, List.mem_append, List.map_append, List.map_map]
  have e : ∀ w, w ∈ List.map (Prod.fst ∘ fun w => (w, id))
      (a.written.filter fun w => decide (w ∉ a.special)) ↔ w ∈ a.written ∧ w ∉ a.special := by
    intro w; simp
  simp only [e]
  constructor
  · rintro ⟨h1, h2, h3, h4, h5⟩
    refine ⟨⟨fun w hw => ?_, fun w hw => ?_, fun w hw => ?_, h4, fun w hw => ?_⟩,
      fun w hw => ?_, fun w hw => ?_, fun w hw => ?_, fun w hw hwa => ?_⟩
    · exact fun h => h1 w hw (Or.inl h)
    · exact fun h => h2 w hw (Or.inl h)
    · exact fun h => h3 w hw (Or.inl h)
    · exact fun h => h5 w hw (Or.inl h)
    · exact fun h => h1 w hw (Or.inr h)
    · exact fun h => h2 w hw (Or.inr h)
    · exact fun h => h3 w hw (Or.inr h)
    · by_contra hn; exact h5 w hw (Or.inr ⟨hwa, hn⟩)
  · rintro ⟨⟨h1, h2, h3, h4, h5⟩, p1, p2, p3, p4⟩
    refine ⟨fun w hw h => ?_, fun w hw h => ?_, fun w hw h => ?_, h4, fun w hw h => ?_⟩
    · rcases h with h | h; exacts [h1 w hw h, p1 w hw h]
    · rcases h with h | h; exacts [h2 w hw h, p2 w hw h]
    · rcases h with h | h; exacts [h3 w hw h, p3 w hw h]
    · rcases h with h | h; exacts [h5 w hw h, h.2 (p4 w hw h.1)]

/-- Record after a list of stages. -/
def afterStages (nfo : PipeNfo) : Nat → List StageIO → PipeNfo
  | _, [] => nfo
  | id, s :: ss => afterStages (afterStage nfo id s) (id + 1) ss

theorem checkStages_ok : ∀ (ss : List StageIO) (nfo nfo' : PipeNfo) (id : Nat),
    checkStages nfo id ss = .ok nfo' ↔
      (∀ s ∈ ss, Compat nfo s) ∧ ss.Pairwise PairOk ∧ nfo' = afterStages nfo id ss := by
  intro ss
  induction ss with
  | nil => intro nfo nfo' id; simp [checkStages, afterStages, eq_comm]
  | cons s ss ih =>
    intro nfo nfo' id
    simp only [checkStages]
    cases hc : checkStage nfo id s with
    | error e =>
      simp only [reduceCtorEq, false_iff, not_and]
      intro h
      have : checkStage nfo id s = .ok (afterStage nfo id s) :=
        (checkStage_ok ..).mpr ⟨h s (by simp), rfl⟩
      rw [hc] at this; cases this
    | ok n1 =>
      obtain ⟨hcomp, rfl⟩ := (checkStage_ok ..).mp hc
      simp only [ih, compat_after, List.pairwise_cons, afterStages]
      constructor
      · rintro ⟨h1, h2, h3⟩
        refine ⟨?_, ⟨fun x hx => (h1 x hx).2, h2⟩, h3⟩
        intro x hx
        rcases List.mem_cons.mp hx with rfl | hx
        · exact hcomp
        · exact (h1 x hx).1
      · rintro ⟨h1, ⟨h2, h3⟩, h4⟩
        exact ⟨fun x hx => ⟨h1 x (List.mem_cons_of_mem _ hx), h2 x hx⟩, h3, h4⟩

/-- Stage numbers recorded so far are in order and below `id`. -/
def Sorted (l : List (String × Nat)) (id : Nat) : Prop :=
  (l.map Prod.snd).Pairwise (· ≤ ·) ∧ ∀ e ∈ l, e.2 < id

theorem Sorted.append {l : List (String × Nat)} {id : Nat} (h : Sorted l id) (vs : List String) :
    Sorted (l ++ vs.map fun v => (v, id)) (id + 1) := by
  refine ⟨?_, ?_⟩
  · rw [List.map_append, List.pairwise_append]
    refine ⟨h.1, ?_, ?_⟩
    · rw [List.map_map]
      exact List.pairwise_map.mpr (List.pairwise_of_forall (fun _ _ => Nat.le_refl _))
    · intro a ha b hb
      obtain ⟨e, he, rfl⟩ := List.mem_map.mp ha
      have := h.2 e he
      simp at hb
      omega
  · intro e he
    rcases List.mem_append.mp he with he | he
    · have := h.2 e he; omega
    · obtain ⟨v, _, rfl⟩ := List.mem_map.mp he
      simp

theorem afterStages_sorted : ∀ (ss : List StageIO) (nfo : PipeNfo) (id : Nat),
    Sorted nfo.readAt id → Sorted nfo.writtenAt id →
    Sorted (afterStages nfo id ss).readAt (id + ss.length) ∧
      Sorted (afterStages nfo id ss).writtenAt (id + ss.length) := by
  intro ss
  induction ss with
  | nil => intro nfo id h1 h2; exact ⟨h1, h2⟩
  | cons s ss ih =>
    intro nfo id h1 h2
    have := ih (afterStage nfo id s) (id + 1) (h1.append _) (h2.append _)
    simpa [afterStages, Nat.add_assoc, Nat.add_comm 1] using this

theorem afterStages_mem : ∀ (ss : List StageIO) (nfo : PipeNfo) (id : Nat) (v : String) (i : Nat),
    ((v, i) ∈ (afterStages nfo id ss).readAt ↔
      (v, i) ∈ nfo.readAt ∨ ∃ k s, ss[k]? = some s ∧ i = id + k ∧ v ∈ s.read) ∧
    ((v, i) ∈ (afterStages nfo id ss).writtenAt ↔
      (v, i) ∈ nfo.writtenAt ∨ ∃ k s, ss[k]? = some s ∧ i = id + k ∧ v ∈ s.written ∧ v ∉ s.special) := by
  intro ss
  induction ss with
  | nil => intro nfo id v i; simp [afterStages]
  | cons s ss ih =>
    intro nfo id v i
    simp only [afterStages, (ih (afterStage nfo id s) (id + 1) v i).1,
      (ih (afterStage nfo id s) (id + 1) v i).2]
    constructor
    · simp only [afterStage, List.mem_append, List.mem_map, Prod.mk.injEq]
      constructor
      · rintro ((h | ⟨r, hr, rfl, rfl⟩) | ⟨k, s', hk, rfl, hv⟩)
        · exact Or.inl h
        · exact Or.inr ⟨0, s, by simp, by simp, hr⟩
        · exact Or.inr ⟨k + 1, s', by simpa using hk, by omega, hv⟩
      · rintro (h | ⟨k, s', hk, rfl, hv⟩)
        · exact Or.inl (Or.inl h)
        · cases k with
          | zero =>
            simp at hk; subst hk
            exact Or.inl (Or.inr ⟨v, hv, rfl, rfl⟩)
          | succ k => exact Or.inr ⟨k, s', by simpa using hk, by omega, hv⟩
    · simp only [afterStage, List.mem_append, List.mem_map, Prod.mk.injEq, List.mem_filter,
        decide_eq_true_eq]
      constructor
      · rintro ((h | ⟨r, hr, rfl, rfl⟩) | ⟨k, s', hk, rfl, hv⟩)
        · exact Or.inl h
        · exact Or.inr ⟨0, s, by simp, by simp, hr⟩
        · exact Or.inr ⟨k + 1, s', by simpa using hk, by omega, hv⟩
      · rintro (h | ⟨k, s', hk, rfl, hv⟩)
        · exact Or.inl (Or.inl h)
        · cases k with
          | zero =>
            simp at hk; subst hk
            exact Or.inl (Or.inr ⟨v, hv, rfl, rfl⟩)
          | succ k => exact Or.inr ⟨k, s', by simpa using hk, by omega, hv⟩

theorem mem_stagesAt (l : List (String × Nat)) (v : String) (i : Nat) :
    i ∈ stagesAt l v ↔ (v, i) ∈ l := by
  unfold stagesAt
  simp only [List.mem_map, List.mem_filter, decide_eq_true_eq, Prod.exists, exists_eq_right]

theorem stagesAt_sorted {l : List (String × Nat)} {id : Nat} (h : Sorted l id) (v : String) :
    (stagesAt l v).Pairwise (· ≤ ·) :=
  List.Pairwise.sublist (List.Sublist.map _ List.filter_sublist) h.1

theorem head?_least {l : List Nat} (h : l.Pairwise (· ≤ ·)) {a : Nat} (ha : l.head? = some a) :
    a ∈ l ∧ ∀ b ∈ l, a ≤ b := by
  cases l with
  | nil => cases ha
  | cons x xs =>
    simp at ha; subst ha
    refine ⟨by simp, ?_⟩
    intro b hb
    rcases List.mem_cons.mp hb with rfl | hb
    · exact Nat.le_refl _
    · exact (List.pairwise_cons.mp h).1 b hb

theorem getLast?_greatest {l : List Nat} (h : l.Pairwise (· ≤ ·)) {a : Nat} (ha : l.getLast? = some a) :
    a ∈ l ∧ ∀ b ∈ l, b ≤ a := by
  obtain ⟨ys, rfl⟩ := List.getLast?_eq_some_iff.mp ha
  refine ⟨by simp, ?_⟩
  intro b hb
  rcases List.mem_append.mp hb with hb | hb
  · exact (List.pairwise_append.mp h).2.2 b hb a (by simp)
  · simp at hb; omega

end Silice
