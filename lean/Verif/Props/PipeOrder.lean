import Verif.Lemmas.PipeOrder

/-!
C24, C25: order in which the stages of a pipeline are evaluated within a cycle.
C27: conflicting writes are rejected. C23 (first part): which variables are carried along the stages.
-/

set_option autoImplicit false

namespace Silice

/-- Each stage appears exactly once in the order. -/
theorem C24_each_stage_once (stages : List StageAcc) (l : List Nat)
    (h : orderPipelineStages stages = some l) : l.Perm (List.range stages.length) :=
  (orderLoop_some stages _ _ _ h List.pairwise_lt_range).1

/-- A stage that gives a value combinationally to another one is evaluated before it. -/
theorem C24_writer_first (stages : List StageAcc) (l : List Nat) (s o i j : Nat)
    (h : orderPipelineStages stages = some l) (hf : Feeds stages s o)
    (hi : l[i]? = some s) (hj : l[j]? = some o) : i < j := by
  obtain ⟨-, hp, -⟩ := orderLoop_some stages _ _ _ h List.pairwise_lt_range
  obtain ⟨hi', rfl⟩ := List.getElem?_eq_some_iff.mp hi
  obtain ⟨hj', rfl⟩ := List.getElem?_eq_some_iff.mp hj
  rcases Nat.lt_trichotomy i j with hlt | heq | hgt
  · exact hlt
  · subst heq; exact absurd rfl hf.ne
  · exact absurd hf (List.pairwise_iff_getElem.mp hp j i hj' hi' hgt)

/-- A stage overtakes an earlier one only if the earlier one was still waiting for a value: one of the stages
that feed it is not evaluated yet. -/
theorem C24_overtaken_only_when_waiting (stages : List StageAcc) (l : List Nat) (s o i j : Nat)
    (h : orderPipelineStages stages = some l) (hij : i < j) (hi : l[i]? = some s) (hj : l[j]? = some o)
    (hos : o < s) : ∃ c k, Feeds stages c o ∧ l[k]? = some c ∧ i ≤ k ∧ k < j := by
  obtain ⟨hperm, -, hn⟩ := orderLoop_some stages _ _ _ h List.pairwise_lt_range
  obtain ⟨hi', e⟩ := List.getElem?_eq_some_iff.mp hi
  have hd : l.drop i = s :: l.drop (i + 1) := by rw [List.drop_eq_getElem_cons hi', e]
  have ho : o ∈ l.drop (i + 1) := by
    obtain ⟨hj', e'⟩ := List.getElem?_eq_some_iff.mp hj
    refine List.mem_iff_getElem.mpr ⟨j - (i + 1), by simp; omega, ?_⟩
    rw [List.getElem_drop, ← e']
    congr 1; omega
  obtain ⟨c, hc, hf⟩ := hn i s _ hd o ho hos
  rw [← hd] at hc
  obtain ⟨k, hk, rfl⟩ := List.mem_iff_getElem.mp hc
  rw [List.length_drop] at hk
  refine ⟨_, i + k, hf, ?_, by omega, ?_⟩
  · rw [List.getElem_drop, List.getElem?_eq_getElem]
  · refine C24_writer_first stages l _ o _ j h hf ?_ hj
    rw [List.getElem_drop, List.getElem?_eq_getElem]

/-- Without special assignments read elsewhere the stages are evaluated in natural order. -/
theorem C24_natural_order (stages : List StageAcc) (hno : ∀ s o, ¬ Feeds stages s o) :
    orderPipelineStages stages = some (List.range stages.length) := by
  cases h : orderPipelineStages stages with
  | none =>
    obtain ⟨W, hne, hW⟩ := orderLoop_none stages _ _ h (by simp)
    obtain ⟨w, hw⟩ := List.exists_mem_of_ne_nil W hne
    obtain ⟨c, _, hc⟩ := hW w hw
    exact absurd hc (hno c w)
  | some l =>
    have hp := C24_each_stage_once stages l h
    have hs : l.Pairwise (· ≤ ·) := by
      rw [List.pairwise_iff_getElem]
      intro i j hi hj hij
      by_contra hlt
      obtain ⟨c, k, hf, _⟩ := C24_overtaken_only_when_waiting stages l l[i] l[j] i j h hij
        (List.getElem?_eq_getElem hi) (List.getElem?_eq_getElem hj) (by omega)
      exact hno _ _ hf
    have hr : (List.range stages.length).Pairwise (· ≤ ·) :=
      List.pairwise_lt_range.imp (fun h => Nat.le_of_lt h)
    rw [hp.eq_of_pairwise (fun a b _ _ h1 h2 => Nat.le_antisymm h1 h2) hs hr]

/-- Ordering fails exactly when some stage feeds itself through a chain of other stages. -/
theorem C25_fails_iff_cycle (stages : List StageAcc) :
    orderPipelineStages stages = none ↔ ∃ s, Relation.TransGen (Feeds stages) s s := by
  constructor
  · intro h
    obtain ⟨W, hne, hW⟩ := orderLoop_none stages _ _ h (by simp)
    exact exists_cycle W hne hW
  · rintro ⟨s, hs⟩
    cases h : orderPipelineStages stages with
    | none => rfl
    | some l =>
      exfalso
      have hp := C24_each_stage_once stages l h
      have key : ∀ a b, Relation.TransGen (Feeds stages) a b →
          ∀ i j : Nat, l[i]? = some a → l[j]? = some b → i < j := by
        intro a b hab
        induction hab with
        | single hf => intro i j hi hj; exact C24_writer_first stages l _ _ i j h hf hi hj
        | @tail b c _ hf ih =>
          intro i j hi hj
          have hb : b ∈ l := hp.mem_iff.mpr (List.mem_range.mpr hf.lt.1)
          obtain ⟨k, hk⟩ := List.mem_iff_getElem?.mp hb
          exact Nat.lt_trans (ih i k hi hk) (C24_writer_first stages l _ _ k j h hf hk hj)
      have hsm : s ∈ l := by
        obtain ⟨b, hb, _⟩ := Relation.TransGen.head'_iff.mp hs
        exact hp.mem_iff.mpr (List.mem_range.mpr hb.lt.1)
      obtain ⟨i, hi⟩ := List.mem_iff_getElem?.mp hsm
      exact absurd (key s s hs i i hi hi) (Nat.lt_irrefl i)

/-! Three stages: stage 2 gives `a` back to stage 0, stage 0 gives `b` forward to stage 1. -/

example : orderPipelineStages [⟨["a"], [], ["b"]⟩, ⟨["b"], [], []⟩, ⟨[], ["a"], []⟩] = some [2, 0, 1] := by
  decide +kernel

example : Feeds [⟨["a"], [], ["b"]⟩, ⟨["b"], [], []⟩, ⟨[], ["a"], []⟩] 2 0 :=
  ⟨_, _, "a", rfl, rfl, by simp, Or.inl ⟨by omega, by simp⟩⟩

/-- Two stages each waiting for the other. -/
example : orderPipelineStages [⟨["a"], [], ["b"]⟩, ⟨["b"], ["a"], []⟩] = none := by decide +kernel

example : ∀ s o, ¬ Feeds [⟨["a"], [], []⟩, ⟨["a"], [], []⟩] s o := by
  intro s o h
  obtain ⟨ss, so, w, h1, _, _, h⟩ := h
  have : ss = ⟨["a"], [], []⟩ := by
    have := List.mem_of_getElem? h1
    simpa using this
  subst this
  simp at h

/-! ## C27 -/

/-- A pipeline is accepted exactly when no stage uses both kinds of assignment on a variable, and for any two
stages `a` before `b`: they write different outputs, no variable is specially assigned in both, `b` does not
write a variable `a` specially assigns, and `b` does not specially assign a variable `a` writes normally. -/
theorem C27_accepted_iff (ss : List StageIO) :
    (∃ nfo, checkPipeline ss = .ok nfo) ↔
      (∀ s ∈ ss, ∀ v, s.Special v → v ∉ s.plain) ∧
      (∀ (i j : Nat) (a b : StageIO), i < j → ss[i]? = some a → ss[j]? = some b →
        (∀ v, ¬ (v ∈ a.outputs ∧ v ∈ b.outputs)) ∧
        (∀ v, ¬ (a.Special v ∧ b.Special v)) ∧
        (∀ v, ¬ (a.Special v ∧ v ∈ b.written)) ∧
        (∀ v, ¬ (v ∈ a.written ∧ ¬ a.Special v ∧ b.Special v))) := by
  unfold checkPipeline
  simp only [checkStages_ok]
  constructor
  · rintro ⟨nfo, h1, h2, -⟩
    refine ⟨fun s hs v hv => (h1 s hs).2.2.2.1 v ((mem_special ..).mpr hv), ?_⟩
    intro i j a b hij hi hj
    obtain ⟨hi', rfl⟩ := List.getElem?_eq_some_iff.mp hi
    obtain ⟨hj', rfl⟩ := List.getElem?_eq_some_iff.mp hj
    obtain ⟨p1, p2, p3, p4⟩ := List.pairwise_iff_getElem.mp h2 i j hi' hj' hij
    refine ⟨fun v h => p2 v h.2 h.1, fun v h => ?_, fun v h => ?_, fun v h => ?_⟩
    · exact p3 v ((mem_special ..).mpr h.2) ((mem_special ..).mpr h.1)
    · exact p1 v h.2 ((mem_special ..).mpr h.1)
    · exact h.2.1 ((mem_special ..).mp (p4 v ((mem_special ..).mpr h.2.2) h.1))
  · rintro ⟨h1, h2⟩
    refine ⟨_, ?_, ?_, rfl⟩
    · intro s hs
      exact ⟨by simp [PipeNfo.empty], by simp [PipeNfo.empty], by simp [PipeNfo.empty],
        fun w hw => h1 s hs w ((mem_special ..).mp hw), by simp [PipeNfo.empty]⟩
    · rw [List.pairwise_iff_getElem]
      intro i j hi hj hij
      obtain ⟨q1, q2, q3, q4⟩ := h2 i j _ _ hij (List.getElem?_eq_getElem hi) (List.getElem?_eq_getElem hj)
      refine ⟨fun w hw h => q3 w ⟨(mem_special ..).mp h, hw⟩, fun w hw h => q1 w ⟨h, hw⟩,
        fun w hw h => q2 w ⟨(mem_special ..).mp h, (mem_special ..).mp hw⟩, fun w hw h => ?_⟩
      by_contra hn
      exact q4 w ⟨h, fun hs => hn ((mem_special ..).mpr hs), (mem_special ..).mp hw⟩

/-- A pipeline that is accepted: `x` written in stage 0 and read later, `s` given back from stage 2. -/
example : ∃ nfo, checkPipeline
    [⟨["s"], ["x"], [], [], [], [], ["x"]⟩, ⟨["x"], ["x"], ["o"], [], [], [], ["x", "o"]⟩,
     ⟨["x"], ["s"], [], ["s"], [], [], []⟩] = .ok nfo := ⟨_, rfl⟩

example : checkPipeline
    [⟨[], [], ["o"], [], [], [], ["o"]⟩, ⟨[], [], ["o"], [], [], [], ["o"]⟩] = .error (.outputTwice "o") := by
  decide +kernel

/-! ## C23, first part: which variables are carried -/

/-- In an accepted pipeline a variable is carried along the stages `a` to `b` exactly when `a` is the first
stage that writes it with a plain assignment, `b` the last stage that reads it, and `a` is before `b`. -/
theorem C23_carried_iff (ss : List StageIO) (nfo : PipeNfo) (v : String) (a b : Nat)
    (h : checkPipeline ss = .ok nfo) :
    trickleRange nfo v = some (a, b) ↔
      a < b ∧
      (∃ s, ss[a]? = some s ∧ v ∈ s.written ∧ ¬ s.Special v) ∧
      (∀ k s, ss[k]? = some s → v ∈ s.written → ¬ s.Special v → a ≤ k) ∧
      (∃ s, ss[b]? = some s ∧ v ∈ s.read) ∧
      (∀ k s, ss[k]? = some s → v ∈ s.read → k ≤ b) := by
  obtain ⟨-, -, rfl⟩ := (checkStages_ok ..).mp h
  have hsorted := afterStages_sorted ss .empty 0 (by simp [Sorted, PipeNfo.empty])
    (by simp [Sorted, PipeNfo.empty])
  have hr : ∀ i, i ∈ stagesAt (afterStages .empty 0 ss).readAt v ↔ ∃ s, ss[i]? = some s ∧ v ∈ s.read := by
    intro i
    rw [mem_stagesAt, (afterStages_mem ss .empty 0 v i).1]
    constructor
    · rintro (h | ⟨k, s, hk, rfl, hv⟩)
      · simp [PipeNfo.empty] at h
      · exact ⟨s, by simpa using hk, hv⟩
    · rintro ⟨s, hk, hv⟩
      exact Or.inr ⟨i, s, hk, by simp, hv⟩
  have hw : ∀ i, i ∈ stagesAt (afterStages .empty 0 ss).writtenAt v ↔
      ∃ s, ss[i]? = some s ∧ v ∈ s.written ∧ ¬ s.Special v := by
    intro i
    rw [mem_stagesAt, (afterStages_mem ss .empty 0 v i).2]
    constructor
    · rintro (h | ⟨k, s, hk, rfl, hv, hn⟩)
      · simp [PipeNfo.empty] at h
      · exact ⟨s, by simpa using hk, hv, fun h => hn ((mem_special ..).mpr h)⟩
    · rintro ⟨s, hk, hv, hn⟩
      exact Or.inr ⟨i, s, hk, by simp, hv, fun h => hn ((mem_special ..).mp h)⟩
  have hsr := stagesAt_sorted hsorted.1 v
  have hsw := stagesAt_sorted hsorted.2 v
  unfold trickleRange
  constructor
  · intro h
    split at h
    · rename_i minw maxr e1 e2
      split at h
      · simp only [Option.some.injEq, Prod.mk.injEq] at h
        obtain ⟨rfl, rfl⟩ := h
        obtain ⟨m1, m2⟩ := head?_least hsw e1
        obtain ⟨m3, m4⟩ := getLast?_greatest hsr e2
        exact ⟨by assumption, (hw _).mp m1, fun k s hk h1 h2 => m2 k ((hw k).mpr ⟨s, hk, h1, h2⟩),
          (hr _).mp m3, fun k s hk h1 => m4 k ((hr k).mpr ⟨s, hk, h1⟩)⟩
      · cases h
    · cases h
  · rintro ⟨hlt, ha, hamin, hb, hbmax⟩
    have ha' := (hw a).mpr ha
    have hb' := (hr b).mpr hb
    cases e1 : (stagesAt (afterStages .empty 0 ss).writtenAt v).head? with
    | none => rw [List.head?_eq_none_iff.mp e1] at ha'; cases ha'
    | some minw =>
      cases e2 : (stagesAt (afterStages .empty 0 ss).readAt v).getLast? with
      | none => rw [List.getLast?_eq_none_iff.mp e2] at hb'; cases hb'
      | some maxr =>
        obtain ⟨m1, m2⟩ := head?_least hsw e1
        obtain ⟨m3, m4⟩ := getLast?_greatest hsr e2
        obtain ⟨s1, k1, w1, n1⟩ := (hw _).mp m1
        obtain ⟨s2, k2, r2⟩ := (hr _).mp m3
        have := hamin _ s1 k1 w1 n1
        have := m2 _ ha'
        have := hbmax _ s2 k2 r2
        have := m4 _ hb'
        have ea : minw = a := by omega
        have eb : maxr = b := by omega
        subst ea eb
        simp [hlt]

example : (checkPipeline
    [⟨[], ["x"], [], [], [], [], ["x"]⟩, ⟨["x"], ["x"], [], [], [], [], ["x"]⟩,
     ⟨["x"], [], [], [], [], [], []⟩]).toOption.bind (fun n => trickleRange n "x") = some (0, 2) := by
  decide +kernel

end Silice
