import Verif.Spec.Loops
import Verif.Lemmas.Deps

set_option autoImplicit false

namespace Silice

/-! ### What an accepted step gives -/

theorem instrL_ok {fuel : Nat} {Is : List LInst} {wires : List String} {D D' : Deps} {reads writes : List String}
    (e : Deps.instrL fuel Is wires D reads writes = some (.ok D')) :
    Deps.instr fuel D reads writes = some (.ok D') ∧ ∀ w ∈ writes, D'.loops Is wires w = false := by
  unfold Deps.instrL at e
  split at e
  · cases e
  · cases e
  · rename_i E he
    split at e
    · cases e
    · rename_i hf
      simp only [Option.some.injEq, Except.ok.injEq] at e
      subst e
      refine ⟨he, fun w hw => ?_⟩
      have := List.find?_eq_none.mp hf w hw
      simpa using this

theorem mem_reads {I : LInst} (h1 : I.callable = false) (h2 : I.regInput = false) {r : String} : r ∈ I.reads ↔ I.Sees r := by
  simp only [LInst.reads, List.mem_append, List.mem_map, List.mem_filter, beq_iff_eq, LInst.Sees]
  constructor
  · rintro (⟨b, ⟨hb, hd⟩, rfl⟩ | h)
    · exact Or.inl ⟨b, hb, hd, rfl⟩
    · exact Or.inr ⟨h1, h2, h⟩
  · rintro (⟨b, hb, hd, rfl⟩ | ⟨_, _, h⟩)
    · exact Or.inl ⟨b, ⟨hb, hd⟩, rfl⟩
    · exact Or.inr h

theorem checked_iff {d : LDir} : d.checked = true ↔ d = .right true false := by
  cases d <;> simp [LDir.checked]

theorem mem_writes {I : LInst} {o : String} : o ∈ I.writes ↔ I.Gives o := by
  simp only [LInst.writes, List.mem_append, List.mem_map, List.mem_filter, checked_iff, LInst.Gives]
  constructor
  · rintro (⟨b, ⟨hb, hd⟩, rfl⟩ | ⟨⟨x, c, n⟩, ⟨h, hc⟩, rfl⟩)
    · exact Or.inl ⟨b, hb, hd, rfl⟩
    · simp only [Bool.and_eq_true, Bool.not_eq_true'] at hc
      obtain ⟨rfl, rfl⟩ := hc
      exact Or.inr h
  · rintro (⟨b, hb, hd, rfl⟩ | h)
    · exact Or.inl ⟨b, ⟨hb, hd⟩, rfl⟩
    · exact Or.inr ⟨_, ⟨h, by simp⟩, rfl⟩

/-! ### Hops from one output to the next -/

/-- Part of `Through` recorded so far: instances `Is` and tracked expressions `ws` have been considered. -/
def Into (Is : List LInst) (ws : List LWire) (r o : String) : Prop :=
  (∃ I ∈ Is, (I.callable = false ∧ I.regInput = false) ∧ I.Sees r ∧ I.Gives o) ∨
    ∃ w ∈ ws, w.delayed = false ∧ w.name = o ∧ r ∈ w.reads

/-- Edges inside the code. -/
inductive CEdge (u : LUnit) (p : List (List String × List String)) : LNode → LNode → Prop where
  | use {j k : Nat} {r w : String} : Uses p (j, r) (k, w) → CEdge u p (.val j r) (.val k w)
  | read {o w : String} {k : Nat} {i : List String × List String} :
      p[k]? = some i → o ∈ i.1 → w ∈ i.2 → u.Outside o → CEdge u p (.out o) (.val k w)

/-- From an output to the next, through the instructions. -/
def Hop (u : LUnit) (p : List (List String × List String)) (Is : List LInst) (ws : List LWire) (a b : String) : Prop :=
  ∃ r, Into Is ws r b ∧ ((r = a ∧ u.Outside a) ∨
    ∃ k, FinalWrite p k r ∧ Relation.TransGen (CEdge u p) (.out a) (.val k r))

/-- Invariant of the search, after the instructions `p`. -/
structure LInv (u : LUnit) (p : List (List String × List String)) (Is : List LInst) (ws : List LWire) (D : Deps) : Prop where
  dep : DepInv p p.length D
  keys : ∀ r o, Into Is ws r o → o ∈ D.keys
  into : ∀ r o, Into Is ws r o → (D.on o r).here = true
  anc : ∀ k y, LastWrite p p.length k y → ∀ o, Relation.TransGen (CEdge u p) (.out o) (.val k y) → (D.on y o).here = true
  acyc : ∀ o, ¬ Relation.TransGen (Hop u p Is ws) o o

theorem fix_here {D : Deps} (h : D.closePass.on = D.on) {w y x : String} (hw : w ∈ D.keys) (hy : y ∈ D.keys)
    (h1 : (D.on w y).here = true) (h2 : (D.on y x).here = true) : (D.on w x).here = true := by
  obtain ⟨b, hb⟩ := (QD.here_iff _).mp h1
  obtain ⟨b', hb'⟩ := (QD.here_iff _).mp h2
  exact (QD.here_iff _).mpr ⟨b', fix_trans h hw hy hb hb'⟩

theorem le_here {D E : Deps} (h : D.Le E) {w x : String} (h1 : (D.on w x).here = true) : (E.on w x).here = true := by
  obtain ⟨b, hb⟩ := (QD.here_iff _).mp h1
  exact (QD.here_iff _).mpr ⟨b, h _ _ _ hb⟩

theorem final_last {p : List (List String × List String)} {k : Nat} {r : String} (h : FinalWrite p k r) :
    LastWrite p p.length k r := by
  obtain ⟨⟨i, hi, hr⟩, h2⟩ := h
  exact ⟨(List.getElem?_eq_some_iff.mp hi).1, ⟨i, hi, hr⟩, fun m im a _ c => h2 m im a c⟩

/-- What `hops_recorded` needs. -/
structure Recorded (u : LUnit) (p : List (List String × List String)) (Is : List LInst) (ws : List LWire) (D : Deps) : Prop where
  fix : D.closePass.on = D.on
  wkeys : ∀ k y, LastWrite p p.length k y → y ∈ D.keys
  keys : ∀ r o, Into Is ws r o → o ∈ D.keys
  into : ∀ r o, Into Is ws r o → (D.on o r).here = true
  anc : ∀ k y, LastWrite p p.length k y → ∀ o, Relation.TransGen (CEdge u p) (.out o) (.val k y) → (D.on y o).here = true

theorem hop_recorded {u : LUnit} {p : List (List String × List String)} {Is : List LInst} {ws : List LWire} {D : Deps} (h : Recorded u p Is ws D) {a b : String}
    (hh : Hop u p Is ws a b) : b ∈ D.keys ∧ (D.on b a).here = true := by
  obtain ⟨r, hi, (⟨rfl, _⟩ | ⟨k, hf, ht⟩)⟩ := hh
  · exact ⟨h.keys _ _ hi, h.into _ _ hi⟩
  · have hl := final_last hf
    exact ⟨h.keys _ _ hi, fix_here h.fix (h.keys _ _ hi) (h.wkeys _ _ hl) (h.into _ _ hi) (h.anc _ _ hl _ ht)⟩

theorem hops_recorded {u : LUnit} {p : List (List String × List String)} {Is : List LInst} {ws : List LWire} {D : Deps} (h : Recorded u p Is ws D) {a b : String}
    (hh : Relation.TransGen (Hop u p Is ws) a b) : b ∈ D.keys ∧ (D.on b a).here = true := by
  induction hh with
  | single h1 => exact hop_recorded h h1
  | tail _ h1 ih =>
    obtain ⟨h2, h3⟩ := hop_recorded h h1
    exact ⟨h2, fix_here h.fix h2 ih.1 h3 ih.2⟩

theorem transGen_imp {A : Type} {R S : A → A → Prop} (h : ∀ a b, R a b → S a b) {x y : A} (hr : Relation.TransGen R x y) :
    Relation.TransGen S x y := by
  induction hr with
  | single h1 => exact .single (h _ _ h1)
  | tail _ h1 ih => exact ih.tail (h _ _ h1)

/-- A path uses only edges of the first kind, or goes through one of the second. -/
theorem path_split {A : Type} {R S T : A → A → Prop} (hT : ∀ a b, T a b → R a b ∨ S a b) {x y : A} (h : Relation.TransGen T x y) :
    Relation.TransGen R x y ∨ ∃ a b, Relation.ReflTransGen T x a ∧ S a b ∧ Relation.ReflTransGen T b y := by
  induction h with
  | single h1 =>
    rcases hT _ _ h1 with h2 | h2
    · exact Or.inl (.single h2)
    · exact Or.inr ⟨_, _, .refl, h2, .refl⟩
  | tail h0 h1 ih =>
    rcases ih with ih | ⟨a, b, i1, i2, i3⟩
    · rcases hT _ _ h1 with h2 | h2
      · exact Or.inl (ih.tail h2)
      · exact Or.inr ⟨_, _, h0.to_reflTransGen, h2, .refl⟩
    · exact Or.inr ⟨a, b, i1, i2, i3.tail h1⟩

theorem cycle_split {A : Type} {R S T : A → A → Prop} (hT : ∀ a b, T a b → R a b ∨ S a b) {x : A} (h : Relation.TransGen T x x) :
    Relation.TransGen R x x ∨ ∃ a b, S a b ∧ Relation.ReflTransGen T b a := by
  rcases path_split hT h with h1 | ⟨a, b, h1, h2, h3⟩
  · exact Or.inl h1
  · exact Or.inr ⟨a, b, h2, h3.trans h1⟩

/-! ### The checks see the loop -/

/-- In each instance, outputs bound to the same variable have the same flags. -/
def LUnit.SameFlags (u : LUnit) : Prop :=
  ∀ I ∈ u.insts, ∀ b ∈ I.binds, ∀ b' ∈ I.binds, b.dir.isRight = true → b'.dir.isRight = true → b.host = b'.host → b.dir = b'.dir

theorem gives_checked {u : LUnit} (hb : u.badDelayed = none) (hs : u.SameFlags) {I : LInst} (hI : I ∈ u.insts) {a : String}
    (hg : I.Gives a) (hn : ¬ ∃ b ∈ I.binds, b.dir = .left ∧ b.host = a) : combOut u.insts a = true ∨ boundComb u.insts a = true := by
  rcases hg with ⟨b, hbm, hd, rfl⟩ | ho
  · right
    simp only [boundComb, List.any_eq_true]
    refine ⟨I, hI, ?_⟩
    cases hf : I.binds.find? fun b' => b'.host == b.host with
    | none => exact absurd (List.find?_eq_none.mp hf b hbm) (by simp)
    | some b' =>
      have hm := List.mem_of_find?_eq_some hf
      have hh : b'.host = b.host := by simpa using List.find?_some hf
      simp only
      rw [checked_iff]
      cases hd' : b'.dir with
      | left => exact absurd ⟨b', hm, hd', hh⟩ hn
      | leftQ =>
        exfalso
        simp only [LUnit.badDelayed, Option.map_eq_none_iff, List.find?_eq_none] at hb
        apply hb b' (List.mem_flatMap.mpr ⟨I, hI, hm⟩)
        have : (u.insts.any fun I => I.binds.any fun b'' => b''.dir.isRight && b''.host == b'.host) = true := by
          simp only [List.any_eq_true]
          exact ⟨I, hI, b, hbm, by simp [hd, LDir.isRight, hh]⟩
        simp [hd', this]
      | right c n =>
        have := hs I hI b hbm b' hm (by simp [hd, LDir.isRight]) (by simp [hd', LDir.isRight]) hh.symm
        rw [← hd', ← this, hd]
  · left
    simp only [combOut, List.any_eq_true]
    exact ⟨I, hI, (a, true, false), ho, by simp⟩

/-- If a written variable depends on an output or on a tracked expression that depends on it, an error is reported. -/
theorem loops_of {u : LUnit} (hb : u.badDelayed = none) (hs : u.SameFlags) {D : Deps} (hwf : D.Wf) (hfix : D.closePass.on = D.on) {w a r : String}
    (hw : w ∈ D.keys) (ha : a ∈ D.keys) (h1 : (D.on w a).here = true) (h2 : (D.on a w).here = true)
    (hi : Into u.insts u.wires r a) (hn : ∀ I ∈ u.insts, I.callable = false → I.regInput = false → I.Gives a → ¬ I.Sees a)
    (hne : (∃ I ∈ u.insts, I.Gives a) → a ≠ w) :
    D.loops u.insts u.wireNames w = true := by
  have hnm : a ∈ D.names := by
    obtain ⟨b, h1⟩ := (QD.here_iff _).mp h1
    exact (wf_bit hwf h1).2
  have hself := fix_here hfix hw ha h1 h2
  simp only [Deps.loops, Bool.or_eq_true, Bool.and_eq_true, List.any_eq_true, bne_iff_ne, decide_eq_true_eq]
  rcases hi with ⟨I, hI, ⟨hc, hrg⟩, _, hg⟩ | ⟨x, hx, _, rfl, _⟩
  · left
    refine ⟨hself, a, hnm, ⟨hne ⟨I, hI, hg⟩, h1⟩, ?_⟩
    rcases gives_checked hb hs hI hg fun ⟨b, hb1, hb2, hb3⟩ => hn I hI hc hrg hg (Or.inl ⟨b, hb1, hb2, hb3⟩) with h | h
    · exact Or.inl ⟨⟨h, ha⟩, h2⟩
    · exact Or.inr h
  · right
    exact ⟨x.name, hnm, ⟨⟨h1, ha⟩, List.mem_map_of_mem (f := fun w : LWire => w.name) hx⟩, h2⟩

/-! ### Instances -/

theorem depInv_zero (is : List (List String × List String)) {D : Deps} (h : D.Wf) : DepInv is 0 D where
  wf := h
  keys := fun _ _ h => absurd h.1 (by omega)
  deps := fun _ _ h => absurd h.1 (by omega)
  clean := fun _ _ _ h => absurd h (by omega)

theorem empty_inv (u : LUnit) : LInv u [] [] [] Deps.empty := by
  have hno : ∀ r o, ¬ Into [] [] r o := by
    rintro r o (⟨I, hI, _⟩ | ⟨w, hw, _⟩)
    · simp at hI
    · simp at hw
  refine ⟨depInv_zero _ empty_wf, fun r o h => absurd h (hno r o), fun r o h => absurd h (hno r o), ?_, ?_⟩
  · intro k y h
    exact absurd h.1 (Nat.not_lt_zero _)
  · intro o h
    obtain ⟨b, _, r, hi, _⟩ := Relation.TransGen.tail'_iff.mp h
    exact hno _ _ hi

theorem inst_step {u : LUnit} {Is : List LInst} {D D' : Deps} {fuel : Nat} {I : LInst} (h : LInv u [] Is [] D)
    (hc : I.callable = false) (hr : I.regInput = false) (hd : ∀ o, I.Gives o → ∀ J ∈ Is, ¬ J.Gives o)
    (e : Deps.instr fuel D I.reads I.writes = some (.ok D')) (hself : ∀ k ∈ D'.keys, (D'.on k k).here = false) :
    LInv u [] (Is ++ [I]) [] D' := by
  obtain ⟨hwf, hkeys, hle, _, hfix, _⟩ := instr_ok h.dep.wf e
  have hin : ∀ r o, Into (Is ++ [I]) [] r o → (Into Is [] r o ∧ o ∉ I.writes) ∨ (r ∈ I.reads ∧ o ∈ I.writes) := by
    rintro r o (⟨J, hJ, hl, hs, hg⟩ | ⟨w, hw, _⟩)
    · rcases List.mem_append.mp hJ with hJ | hJ
      · exact Or.inl ⟨Or.inl ⟨J, hJ, hl, hs, hg⟩, fun ho => hd o (mem_writes.mp ho) J hJ hg⟩
      · simp only [List.mem_singleton] at hJ
        subst hJ
        exact Or.inr ⟨(mem_reads hc hr).mpr hs, mem_writes.mpr hg⟩
    · simp at hw
  have hrec : Recorded u [] (Is ++ [I]) [] D' := by
    refine ⟨hfix, fun k y hl => absurd hl.1 (Nat.not_lt_zero _), ?_, ?_, fun k y hl => absurd hl.1 (Nat.not_lt_zero _)⟩
    · intro r o hi
      rw [hkeys, mem_addNew]
      rcases hin r o hi with ⟨hi, _⟩ | ⟨_, ho⟩
      · exact Or.inl (h.keys r o hi)
      · exact Or.inr ho
    · intro r o hi
      apply le_here hle
      rcases hin r o hi with ⟨hi, ho⟩ | ⟨hr, ho⟩
      · simpa [Deps.assign, ho] using h.into r o hi
      · simp only [Deps.assign, if_pos ho, if_pos hr, Deps.side]
        split <;> rfl
  refine ⟨depInv_zero _ hwf, hrec.keys, hrec.into, hrec.anc, ?_⟩
  intro o ho
  obtain ⟨h1, h2⟩ := hops_recorded hrec ho
  rw [hself o h1] at h2
  cases h2

theorem inst_skip {u : LUnit} {Is : List LInst} {D : Deps} {I : LInst} (h : LInv u [] Is [] D)
    (hc : ¬ (I.callable = false ∧ I.regInput = false)) : LInv u [] (Is ++ [I]) [] D := by
  have hin : ∀ r o, Into (Is ++ [I]) [] r o → Into Is [] r o := by
    rintro r o (⟨J, hJ, hl, hs, hg⟩ | ⟨w, hw, _⟩)
    · rcases List.mem_append.mp hJ with hJ | hJ
      · exact Or.inl ⟨J, hJ, hl, hs, hg⟩
      · simp only [List.mem_singleton] at hJ
        subst hJ
        exact absurd hl hc
    · simp at hw
  refine ⟨h.dep, fun r o hi => h.keys r o (hin r o hi), fun r o hi => h.into r o (hin r o hi), h.anc, ?_⟩
  intro o ho
  exact h.acyc o (transGen_imp (fun a b ⟨r, hi, hx⟩ => ⟨r, hin r b hi, hx⟩) ho)

theorem insts_inv {u : LUnit} {fuel : Nat} {Is : List LInst} {wires : List String} : ∀ (rest done : List LInst) (D D' : Deps),
    (done ++ rest).Pairwise (fun I J => ∀ o, I.Gives o → ¬ J.Gives o) → LInv u [] done [] D →
    instDeps fuel Is wires D rest = some (.ok D') → LInv u [] (done ++ rest) [] D'
  | [], done, D, D', _, h, e => by
    simp only [instDeps, Option.some.injEq, Except.ok.injEq] at e
    subst e
    simpa using h
  | I :: rest, done, D, D', hp, h, e => by
    rw [List.append_cons] at hp ⊢
    unfold instDeps at e
    split at e
    · rename_i hc
      refine insts_inv rest _ D D' hp (inst_skip h ?_) e
      rintro ⟨h1, h2⟩
      simp [h1, h2] at hc
    · rename_i hc
      simp only [Bool.or_eq_true, not_or, Bool.not_eq_true] at hc
      split at e
      · cases e
      · cases e
      · rename_i E he
        split at e
        · cases e
        · rename_i hf
          refine insts_inv rest _ E D' hp (inst_step h hc.1 hc.2 ?_ (instrL_ok he).1 ?_) e
          · intro o hg J hJ hg'
            have := (List.pairwise_append.mp (List.pairwise_append.mp hp).1).2.2 J hJ I (by simp) o hg'
            exact this hg
          · intro k hk
            simpa using List.find?_eq_none.mp hf k hk

/-! ### Tracked expressions -/

theorem wire_step {u : LUnit} {ws : List LWire} {D D' : Deps} {fuel : Nat} {w : LWire} (h : LInv u [] u.insts ws D)
    (hb : u.badDelayed = none) (hs : u.SameFlags) (hsub : ∀ x ∈ ws, x ∈ u.wires) (hw : w ∈ u.wires)
    (hnew : ∀ x ∈ ws, x.name ≠ w.name) (hg : ∀ I ∈ u.insts, ¬ I.Gives w.name) (hdl : w.delayed = false)
    (e : Deps.instrL fuel u.insts u.wireNames D w.reads [w.name] = some (.ok D')) :
    LInv u [] u.insts (ws ++ [w]) D' := by
  obtain ⟨e, hloop⟩ := instrL_ok e
  obtain ⟨hwf, hkeys, hle, _, hfix, _⟩ := instr_ok h.dep.wf e
  have hin : ∀ r o, Into u.insts (ws ++ [w]) r o → (Into u.insts ws r o ∧ o ≠ w.name) ∨ (r ∈ w.reads ∧ o = w.name) := by
    rintro r o (⟨J, hJ, hl, hs, hgo⟩ | ⟨x, hx, hdx, rfl, hr⟩)
    · refine Or.inl ⟨Or.inl ⟨J, hJ, hl, hs, hgo⟩, ?_⟩
      rintro rfl
      exact hg J hJ hgo
    · rcases List.mem_append.mp hx with hx | hx
      · exact Or.inl ⟨Or.inr ⟨x, hx, hdx, rfl, hr⟩, hnew x hx⟩
      · simp only [List.mem_singleton] at hx
        subst hx
        exact Or.inr ⟨hr, rfl⟩
  have hall : ∀ r o, Into u.insts (ws ++ [w]) r o → Into u.insts u.wires r o := by
    rintro r o (hi | ⟨x, hx, hdx, hn, hr⟩)
    · exact Or.inl hi
    · refine Or.inr ⟨x, ?_, hdx, hn, hr⟩
      rcases List.mem_append.mp hx with hx | hx
      · exact hsub x hx
      · simp only [List.mem_singleton] at hx
        subst hx
        exact hw
  have hrec : Recorded u [] u.insts (ws ++ [w]) D' := by
    refine ⟨hfix, fun k y hl => absurd hl.1 (Nat.not_lt_zero _), ?_, ?_, fun k y hl => absurd hl.1 (Nat.not_lt_zero _)⟩
    · intro r o hi
      rw [hkeys, mem_addNew]
      rcases hin r o hi with ⟨hi, _⟩ | ⟨_, ho⟩
      · exact Or.inl (h.keys r o hi)
      · exact Or.inr (by simp [ho])
    · intro r o hi
      apply le_here hle
      rcases hin r o hi with ⟨hi, ho⟩ | ⟨hr, ho⟩
      · simpa [Deps.assign, ho] using h.into r o hi
      · have ho' : o ∈ [w.name] := by simp [ho]
        simp only [Deps.assign, if_pos ho', if_pos hr, Deps.side]
        split <;> rfl
  refine ⟨depInv_zero _ hwf, hrec.keys, hrec.into, hrec.anc, ?_⟩
  intro o ho
  have hself : ∀ I ∈ u.insts, I.callable = false → I.regInput = false → ∀ a, I.Gives a → ¬ I.Sees a := by
    intro I hI hc hr a hga hsa
    exact h.acyc a (.single ⟨a, Or.inl ⟨I, hI, ⟨hc, hr⟩, hsa, hga⟩, Or.inl ⟨rfl, Or.inl ⟨I, hI, hga⟩⟩⟩)
  have hT : ∀ a b, Hop u [] u.insts (ws ++ [w]) a b → Hop u [] u.insts ws a b ∨ (a ∈ w.reads ∧ b = w.name) := by
    intro a b hab
    obtain ⟨r, hi, hx⟩ := hab
    rcases hx with ⟨rfl, hout⟩ | ⟨k, ⟨⟨i, hk, _⟩, _⟩, _⟩
    · rcases hin _ _ hi with ⟨hi, _⟩ | ⟨hr, rfl⟩
      · exact Or.inl ⟨r, hi, Or.inl ⟨rfl, hout⟩⟩
      · exact Or.inr ⟨hr, rfl⟩
    · simp at hk
  rcases cycle_split hT ho with h1 | ⟨a, b, ⟨ha, rfl⟩, hp⟩
  · exact h.acyc o h1
  · have hwk : w.name ∈ D'.keys := by rw [hkeys, mem_addNew]; simp
    have hwa : (D'.on w.name a).here = true := hrec.into _ _ (Or.inr ⟨w, by simp, hdl, rfl, ha⟩)
    rcases Relation.reflTransGen_iff_eq_or_transGen.mp hp with rfl | ht
    · have := loops_of hb hs hwf hfix hwk hwk hwa hwa (r := w.name) (Or.inr ⟨w, hw, hdl, rfl, ha⟩)
        (fun I hI hc hr hga => hself I hI hc hr _ hga) (fun ⟨I, hI, hga⟩ => absurd hga (hg I hI))
      rw [hloop _ (by simp)] at this
      cases this
    · obtain ⟨hak, haw⟩ := hops_recorded hrec ht
      obtain ⟨c, _, r, hi, _⟩ := Relation.TransGen.tail'_iff.mp ht
      have := loops_of hb hs hwf hfix hwk hak hwa haw (hall _ _ hi)
        (fun I hI hc hr hga => hself I hI hc hr _ hga) (fun ⟨I, hI, hga⟩ hne => hg I hI (hne ▸ hga))
      rw [hloop _ (by simp)] at this
      cases this

theorem wire_skip {u : LUnit} {ws : List LWire} {D : Deps} {w : LWire} (h : LInv u [] u.insts ws D) (hd : w.delayed = true) :
    LInv u [] u.insts (ws ++ [w]) D := by
  have hin : ∀ r o, Into u.insts (ws ++ [w]) r o → Into u.insts ws r o := by
    rintro r o (hi | ⟨x, hx, hdx, hn, hr⟩)
    · exact Or.inl hi
    · rcases List.mem_append.mp hx with hx | hx
      · exact Or.inr ⟨x, hx, hdx, hn, hr⟩
      · simp only [List.mem_singleton] at hx
        subst hx
        rw [hd] at hdx
        cases hdx
  refine ⟨h.dep, fun r o hi => h.keys r o (hin r o hi), fun r o hi => h.into r o (hin r o hi), h.anc, ?_⟩
  intro o ho
  exact h.acyc o (transGen_imp (fun a b ⟨r, hi, hx⟩ => ⟨r, hin r b hi, hx⟩) ho)

theorem wires_inv {u : LUnit} {fuel : Nat} (hb : u.badDelayed = none) (hs : u.SameFlags) (hone : u.OneOrigin) :
    ∀ (rest done : List LWire) (D D' : Deps), u.wires = done ++ rest → LInv u [] u.insts done D →
      wireDeps fuel u.insts u.wireNames D rest = some (.ok D') → LInv u [] u.insts u.wires D'
  | [], done, D, D', hu, h, e => by
    simp only [wireDeps, Option.some.injEq, Except.ok.injEq] at e
    subst e
    rw [hu]
    simpa using h
  | w :: rest, done, D, D', hu, h, e => by
    have hu' := hu
    rw [List.append_cons] at hu'
    unfold wireDeps at e
    split at e
    · cases e
    · cases e
    · rename_i E he
      have hw : w ∈ u.wires := by rw [hu]; simp
      cases hd : w.delayed with
      | true =>
        rw [hd, if_pos rfl] at e
        exact wires_inv hb hs hone rest _ D D' hu' (wire_skip h hd) e
      | false =>
        rw [hd, if_neg (by simp)] at e
        refine wires_inv hb hs hone rest _ E D' hu' (wire_step h hb hs (fun x hx => by rw [hu]; simp [hx]) hw ?_ (hone.both w hw) hd he) e
        intro x hx heq
        have hnd := hone.wires
        rw [hu, List.map_append, List.map_cons] at hnd
        have := (List.nodup_append.mp hnd).2.2 x.name (List.mem_map_of_mem (f := fun w : LWire => w.name) hx) w.name (by simp)
        exact this heq

/-! ### Instructions -/

section
variable {u : LUnit}

theorem no_cedge_out {p : List (List String × List String)} {n : LNode} {o : String} : ¬ CEdge u p n (.out o) := by
  intro h
  cases h

theorem cedge_from_out {p : List (List String × List String)} {a o : String} (h : Relation.ReflTransGen (CEdge u p) (.out a) (.out o)) : a = o := by
  rcases Relation.ReflTransGen.cases_tail h with h | ⟨_, _, h⟩
  · cases h; rfl
  · exact absurd h no_cedge_out

/-- What comes before an instruction does not depend on what follows. -/
theorem cedge_prefix {P p : List (List String × List String)} {n : LNode} {k : Nat} {w : String} (hk : k < P.length) :
    CEdge u (P ++ p) n (.val k w) ↔ CEdge u P n (.val k w) := by
  constructor
  · intro h
    cases h with
    | use hu => exact .use ((uses_prefix hk).mp hu)
    | read h1 h2 h3 h4 =>
      rw [List.getElem?_append_left hk] at h1
      exact .read h1 h2 h3 h4
  · intro h
    cases h with
    | use hu => exact .use ((uses_prefix hk).mpr hu)
    | read h1 h2 h3 h4 =>
      rw [← List.getElem?_append_left (l₂ := p) hk] at h1
      exact .read h1 h2 h3 h4

theorem cedges_prefix {P p : List (List String × List String)} {a : String} {n : LNode} (h : Relation.TransGen (CEdge u (P ++ p)) (.out a) n) :
    ∀ k w, n = .val k w → k < P.length → Relation.TransGen (CEdge u P) (.out a) (.val k w) := by
  induction h with
  | single h1 =>
    rintro k w rfl hk
    exact .single ((cedge_prefix hk).mp h1)
  | @tail b c h0 h1 ih =>
    rintro k w rfl hk
    have h2 := (cedge_prefix hk).mp h1
    cases h1 with
    | use hu =>
      have hlt := uses_lt hu
      exact (ih _ _ rfl (Nat.lt_trans hlt hk)).tail h2
    | read _ _ _ _ =>
      obtain rfl := cedge_from_out h0.to_reflTransGen
      exact .single h2

theorem final_prefix {P p : List (List String × List String)} {k : Nat} {r : String} (h : FinalWrite (P ++ p) k r) (hk : k < P.length) :
    FinalWrite P k r := by
  obtain ⟨⟨i, hi, hr⟩, h2⟩ := h
  rw [List.getElem?_append_left hk] at hi
  refine ⟨⟨i, hi, hr⟩, fun m im hm h3 => h2 m im hm ?_⟩
  rw [List.getElem?_append_left (List.getElem?_eq_some_iff.mp h3).1]
  exact h3

theorem into_outside {r o : String} (h : Into u.insts u.wires r o) : u.Outside o := by
  rcases h with ⟨I, hI, _, _, hg⟩ | ⟨w, hw, _, hn, _⟩
  · exact Or.inl ⟨I, hI, hg⟩
  · exact Or.inr ⟨w, hw, hn⟩

theorem code_step {P : List (List String × List String)} {D D' : Deps} {fuel : Nat} (h : LInv u P u.insts u.wires D)
    (hb : u.badDelayed = none) (hs : u.SameFlags) {i : List String × List String} (hio : ∀ w ∈ i.2, ¬ u.Outside w)
    (e : Deps.instrL fuel u.insts u.wireNames D i.1 i.2 = some (.ok D')) : LInv u (P ++ [i]) u.insts u.wires D' := by
  obtain ⟨e, hloop⟩ := instrL_ok e
  have hi : (P ++ [i])[P.length]? = some i := by simp
  have hlen : (P ++ [i]).length = P.length + 1 := by simp
  have hdep : DepInv (P ++ [i]) (P ++ [i]).length D' := by
    have := depInv_step (depInv_extend (p := [i]) h.dep) hi e
    rwa [hlen]
  obtain ⟨hwf, hkeys, hle, _, hfix, hself⟩ := instr_ok h.dep.wf e
  have lastP : ∀ j y, LastWrite (P ++ [i]) P.length j y → LastWrite P P.length j y := by
    rintro j y ⟨h1, ⟨i', h2, h3⟩, h4⟩
    rw [List.getElem?_append_left h1] at h2
    exact ⟨h1, ⟨i', h2, h3⟩, fun m im a b c => h4 m im a b (by rw [List.getElem?_append_left b]; exact c)⟩
  have hlast : ∀ j y, LastWrite (P ++ [i]) (P ++ [i]).length j y → (j = P.length ∧ y ∈ i.2) ∨ (y ∉ i.2 ∧ LastWrite P P.length j y) := by
    rintro j y ⟨h1, ⟨ij, h2, h3⟩, h4⟩
    rw [hlen] at h1 h4
    by_cases hj : j = P.length
    · subst hj
      rw [hi] at h2
      cases h2
      exact Or.inl ⟨rfl, h3⟩
    · have hjn : j < P.length := by omega
      exact Or.inr ⟨h4 P.length i hjn (by omega) hi, lastP j y ⟨hjn, ⟨ij, h2, h3⟩, fun m im a b c => h4 m im a (by omega) c⟩⟩
  have hrd : ∀ y ∈ i.2, ∀ r ∈ i.1, (D'.on y r).here = true := by
    intro y hy r hr
    apply le_here hle
    simp only [Deps.assign, if_pos hy, if_pos hr, Deps.side]
    split <;> rfl
  have hanc : ∀ k y, LastWrite (P ++ [i]) (P ++ [i]).length k y → ∀ o,
      Relation.TransGen (CEdge u (P ++ [i])) (.out o) (.val k y) → (D'.on y o).here = true := by
    intro k y hl o ht
    rcases hlast k y hl with ⟨rfl, hy⟩ | ⟨hy, hl'⟩
    · have hyk : y ∈ D'.keys := by rw [hkeys, mem_addNew]; exact Or.inr hy
      obtain ⟨p, hr, he⟩ := Relation.TransGen.tail'_iff.mp ht
      cases he with
      | @use j _ r _ hu =>
        obtain ⟨ij, ik, h1, h2, h3, h4, h5, h6, h7⟩ := hu
        simp only at h1 h2 h3 h4 h5 h6 h7
        rw [hi] at h2
        cases h2
        have hlr : LastWrite P P.length j r := lastP _ _ ⟨h3, ⟨ij, h1, h4⟩, h7⟩
        have hrk := h.dep.keys j r hlr
        have hri : r ∉ i.2 := by
          intro hri
          have h8 : (D'.on r r).bit true = true := by
            apply hle
            simp [Deps.assign, hri, h5, Deps.side, hrk, QD.bit]
          simp [QD.bit, hself r hri] at h8
        have htr : Relation.TransGen (CEdge u (P ++ [i])) (.out o) (.val j r) := by
          rcases Relation.reflTransGen_iff_eq_or_transGen.mp hr with h | h
          · cases h
          · exact h
        refine fix_here hfix hyk (addNew_keys_sub hkeys hrk) (hrd y hy r h5) (le_here hle ?_)
        simpa [Deps.assign, hri] using h.anc j r hlr o (cedges_prefix htr _ _ rfl h3)
      | read h1 h2 h3 h4 =>
        rw [hi] at h1
        cases h1
        obtain rfl := cedge_from_out hr
        exact hrd y hy _ h2
    · apply le_here hle
      simpa [Deps.assign, hy] using h.anc k y hl' o (cedges_prefix ht _ _ rfl hl'.1)
  have hrec : Recorded u (P ++ [i]) u.insts u.wires D' := by
    refine ⟨hfix, hdep.keys, ?_, ?_, hanc⟩
    · intro r o hio'
      exact addNew_keys_sub hkeys (h.keys r o hio')
    · intro r o hin
      apply le_here hle
      have ho : o ∉ i.2 := fun ho => hio o ho (into_outside hin)
      simpa [Deps.assign, ho] using h.into r o hin
  refine ⟨hdep, hrec.keys, hrec.into, hrec.anc, ?_⟩
  intro o ho
  have hT : ∀ a b, Hop u (P ++ [i]) u.insts u.wires a b → Hop u P u.insts u.wires a b ∨
      (∃ r, Into u.insts u.wires r b ∧ FinalWrite (P ++ [i]) P.length r ∧ Relation.TransGen (CEdge u (P ++ [i])) (.out a) (.val P.length r)) := by
    rintro a b ⟨r, hin, (⟨rfl, ho⟩ | ⟨k, hf, ht⟩)⟩
    · exact Or.inl ⟨r, hin, Or.inl ⟨rfl, ho⟩⟩
    · have hk := (final_last hf).1
      by_cases hkt : k = P.length
      · subst hkt
        exact Or.inr ⟨r, hin, hf, ht⟩
      · have hk' : k < P.length := by omega
        exact Or.inl ⟨r, hin, Or.inr ⟨k, final_prefix hf hk', cedges_prefix ht _ _ rfl hk'⟩⟩
  rcases cycle_split hT ho with h1 | ⟨a, b, ⟨r, hin, hf, ht⟩, hp⟩
  · exact h.acyc o h1
  · have hl := final_last hf
    have hri : r ∈ i.2 := by
      obtain ⟨i', h1, h2⟩ := hf.1
      rw [hi] at h1
      cases h1
      exact h2
    have hrk : r ∈ D'.keys := hdep.keys _ _ hl
    have hra := hanc _ _ hl a ht
    have hbr := hrec.into _ _ hin
    have hbk := hrec.keys _ _ hin
    have ha : a ∈ D'.keys ∧ (D'.on a r).here = true ∧ ∃ r', Into u.insts u.wires r' a := by
      rcases Relation.reflTransGen_iff_eq_or_transGen.mp hp with rfl | htr
      · exact ⟨hbk, hbr, r, hin⟩
      · obtain ⟨hak, hab⟩ := hops_recorded hrec htr
        obtain ⟨c, _, r', hi', _⟩ := Relation.TransGen.tail'_iff.mp htr
        exact ⟨hak, fix_here hfix hak hbk hab hbr, r', hi'⟩
    obtain ⟨hak, har, r', hi'⟩ := ha
    have := loops_of hb hs hwf hfix hrk hak hra har hi'
      (fun I hI hc hr hga hsa => h.acyc a (.single ⟨a, Or.inl ⟨I, hI, ⟨hc, hr⟩, hsa, hga⟩, Or.inl ⟨rfl, Or.inl ⟨I, hI, hga⟩⟩⟩))
      (fun _ hne => hio r hri (hne ▸ into_outside hi'))
    rw [hloop r hri] at this
    cases this

/-! ### Conditionals -/

mutual
/-- The checks only add errors. -/
theorem stmL_stm {fuel : Nat} {Is : List LInst} {wires : List String} : ∀ (s : DStm) (D D' : Deps),
    Deps.stmL fuel Is wires D s = some (.ok D') → Deps.stm fuel D s = some (.ok D')
  | .skip, D, D', e => by simpa only [Deps.stmL, Deps.stm] using e
  | .stop, D, D', e => by simpa only [Deps.stmL, Deps.stm] using e
  | .ins reads writes, D, D', e => by
    simp only [Deps.stmL] at e
    simpa only [Deps.stm] using (instrL_ok e).1
  | .seq a b, D, D', e => by
    simp only [Deps.stmL] at e
    split at e
    · cases e
    · cases e
    · rename_i E he
      simp only [Deps.stm, stmL_stm a D E he]
      exact stmL_stm b E D' e
  | .branch bs, D, D', e => by
    simp only [Deps.stmL] at e
    simp only [Deps.stm]
    exact brsL_brs bs D D D' e

theorem brsL_brs {fuel : Nat} {Is : List LInst} {wires : List String} : ∀ (bs : DBrs) (D acc R : Deps),
    Deps.brsL fuel Is wires D acc bs = some (.ok R) → Deps.brs fuel D acc bs = some (.ok R)
  | .one s, D, acc, R, e => by
    simp only [Deps.brsL] at e
    split at e
    · cases e
    · cases e
    · rename_i E he
      simp only [Deps.brs, stmL_stm s D E he]
      exact e
  | .cons s bs, D, acc, R, e => by
    simp only [Deps.brsL] at e
    split at e
    · cases e
    · cases e
    · rename_i E he
      simp only [Deps.brs, stmL_stm s D E he]
      exact brsL_brs bs D _ R e
end

/-- From the map of a branch to the merged one. -/
theorem inv_merged {P p : List (List String × List String)} {D E R : Deps} {ws : List String}
    (hp : ∀ i ∈ p, ∀ x ∈ i.2, x ∈ ws) (hP : LInv u P u.insts u.wires D) (hE : LInv u (P ++ p) u.insts u.wires E)
    (hR : R.Wf) (hkeys : ∀ y ∈ E.keys, y ∈ R.keys) (hold : ∀ y ∈ D.keys, R.on y = D.on y)
    (hnew : ∀ y ∈ ws, y ∈ E.keys → R.on y = E.on y) : LInv u (P ++ p) u.insts u.wires R := by
  refine ⟨depInv_merged hp hP.dep hE.dep hR hkeys hold hnew, fun r o h => hkeys o (hE.keys r o h), ?_, ?_, hE.acyc⟩
  · intro r o h
    rw [hold o (hP.keys r o h)]
    exact hP.into r o h
  · intro j y hy o ho
    by_cases hw : y ∈ ws
    · rw [hnew y hw (hE.dep.keys j y hy)]
      exact hE.anc j y hy o ho
    · have hj : j < P.length := by
        by_contra hj
        obtain ⟨_, ⟨i, h2, h3⟩, _⟩ := hy
        rw [List.getElem?_append_right (by omega)] at h2
        exact hw (hp i (List.mem_of_getElem? h2) y h3)
      have hy' : LastWrite P P.length j y := by
        obtain ⟨_, ⟨i, h2, h3⟩, h4⟩ := hy
        rw [List.getElem?_append_left hj] at h2
        exact ⟨hj, ⟨i, h2, h3⟩, fun m im a b c => h4 m im a (by simp; omega) (by rw [List.getElem?_append_left b]; exact c)⟩
      rw [hold y (hP.dep.keys j y hy')]
      exact hP.anc j y hy' o (cedges_prefix ho _ _ rfl hj)

mutual
theorem stmL_inv {fuel : Nat} (hb : u.badDelayed = none) (hs : u.SameFlags) : ∀ (s : DStm) (D D' : Deps) (w : List String),
    D.Wf → (∀ y ∈ D.keys, y ∈ w) → s.MergeOk w → (∀ y ∈ s.writes, ¬ u.Outside y) →
    Deps.stmL fuel u.insts u.wireNames D s = some (.ok D') →
    ∀ P p f, LInv u P u.insts u.wires D → s.Path p f →
      (f = true → LInv u (P ++ p) u.insts u.wires D') ∧ ∀ o, ¬ Relation.TransGen (Hop u (P ++ p) u.insts u.wires) o o
  | .skip, D, D', w, hwf, hk, hm, hio, e => by
    simp only [Deps.stmL, Option.some.injEq, Except.ok.injEq] at e
    subst e
    intro P p f hP hp
    cases hp
    simp only [List.append_nil]
    exact ⟨fun _ => hP, hP.acyc⟩
  | .stop, D, D', w, hwf, hk, hm, hio, e => by
    intro P p f hP hp
    cases hp
    simp only [List.append_nil]
    exact ⟨fun h => (by cases h), hP.acyc⟩
  | .ins reads writes, D, D', w, hwf, hk, hm, hio, e => by
    simp only [Deps.stmL] at e
    intro P p f hP hp
    cases hp
    have := code_step (i := (reads, writes)) hP hb hs hio e
    exact ⟨fun _ => this, this.acyc⟩
  | .seq a b, D, D', w, hwf, hk, hm, hio, e => by
    simp only [Deps.stmL] at e
    split at e
    · cases e
    · cases e
    · rename_i D1 ha
      obtain ⟨hma, hmb⟩ := hm
      simp only [DStm.writes, List.mem_append] at hio
      obtain ⟨h1, h2, h3, _⟩ := stm_ok a D D1 w hwf hk hma (stmL_stm a D D1 ha)
      have iha := stmL_inv hb hs a D D1 w hwf hk hma (fun y hy => hio y (Or.inl hy)) ha
      have ihb := stmL_inv hb hs b D1 D' (w ++ a.writes) h1 (fun y hy => by
          rcases h2 y hy with h | h
          · exact List.mem_append_left _ (hk y h)
          · exact List.mem_append_right _ h) hmb (fun y hy => hio y (Or.inr hy)) e
      intro P p f hP hp
      cases hp with
      | seqStop hp => exact ⟨fun h => (by cases h), (iha P p false hP hp).2⟩
      | @seq _ _ p q _ hp hq =>
        have := ihb (P ++ p) q f ((iha P p true hP hp).1 rfl) hq
        rwa [List.append_assoc] at this
  | .branch bs, D, D', w, hwf, hk, hm, hio, e => by
    simp only [Deps.stmL] at e
    obtain ⟨hm1, hm2⟩ := hm
    simp only [DStm.writes] at hio
    intro P p f hP hp
    cases hp with
    | branch hp =>
      exact brsL_inv hb hs bs D D D' w hwf hwf (fun y hy => hy) (fun _ _ => rfl) hk hm2
        (fun x hx hxk => hm1 x hx (hk x hxk)) hio e P p f hP hp

theorem brsL_inv {fuel : Nat} (hb : u.badDelayed = none) (hs : u.SameFlags) : ∀ (bs : DBrs) (D acc R : Deps) (w : List String),
    D.Wf → acc.Wf → (∀ y ∈ D.keys, y ∈ acc.keys) → (∀ y ∈ D.keys, acc.on y = D.on y) → (∀ y ∈ D.keys, y ∈ w) → bs.MergeOk w →
    (∀ x ∈ bs.writes, x ∉ acc.keys) → (∀ y ∈ bs.writes, ¬ u.Outside y) →
    Deps.brsL fuel u.insts u.wireNames D acc bs = some (.ok R) →
    ∀ P p f, LInv u P u.insts u.wires D → bs.Path p f →
      (f = true → LInv u (P ++ p) u.insts u.wires R) ∧ ∀ o, ¬ Relation.TransGen (Hop u (P ++ p) u.insts u.wires) o o
  | .one s, D, acc, R, w, hwf, hacc, hsub, hon, hk, hm, hdis, hio, e => by
    simp only [Deps.brsL] at e
    split at e
    · cases e
    · cases e
    · rename_i E he
      simp only [Option.some.injEq, Except.ok.injEq] at e
      subst e
      obtain ⟨h1, h2, h3, _⟩ := stm_ok s D E w hwf hk hm (stmL_stm s D E he)
      have ih := stmL_inv hb hs s D E w hwf hk hm hio he
      intro P p f hP hp
      cases hp with
      | one hp =>
        obtain ⟨g1, g2⟩ := ih P p f hP hp
        refine ⟨fun hf => ?_, g2⟩
        refine inv_merged (DStm.path_writes hp) hP (g1 hf) (merge_wf h1 hacc) (fun y hy => by simp [Deps.merge, mem_addNew, hy]) ?_ ?_
        · intro y hy
          rw [← hon y hy]
          funext x
          simp [Deps.merge, hsub y hy]
        · intro y hy _
          funext x
          simp [Deps.merge, hdis y hy]
  | .cons s bs, D, acc, R, w, hwf, hacc, hsub, hon, hk, hm, hdis, hio, e => by
    simp only [Deps.brsL] at e
    split at e
    · cases e
    · cases e
    · rename_i E he
      obtain ⟨hm1, hm2, hm3⟩ := hm
      obtain ⟨h1, h2, h3, _⟩ := stm_ok s D E w hwf hk hm1 (stmL_stm s D E he)
      have hAwf := merge_wf h1 hacc
      have hAkeys : ∀ y, y ∈ (Deps.merge E acc).keys ↔ y ∈ acc.keys ∨ y ∈ E.keys := fun y => by
        simp [Deps.merge, mem_addNew]
      have hAon : ∀ y ∈ acc.keys, (Deps.merge E acc).on y = acc.on y := fun y hy => by
        funext x
        simp [Deps.merge, hy]
      simp only [DBrs.writes, List.mem_append] at hdis hio
      have k1 : ∀ y ∈ D.keys, y ∈ (Deps.merge E acc).keys := fun y hy => (hAkeys y).mpr (Or.inl (hsub y hy))
      have k2 : ∀ y ∈ D.keys, (Deps.merge E acc).on y = D.on y := fun y hy => by rw [hAon y (hsub y hy), hon y hy]
      have k3 : ∀ x ∈ bs.writes, x ∉ (Deps.merge E acc).keys := fun x hx hxk => by
        rcases (hAkeys x).mp hxk with h | h
        · exact hdis x (Or.inr hx) h
        · rcases h2 x h with h | h
          · exact hdis x (Or.inr hx) (hsub x h)
          · exact hm2 x h hx
      obtain ⟨g1, g2, g3, _⟩ := brs_ok bs D (Deps.merge E acc) R w hwf hAwf k1 k2 hk hm3 k3 (brsL_brs bs D _ R e)
      have ih := stmL_inv hb hs s D E w hwf hk hm1 (fun y hy => hio y (Or.inl hy)) he
      have ihb := brsL_inv hb hs bs D (Deps.merge E acc) R w hwf hAwf k1 k2 hk hm3 k3 (fun y hy => hio y (Or.inr hy)) e
      intro P p f hP hp
      cases hp with
      | here hp =>
        obtain ⟨i1, i2⟩ := ih P p f hP hp
        refine ⟨fun hf => ?_, i2⟩
        refine inv_merged (DStm.path_writes hp) hP (i1 hf) g1
          (fun y hy => (g2 y ((hAkeys y).mpr (Or.inr hy))).1) ?_ ?_
        · intro y hy
          rw [(g2 y (k1 y hy)).2, k2 y hy]
        · intro y hy hyE
          rw [(g2 y ((hAkeys y).mpr (Or.inr hyE))).2]
          funext x
          simp [Deps.merge, hdis y (Or.inl hy)]
      | next hp => exact ihb P p f hP hp
end

mutual
theorem mergeOk_extend {v : List String} : ∀ (s : DStm) (w : List String), (∀ x ∈ s.writes, x ∉ v) → s.MergeOk w → s.MergeOk (v ++ w)
  | .skip, _, _, _ => trivial
  | .stop, _, _, _ => trivial
  | .ins _ _, _, _, _ => trivial
  | .seq a b, w, h, hm => by
    simp only [DStm.writes, List.mem_append] at h
    refine ⟨mergeOk_extend a w (fun x hx => h x (Or.inl hx)) hm.1, ?_⟩
    rw [List.append_assoc]
    exact mergeOk_extend b _ (fun x hx => h x (Or.inr hx)) hm.2
  | .branch bs, w, h, hm => by
    simp only [DStm.writes] at h
    refine ⟨fun x hx hxv => ?_, mergeOk_extend_brs bs w h hm.2⟩
    rcases List.mem_append.mp hxv with hxv | hxv
    · exact h x hx hxv
    · exact hm.1 x hx hxv

theorem mergeOk_extend_brs {v : List String} : ∀ (bs : DBrs) (w : List String), (∀ x ∈ bs.writes, x ∉ v) → bs.MergeOk w → bs.MergeOk (v ++ w)
  | .one s, w, h, hm => mergeOk_extend s w h hm
  | .cons s bs, w, h, hm => by
    simp only [DBrs.writes, List.mem_append] at h
    exact ⟨mergeOk_extend s w (fun x hx => h x (Or.inl hx)) hm.1, hm.2.1, mergeOk_extend_brs bs w (fun x hx => h x (Or.inr hx)) hm.2.2⟩
end

/-! ### What has an entry before the code -/

theorem instDeps_keys {fuel : Nat} {Is : List LInst} {wires : List String} : ∀ (rest : List LInst) (D D' : Deps), D.Wf →
    instDeps fuel Is wires D rest = some (.ok D') → D'.Wf ∧ ∀ y ∈ D'.keys, y ∈ D.keys ∨ ∃ I ∈ rest, y ∈ I.writes
  | [], D, D', hwf, e => by
    simp only [instDeps, Option.some.injEq, Except.ok.injEq] at e
    subst e
    exact ⟨hwf, fun y hy => Or.inl hy⟩
  | I :: rest, D, D', hwf, e => by
    unfold instDeps at e
    split at e
    · obtain ⟨h1, h2⟩ := instDeps_keys rest D D' hwf e
      refine ⟨h1, fun y hy => ?_⟩
      rcases h2 y hy with h | ⟨J, hJ, h⟩
      · exact Or.inl h
      · exact Or.inr ⟨J, by simp [hJ], h⟩
    · split at e
      · cases e
      · cases e
      · rename_i E he
        obtain ⟨hE, hk, _⟩ := instr_ok hwf (instrL_ok he).1
        split at e
        · cases e
        · obtain ⟨h1, h2⟩ := instDeps_keys rest E D' hE e
          refine ⟨h1, fun y hy => ?_⟩
          rcases h2 y hy with h | ⟨J, hJ, h⟩
          · rw [hk, mem_addNew] at h
            rcases h with h | h
            · exact Or.inl h
            · exact Or.inr ⟨I, by simp, h⟩
          · exact Or.inr ⟨J, by simp [hJ], h⟩

theorem wireDeps_keys {fuel : Nat} {Is : List LInst} {wires : List String} : ∀ (rest : List LWire) (D D' : Deps), D.Wf →
    wireDeps fuel Is wires D rest = some (.ok D') → D'.Wf ∧ ∀ y ∈ D'.keys, y ∈ D.keys ∨ ∃ w ∈ rest, w.name = y
  | [], D, D', hwf, e => by
    simp only [wireDeps, Option.some.injEq, Except.ok.injEq] at e
    subst e
    exact ⟨hwf, fun y hy => Or.inl hy⟩
  | w :: rest, D, D', hwf, e => by
    unfold wireDeps at e
    split at e
    · cases e
    · cases e
    · rename_i E he
      obtain ⟨hE, hk, _⟩ := instr_ok hwf (instrL_ok he).1
      obtain ⟨h1, h2⟩ := wireDeps_keys rest _ D' (by split <;> assumption) e
      refine ⟨h1, fun y hy => ?_⟩
      rcases h2 y hy with h | ⟨x, hx, h⟩
      · split at h
        · exact Or.inl h
        · rw [hk, mem_addNew] at h
          rcases h with h | h
          · exact Or.inl h
          · simp only [List.mem_singleton] at h
            exact Or.inr ⟨w, by simp, h.symm⟩
      · exact Or.inr ⟨x, by simp [hx], h⟩

/-- No cycle of hops on any path of an accepted unit. -/
theorem check_acyc {fuel : Nat} (hs : u.SameFlags) (hone : u.OneOrigin) (hm : u.code.MergeOk []) {D : Deps} (e : u.check fuel = some (.ok D))
    {p : List (List String × List String)} {f : Bool} (hp : u.code.Path p f) :
    ∀ o, ¬ Relation.TransGen (Hop u p u.insts u.wires) o o := by
  unfold LUnit.check at e
  split at e
  · cases e
  · rename_i hb
    split at e
    · cases e
    · cases e
    · rename_i D1 e1
      split at e
      · cases e
      · cases e
      · rename_i D2 e2
        have h1 := insts_inv (u := u) u.insts [] _ _ hone.insts (empty_inv u) e1
        have h2 := wires_inv hb hs hone u.wires [] _ _ rfl h1 e2
        obtain ⟨w1, k1⟩ := instDeps_keys _ _ _ empty_wf e1
        obtain ⟨w2, k2⟩ := wireDeps_keys _ _ _ w1 e2
        have hk : ∀ y ∈ D2.keys, u.Outside y := by
          intro y hy
          rcases k2 y hy with h | ⟨w, hw, h⟩
          · rcases k1 y h with h | ⟨I, hI, h⟩
            · simp [Deps.empty] at h
            · exact Or.inl ⟨I, hI, mem_writes.mp h⟩
          · exact Or.inr ⟨w, hw, h⟩
        have hmx := mergeOk_extend (v := D2.keys) u.code [] (fun x hx hxk => hone.code x hx (hk x hxk)) hm
        exact (stmL_inv hb hs u.code D2 D _ w2 (fun y hy => by simpa using hy) hmx hone.code e [] p f h2 hp).2

/-! ### From hops to edges -/

/-- A path between outputs is made of hops. -/
theorem edge_hops {p : List (List String × List String)} (hin : ∀ r o, u.Through r o → Into u.insts u.wires r o) {a : String} {n : LNode}
    (h : Relation.TransGen (u.Edge p) (.out a) n) :
    (∀ b, n = .out b → Relation.TransGen (Hop u p u.insts u.wires) a b) ∧
    (∀ k w, n = .val k w → ∃ c, Relation.ReflTransGen (Hop u p u.insts u.wires) a c ∧
      Relation.TransGen (CEdge u p) (.out c) (.val k w)) := by
  induction h with
  | single h1 =>
    cases h1 with
    | read h1 h2 h3 h4 =>
      refine ⟨fun b hb => (by cases hb), ?_⟩
      rintro k w hk
      cases hk
      exact ⟨a, .refl, .single (.read h1 h2 h3 h4)⟩
    | direct h1 h2 =>
      refine ⟨?_, fun k w hk => by cases hk⟩
      rintro b hb
      cases hb
      exact .single ⟨a, hin _ _ h2, Or.inl ⟨rfl, h1⟩⟩
  | tail _ h1 ih =>
    cases h1 with
    | use hu =>
      refine ⟨fun b hb => (by cases hb), ?_⟩
      rintro k w hk
      cases hk
      obtain ⟨c, hc, ht⟩ := ih.2 _ _ rfl
      exact ⟨c, hc, ht.tail (.use hu)⟩
    | read h1 h2 h3 h4 =>
      refine ⟨fun b hb => (by cases hb), ?_⟩
      rintro k w hk
      cases hk
      exact ⟨_, (ih.1 _ rfl).to_reflTransGen, .single (.read h1 h2 h3 h4)⟩
    | final hf ht =>
      refine ⟨?_, fun k w hk => by cases hk⟩
      rintro b hb
      cases hb
      obtain ⟨c, hc, hce⟩ := ih.2 _ _ rfl
      exact Relation.TransGen.tail'_iff.mpr ⟨c, hc, _, hin _ _ ht, Or.inr ⟨_, hf, hce⟩⟩
    | direct h1 h2 =>
      refine ⟨?_, fun k w hk => by cases hk⟩
      rintro b hb
      cases hb
      exact (ih.1 _ rfl).tail ⟨_, hin _ _ h2, Or.inl ⟨rfl, h1⟩⟩

/-- A path that meets no output stays in the code, and goes forward. -/
theorem edge_val {p : List (List String × List String)} {n m : LNode} (h : Relation.TransGen (u.Edge p) n m) :
    (∃ o, (Relation.ReflTransGen (u.Edge p) n (.out o)) ∧ (Relation.ReflTransGen (u.Edge p) (.out o) m)) ∨
      ∃ j r k w, n = .val j r ∧ m = .val k w ∧ j < k := by
  induction h with
  | @single b h1 =>
    cases h1 with
    | use hu => exact Or.inr ⟨_, _, _, _, rfl, rfl, uses_lt hu⟩
    | read h1 h2 h3 h4 => exact Or.inl ⟨_, .refl, .single (.read h1 h2 h3 h4)⟩
    | final hf ht => exact Or.inl ⟨_, .single (.final hf ht), .refl⟩
    | direct h1 h2 => exact Or.inl ⟨_, .refl, .single (.direct h1 h2)⟩
  | @tail b c h0 h1 ih =>
    rcases ih with ⟨o, i1, i2⟩ | ⟨j, r, k, w, rfl, rfl, hlt⟩
    · exact Or.inl ⟨o, i1, i2.tail h1⟩
    · cases h1 with
      | use hu => exact Or.inr ⟨_, _, _, _, rfl, rfl, Nat.lt_trans hlt (uses_lt hu)⟩
      | final hf ht => exact Or.inl ⟨_, h0.to_reflTransGen.tail (.final hf ht), .refl⟩

theorem no_loop {p : List (List String × List String)} (hin : ∀ r o, u.Through r o → Into u.insts u.wires r o)
    (hac : ∀ o, ¬ Relation.TransGen (Hop u p u.insts u.wires) o o) : u.NoLoop p := by
  intro n hn
  rcases edge_val hn with ⟨o, h1, h2⟩ | ⟨j, r, k, w, rfl, he, hlt⟩
  · have hc : Relation.TransGen (u.Edge p) (.out o) (.out o) := by
      have := Relation.TransGen.trans_right h2 hn
      exact Relation.TransGen.trans_left this h1
    exact hac o ((edge_hops hin hc).1 o rfl)
  · cases he
    omega

end

end Silice
