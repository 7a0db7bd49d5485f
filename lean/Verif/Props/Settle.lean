import Verif.Spec.Settle
import Verif.Props.Loops
import Mathlib.Data.Set.Finite.Basic
import Mathlib.Data.Fintype.Card
import Mathlib.Data.Fintype.EquivFin

/-!
# C57: an accepted circuit settles
-/

set_option autoImplicit false

namespace Silice

/-- Nodes that may be fed. -/
def LUnit.fed (u : LUnit) (p : List (List String × List String)) : List LNode :=
  (u.insts.flatMap (·.writes) ++ u.wireNames).map .out ++
    ((List.range p.length).flatMap fun k => match p[k]? with
      | some i => i.2.map fun w => .val k w
      | none => [])

theorem through_outside {u : LUnit} {r o : String} (h : u.Through r o) : u.Outside o := by
  rcases h with ⟨I, hI, _, hg⟩ | ⟨w, hw, hn, _⟩
  · exact Or.inl ⟨I, hI, hg⟩
  · exact Or.inr ⟨w, hw, hn⟩

theorem edge_fed {u : LUnit} {p : List (List String × List String)} {n m : LNode} (h : u.Edge p n m) : m ∈ u.fed p := by
  simp only [LUnit.fed, List.mem_append]
  have hval : ∀ k i w, p[k]? = some i → w ∈ i.2 → LNode.val k w ∈ (List.range p.length).flatMap fun k => match p[k]? with
      | some i => i.2.map fun w => LNode.val k w
      | none => [] := by
    intro k i w hk hw
    refine List.mem_flatMap.mpr ⟨k, List.mem_range.mpr (List.getElem?_eq_some_iff.mp hk).1, ?_⟩
    rw [hk]
    exact List.mem_map.mpr ⟨w, hw, rfl⟩
  have hout : ∀ o, u.Outside o → LNode.out o ∈ (u.insts.flatMap (·.writes) ++ u.wireNames).map LNode.out := fun o ho =>
    List.mem_map.mpr ⟨o, outside_iff.mp ho, rfl⟩
  cases h with
  | use hu =>
    obtain ⟨_, ik, _, h2, _, _, _, h6, _⟩ := hu
    exact Or.inr (hval _ _ _ h2 h6)
  | read h1 _ h3 _ => exact Or.inr (hval _ _ _ h1 h3)
  | final _ ht => exact Or.inl (hout _ (through_outside ht))
  | direct _ ht => exact Or.inl (hout _ (through_outside ht))

theorem edge_source {u : LUnit} {p : List (List String × List String)} {n m : LNode} (h : u.Edge p n m) : n ∈ u.fed p := by
  simp only [LUnit.fed, List.mem_append]
  have hval : ∀ k i w, p[k]? = some i → w ∈ i.2 → LNode.val k w ∈ (List.range p.length).flatMap fun k => match p[k]? with
      | some i => i.2.map fun w => LNode.val k w
      | none => [] := by
    intro k i w hk hw
    refine List.mem_flatMap.mpr ⟨k, List.mem_range.mpr (List.getElem?_eq_some_iff.mp hk).1, ?_⟩
    rw [hk]
    exact List.mem_map.mpr ⟨w, hw, rfl⟩
  have hout : ∀ o, u.Outside o → LNode.out o ∈ (u.insts.flatMap (·.writes) ++ u.wireNames).map LNode.out := fun o ho =>
    List.mem_map.mpr ⟨o, outside_iff.mp ho, rfl⟩
  cases h with
  | use hu =>
    obtain ⟨ij, _, h1, _, _, h4, _⟩ := hu
    exact Or.inr (hval _ _ _ h1 h4)
  | read _ _ _ h4 => exact Or.inl (hout _ h4)
  | final hf _ =>
    obtain ⟨⟨i, h1, h2⟩, _⟩ := hf
    exact Or.inr (hval _ _ _ h1 h2)
  | direct h1 _ => exact Or.inl (hout _ h1)

/-- Without loop, one can go back only finitely often. -/
theorem noLoop_wf {u : LUnit} {p : List (List String × List String)} (h : u.NoLoop p) : WellFounded (u.Edge p) := by
  -- on the nodes that are fed, a finite set
  let S := {n : LNode // n ∈ u.fed p}
  let R : S → S → Prop := fun a b => Relation.TransGen (u.Edge p) a.1 b.1
  have : Finite S := (List.finite_toSet (u.fed p)).to_subtype
  have : IsTrans S R := ⟨fun _ _ _ h1 h2 => h1.trans h2⟩
  have : Std.Irrefl R := ⟨fun a ha => h a.1 ha⟩
  have hwf : WellFounded R := Finite.wellFounded_of_trans_of_irrefl R
  have hin : ∀ a : S, _root_.Acc (u.Edge p) a.1 := by
    intro a
    induction a using hwf.induction with
    | _ a ih =>
      refine ⟨_, fun b hb => ?_⟩
      by_cases hbf : b ∈ u.fed p
      · exact ih ⟨b, hbf⟩ (.single hb)
      · exact ⟨_, fun c hc => absurd (edge_fed hc) hbf⟩
  refine ⟨fun n => ⟨_, fun b hb => ?_⟩⟩
  by_cases hbf : b ∈ u.fed p
  · exact hin ⟨b, hbf⟩
  · exact ⟨_, fun c hc => absurd (edge_fed hc) hbf⟩

theorem settled_unique {A : Type} {u : LUnit} {p : List (List String × List String)} (hwf : WellFounded (u.Edge p))
    {f : LNode → (LNode → A) → A} (hf : u.Computes p f) {v v' : LNode → A} (h : Settled f v) (h' : Settled f v') : v = v' := by
  funext n
  induction n using hwf.induction with
  | _ n ih =>
    rw [h n, h' n]
    exact hf n v v' ih

open Classical in
theorem settled_exists {A : Type} [Inhabited A] {u : LUnit} {p : List (List String × List String)} (hwf : WellFounded (u.Edge p))
    {f : LNode → (LNode → A) → A} (hf : u.Computes p f) : ∃ v, Settled f v := by
  let F : (n : LNode) → ((m : LNode) → u.Edge p m n → A) → A := fun n g => f n fun m => if h : u.Edge p m n then g m h else default
  refine ⟨hwf.fix F, fun n => ?_⟩
  rw [WellFounded.fix_eq]
  apply hf
  intro m hm
  simp only [dif_pos hm]

/-- C57: whatever instances, tracked expressions and instructions compute, the values of a cycle of an accepted unit are
determined: there is one and only one way to give a value to each that agrees with all. Same conditions as
`C57_no_loop_partial`. -/
theorem C57_determined_partial {A : Type} [Inhabited A] (u : LUnit) (hone : u.OneOrigin) (fuel : Nat) (D : Deps) (e : u.check fuel = some (.ok D))
    (hs : u.SameFlags) (hreg : u.RegisteredApart) (hdel : u.DelayedHeld) (hm : u.code.MergeOk [])
    (p : List (List String × List String)) (b : Bool) (hp : u.code.Path p b)
    (f : LNode → (LNode → A) → A) (hf : u.Computes p f) : ∃ v, Settled f v ∧ ∀ v', Settled f v' → v' = v := by
  have hwf := noLoop_wf (C57_no_loop_partial u hone fuel D e hs hreg hdel hm p b hp)
  obtain ⟨v, hv⟩ := settled_exists hwf hf
  exact ⟨v, hv, fun v' h' => settled_unique hwf hf h' hv⟩

theorem updates_det {A : Type} {f : LNode → (LNode → A) → A} {s : Nat → LNode} {v : LNode → A} : ∀ {t : Nat} {w w' : LNode → A},
    Updates f s v t w → Updates f s v t w' → w = w' := by
  intro t w w' h h'
  induction h generalizing w' with
  | start => cases h'; rfl
  | @update t w1 w2 h0 h1 h2 ih =>
    cases h' with
    | update g0 g1 g2 =>
      have := ih g0
      subst this
      funext n
      by_cases hn : n = s t
      · rw [hn, h1, g1]
      · rw [h2 n hn, g2 n hn]

theorem common {B : Type} (l : List B) (P : B → Nat → Prop) (hmono : ∀ b T T', T ≤ T' → P b T → P b T') (h : ∀ b ∈ l, ∃ T, P b T) :
    ∃ T, ∀ b ∈ l, P b T := by
  induction l with
  | nil => exact ⟨0, by simp⟩
  | cons b l ih =>
    obtain ⟨T1, h1⟩ := h b (by simp)
    obtain ⟨T2, h2⟩ := ih fun b hb => h b (by simp [hb])
    refine ⟨T1 + T2, fun c hc => ?_⟩
    rcases List.mem_cons.mp hc with rfl | hc
    · exact hmono _ _ _ (by omega) h1
    · exact hmono _ _ _ (by omega) (h2 c hc)

theorem settles {A : Type} {u : LUnit} {p : List (List String × List String)} (hwf : WellFounded (u.Edge p))
    {f : LNode → (LNode → A) → A} (hf : u.Computes p f) {v : LNode → A} (hv : Settled f v) {l : List LNode} (hl : ∀ m n, u.Edge p m n → n ∈ l → m ∈ l)
    {s : Nat → LNode} (hfair : FairOrder l s) {v0 : LNode → A} (n : LNode) (hn : n ∈ l) : ∃ T, ∀ t w, T ≤ t → Updates f s v0 t w → w n = v n := by
  induction n using hwf.induction with
  | _ n ih =>
    -- from some point on, all that feeds `n` has its value
    have hall : ∃ T, ∀ m, u.Edge p m n → ∀ t w, T ≤ t → Updates f s v0 t w → w m = v m := by
      have hone : ∀ m ∈ u.fed p, ∃ T, u.Edge p m n → ∀ t w, T ≤ t → Updates f s v0 t w → w m = v m := by
        intro m _
        by_cases hm : u.Edge p m n
        · obtain ⟨T, hT⟩ := ih m hm (hl m n hm hn)
          exact ⟨T, fun _ => hT⟩
        · exact ⟨0, fun h => absurd h hm⟩
      obtain ⟨T, hT⟩ := common (u.fed p) (fun m T => u.Edge p m n → ∀ t w, T ≤ t → Updates f s v0 t w → w m = v m)
        (fun m T T' hle h he t w ht hu => h he t w (Nat.le_trans hle ht) hu) hone
      exact ⟨T, fun m hm => hT m (edge_source hm) hm⟩
    obtain ⟨T, hT⟩ := hall
    obtain ⟨t1, ht1, hs1⟩ := hfair n hn T
    -- recomputed once, then it keeps its value
    have key : ∀ d w, Updates f s v0 (t1 + 1 + d) w → w n = v n := by
      have upd : ∀ (t : Nat) (w w' : LNode → A), T ≤ t → Updates f s v0 t w → w' (s t) = f (s t) w → s t = n → w' n = v n := by
        intro t w w' ht hu hw hst
        rw [← hst, hw, hst, hv n]
        exact hf n w v fun m hm => hT m hm t w ht hu
      intro d
      induction d with
      | zero =>
        intro w hw
        cases hw with
        | update g0 g1 _ => exact upd t1 _ w ht1 g0 g1 hs1
      | succ d ihd =>
        intro w hw
        cases hw with
        | @update _ w1 _ g0 g1 g2 =>
          by_cases hn : s (t1 + 1 + d) = n
          · exact upd (t1 + 1 + d) _ w (by omega) g0 g1 hn
          · rw [g2 n (fun h => hn h.symm)]
            exact ihd w1 g0
    refine ⟨t1 + 1, fun t w ht hu => ?_⟩
    obtain ⟨d, rfl⟩ := Nat.exists_eq_add_of_le ht
    exact key d w hu

theorem updates_exists {A : Type} (f : LNode → (LNode → A) → A) (s : Nat → LNode) (v : LNode → A) : ∀ t, ∃ w, Updates f s v t w
  | 0 => ⟨v, .start⟩
  | t + 1 => by
    obtain ⟨w, hw⟩ := updates_exists f s v t
    classical
    exact ⟨fun n => if n = s t then f n w else w n, .update hw (by simp) fun n hn => by simp [hn]⟩

/-- C57: let `l` be values of a cycle of an accepted unit, with all those that feed them. Starting from any values and
recomputing them in any order, as long as none of `l` is left aside for ever, they reach the values determined by
`C57_determined_partial`, and stay there. Same conditions. -/
theorem C57_settles_partial {A : Type} [Inhabited A] (u : LUnit) (hone : u.OneOrigin) (fuel : Nat) (D : Deps) (e : u.check fuel = some (.ok D))
    (hs : u.SameFlags) (hreg : u.RegisteredApart) (hdel : u.DelayedHeld) (hm : u.code.MergeOk [])
    (p : List (List String × List String)) (b : Bool) (hp : u.code.Path p b)
    (f : LNode → (LNode → A) → A) (hf : u.Computes p f) (l : List LNode) (hl : ∀ m n, u.Edge p m n → n ∈ l → m ∈ l)
    (s : Nat → LNode) (hfair : FairOrder l s) (v0 : LNode → A) :
    ∃ v, Settled f v ∧ (∀ t, ∃ w, Updates f s v0 t w) ∧ ∃ T, ∀ t w, T ≤ t → Updates f s v0 t w → ∀ n ∈ l, w n = v n := by
  have hwf := noLoop_wf (C57_no_loop_partial u hone fuel D e hs hreg hdel hm p b hp)
  obtain ⟨v, hv⟩ := settled_exists hwf hf
  refine ⟨v, hv, updates_exists f s v0, ?_⟩
  obtain ⟨T, hT⟩ := common l (fun n T => ∀ t w, T ≤ t → Updates f s v0 t w → w n = v n)
    (fun n T T' hle h t w ht hu => h t w (Nat.le_trans hle ht) hu) (fun n hn => settles hwf hf hv hl hfair n hn)
  exact ⟨T, fun t w ht hu n hn => hT n hn t w ht hu⟩

/-! ### Cases meeting the hypotheses

`exTwoUnits` meets those on units. All the values that are computed are such a list `l`; taking them in turn is fair. A sum of
all the values read is an example of computation. -/

example (u : LUnit) (p : List (List String × List String)) (m n : LNode) (h : u.Edge p m n) (_ : n ∈ u.fed p) : m ∈ u.fed p :=
  edge_source h

example (l : List LNode) (h : 0 < l.length) : FairOrder l fun t => l[t % l.length]'(Nat.mod_lt _ h) := by
  intro n hn t
  obtain ⟨i, hi, rfl⟩ := List.getElem_of_mem hn
  refine ⟨i + l.length * t, ?_, ?_⟩
  · have := Nat.le_mul_of_pos_left t h
    omega
  · simp only [Nat.add_mul_mod_self_left, Nat.mod_eq_of_lt hi]

open Classical in
example (u : LUnit) (p : List (List String × List String)) :
    u.Computes p fun n (v : LNode → Nat) => ((u.fed p).map fun m => if u.Edge p m n then v m else 0).sum := by
  intro n v v' h
  simp only
  congr 1
  apply List.map_congr_left
  intro m _
  by_cases hm : u.Edge p m n
  · simp [hm, h m hm]
  · simp [hm]

/-- A loop does not settle: an instance that inverts its input, which is bound to its own output. -/
example : ¬ ∃ v : LNode → Bool, Settled (fun n v => if n = .out "b" then !v (.out "b") else false) v := by
  rintro ⟨v, h⟩
  have := h (.out "b")
  simp at this

end Silice
