import Verif.Lemmas.GatherEnds
import Verif.Props.FsmRun
import Verif.Props.FsmStates

/-! The graph of a unit is well formed. -/

set_option autoImplicit false

namespace Silice

theorem callIdsFrom_congr {B : Type} {g g' : Cfg B} (h : ∀ b, (g.blk b).act = (g'.blk b).act) :
    ∀ (bs : List B) (n : Nat), callIdsFrom g n bs = callIdsFrom g' n bs
  | [], _ => rfl
  | b :: bs, n => by
    rw [callIdsFrom, callIdsFrom, h]
    cases (g'.blk b).act <;> simp only [callIdsFrom_congr h bs]

theorem returnStates_congr {B : Type} {g g' : Cfg B} (h : ∀ b, (g.blk b).act = (g'.blk b).act) (hs : ∀ b, (g.blk b).sub = (g'.blk b).sub)
    (ids : List (B × Nat)) (k : Nat) : returnStates g ids k = returnStates g' ids k := by
  unfold returnStates
  congr 1
  funext ⟨b, n⟩
  simp only [h, hs]

section
variable {u : AlgUnit} {F : Nat → PBlk} {tops : List Nat} {last n0 l lo : Nat} (U : UnitFrag u F tops last n0 l lo)
include U

/-- Subroutines that can be called. -/
theorem UnitFrag.top {z t : Nat} (h : tops[z]? = some t) :
    ∃ p hi k, (u.globals ++ u.locals)[z]? = some p ∧ t < hi ∧ hi ≤ lo ∧ SubFrag F tops z p t hi k := by
  have hz := (List.getElem?_eq_some_iff.mp h).1
  rw [U.len] at hz
  obtain ⟨p, hp⟩ := get_of_lt hz
  obtain ⟨t', hi, k, h1, h2, h3, h4⟩ := U.subs z p hp
  have := h4.top
  rw [h] at this
  cases this
  exact ⟨p, hi, k, hp, h2, h3, h4⟩

/-- Control flow stays in the unit, and in the subroutine. -/
theorem UnitFrag.flow {n : Nat} (hn : n ≤ last) :
    (∀ k ∈ kids (F n).act, k ≤ last ∧ (F k).sub = (F n).sub) ∧ (∀ z, (F n).act = .ret z → (F n).sub = some z) ∧
    (∀ t r, (F n).act = .call t r → r ≤ last ∧ (F r).isState = true ∧ (F r).sub = (F n).sub ∧
      ∃ z, tops[z]? = some t ∧ t ≤ last ∧ (F t).sub = some z ∧ (F t).isState = true ∧ ∀ j, (F n).sub = some j → z < j) := by
  have hpos := U.pos
  have hr := U.main.range
  have e0 : (F 0).sub = none := by rw [U.first]
  have el : (F last).sub = none := by rw [U.stop]
  have call : ∀ z t : Nat, tops[z]? = some t → t ≤ last ∧ (F t).sub = some z ∧ (F t).isState = true := by
    intro z t hz
    obtain ⟨p, hi, k, h1, h2, h3, h4⟩ := U.top hz
    exact ⟨by omega, h4.sub t le_rfl h2, h4.state⟩
  -- blocks of the algorithm
  have main : n = n0 ∨ (lo ≤ n ∧ n < last) → _ := fun h => (by
    have hs := U.mainSub n h
    by_cases e : n = l
    · subst e
      refine ⟨?_, fun z hz => ?_, fun t r hz => ?_⟩
      · rw [U.mainEnd]
        simp only [kids, List.mem_singleton]
        rintro k rfl
        exact ⟨le_rfl, by rw [hs, el]⟩
      · rw [U.mainEnd] at hz; cases hz
      · rw [U.mainEnd] at hz; cases hz
    · have st := U.main.stays n h e
      refine ⟨fun k hk => ?_, fun z hz => ?_, fun t r hz => ?_⟩
      · rcases st.kid k hk with h | h
        · exact ⟨by omega, by rw [hs, U.mainSub k (.inr h)]⟩
        · cases h.1
      · have := st.ret z hz; cases this
      · obtain ⟨h1, h2, h3, z, hz'⟩ := st.call t r hz
        obtain ⟨c1, c2, c3⟩ := call z t hz'
        exact ⟨by omega, h3, by rw [hs, U.mainSub r (.inr ⟨h1, h2⟩)], z, hz', c1, c2, c3, by rw [hs]; simp⟩ :
    (∀ k ∈ kids (F n).act, k ≤ last ∧ (F k).sub = (F n).sub) ∧ (∀ z, (F n).act = .ret z → (F n).sub = some z) ∧
    (∀ t r, (F n).act = .call t r → r ≤ last ∧ (F r).isState = true ∧ (F r).sub = (F n).sub ∧
      ∃ z, tops[z]? = some t ∧ t ≤ last ∧ (F t).sub = some z ∧ (F t).isState = true ∧ ∀ j, (F n).sub = some j → z < j))
  rcases U.cover n hn with rfl | h | rfl | h | ⟨j, p, t, hi, k, hj, S, h1, h2⟩
  · rw [U.first]
    refine ⟨?_, fun z hz => (by cases hz), fun t r hz => (by cases hz)⟩
    simp only [kids, List.mem_singleton]
    rintro k rfl
    exact ⟨by omega, by rw [U.mainSub k (.inl rfl)]⟩
  · exact main (.inl h)
  · rw [U.stop]
    refine ⟨?_, fun z hz => (by cases hz), fun t r hz => (by cases hz)⟩
    simp [kids]
  · exact main (.inr h)
  · have hhi : hi ≤ last := by
      obtain ⟨t', hi', k', g1, g2, g3, g4⟩ := U.subs j p hj
      by_contra hc
      have := S.sub last (by omega) (by omega)
      rw [el] at this
      cases this
    have hs := S.sub n h1 h2
    by_cases e : n = k
    · subst e
      refine ⟨?_, fun z hz => ?_, fun t r hz => ?_⟩
      · rw [S.ret]; simp [kids]
      · rw [S.ret] at hz; cases hz; exact hs
      · rw [S.ret] at hz; cases hz
    · have st := S.frag.stays n (by omega) e
      refine ⟨fun m hm => ?_, fun z hz => ?_, fun t' r hz => ?_⟩
      · rcases st.kid m hm with h | h
        · exact ⟨by omega, by rw [hs, S.sub m (by omega) h.2]⟩
        · cases h.1
      · have := st.ret z hz; cases this; exact hs
      · obtain ⟨c1, c2, c3, z, hz'⟩ := st.call t' r hz
        have hlt : z < j := by
          have := (List.getElem?_eq_some_iff.mp hz').1
          rw [List.length_take] at this
          omega
        rw [List.getElem?_take_of_lt hlt] at hz'
        obtain ⟨d1, d2, d3⟩ := call z t' hz'
        exact ⟨by omega, c3, by rw [hs, S.sub r (by omega) c2], z, hz', d1, d2, d3, by rw [hs]; rintro _ ⟨⟩; exact hlt⟩

theorem UnitFrag.acc {n : Nat} (hn : n ≤ last) : Acc (fun n b => EdgeN F b n) n := by
  have hl : Acc (fun n b => EdgeN F b n) last := acc_other (by rw [U.stop]; simp)
  have hm := U.main.acc (acc_goto U.mainEnd hl) (by simp)
  rcases U.cover n hn with rfl | h | rfl | h | ⟨j, p, t, hi, k, hj, S, h1, h2⟩
  · exact acc_goto (n := n0) (by rw [U.first]) (hm _ (.inl rfl))
  · exact hm n (.inl h)
  · exact hl
  · exact hm n (.inr h)
  · exact S.frag.acc (acc_other (by rw [S.ret]; simp)) (by simp) n (by omega)

end

section
variable {u : AlgUnit} {st : PSt} {last n0 l lo : Nat} (U : UnitFrag u st.blk st.tops last n0 l lo)

theorem cfg_blk (n : Nat) (hn : n < last + 1) : (st.cfg last).blk (Fin.ofNat (last + 1) n) =
    { isState := (st.blk n).isState, noSkip := (st.blk n).noSkip, empty := insEmpty (st.blk n).ins, fsm := 0, sub := (st.blk n).sub,
      act := (st.blk n).act.map (Fin.ofNat (last + 1)) } := by
  have : ((Fin.ofNat (last + 1) n : Fin (last + 1)) : Nat) = n := Nat.mod_eq_of_lt hn
  simp only [PSt.cfg, this]

theorem cfg_over : Over st.blk (Fin.ofNat (last + 1)) (last + 1) (st.cfg last) := by
  refine ⟨fun m n hm hn h => ?_, fun n hn => ?_, fun n hn h => ?_⟩
  · have := congrArg Fin.val h
    rwa [show ((Fin.ofNat (last + 1) m : Fin (last + 1)) : Nat) = m from Nat.mod_eq_of_lt hm,
      show ((Fin.ofNat (last + 1) n : Fin (last + 1)) : Nat) = n from Nat.mod_eq_of_lt hn] at this
  · rw [cfg_blk n hn]
  · rw [cfg_blk n hn]; exact h

theorem fin_name (b : Fin (last + 1)) : ∃ n, n ≤ last ∧ b = Fin.ofNat (last + 1) n :=
  ⟨b, by omega, Fin.ext (Nat.mod_eq_of_lt b.2).symm⟩

include U

theorem cfg_acc (b : Fin (last + 1)) : Acc (fun n b => EmptyEdge (st.cfg last) b n) b := by
  obtain ⟨n, hn, rfl⟩ := fin_name b
  have h := U.acc hn
  induction h with
  | intro n _ ih =>
    refine ⟨_, fun m hm => ?_⟩
    have := hm.2
    rw [cfg_blk n (by omega)] at this
    have act : (st.blk n).act.map (Fin.ofNat (last + 1)) = .goto m := this
    cases ha : (st.blk n).act with
    | goto k =>
      rw [ha] at act
      cases act
      exact ih k ha ((U.flow hn).1 k (by rw [ha]; simp [kids])).1
    | _ => rw [ha] at act; cases act

omit U in
theorem cfg_ids (k : Nat) : (st.cfg last).returns k =
    returnStates (st.cfg last) (callIdsFrom (st.cfg last) 0 (List.finRange (last + 1))) k := by
  have key : ∀ g0 : Cfg (Fin (last + 1)), (∀ b, g0.blk b = (st.cfg last).blk b) → returnStates g0 (callIdsFrom g0 0 (List.finRange (last + 1))) k =
      returnStates (st.cfg last) (callIdsFrom (st.cfg last) 0 (List.finRange (last + 1))) k := fun g0 h => by
    rw [callIdsFrom_congr (g' := st.cfg last) (fun b => by rw [h]), returnStates_congr (g' := st.cfg last) (fun b => by rw [h]) (fun b => by rw [h])]
  exact key { st.cfg last with returns := fun _ => [] } (fun _ => rfl)

omit U in
/-- A call is recorded. -/
theorem cfg_returns {z t r b : Nat} {g : Cfg (Fin (last + 1))} (M : MoreStates (st.cfg last) g) (hb : b ≤ last)
    (ha : (st.blk b).act = .call t r) (ht : t ≤ last) (hs : (st.blk t).sub = some z) :
    ∃ i, (i, Fin.ofNat (last + 1) r) ∈ g.returns z := by
  rw [M.returns, cfg_ids]
  have act := cfg_over.call (show b < last + 1 by omega) ha
  obtain ⟨i, hi⟩ := callIdsFrom_mem (st.cfg last) (List.finRange (last + 1)) 0 (Fin.ofNat (last + 1) b) _ _ (List.mem_finRange _) act
  have hs' : ((st.cfg last).blk (Fin.ofNat (last + 1) t)).sub = some z := by rw [cfg_blk t (by omega)]; exact hs
  exact ⟨i, returnStates_mem (st.cfg last) hi act hs'⟩

/-- Subroutines that are called return. -/
theorem sub_returns {g : Cfg (Fin (last + 1))} {ff : Fin (last + 1) → Fin (last + 1)} (M : MoreStates (st.cfg last) g) (hff : IsFF g ff)
    (O : Over st.blk (Fin.ofNat (last + 1)) (last + 1) g) :
    ∀ (z t : Nat), st.tops[z]? = some t → Comes g ff (Fin.ofNat (last + 1) t) →
      ∃ b, b ≤ last ∧ (st.blk b).act = .ret z ∧ Reached g ff (Fin.ofNat (last + 1) b) := by
  have hpos := U.pos
  intro z
  induction z using Nat.strong_induction_on with
  | _ z ih =>
    intro t hz hr
    obtain ⟨p, hi, k, h1, h2, h3, S⟩ := U.top hz
    have r := S.frag.range
    have := S.frag.comes O hff (by omega) (by omega) (fun b t' r' hb ha ⟨y, hy⟩ hrb => by
      have hlt : y < z := by
        have := (List.getElem?_eq_some_iff.mp hy).1
        rw [List.length_take] at this
        omega
      rw [List.getElem?_take_of_lt hlt] at hy
      obtain ⟨p', hi', k', g1, g2, g3, S'⟩ := U.top hy
      have act := O.call hb ha
      obtain ⟨b', c1, c2, c3⟩ := ih y hlt t' hy (hrb.comesChild hff (by simp only [Cfg.children, act, List.mem_singleton]))
      obtain ⟨i, hi⟩ := cfg_returns M (by omega) ha (by omega) (S'.sub t' le_rfl g2)
      refine c3.comesChild hff ?_
      simp only [Cfg.children, O.ret (show b' < last + 1 by omega) c2, List.mem_map]
      exact ⟨_, hi, rfl⟩) hr
    rcases this with h | ⟨y, b, hy, hb, ha, hrb⟩ | ⟨b, hb, _⟩
    · exact ⟨k, by omega, S.ret, h.reached (by rw [O.ret (by omega) S.ret]; simp)⟩
    · cases hy
      exact ⟨b, by omega, ha, hrb⟩
    · cases hb

theorem unit_wellFormed {g : Cfg (Fin (last + 1))} {ff ff0 : Fin (last + 1) → Fin (last + 1)} {num : Num (Fin (last + 1))}
    (hok : u.switchOk = true) (M : MoreStates (st.cfg last) g) (hlast : g.last = (st.cfg last).last) (hff : IsFF g ff)
    (P : Promoted st.blk (Fin.ofNat (last + 1)) (last + 1) g (st.cfg last) ff ff0 num) : WellFormed g 0 ff num := by
  have hpos := U.pos
  have O := P.over
  have hr := U.main.range
  rw [AlgUnit.switchOk, Bool.and_eq_true, List.all_eq_true] at hok
  have hstop : ∀ st', Reg g num st' (Fin.ofNat (last + 1) last) true := fun st' => .stop (by rw [O.act last (by omega), U.stop]; rfl)
  have hmain := U.main.all P hok.1 (by omega) (by omega) (by simp) (cont P (st := none) (by omega) U.mainEnd (by simp) (fun _ => hstop _))
  have hreg : ∀ n, n ≤ last → Reached g ff (Fin.ofNat (last + 1) n) → Reg g num none (Fin.ofNat (last + 1) n) true := by
    intro n hn hrn
    rcases U.cover n hn with rfl | h | rfl | h | ⟨j, p, t, hi, k, hj, S, h1, h2⟩
    · exact cont P (n := n0) (by omega) (by rw [U.first]) (by simp) (hmain _ (.inl rfl)) hrn
    · exact hmain n (.inl h) hrn
    · exact hstop _
    · exact hmain n (.inr h) hrn
    · have hhi : hi ≤ last := by
        by_contra hc
        have := S.sub last (by omega) (by omega)
        rw [U.stop] at this
        cases this
      have r := S.frag.range
      exact S.frag.all P (hok.2 _ (List.mem_of_getElem? hj)) (by omega) (by omega) (by simp)
        (fun _ => .ret (O.ret (by omega) S.ret)) n (by omega) hrn
  have hf0 : (0 : Fin (last + 1)) = Fin.ofNat (last + 1) 0 := rfl
  refine ⟨?_, fun b _ => ?_, fun b hb _ => ?_, fun b t r hb ha => ?_, fun _ => ?_⟩
  · rw [M.first]
    exact O.state 0 (by omega) (by rw [U.first])
  · obtain ⟨n, hn, rfl⟩ := fin_name b
    rw [M.blk, cfg_blk n (by omega)]
  · obtain ⟨n, hn, rfl⟩ := fin_name b
    exact hreg n hn hb
  · obtain ⟨n, hn, rfl⟩ := fin_name b
    rw [O.act n (by omega)] at ha
    cases hact : (st.blk n).act with
    | call t' r' =>
      rw [hact] at ha
      cases ha
      obtain ⟨h1, h2, h3, z, h4, h5, h6, h7, h8⟩ := (U.flow hn).2.2 t' r' hact
      have act := O.call (show n < last + 1 by omega) hact
      obtain ⟨b', c1, c2, c3⟩ := sub_returns U M hff O z t' h4 (hb.comesChild hff (by simp only [Cfg.children, act, List.mem_singleton]))
      obtain ⟨i, hi⟩ := cfg_returns M hn hact h5 h6
      have hs := O.state r' (by omega) h2
      have := Reached.child (c := Fin.ofNat (last + 1) r') c3 (by
        simp only [Cfg.children, O.ret (show b' < last + 1 by omega) c2, List.mem_map]
        exact ⟨_, hi, rfl⟩)
      rw [arrive, if_pos hs] at this
      exact ⟨O.state t' (by omega) h7, hs, this⟩
    | _ => rw [hact] at ha; cases ha
  · rw [hlast]
    show (g.blk (Fin.ofNat (last + 1) last)).act = _
    rw [O.act last (by omega), U.stop]
    rfl

theorem unit_subs {g : Cfg (Fin (last + 1))} {ff : Fin (last + 1) → Fin (last + 1)} (M : MoreStates (st.cfg last) g) (hff : IsFF g ff) :
    SubsWellFormed g ff ∧ NoRecursion g := by
  have sub : ∀ n, n ≤ last → (g.blk (Fin.ofNat (last + 1) n)).sub = (st.blk n).sub := by
    intro n hn; rw [M.blk, cfg_blk n (by omega)]
  have act : ∀ n, n ≤ last → (g.blk (Fin.ofNat (last + 1) n)).act = (st.blk n).act.map (Fin.ofNat (last + 1)) := by
    intro n hn; rw [M.blk, cfg_blk n (by omega)]
  have stay : ∀ b c, c ∈ flow g b → (g.blk c).sub = (g.blk b).sub := by
    intro b c hc
    obtain ⟨n, hn, rfl⟩ := fin_name b
    have key : ∃ m, m ∈ kids (st.blk n).act ∧ c = Fin.ofNat (last + 1) m := by
      rw [flow] at hc
      cases ha : (st.blk n).act with
      | switch q cs a =>
        simp only [Cfg.children, act n hn, ha, Act.map, List.map_map, List.mem_append, List.mem_map, List.mem_singleton] at hc
        rcases hc with ⟨p, hp, rfl⟩ | rfl
        · exact ⟨p.2, by simp only [kids, List.mem_append, List.mem_map]; exact .inl ⟨p, hp, rfl⟩, rfl⟩
        · exact ⟨a, by simp [kids], rfl⟩
      | ifElse q i x it e y et a =>
        simp only [Cfg.children, act n hn, ha, Act.map, List.mem_cons, List.not_mem_nil, or_false] at hc
        rcases hc with rfl | rfl | rfl
        · exact ⟨i, by simp [kids], rfl⟩
        · exact ⟨e, by simp [kids], rfl⟩
        · exact ⟨a, by simp [kids], rfl⟩
      | loop q i a =>
        simp only [Cfg.children, act n hn, ha, Act.map, List.mem_cons, List.not_mem_nil, or_false] at hc
        rcases hc with rfl | rfl
        · exact ⟨i, by simp [kids], rfl⟩
        · exact ⟨a, by simp [kids], rfl⟩
      | wait q i a =>
        simp only [Cfg.children, act n hn, ha, Act.map, List.mem_cons, List.not_mem_nil, or_false] at hc
        rcases hc with rfl | rfl
        · exact ⟨i, by simp [kids], rfl⟩
        · exact ⟨a, by simp [kids], rfl⟩
      | goto i =>
        simp only [Cfg.children, act n hn, ha, Act.map, List.mem_cons, List.not_mem_nil, or_false] at hc
        exact ⟨i, by simp [kids], hc⟩
      | _ => simp only [Cfg.children, act n hn, ha, Act.map, List.not_mem_nil] at hc
    obtain ⟨m, hm, rfl⟩ := key
    obtain ⟨h1, h2⟩ := (U.flow hn).1 m hm
    rw [sub n hn, sub m h1, h2]
  have call : ∀ b t r, (g.blk b).act = .call t r → ∃ n z, n ≤ last ∧ b = Fin.ofNat (last + 1) n ∧ (g.blk t).sub = some z ∧
      (g.blk r).sub = (g.blk b).sub ∧ ∀ j, (g.blk b).sub = some j → z < j := by
    intro b t r ha
    obtain ⟨n, hn, rfl⟩ := fin_name b
    rw [act n hn] at ha
    cases hact : (st.blk n).act with
    | call t' r' =>
      rw [hact] at ha
      cases ha
      obtain ⟨h1, h2, h3, z, h4, h5, h6, h7, h8⟩ := (U.flow hn).2.2 t' r' hact
      exact ⟨n, z, hn, rfl, by rw [sub t' h5, h6], by rw [sub r' h1, sub n hn, h3], by rw [sub n hn]; exact h8⟩
    | _ => rw [hact] at ha; cases ha
  refine ⟨⟨?_, fun b c _ hc => stay b c hc, fun b t r _ ha => ?_, fun b k _ ha => ?_, fun b hs => ?_⟩, ?_⟩
  · rw [M.first]
    show (g.blk (Fin.ofNat (last + 1) 0)).sub = none
    rw [sub 0 (by omega), U.first]
  · obtain ⟨n, z, _, _, h1, h2, _⟩ := call b t r ha
    exact ⟨⟨z, h1⟩, h2⟩
  · obtain ⟨n, hn, rfl⟩ := fin_name b
    rw [act n hn] at ha
    cases hact : (st.blk n).act with
    | ret z =>
      rw [hact] at ha
      rw [sub n hn, (U.flow hn).2.1 z hact]
      cases ha
      rfl
    | _ => rw [hact] at ha; cases ha
  · have := arrive_chain g ff hff b
    rw [arrive, if_pos hs] at this
    generalize ff b = d at this
    induction this with
    | refl => rfl
    | tail _ h ih =>
      rw [← ih]
      exact stay _ _ (by simp [flow, Cfg.children, h.2])
  · have lt : ∀ k k', Relation.TransGen (SubCalls g) k k' → k' < k := by
      intro k k' h
      have one : ∀ k k', SubCalls g k k' → k' < k := by
        rintro k k' ⟨b, t, r, ha, hb, ht⟩
        obtain ⟨n, z, _, _, h1, _, h3⟩ := call b t r ha
        rw [h1] at ht
        cases ht
        exact h3 k hb
      induction h with
      | single h => exact one _ _ h
      | tail _ h ih => exact lt_trans (one _ _ h) ih
    exact fun k h => absurd (lt k k h) (lt_irrefl k)

end

end Silice
