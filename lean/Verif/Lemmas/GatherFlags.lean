import Verif.Lemmas.GatherInlet

/-! Which blocks made from statements are states, seen from the statements. -/

set_option autoImplicit false

namespace Silice

/-! ### Statements determine their blocks -/

theorem Frag.func {F : Nat → PBlk} {tops : List Nat} {s : Option Nat} {p : Prg} {bt : Option Nat} {c : Nat} {pre : List PIns} {l lo hi : Nat}
    (h : Frag F tops s p bt c pre l lo hi) : ∀ {l' hi' : Nat}, Frag F tops s p bt c pre l' lo hi' → l = l' ∧ hi = hi' := by
  induction h with
  | nil => intro l' hi' h'; cases h'; exact ⟨rfl, rfl⟩
  | instr _ ih => intro l' hi' h'; cases h' with | instr f => exact ih f
  | step _ _ _ _ _ ih => intro l' hi' h'; cases h' with | step _ _ _ _ f => exact ih f
  | block _ _ _ _ _ _ _ _ ih1 ih2 =>
    intro l' hi' h'
    cases h' with
    | block _ _ _ f1 _ _ f2 =>
      obtain ⟨rfl, rfl⟩ := ih1 f1
      exact ih2 f2
  | ifThen _ _ _ _ _ _ _ _ _ _ _ _ _ ih1 ih2 =>
    intro l' hi' h'
    cases h' with
    | ifThen _ _ f1 _ _ _ _ _ _ _ _ f2 =>
      obtain ⟨rfl, rfl⟩ := ih1 f1
      exact ih2 f2
  | ifElse _ _ _ _ _ _ _ _ _ _ _ _ _ ih1 ih2 ih3 =>
    intro l' hi' h'
    cases h' with
    | ifElse _ _ f1 _ _ _ f2 _ _ _ _ f3 =>
      obtain ⟨rfl, rfl⟩ := ih1 f1
      obtain ⟨rfl, rfl⟩ := ih2 f2
      exact ih3 f3
  | loop _ _ _ _ _ _ _ _ _ _ ih1 ih2 =>
    intro l' hi' h'
    cases h' with
    | loop _ _ _ _ _ _ f1 _ f2 =>
      obtain ⟨rfl, rfl⟩ := ih1 f1
      exact ih2 f2
  | brk _ _ _ _ ih => intro l' hi' h'; cases h' with | brk _ _ _ f => exact ih f
  | @switch q cs k bt c pre l lo hi x es bb mm h1 ha h3 h4 h5 h6 f1 h7 h8 h9 f2 hz ih1 ih2 =>
    intro l' hi' h'
    cases h' with
    | @switch _ _ _ _ _ _ _ _ _ x' es' bb' mm' g1 ga g3 g4 g5 g6 k1 g7 g8 g9 k2 gz =>
      have hb : ∀ j, j ≤ cs.length → bb j = bb' j := by
        intro j
        induction j with
        | zero => intro _; rw [h5, g5]
        | succ j ih =>
          intro hj
          obtain ⟨⟨v, p⟩, hg⟩ := get_of_lt (show j < cs.length by omega)
          have := ih (by omega)
          have hk := k1 j v p hg
          rw [← this] at hk
          exact (ih1 j v p hg hk).2
      have : x = x' := by rw [← h6, ← g6]; exact hb _ le_rfl
      subst this
      exact ih2 k2
  | call _ _ _ _ _ _ ih => intro l' hi' h'; cases h' with | call _ _ _ _ f => exact ih f
  | join _ _ _ _ _ _ _ _ ih => intro l' hi' h'; cases h' with | join _ _ _ _ _ _ f => exact ih f
  | ret _ _ _ _ _ ih => intro l' hi' h'; cases h' with | ret _ _ _ _ f => exact ih f

section
variable {u : AlgUnit} {F : Nat → PBlk} {tops : List Nat} {last n0 l lo : Nat} (U : UnitFrag u F tops last n0 l lo)
include U

theorem UnitFrag.succ {y n : Nat} (hy : y ≤ last) (hn : n ∈ succs (F y).act) : n ≤ last ∧ (F n).sub = (F y).sub := by
  have h := U.flow hy
  rcases succs_call (F y).act with ⟨t, r, e, e'⟩ | ⟨_, e⟩
  · rw [e', List.mem_singleton] at hn
    subst hn
    have := h.2.2 t n e
    exact ⟨this.1, this.2.2.1⟩
  · rw [e] at hn
    exact h.1 n hn

theorem UnitFrag.inlet : Inlet F tops (last + 1) none n0 l lo last := by
  have hpos := U.pos
  refine ⟨by omega, by omega, by simp, fun y n hy hn h1 h2 => ?_, fun n hn h1 h2 => ?_, fun t ht h1 h2 => ?_⟩
  · obtain ⟨_, hs⟩ := U.succ (by omega) hn
    rw [U.mainSub n (.inr ⟨h1, h2⟩)] at hs
    rcases U.cover y (by omega) with rfl | h | rfl | h | ⟨j, p, t, hi, k, hj, S, g1, g2⟩
    · rw [U.first] at hn
      simp [succs, kids] at hn
      omega
    · exact .inl h
    · rw [U.stop] at hn
      simp [succs, kids] at hn
    · exact .inr h
    · rw [S.sub y g1 g2] at hs
      cases hs
  · have := succs_goto U.mainEnd hn
    omega
  · obtain ⟨z, hz⟩ := List.mem_iff_getElem?.mp ht
    obtain ⟨p, hi, k, _, g2, _, S⟩ := U.top hz
    have := S.sub t le_rfl g2
    rw [U.mainSub t (.inr ⟨h1, h2⟩)] at this
    cases this

theorem UnitFrag.subInlet {j t hi k : Nat} {p : Prg} (hj : (u.globals ++ u.locals)[j]? = some p) (S : SubFrag F tops j p t hi k) (hhi : hi ≤ last) :
    Inlet F tops (last + 1) none t k (t + 1) hi := by
  have hpos := U.pos
  refine ⟨by omega, by omega, by simp, fun y n hy hn h1 h2 => ?_, fun n hn h1 h2 => ?_, fun t' ht h1 h2 => ?_⟩
  · obtain ⟨_, hs⟩ := U.succ (by omega) hn
    rw [S.sub n (by omega) h2] at hs
    rcases U.cover y (by omega) with rfl | h | rfl | h | ⟨j', p', t', hi', k', hj', S', g1, g2⟩
    · rw [U.first] at hs; cases hs
    · rw [U.mainSub y (.inl h)] at hs; cases hs
    · rw [U.stop] at hs; cases hs
    · rw [U.mainSub y (.inr h)] at hs; cases hs
    · rw [S'.sub y g1 g2] at hs
      cases hs
      rw [hj] at hj'
      cases hj'
      have e := S.top.symm.trans S'.top
      cases e
      obtain ⟨rfl, rfl⟩ := S.frag.func S'.frag
      omega
  · rw [S.ret] at hn
    simp [succs, kids] at hn
  · obtain ⟨z, hz⟩ := List.mem_iff_getElem?.mp ht
    obtain ⟨p', hi', k', _, g2, _, S'⟩ := U.top hz
    have := S'.sub t' le_rfl g2
    rw [S.sub t' (by omega) h2] at this
    cases this
    have := S.top.symm.trans hz
    cases this
    omega

/-- The end of the algorithm follows no conditional. -/
theorem UnitFrag.noIf_last : NoIf F (last + 1) last := by
  have hpos := U.pos
  refine noIf_of fun y hy hn => ?_
  obtain ⟨_, hs⟩ := U.succ (by omega) hn
  rw [U.stop] at hs
  have main : y = n0 ∨ (lo ≤ y ∧ y < last) → ∀ q i u it e v et, (F y).act ≠ .ifElse q i u it e v et last := by
    intro h q i u' it e v et ha
    by_cases e : y = l
    · rw [e, U.mainEnd] at ha; cases ha
    · rcases U.main.next h e hn with h | h
      · omega
      · cases h.1
  rcases U.cover y (by omega) with rfl | h | rfl | h | ⟨j, p, t, hi, k, hj, S, g1, g2⟩
  · rw [U.first]; simp
  · exact main (.inl h)
  · rw [U.stop]; simp
  · exact main (.inr h)
  · rw [S.sub y g1 g2] at hs
    cases hs

/-- The start of the algorithm follows no conditional. -/
theorem UnitFrag.noIf_start : NoIf F (last + 1) n0 := by
  have hpos := U.pos
  refine noIf_of fun y hy hn => ?_
  obtain ⟨_, hs⟩ := U.succ (by omega) hn
  rw [U.mainSub n0 (.inl rfl)] at hs
  have main : y = n0 ∨ (lo ≤ y ∧ y < last) → ∀ q i u it e v et, (F y).act ≠ .ifElse q i u it e v et n0 := by
    intro h q i u' it e v et ha
    by_cases e : y = l
    · rw [e, U.mainEnd] at ha; cases ha
    · rcases U.main.next h e hn with h | h
      · omega
      · cases h.1
  rcases U.cover y (by omega) with rfl | h | rfl | h | ⟨j, p, t, hi, k, hj, S, g1, g2⟩
  · rw [U.first]; simp
  · exact main (.inl h)
  · rw [U.stop]; simp
  · exact main (.inr h)
  · rw [S.sub y g1 g2] at hs
    cases hs

end

section
variable {u : AlgUnit} {st : PSt} {last n0 l lo : Nat} (U : UnitFrag u st.blk st.tops last n0 l lo)
include U

/-- Where control comes from. -/
theorem walk_pred {x : Nat} (hx : x < last + 1) (h0 : 0 < x) (ht : x ∉ st.tops) (hw : Walked (st.cfg last) (Fin.ofNat (last + 1) x)) :
    ∃ y, y < last + 1 ∧ x ∈ succs (st.blk y).act ∧ ((∃ t r, (st.blk y).act = .call t r) ∨ Walked (st.cfg last) (Fin.ofNat (last + 1) y)) := by
  have O : Over st.blk (Fin.ofNat (last + 1)) (last + 1) (st.cfg last) := cfg_over
  generalize hb : Fin.ofNat (last + 1) x = b' at hw
  cases hw with
  | first =>
    have := O.inj x 0 hx (by omega) hb
    omega
  | @child b _ hb' hc =>
    obtain ⟨y, hy, rfl⟩ := fin_name b
    subst hb
    have name : ∀ m, m ≤ last → Fin.ofNat (last + 1) x = Fin.ofNat (last + 1) m → x = m := fun m hm h => O.inj x m hx (by omega) h
    have kid : ∀ m, m ∈ kids (st.blk y).act → m ≤ last := fun m hm => ((U.flow hy).1 m hm).1
    have act := O.act y (by omega)
    unfold Cfg.children at hc
    cases ha : (st.blk y).act with
    | stop => rw [act, ha] at hc; simp [Act.map] at hc
    | goto n =>
      rw [act, ha] at hc
      simp only [Act.map, List.mem_singleton] at hc
      rw [name n (kid n (by rw [ha]; simp [kids])) hc]
      exact ⟨y, by omega, by rw [ha]; simp [succs, kids], .inr hb'⟩
    | ifElse q i u' it e v et a =>
      rw [act, ha] at hc
      simp only [Act.map, List.mem_cons, List.not_mem_nil, or_false] at hc
      refine ⟨y, by omega, ?_, .inr hb'⟩
      rw [ha]
      rcases hc with h | h | h
      · rw [name i (kid i (by rw [ha]; simp [kids])) h]; simp [succs, kids]
      · rw [name e (kid e (by rw [ha]; simp [kids])) h]; simp [succs, kids]
      · rw [name a (kid a (by rw [ha]; simp [kids])) h]; simp [succs, kids]
    | switch q cs a =>
      rw [act, ha] at hc
      simp only [Act.map, List.mem_append, List.mem_map, List.mem_singleton] at hc
      refine ⟨y, by omega, ?_, .inr hb'⟩
      rw [ha]
      rcases hc with ⟨_, ⟨p, hp, rfl⟩, h⟩ | h
      · rw [name p.2 (kid p.2 (by rw [ha]; simp only [kids, List.mem_append, List.mem_map]; exact .inl ⟨p, hp, rfl⟩)) h.symm]
        simp only [succs, kids, List.mem_append, List.mem_map]
        exact .inl ⟨p, hp, rfl⟩
      · rw [name a (kid a (by rw [ha]; simp [kids])) h]; simp [succs, kids]
    | loop q i a =>
      rw [act, ha] at hc
      simp only [Act.map, List.mem_cons, List.not_mem_nil, or_false] at hc
      refine ⟨y, by omega, ?_, .inr hb'⟩
      rw [ha]
      rcases hc with h | h
      · rw [name i (kid i (by rw [ha]; simp [kids])) h]; simp [succs, kids]
      · rw [name a (kid a (by rw [ha]; simp [kids])) h]; simp [succs, kids]
    | wait q i a =>
      rw [act, ha] at hc
      simp only [Act.map, List.mem_cons, List.not_mem_nil, or_false] at hc
      refine ⟨y, by omega, ?_, .inr hb'⟩
      rw [ha]
      rcases hc with h | h
      · rw [name i (kid i (by rw [ha]; simp [kids])) h]; simp [succs, kids]
      · rw [name a (kid a (by rw [ha]; simp [kids])) h]; simp [succs, kids]
    | ret z =>
      rw [act, ha] at hc
      simp only [Act.map, List.mem_map] at hc
      obtain ⟨⟨i, r⟩, hi, hr⟩ := hc
      rw [cfg_ids] at hi
      unfold returnStates at hi
      rw [List.mem_filterMap] at hi
      obtain ⟨⟨b, n⟩, _, hm⟩ := hi
      obtain ⟨y', hy', rfl⟩ := fin_name b
      have act' := O.act y' (by omega)
      cases ha' : (st.blk y').act with
      | call t' r' =>
        simp only [act', ha', Act.map] at hm
        split_ifs at hm
        simp only [Option.some.injEq, Prod.mk.injEq] at hm
        have hr' := ((U.flow hy').2.2 t' r' ha').1
        have : x = r' := name r' hr' (by rw [← hr, ← hm.2])
        exact ⟨y', by omega, by rw [ha']; simp [succs, this], .inl ⟨t', r', ha'⟩⟩
      | _ => simp only [act', ha', Act.map] at hm; cases hm
    | call t r =>
      rw [act, ha] at hc
      simp only [Act.map, List.mem_singleton] at hc
      obtain ⟨_, _, _, z, hz, htl, _⟩ := (U.flow hy).2.2 t r ha
      rw [name t htl hc] at ht
      exact absurd (List.mem_of_getElem? hz) ht

/-- After a call control comes back. -/
theorem walk_call {ff0 : Fin (last + 1) → Fin (last + 1)} (hff0 : IsFF (st.cfg last) ff0) {b t r : Nat} (hb : b < last + 1)
    (ha : (st.blk b).act = .call t r) (hw : Walked (st.cfg last) (Fin.ofNat (last + 1) b)) : Walked (st.cfg last) (Fin.ofNat (last + 1) r) := by
  have O : Over st.blk (Fin.ofNat (last + 1)) (last + 1) (st.cfg last) := cfg_over
  have M : MoreStates (st.cfg last) (st.cfg last) := ⟨rfl, rfl, fun _ => rfl, fun _ h => h⟩
  obtain ⟨h1, h2, h3, z, h4, h5, h6, h7, h8⟩ := (U.flow (show b ≤ last by omega)).2.2 t r ha
  have act := O.call hb ha
  have hr : Reached (st.cfg last) ff0 (Fin.ofNat (last + 1) b) := hw.reached (fsm := 0) hff0 (fun _ => rfl) (by rw [act]; simp)
  obtain ⟨b', c1, c2, c3⟩ := sub_returns U M hff0 O z t h4 (hr.comesChild hff0 (by simp only [Cfg.children, act, List.mem_singleton]))
  obtain ⟨i, hi⟩ := cfg_returns M (by omega) ha h5 h6
  refine .child (c3.walked hff0) ?_
  simp only [Cfg.children, O.ret (show b' < last + 1 by omega) c2, List.mem_map]
  exact ⟨_, hi, rfl⟩

end

/-! ### The rule for conditionals -/

section
variable {B : Type} (F : Nat → PBlk) (f : Nat → B) (N : Nat) (g0 : Cfg B) (ff0 : B → B)

/-- Block `n` follows a conditional of which a side takes several cycles and comes to its end. -/
def Rule (n : Nat) : Prop := ∃ x q i u it e v et, x < N ∧ (F x).act = .ifElse q i u it e v et n ∧ (F it).act = .goto n ∧ (F et).act = .goto n ∧
  it < N ∧ et < N ∧ Reached g0 ff0 (f x) ∧ ((u = false ∧ Walked g0 (f it)) ∨ (v = false ∧ Walked g0 (f et)))

open Classical in
/-- The graph `g` in which such blocks are states too. -/
noncomputable def withRule (g : Cfg B) : Cfg B :=
  { g with blk := fun b => { g.blk b with isState := (g.blk b).isState || decide (∃ n, n < N ∧ b = f n ∧ Rule F f N g0 ff0 n) } }

end

section
variable {B : Type} {F : Nat → PBlk} {f : Nat → B} {N : Nat} {g g0 : Cfg B} {ff ff0 : B → B} {num : Num B}

theorem withRule_more : MoreStates g (withRule F f N g0 ff0 g) := ⟨rfl, rfl, fun _ => rfl, fun b h => by simp [withRule, h]⟩

theorem withRule_state (b : B) : ((withRule F f N g0 ff0 g).blk b).isState = true ↔
    (g.blk b).isState = true ∨ ∃ n, n < N ∧ b = f n ∧ Rule F f N g0 ff0 n := by
  simp [withRule]

variable (P : Promoted F f N g g0 ff ff0 num) (M : MoreStates g0 g) (hff0 : IsFF g0 ff0) (hf : ∀ b, (g0.blk b).fsm = 0)
include P

/-- Blocks that follow no conditional are states when they were made so. -/
theorem rule_plain {n : Nat} (hn : n < N) (hi : NoIf F N n) : ((withRule F f N g0 ff0 g).blk (f n)).isState = (F n).isState := by
  by_cases h : (F n).isState = true
  · rw [h, withRule_state]
    exact .inl (P.over.state n hn h)
  · have h' : (F n).isState = false := by simpa using h
    rw [h', Bool.eq_false_iff, ne_eq, withRule_state]
    rintro (hg | ⟨m, hm, e, x, q, i, u, it, e', v, et, hx, ha, _⟩)
    · rcases P.why n hn hg with e | ⟨x, q, i, u, it, e, v, et, hx, _, ha, _⟩
      · exact h e
      · exact hi x hx _ _ _ _ _ _ _ ha
    · have := P.over.inj n m hn hm e
      subst this
      exact hi x hx _ _ _ _ _ _ _ ha

include M hff0 hf

/-- The additional states make no difference. -/
theorem rule_harm (m : B) (h1 : ((withRule F f N g0 ff0 g).blk m).isState = true) (h2 : (g.blk m).isState = false) :
    (g.blk m).noSkip = false ∧ ∃ e, Relation.TransGen (SkipEdge g 0) m e ∧ (g.blk e).isState = true := by
  rw [withRule_state] at h1
  rcases h1 with h | ⟨n, hn, rfl, x, q, i, u, it, e, v, et, hx, ha, hit, het, hiN, heN, hr, hc⟩
  · rw [h2] at h; cases h
  · have key : ∀ y, y < N → (F y).act = .goto n → Walked g0 (f y) → ¬ Reached g0 ff0 (f y) →
        (g.blk (f n)).noSkip = false ∧ ∃ e, Relation.TransGen (SkipEdge g 0) (f n) e ∧ (g.blk e).isState = true := by
      intro y hy hact hw hnr
      rcases hw.cases hff0 hf with h | ⟨e, he, hes, _⟩
      · exact absurd h hnr
      · obtain ⟨d, hd, hde⟩ := Relation.TransGen.head'_iff.mp he
        have : d = f n := by
          have := hd.1.2
          rw [P.over0.goto hy hact] at this
          simpa using this.symm
        subst this
        have hsk := hd.2.2
        rcases Relation.reflTransGen_iff_eq_or_transGen.mp hde with h | h
        · rw [h] at hes
          rw [M.more _ hes] at h2
          cases h2
        · rw [M.skipEdge]
          exact ⟨by rw [M.blk]; exact hsk, e, h, M.more _ hes⟩
    obtain ⟨w1, w2, _⟩ := P.when x q i u it e v et n hx hr ha h2
    rcases hc with ⟨hu, hw⟩ | ⟨hu, hw⟩
    · exact key it hiN hit hw (w1.resolve_left (by rw [hu]; simp))
    · exact key et heN het hw (w2.resolve_left (by rw [hu]; simp))

omit M hf in
/-- What follows a conditional is a state when a side that comes to its end takes several cycles, or when it was made so. -/
theorem rule_if {c q i it e et a : Nat} {ts es tc ec kr : Bool} (hc : c < N) (haN : a < N) (hiN : it < N) (heN : et < N)
    (ha : (F c).act = .ifElse q i ts it e es et a) (hone : ∀ y, y < N → ∀ q i u it e v et, (F y).act = .ifElse q i u it e v et a → y = c)
    (hk : (F a).isState = kr) (hit : (F it).act = .goto a) (het : (F et).act = .goto a) (hr : Reached g0 ff0 (f c))
    (t1 : tc = true → Walked g0 (f it)) (t2 : tc = false → ¬ Walked g0 (f it)) (t3 : ts = true → Reached g0 ff0 (f it))
    (e1 : ec = true → Walked g0 (f et)) (e2 : ec = false → ¬ Walked g0 (f et)) (e3 : es = true → Reached g0 ff0 (f et))
    (hone' : tc = true ∨ ec = true) :
    ((withRule F f N g0 ff0 g).blk (f a)).isState = ((tc && !ts) || (ec && !es) || kr) := by
  subst hk
  by_cases h : ((tc && !ts) || (ec && !es) || (F a).isState) = true
  · rw [h, withRule_state]
    rw [Bool.or_eq_true, Bool.or_eq_true, Bool.and_eq_true, Bool.and_eq_true, Bool.not_eq_true', Bool.not_eq_true'] at h
    rcases h with (h | h) | h
    · exact .inr ⟨a, haN, rfl, c, q, i, ts, it, e, es, et, hc, ha, hit, het, hiN, heN, hr, .inl ⟨h.2, t1 h.1⟩⟩
    · exact .inr ⟨a, haN, rfl, c, q, i, ts, it, e, es, et, hc, ha, hit, het, hiN, heN, hr, .inr ⟨h.2, e1 h.1⟩⟩
    · exact .inl (P.over.state a haN h)
  · have h' : ((tc && !ts) || (ec && !es) || (F a).isState) = false := by simpa using h
    rw [h', Bool.eq_false_iff, ne_eq, withRule_state]
    rw [Bool.or_eq_false_iff, Bool.or_eq_false_iff, Bool.and_eq_false_iff, Bool.and_eq_false_iff, Bool.not_eq_false', Bool.not_eq_false'] at h'
    obtain ⟨⟨ht, he⟩, hs⟩ := h'
    have same : ∀ x q' i' u' it' e' v' et', x < N → (F x).act = .ifElse q' i' u' it' e' v' et' a → u' = ts ∧ it' = it ∧ v' = es ∧ et' = et := by
      intro x q' i' u' it' e' v' et' hx hact
      have := hone x hx _ _ _ _ _ _ _ hact
      subst this
      rw [ha] at hact
      cases hact
      exact ⟨rfl, rfl, rfl, rfl⟩
    rintro (hg | ⟨m, hm, e', x, q', i', u', it', e'', v', et', hx, hact, _, _, _, _, _, hw⟩)
    · rcases P.why a haN hg with h | ⟨x, q', i', u', it', e', v', et', hx, _, hact, hw⟩
      · rw [hs] at h; cases h
      · obtain ⟨rfl, rfl, rfl, rfl⟩ := same _ _ _ _ _ _ _ _ hx hact
        rcases hw with ⟨h1, h2⟩ | ⟨h1, h2⟩ | ⟨h1, h2⟩
        · exact t2 (ht.resolve_right (by rw [h2]; simp)) (h1.walked hff0)
        · exact e2 (he.resolve_right (by rw [h2]; simp)) (h1.walked hff0)
        · rcases hone' with h | h
          · exact h1 (t3 (ht.resolve_left (by rw [h]; simp)))
          · exact h2 (e3 (he.resolve_left (by rw [h]; simp)))
    · have := P.over.inj a m haN hm e'
      subst this
      obtain ⟨rfl, rfl, rfl, rfl⟩ := same _ _ _ _ _ _ _ _ hx hact
      rcases hw with ⟨h1, h2⟩ | ⟨h1, h2⟩
      · exact t2 (ht.resolve_right (by rw [h1]; simp)) h2
      · exact e2 (he.resolve_right (by rw [h1]; simp)) h2

end

end Silice
