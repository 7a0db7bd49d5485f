import Verif.Lemmas.GatherBuild

/-! The blocks of a whole unit. -/

set_option autoImplicit false

namespace Silice

/-- An earlier block may become a state. -/
theorem Frag.raise {F F' : Nat → PBlk} {tops : List Nat} {s : Option Nat} {p : Prg} {bt : Option Nat} {c : Nat} {pre : List PIns}
    {l lo hi t : Nat} (hI : ∀ n, (F' n).ins = (F n).ins) (hA : ∀ n, (F' n).act = (F n).act) (hN : ∀ n, (F' n).noSkip = (F n).noSkip)
    (hS : ∀ n, n ≠ t → (F' n).isState = (F n).isState) (hT : ∀ n, (F' n).isState = true → (F n).isState = true)
    (h : Frag F' tops s p bt c pre l lo hi) (ht : t < lo) : Frag F tops s p bt c pre l lo hi := by
  have hL : ∀ {i a b : Nat}, Local F' i a b → Local F i a b := by
    intro i a b h x n hx
    rw [← hA] at hx
    exact h x n hx
  induction h with
  | nil h => exact .nil (hI _ ▸ h)
  | instr _ ih => exact .instr (ih ht)
  | step h1 h2 h3 h4 _ ih => exact .step (hI _ ▸ h1) (hA _ ▸ h2) (hT _ h3) (hN _ ▸ h4) (ih (by omega))
  | block h1 h2 h3 f1 h4 h5 _ hz ih1 ih2 =>
    have := f1.range.1
    exact .block (hI _ ▸ h1) (hA _ ▸ h2) ((hS _ (by omega)).symm.trans h3) (ih1 (by omega)) (hA _ ▸ h4) ((hS _ (by omega)).symm.trans h5) (ih2 (by omega))
      ⟨hN _ ▸ hz.1, hN _ ▸ hz.2⟩
  | ifThen h1 h2 f1 h3 h4 h5 h6 h7 h8 h9 h10 _ hz ih1 ih2 =>
    have := f1.range.1
    exact .ifThen (hI _ ▸ h1) (hA _ ▸ h2) (ih1 (by omega)) (hA _ ▸ h3) ((hS _ (by omega)).symm.trans h4) (hL h5) (hI _ ▸ h6) (hA _ ▸ h7)
      ((hS _ (by omega)).symm.trans h8) (hL h9) ((hS _ (by omega)).symm.trans h10) (ih2 (by omega)) (hN _ ▸ hz)
  | ifElse h1 h2 f1 h3 h4 h5 f2 h6 h7 h8 h9 _ hz ih1 ih2 ih3 =>
    have := f1.range.1
    have := f2.range.1
    exact .ifElse (hI _ ▸ h1) (hA _ ▸ h2) (ih1 (by omega)) (hA _ ▸ h3) ((hS _ (by omega)).symm.trans h4) (hL h5) (ih2 (by omega)) (hA _ ▸ h6)
      ((hS _ (by omega)).symm.trans h7) (hL h8) ((hS _ (by omega)).symm.trans h9) (ih3 (by omega)) (hN _ ▸ hz)
  | loop h1 h2 h3 h4 h5 h6 f1 h7 _ hz ih1 ih2 =>
    have := f1.range.1
    exact .loop (hI _ ▸ h1) (hA _ ▸ h2) (hT _ h3) (hI _ ▸ h4) (hA _ ▸ h5) ((hS _ (by omega)).symm.trans h6) (ih1 (by omega)) (hA _ ▸ h7) (ih2 (by omega))
      ⟨hN _ ▸ hz.1, hN _ ▸ hz.2.1, (hS _ (by omega)).symm.trans hz.2.2⟩
  | brk h1 h2 h3 _ ih => exact .brk (hI _ ▸ h1) (hA _ ▸ h2) (hT _ h3) (ih (by omega))
  | @switch q cs k bt c pre l lo hi x es bb mm h1 h2 h3 h4 h5 h6 f1 h7 h8 h9 _ hz ih1 ih2 =>
    have hm := seq_le (bb := bb) (n := cs.length) (fun j hj => by
      obtain ⟨⟨v, p⟩, hg⟩ := get_of_lt hj
      exact (f1 j v p hg).range.1)
    have hb : ∀ j v p, cs[j]? = some (v, p) → lo + 1 ≤ bb j := fun j v p hg => by
      have := (hm j (Nat.le_of_lt (List.getElem?_eq_some_iff.mp hg).1)).1
      omega
    have hx : lo + 1 ≤ x := by
      have := (hm 0 (by omega)).2
      omega
    refine .switch (hI _ ▸ h1) (hA _ ▸ h2) h3 h4 h5 h6 (fun j v p hg => ih1 j v p hg (by have := hb j v p hg; omega))
      (fun j v p hg => ?_) (fun y hy => h8 y (by rw [hA]; exact hy)) ((hS _ (by omega)).symm.trans h9) (ih2 (by omega)) (hN _ ▸ hz)
    obtain ⟨g1, g2, g3⟩ := h7 j v p hg
    exact ⟨hA _ ▸ g1, (hS _ (by have := hb j v p hg; omega)).symm.trans g2, hL g3⟩
  | call h1 h2 h3 h4 _ hz ih => exact .call (hI _ ▸ h1) h2 (hA _ ▸ h3) (hT _ h4) (ih (by omega)) (hN _ ▸ hz)
  | join h1 h2 h3 h4 h5 h6 _ hz ih =>
    exact .join (hI _ ▸ h1) (hA _ ▸ h2) (hT _ h3) (hI _ ▸ h4) (hA _ ▸ h5) (hT _ h6) (ih (by omega)) ⟨hN _ ▸ hz.1, hN _ ▸ hz.2⟩
  | ret h1 h2 h3 h4 _ ih => exact .ret (hI _ ▸ h1) h2 (hA _ ▸ h3) (hT _ h4) (ih (by omega))

/-- Blocks `t` to `hi - 1` are those of subroutine `j`, with statements `p`. -/
structure SubFrag (F : Nat → PBlk) (tops : List Nat) (j : Nat) (p : Prg) (t hi l : Nat) : Prop where
  frag : Frag F (tops.take j) (some j) p none t [] l (t + 1) hi
  top : tops[j]? = some t
  ret : (F l).act = .ret j
  state : (F t).isState = true
  sub : ∀ n, t ≤ n → n < hi → (F n).sub = some j
  skip : (F t).noSkip = false

theorem subs_frag (ps : List Prg) : ∀ (c : Nat) (st st' : PSt), c < st.next → Own st → buildSubs c ps st = some st' →
    st.next ≤ st'.next ∧ Own st' ∧ (∀ n, n < st.next → st'.blk n = st.blk n) ∧
    (∀ x n, afterOf (st'.blk x).act = some n → n < st.next → afterOf (st.blk x).act = some n) ∧
    (∃ ts, st'.tops = st.tops ++ ts ∧ ts.length = ps.length) ∧
    ∀ (F : Nat → PBlk) (tops : List Nat), (∀ n, st.next ≤ n → n < st'.next → F n = st'.blk n) →
      (∀ x n, afterOf (F x).act = some n → st.next ≤ n → n < st'.next → afterOf (st'.blk x).act = some n) → st'.tops <+: tops →
      (∀ j p, ps[j]? = some p → ∃ t hi l, st.next ≤ t ∧ t < hi ∧ hi ≤ st'.next ∧ SubFrag F tops (st.tops.length + j) p t hi l) ∧
      (∀ n, st.next ≤ n → n < st'.next →
        ∃ j p t hi l, ps[j]? = some p ∧ SubFrag F tops (st.tops.length + j) p t hi l ∧ t ≤ n ∧ n < hi) := by
  induction ps with
  | nil =>
    intro c st st' _ ho h
    rw [buildSubs] at h
    cases h
    exact ⟨le_rfl, ho, fun _ _ => rfl, fun _ _ h _ => h, ⟨[], by simp, rfl⟩, fun F tops _ _ _ => ⟨by simp, fun n h1 h2 => by omega⟩⟩
  | cons p ps ih =>
    intro c st st' hc ho h
    rw [buildSubs] at h
    obtain ⟨⟨l, st2⟩, h1, h2⟩ := Option.bind_eq_some_iff.mp h
    simp only at h2
    -- the entry block
    generalize hst1 : ({ st.add c with
      blk := upd (st.add c).blk st.next { (st.add c).blk st.next with sub := some st.tops.length } } : PSt) = st1 at h1
    have n1 : st1.next = st.next + 1 := by rw [← hst1]; rfl
    have t1 : st1.tops = st.tops := by rw [← hst1]; rfl
    have e1 : st1.blk st.next = { sub := some st.tops.length } := by
      rw [← hst1]
      show upd _ _ _ _ = _
      rw [upd, if_pos rfl, PSt.add_blk, if_pos rfl]
    have e2 : ∀ n, n ≠ st.next → st1.blk n = st.blk n := by
      intro n hn
      rw [← hst1]
      show upd _ _ _ _ = _
      rw [upd, if_neg hn, PSt.add_blk, if_neg hn]
    have a1 : ∀ x n, afterOf (st1.blk x).act = some n → afterOf (st.blk x).act = some n := by
      intro x n hx
      by_cases e : x = st.next
      · rw [e, e1] at hx; cases hx
      · rw [e2 x e] at hx; exact hx
    have ho1 : Own st1 := by
      refine ⟨fun x a hx => ?_, fun x y a hx hy => ho.uniq x y a (a1 x a hx) (a1 y a hy)⟩
      have := ho.bound x a (a1 x a hx)
      omega
    clear hst1
    have hp1 : Pre none st.next st1 := ⟨by omega, by simp, ho1⟩
    have B := built_all p none st.next st1 l st2 hp1 h1
    have hle := B.grew.le
    have hcur := B.cur
    have hlt := B.lt
    have ho2 := B.grew.own ho1
    generalize hst3 : ({ (st2.setAct l (.ret st.tops.length)).setState st.next with
      tops := ((st2.setAct l (.ret st.tops.length)).setState st.next).tops ++ [st.next] } : PSt) = st3 at h2
    have n3 : st3.next = st2.next := by rw [← hst3]; rfl
    have t3 : st3.tops = st.tops ++ [st.next] := by
      rw [← hst3]
      show st2.tops ++ _ = _
      rw [B.grew.tops, t1]
    have b3 : ∀ n, st3.blk n = ((st2.setAct l (.ret st.tops.length)).setState st.next).blk n := by
      intro n; rw [← hst3]
    clear hst3
    have a3 : ∀ x n, afterOf (st3.blk x).act = some n → afterOf (st2.blk x).act = some n := by
      intro x n hx
      rw [b3, after_setState] at hx
      rcases after_setAct hx with ⟨_, e⟩ | ⟨_, e⟩
      · cases e
      · exact e
    have ho3 : Own st3 := by
      refine ⟨fun x a hx => ?_, fun x y a hx hy => ho2.uniq x y a (a3 x a hx) (a3 y a hy)⟩
      have := ho2.bound x a (a3 x a hx)
      omega
    obtain ⟨i1, i2, i3, i4, ⟨ts, i5, i5'⟩, i6⟩ := ih c st3 st' (by omega) ho3 h2
    have k3 : ∀ n, n < st.next → st3.blk n = st.blk n := by
      intro n hn
      rw [b3, PSt.setState_blk, if_neg (by omega), PSt.setAct_blk, if_neg (by omega), B.grew.frame n (by omega) (by omega) (by simp),
        e2 n (by omega)]
    refine ⟨by omega, i2, ?_, ?_, ⟨st.next :: ts, by rw [i5, t3]; simp, by simp [i5']⟩, ?_⟩
    · intro n hn
      rw [i3 n (by omega), k3 n hn]
    · intro x n hx hn
      have h3 := a3 x n (i4 x n hx (by omega))
      rcases B.grew.old x n h3 with e | e
      · exact a1 x n e
      · omega
    · intro F tops hF hold hpre
      have hF3 : ∀ n, st.next ≤ n → n < st2.next → F n = st3.blk n := by
        intro n h1 h2
        rw [hF n h1 (by omega), i3 n (by omega)]
      have htop : tops[st.tops.length]? = some st.next := by
        obtain ⟨r, hr⟩ := hpre
        rw [← hr, i5, t3]
        simp
      have htake : tops.take st.tops.length = st.tops := by
        obtain ⟨r, hr⟩ := hpre
        rw [← hr, i5, t3]
        simp [List.append_assoc]
      have sf : SubFrag F tops (st.tops.length + 0) p st.next st2.next l := by
        rw [Nat.add_zero]
        let G : Nat → PBlk := fun n => if st.next ≤ n ∧ n < st2.next then { F n with isState := (st2.blk n).isState } else F n
        have hG : ∀ n, st.next ≤ n → n < st2.next → G n = { F n with isState := (st2.blk n).isState } := fun n m1 m2 => if_pos ⟨m1, m2⟩
        have hGi : ∀ n, (G n).ins = (F n).ins := fun n => by simp only [G]; split_ifs <;> rfl
        have hGa : ∀ n, (G n).act = (F n).act := fun n => by simp only [G]; split_ifs <;> rfl
        have hGn : ∀ n, (G n).noSkip = (F n).noSkip := fun n => by simp only [G]; split_ifs <;> rfl
        have hst : ∀ n, n ≠ st.next → (st3.blk n).isState = (st2.blk n).isState := by
          intro n hn
          rw [b3, PSt.setState_blk, if_neg hn, PSt.setAct_blk]
          split_ifs with e
          · rw [e]
          · rfl
        have hst' : (st3.blk st.next).isState = true := by rw [b3, PSt.setState_blk, if_pos rfl]
        have E : Ext none st.next st1 l st2 G := by
          refine ⟨fun n m1 m2 m3 => ?_, ?_, fun x n hx m1 m2 => ?_, by simp⟩
          · rw [hG n (by omega) m2, hF3 n (by omega) m2, b3, PSt.setState_blk]
            split_ifs with e
            · subst e
              rw [PSt.setAct_blk, if_neg m3]
            · rw [PSt.setAct_blk, if_neg m3]
          · rw [hG l (by omega) hlt, hF3 l (by omega) hlt, b3, PSt.setState_blk]
            split_ifs with e
            · subst e
              rw [PSt.setAct_blk, if_pos rfl]
            · rw [PSt.setAct_blk, if_pos rfl]
          · rw [hGa] at hx
            have h3 := hold x n hx (by omega) (by omega)
            exact a3 x n (i4 x n h3 (by omega))
        have f := frag_all p none st.next st1 l st2 _ hp1 h1 E
        rw [e1, t1] at f
        refine ⟨?_, htop, ?_, ?_, ?_, ?_⟩
        · rw [htake, ← n1]
          refine f.raise (t := st.next) hGi hGa hGn (fun n hn => ?_) (fun n hn => ?_) (by omega)
          · by_cases e : st.next ≤ n ∧ n < st2.next
            · rw [hG n e.1 e.2, hF3 n e.1 e.2]
              exact (hst n hn).symm
            · simp only [G, if_neg e]
          · by_cases e : st.next ≤ n ∧ n < st2.next
            · rw [hG n e.1 e.2] at hn
              rw [hF3 n e.1 e.2]
              by_cases e' : n = st.next
              · rw [e', hst']
              · rw [hst n e']; exact hn
            · simpa only [G, if_neg e] using hn
        · rw [hF3 l (by omega) hlt, b3, PSt.setState_blk]
          split_ifs with e
          · subst e
            rw [PSt.setAct_blk, if_pos rfl]
          · rw [PSt.setAct_blk, if_pos rfl]
        · rw [hF3 _ le_rfl (by omega), b3, PSt.setState_blk, if_pos rfl]
        · intro n h1 h2
          rw [hF3 n h1 h2, b3]
          have hs2 : (st2.blk n).sub = some st.tops.length := by
            by_cases e : n = st.next
            · rw [e, B.grew.sub _ (by omega), e1]
            · have := B.grew.subN n (by omega) h2
              rw [this, e1]
          simp only [PSt.setState_blk, PSt.setAct_blk]
          split_ifs <;> (subst_vars; exact hs2)
        · have hs2 : (st2.blk st.next).noSkip = false := by rw [B.grew.noSkip _ (by omega), e1]
          rw [hF3 _ le_rfl (by omega), b3, PSt.setState_blk, if_pos rfl]
          show ((st2.setAct l (.ret st.tops.length)).blk st.next).noSkip = false
          by_cases e : st.next = l
          · rw [e, PSt.setAct_blk, if_pos rfl, ← e]; exact hs2
          · rw [PSt.setAct_blk, if_neg e]; exact hs2
      obtain ⟨j1, j2⟩ := i6 F tops (fun n h1 h2 => hF n (by omega) h2) (fun x n hx h1 h2 => hold x n hx (by omega) h2) hpre
      rw [t3, List.length_append, List.length_singleton] at j1 j2
      constructor
      · intro j p' hj
        cases j with
        | zero =>
          simp at hj
          subst hj
          exact ⟨st.next, st2.next, l, le_rfl, by omega, by omega, sf⟩
        | succ j =>
          simp at hj
          obtain ⟨t, hi, l', m1, m2, m3, m4⟩ := j1 j p' hj
          exact ⟨t, hi, l', by omega, m2, m3, by rw [show st.tops.length + (j + 1) = st.tops.length + 1 + j by omega]; exact m4⟩
      · intro n m1 m2
        by_cases e : n < st2.next
        · exact ⟨0, p, st.next, st2.next, l, rfl, sf, m1, e⟩
        · obtain ⟨j, p', t, hi, l', m3, m4, m5⟩ := j2 n (by omega) m2
          exact ⟨j + 1, p', t, hi, l', by simpa using m3,
            by rw [show st.tops.length + (j + 1) = st.tops.length + 1 + j by omega]; exact m4, m5⟩

/-- The blocks `F` of unit `u`, up to block `last`: block 0 goes to `n0`, where the algorithm starts; it ends in `l` and its other blocks are `lo`
to `last - 1`. -/
structure UnitFrag (u : AlgUnit) (F : Nat → PBlk) (tops : List Nat) (last n0 l lo : Nat) : Prop where
  first : F 0 = { isState := true, act := .goto n0 }
  pos : 0 < n0 ∧ n0 < lo ∧ lo ≤ last
  main : Frag F tops none u.main none n0 [] l lo last
  start : (F n0).isState = u.main.endsAtRet
  mainEnd : (F l).act = .goto last
  mainSub : ∀ n, n = n0 ∨ (lo ≤ n ∧ n < last) → (F n).sub = none
  stop : F last = {}
  len : tops.length = (u.globals ++ u.locals).length
  subs : ∀ j p, (u.globals ++ u.locals)[j]? = some p → ∃ t hi k, 0 < t ∧ t < hi ∧ hi ≤ lo ∧ SubFrag F tops j p t hi k
  cover : ∀ n, n ≤ last → n = 0 ∨ n = n0 ∨ n = last ∨ (lo ≤ n ∧ n < last) ∨
    ∃ j p t hi k, (u.globals ++ u.locals)[j]? = some p ∧ SubFrag F tops j p t hi k ∧ t ≤ n ∧ n < hi

theorem unit_frag {u : AlgUnit} {last : Nat} {st : PSt} (h : buildUnit u = some (last, st)) :
    ∃ n0 l lo, UnitFrag u st.blk st.tops last n0 l lo := by
  rw [buildUnit] at h
  obtain ⟨st1, h1, h⟩ := Option.bind_eq_some_iff.mp h
  obtain ⟨st2, h2, h⟩ := Option.bind_eq_some_iff.mp h
  obtain ⟨⟨l, st3⟩, h3, h⟩ := Option.map_eq_some_iff.mp h
  simp only [Prod.mk.injEq] at h
  obtain ⟨rfl, hst⟩ := h
  generalize hst0 : (({} : PSt).add 0).setState 0 = st0 at h1
  have n0 : st0.next = 1 := by rw [← hst0]; rfl
  have t0 : st0.tops = [] := by rw [← hst0]; rfl
  have e0 : st0.blk 0 = { isState := true } := by rw [← hst0]; rfl
  have a0 : ∀ x a, afterOf (st0.blk x).act ≠ some a := by
    intro x a
    rw [← hst0, after_setState]
    intro e
    have := after_add e
    cases this
  have o0 : Own st0 := ⟨fun x a hx => absurd hx (a0 x a), fun x y a hx => absurd hx (a0 x a)⟩
  clear hst0
  obtain ⟨i1, i2, i3, i4, ⟨ts, i5, i5'⟩, i6⟩ := subs_frag u.globals 0 st0 st1 (by omega) o0 h1
  rw [t0, List.nil_append] at i5
  have i5 : st1.tops = ts := i5
  generalize hst1 : (st1.add 0).setAct 0 (.goto st1.next) = st1' at h2
  have n1 : st1'.next = st1.next + 1 := by rw [← hst1]; rfl
  have t1 : st1'.tops = st1.tops := by rw [← hst1]; rfl
  have e1 : ∀ n, st1'.blk n = if n = 0 then { st1.blk 0 with act := .goto st1.next } else if n = st1.next then { } else st1.blk n := by
    intro n
    rw [← hst1, PSt.setAct_blk, PSt.add_blk, PSt.add_blk]
    have : (st1.blk 0).sub = none := by rw [i3 0 (by omega), e0]
    split_ifs <;> first | rfl | omega | (rw [this])
  have a1 : ∀ x a, afterOf (st1'.blk x).act = some a → afterOf (st1.blk x).act = some a := by
    intro x a hx
    rw [← hst1] at hx
    exact after_add (after_goto hx)
  have o1 : Own st1' := ⟨fun x a hx => by have := i2.bound x a (a1 x a hx); omega,
    fun x y a hx hy => i2.uniq x y a (a1 x a hx) (a1 y a hy)⟩
  clear hst1
  obtain ⟨j1, j2, j3, j4, ⟨ts', j5, j5'⟩, j6⟩ := subs_frag u.locals st1.next st1' st2 (by omega) o1 h2
  have hp : Pre none st1.next st2 := ⟨by omega, by simp, j2⟩
  have B := built_all u.main none st1.next st2 l st3 hp h3
  have hle := B.grew.le
  have hcur := B.cur
  have hlt := B.lt
  have n2 : st2.blk st1.next = {} := by
    rw [j3 _ (by omega), e1, if_neg (by omega), if_pos rfl]
  have hF : ∀ n, n ≠ l → n ≠ st3.next → st.blk n = st3.blk n := by
    intro n g1 g2
    rw [← hst, PSt.setAct_blk, if_neg g1, PSt.add_blk, if_neg g2]
  have hFl : st.blk l = { st3.blk l with act := .goto st3.next } := by
    rw [← hst, PSt.setAct_blk, if_pos rfl, PSt.add_blk, if_neg (by omega)]
  have haf : ∀ x a, afterOf (st.blk x).act = some a → afterOf (st3.blk x).act = some a := by
    intro x a hx
    rw [← hst] at hx
    exact after_add (after_goto hx)
  have htops : st.tops = st2.tops := by rw [← hst]; exact B.grew.tops
  have h00 : st.blk 0 = { isState := true, act := .goto st1.next } := by
    rw [hF 0 (by omega) (by omega), B.grew.frame 0 (by omega) (by omega) (by simp), j3 0 (by omega), e1, if_pos rfl, i3 0 (by omega), e0]
  have hlast : st.blk st3.next = {} := by
    rw [← hst, PSt.setAct_blk, if_neg (by omega), PSt.add_blk, if_pos rfl, B.grew.frame 0 (by omega) (by omega) (by simp), j3 0 (by omega),
      e1, if_pos rfl, i3 0 (by omega), e0]
  have E : Ext none st1.next st2 l st3 st.blk :=
    ⟨fun n _ g2 g3 => hF n g3 (by omega), by rw [hFl], fun x n hx _ _ => haf x n hx, by simp⟩
  have f := frag_all u.main none st1.next st2 l st3 _ hp h3 E
  rw [n2] at f
  have hF2 : ∀ n, n < st2.next → n ≠ st1.next → st.blk n = st2.blk n := by
    intro n g1 g2
    rw [hF n (by omega) (by omega), B.grew.frame n (by omega) g2 (by simp)]
  have haf2 : ∀ x a, afterOf (st.blk x).act = some a → a < st2.next → afterOf (st2.blk x).act = some a := by
    intro x a hx ha
    rcases B.grew.old x a (haf x a hx) with e | e
    · exact e
    · omega
  have G := i6 st.blk st.tops
    (fun n g1 g2 => by rw [hF2 n (by omega) (by omega), j3 n (by omega), e1, if_neg (by omega), if_neg (by omega)])
    (fun x n hx g1 g2 => a1 x n (j4 x n (haf2 x n hx (by omega)) (by omega)))
    ⟨ts', by rw [htops, j5, t1]⟩
  have L := j6 st.blk st.tops (fun n g1 g2 => hF2 n g2 (by omega)) (fun x n hx g1 g2 => haf2 x n hx g2) ⟨[], by rw [htops]; simp⟩
  rw [t0, List.length_nil] at G
  simp only [Nat.zero_add] at G
  rw [t1, i5, i5'] at L
  refine ⟨st1.next, l, st2.next, h00, ⟨by omega, by omega, hle⟩, by rw [htops]; exact f, ?_, by rw [hFl], ?_, hlast, ?_, ?_, ?_⟩
  · have hfl := B.flag
    rw [n2, Bool.false_or] at hfl
    by_cases e : st1.next = l
    · rw [e, hFl, ← e]; exact hfl
    · rw [hF _ e (by omega)]; exact hfl
  · intro n hn
    have : (st3.blk n).sub = none := by
      rcases hn with rfl | ⟨g1, g2⟩
      · rw [B.grew.sub _ (by omega), n2]
      · rw [B.grew.subN n g1 g2, n2]
    by_cases e : n = l
    · subst e
      rw [hFl]
      exact this
    · rw [hF n e (by omega), this]
  · rw [htops, j5, t1, i5]
    simp [i5', j5']
  · intro j p hj
    by_cases e : j < u.globals.length
    · rw [List.getElem?_append_left e] at hj
      obtain ⟨t, hi, k, g1, g2, g3, g4⟩ := G.1 j p hj
      exact ⟨t, hi, k, by omega, g2, by omega, g4⟩
    · rw [List.getElem?_append_right (by omega)] at hj
      obtain ⟨t, hi, k, g1, g2, g3, g4⟩ := L.1 _ p hj
      rw [show u.globals.length + (j - u.globals.length) = j by omega] at g4
      exact ⟨t, hi, k, by omega, g2, by omega, g4⟩
  · intro n hn
    by_cases c1 : n = 0
    · exact .inl c1
    by_cases c2 : n = st1.next
    · exact .inr (.inl c2)
    by_cases c3 : n = st3.next
    · exact .inr (.inr (.inl c3))
    by_cases c4 : st2.next ≤ n
    · exact .inr (.inr (.inr (.inl ⟨c4, by omega⟩)))
    refine .inr (.inr (.inr (.inr ?_)))
    by_cases c5 : n < st1.next
    · obtain ⟨j, p, t, hi, k, g1, g2, g3⟩ := G.2 n (by omega) c5
      exact ⟨j, p, t, hi, k, by rw [List.getElem?_append_left (List.getElem?_eq_some_iff.mp g1).1]; exact g1, g2, g3⟩
    · obtain ⟨j, p, t, hi, k, g1, g2, g3⟩ := L.2 n (by omega) (by omega)
      refine ⟨u.globals.length + j, p, t, hi, k, ?_, g2, g3⟩
      rw [List.getElem?_append_right (by omega)]
      simpa using g1

end Silice
