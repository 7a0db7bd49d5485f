import Verif.Lemmas.GatherFlags
import Verif.Lemmas.Access
import Verif.Model.AccessUnit

/-! Blocks that come from statements: each block that is not a state follows a block that all paths within the cycle go through. -/

set_option autoImplicit false

namespace Silice

theorem kids_succs {a : Act Nat} {n : Nat} (h : n ∈ kids a) : n ∈ succs a := by
  rcases succs_call a with ⟨t, r, rfl, _⟩ | ⟨_, e⟩
  · simp [kids] at h
  · rwa [e]

section
variable {F : Nat → PBlk} {tops tops' : List Nat} {s : Option Nat} {p : Prg} {bt : Option Nat} {c : Nat} {pre : List PIns} {l lo hi : Nat} {N : Nat}

theorem casesBreaks_mem {cs : List (Option Nat × Prg)} (h : casesBreaks cs = false) : ∀ x ∈ cs, x.2.breaks = false := by
  induction cs with
  | nil => simp
  | cons a cs ih =>
    obtain ⟨v, p⟩ := a
    rw [casesBreaks, Bool.or_eq_false_iff] at h
    intro x hx
    rcases List.mem_cons.mp hx with rfl | hx
    · exact h.1
    · exact ih h.2 x hx

/-- Statements without `break` do not depend on where it goes. -/
theorem Frag.noBrk (h : Frag F tops s p bt c pre l lo hi) (hb : p.breaks = false) : Frag F tops s p none c pre l lo hi := by
  induction h with
  | nil h1 => exact .nil h1
  | instr _ ih => exact .instr (ih (by rw [Prg.breaks] at hb; exact hb))
  | step h1 h2 h3 h4 _ ih => exact .step h1 h2 h3 h4 (ih (by rw [Prg.breaks] at hb; exact hb))
  | block h1 h2 h3 _ h4 h5 _ h6 ih1 ih2 =>
    rw [Prg.breaks, Bool.or_eq_false_iff] at hb
    exact .block h1 h2 h3 (ih1 hb.1) h4 h5 (ih2 hb.2) h6
  | ifThen h1 h2 _ h3 h4 h5 h6 h7 h8 h9 h10 _ h11 ih1 ih2 =>
    rw [Prg.breaks, Bool.or_eq_false_iff] at hb
    exact .ifThen h1 h2 (ih1 (by simp [Prg.breaks, hb.1])) h3 h4 h5 h6 h7 h8 h9 h10 (ih2 hb.2) h11
  | ifElse h1 h2 _ h3 h4 h5 _ h6 h7 h8 h9 _ h10 ih1 ih2 ih3 =>
    rw [Prg.breaks, Bool.or_eq_false_iff, Bool.or_eq_false_iff] at hb
    exact .ifElse h1 h2 (ih1 (by simp [Prg.breaks, hb.1])) h3 h4 h5 (ih2 (by simp [Prg.breaks, hb.1])) h6 h7 h8 h9 (ih3 hb.2) h10
  | loop h1 h2 h3 h4 h5 h6 f1 h7 _ h8 _ ih2 => exact .loop h1 h2 h3 h4 h5 h6 f1 h7 (ih2 (by rw [Prg.breaks] at hb; exact hb)) h8
  | brk => simp [Prg.breaks] at hb
  | @switch q cs k bt c pre l lo hi x es bb mm h1 ha h3 h4 h5 h6 f1 h7 h8 h9 f2 hz ih1 ih2 =>
    rw [Prg.breaks, Bool.or_eq_false_iff] at hb
    exact .switch h1 ha h3 h4 h5 h6 (fun j v p hg => ih1 j v p hg (by
      have := casesBreaks_mem hb.1 _ (List.mem_of_getElem? hg)
      simp [Prg.breaks, this])) h7 h8 h9 (ih2 hb.2) hz
  | call h1 h2 h3 h4 _ h5 ih => exact .call h1 h2 h3 h4 (ih (by rw [Prg.breaks] at hb; exact hb)) h5
  | join h1 h2 h3 h4 h5 h6 _ h7 ih => exact .join h1 h2 h3 h4 h5 h6 (ih (by rw [Prg.breaks] at hb; exact hb)) h7
  | ret h1 h2 h3 h4 _ ih => exact .ret h1 h2 h3 h4 (ih (by rw [Prg.breaks] at hb; exact hb))

/-- The statements after a `break` or `return`. -/
theorem Inlet.skip {k : Prg} (I : Inlet F tops N bt c l lo hi) (hc : ∀ n, n ∈ succs (F c).act → lo ≤ n → n < hi → False)
    (f : Frag F tops' s k bt lo [] l (lo + 1) hi) : Inlet F tops N bt lo l (lo + 1) hi ∧ ∀ y, y < N → lo ∉ succs (F y).act := by
  have r := f.range
  refine ⟨⟨by omega, I.le, fun b hb => by have := I.brk b hb; omega, fun y n hy hn h1 h2 => ?_, fun n hn h1 h2 => I.out n hn (by omega) h2,
    fun t ht h1 h2 => I.top t ht (by omega) h2⟩, fun y hy hn => ?_⟩
  · rcases I.pred y n hy hn (by omega) h2 with e | e
    · exact (hc n (e ▸ hn) (by omega) h2).elim
    · omega
  · rcases I.pred y lo hy hn le_rfl (by omega) with e | e
    · exact hc lo (e ▸ hn) le_rfl (by omega)
    · by_cases e2 : y = l
      · exact I.out lo (e2 ▸ hn) le_rfl (by omega)
      · have := f.near (lo0 := lo) I.brk (by omega) e2 hn le_rfl
        omega

end

/-- Where control goes: to blocks up to `last`, and by calls from states to states. -/
structure FlowsIn (st : PSt) (last : Nat) : Prop where
  kid : ∀ y, y ≤ last → ∀ n ∈ kids (st.blk y).act, n ≤ last
  call : ∀ y, y ≤ last → ∀ t r, (st.blk y).act = .call t r →
    r ≤ last ∧ (st.blk r).isState = true ∧ t ≤ last ∧ (st.blk t).isState = true

theorem UnitFrag.flowsIn {u : AlgUnit} {st : PSt} {last n0 l0 lo0 : Nat} (U : UnitFrag u st.blk st.tops last n0 l0 lo0) : FlowsIn st last :=
  ⟨fun _ hy n hn => ((U.flow hy).1 n hn).1, fun y hy t r ha => by
    obtain ⟨h1, h2, _, z, _, h3, _, h4, _⟩ := (U.flow hy).2.2 t r ha
    exact ⟨h1, h2, h3, h4⟩⟩

section
variable {st : PSt} {last : Nat} (W : FlowsIn st last)
  {g : Cfg (Fin (last + 1))} {ff ff0 : Fin (last + 1) → Fin (last + 1)} {num : Num (Fin (last + 1))}
  (M : MoreStates (st.cfg last) g)
  (P : Promoted st.blk (Fin.ofNat (last + 1)) (last + 1) g (st.cfg last) ff ff0 num)
  {acc : Fin (last + 1) → List (List String × List String)} {h : Fin (last + 1)}

include W M in
/-- Blocks that are not states are entered from the blocks before them. -/
theorem child_kids {y n : Nat} (hy : y ≤ last) (hn : n ≤ last) (hc : Fin.ofNat (last + 1) n ∈ g.children (Fin.ofNat (last + 1) y))
    (hs : (g.blk (Fin.ofNat (last + 1) n)).isState = false) : n ∈ kids (st.blk y).act := by
  have O : Over st.blk (Fin.ofNat (last + 1)) (last + 1) (st.cfg last) := cfg_over
  have name : ∀ m, m ≤ last → Fin.ofNat (last + 1) n = Fin.ofNat (last + 1) m → n = m := fun m hm h => O.inj n m (by omega) (by omega) h
  have kid : ∀ m, m ∈ kids (st.blk y).act → m ≤ last := fun m hm => W.kid y hy m hm
  have act : (g.blk (Fin.ofNat (last + 1) y)).act = (st.blk y).act.map (Fin.ofNat (last + 1)) := by rw [M.act]; exact O.act y (by omega)
  unfold Cfg.children at hc
  cases ha : (st.blk y).act with
  | stop => rw [act, ha] at hc; simp [Act.map] at hc
  | goto m =>
    rw [act, ha] at hc
    simp only [Act.map, List.mem_singleton] at hc
    rw [name m (kid m (by rw [ha]; simp [kids])) hc]
    simp [kids]
  | ifElse q i u' it e v et a =>
    rw [act, ha] at hc
    simp only [Act.map, List.mem_cons, List.not_mem_nil, or_false] at hc
    rcases hc with h | h | h
    · rw [name i (kid i (by rw [ha]; simp [kids])) h]; simp [kids]
    · rw [name e (kid e (by rw [ha]; simp [kids])) h]; simp [kids]
    · rw [name a (kid a (by rw [ha]; simp [kids])) h]; simp [kids]
  | switch q cs a =>
    rw [act, ha] at hc
    simp only [Act.map, List.mem_append, List.mem_map, List.mem_singleton] at hc
    rcases hc with ⟨_, ⟨p, hp, rfl⟩, h⟩ | h
    · rw [name p.2 (kid p.2 (by rw [ha]; simp only [kids, List.mem_append, List.mem_map]; exact .inl ⟨p, hp, rfl⟩)) h.symm]
      simp only [kids, List.mem_append, List.mem_map]
      exact .inl ⟨p, hp, rfl⟩
    · rw [name a (kid a (by rw [ha]; simp [kids])) h]; simp [kids]
  | loop q i a =>
    rw [act, ha] at hc
    simp only [Act.map, List.mem_cons, List.not_mem_nil, or_false] at hc
    rcases hc with h | h
    · rw [name i (kid i (by rw [ha]; simp [kids])) h]; simp [kids]
    · rw [name a (kid a (by rw [ha]; simp [kids])) h]; simp [kids]
  | wait q i a =>
    rw [act, ha] at hc
    simp only [Act.map, List.mem_cons, List.not_mem_nil, or_false] at hc
    rcases hc with h | h
    · rw [name i (kid i (by rw [ha]; simp [kids])) h]; simp [kids]
    · rw [name a (kid a (by rw [ha]; simp [kids])) h]; simp [kids]
  | ret z =>
    rw [act, ha] at hc
    simp only [Act.map, List.mem_map] at hc
    obtain ⟨⟨i, r⟩, hi, hr⟩ := hc
    rw [M.returns, cfg_ids] at hi
    unfold returnStates at hi
    rw [List.mem_filterMap] at hi
    obtain ⟨⟨b, k⟩, _, hm⟩ := hi
    obtain ⟨y', hy', rfl⟩ := fin_name b
    have act' := O.act y' (by omega)
    cases ha' : (st.blk y').act with
    | call t' r' =>
      simp only [act', ha', Act.map] at hm
      split_ifs at hm
      simp only [Option.some.injEq, Prod.mk.injEq] at hm
      obtain ⟨hr', hst, _⟩ := W.call y' hy' t' r' ha'
      have : n = r' := name r' hr' (by rw [← hr, ← hm.2])
      subst this
      rw [M.more _ (O.state n (by omega) hst)] at hs
      cases hs
    | _ => simp only [act', ha', Act.map] at hm; cases hm
  | call t r =>
    rw [act, ha] at hc
    simp only [Act.map, List.mem_singleton] at hc
    obtain ⟨_, _, htl, hst⟩ := W.call y hy t r ha
    have := name t htl hc
    subst this
    rw [M.more _ (O.state n (by omega) hst)] at hs
    cases hs

include M in
theorem kids_child {y n : Nat} (hy : y ≤ last) (hn : n ∈ kids (st.blk y).act) :
    Fin.ofNat (last + 1) n ∈ g.children (Fin.ofNat (last + 1) y) := by
  have O : Over st.blk (Fin.ofNat (last + 1)) (last + 1) (st.cfg last) := cfg_over
  have act : (g.blk (Fin.ofNat (last + 1) y)).act = (st.blk y).act.map (Fin.ofNat (last + 1)) := by rw [M.act]; exact O.act y (by omega)
  unfold Cfg.children
  rw [act]
  cases ha : (st.blk y).act with
  | switch q cs a =>
    rw [ha] at hn
    simp only [kids, List.mem_append, List.mem_map, List.mem_singleton] at hn
    simp only [Act.map, List.mem_append, List.mem_map, List.mem_singleton]
    rcases hn with ⟨p, hp, rfl⟩ | rfl
    · exact .inl ⟨_, ⟨p, hp, rfl⟩, rfl⟩
    · exact .inr rfl
  | _ =>
    rw [ha] at hn
    simp only [kids, List.mem_cons, List.not_mem_nil, or_false] at hn
    try simp only [Act.map, List.mem_cons, List.not_mem_nil, or_false]
    try tauto

/-- The blocks entered on a walk are reached. -/
theorem walk_reached (hr : Reached g ff h) {l : List (Fin (last + 1))} {b : Fin (last + 1)} (hw : Walk (accGraph acc g) h l b) :
    (l = [] ∨ (g.blk b).isState = false) → Reached g ff b := by
  induction hw with
  | start => exact fun _ => hr
  | @step l b c hw hb hc ih => exact fun hs => (ih hb).plain hc (hs.resolve_left (by simp))

include W M in
/-- A part that is entered from block `c` only. -/
theorem walk_region {R : Nat → Prop} {c : Nat} (hR : ∀ n, R n → n ≤ last)
    (hpred : ∀ y n, y < last + 1 → R n → n ∈ succs (st.blk y).act → y = c ∨ R y) {l : List (Fin (last + 1))} {b : Fin (last + 1)}
    (hw : Walk (accGraph acc g) h l b) : ∀ n, R n → b = Fin.ofNat (last + 1) n → (l = [] ∨ (g.blk b).isState = false) →
      Fin.ofNat (last + 1) c ∈ l ∨ ∃ m, R m ∧ h = Fin.ofNat (last + 1) m := by
  induction hw with
  | start => exact fun n hn e _ => .inr ⟨n, hn, e⟩
  | @step l b c' hw hb hc ih =>
    rintro n hn rfl hs
    obtain ⟨y, hy, rfl⟩ := fin_name b
    have hk := child_kids W M hy (hR n hn) hc (hs.resolve_left (by simp))
    rcases hpred y n (by omega) hn (kids_succs hk) with e | e
    · exact .inl (by simp [e])
    · rcases ih y e rfl hb with h | h
      · exact .inl (List.mem_append_left _ h)
      · exact .inr h

/-- Block `n` is never entered, or follows a block that all walks to `n` go through. -/
def DomN (st : PSt) (last : Nat) (g : Cfg (Fin (last + 1))) (acc : Fin (last + 1) → List (List String × List String)) (h : Fin (last + 1)) (n : Nat) :
    Prop :=
  (∀ y, y < last + 1 → n ∉ succs (st.blk y).act) ∨
  ∃ p, p ≤ last ∧ n ∈ kids (st.blk p).act ∧ ∀ y l, y < last + 1 → Walk (accGraph acc g) h l (Fin.ofNat (last + 1) y) →
    (l = [] ∨ (g.blk (Fin.ofNat (last + 1) y)).isState = false) → n ∈ succs (st.blk y).act → y = p ∨ Fin.ofNat (last + 1) p ∈ l

theorem DomN.one {n p : Nat} (hp : p ≤ last) (hk : n ∈ kids (st.blk p).act) (h1 : ∀ y, y < last + 1 → n ∈ succs (st.blk y).act → y = p) :
    DomN st last g acc h n := .inr ⟨p, hp, hk, fun y _ hy _ _ hn => .inl (h1 y hy hn)⟩

variable (hs : (g.blk h).isState = true ∨ h = Fin.ofNat (last + 1) 0) (hr : Reached g ff h)
include W M P hs hr

/-- The block after a conditional. -/
theorem dom_after {c q i it e et a : Nat} {v w : Bool} {R1 R2 : Nat → Prop} (hc : c ≤ last) (ha : (st.blk c).act = .ifElse q i v it e w et a)
    (hit : (st.blk it).act = .goto a) (het : (st.blk et).act = .goto a) (h1 : R1 it) (h2 : R2 et)
    (b1 : ∀ n, R1 n → 0 < n ∧ n ≤ last) (b2 : ∀ n, R2 n → 0 < n ∧ n ≤ last) (hd : ∀ n, R1 n → R2 n → False)
    (p1 : ∀ y n, y < last + 1 → R1 n → n ∈ succs (st.blk y).act → y = c ∨ R1 y)
    (p2 : ∀ y n, y < last + 1 → R2 n → n ∈ succs (st.blk y).act → y = c ∨ R2 y)
    (s1 : v = true → ∀ n, R1 n → (g.blk (Fin.ofNat (last + 1) n)).isState = false)
    (s2 : w = true → ∀ n, R2 n → (g.blk (Fin.ofNat (last + 1) n)).isState = false)
    (hp : ∀ y, y < last + 1 → a ∈ succs (st.blk y).act → y = c ∨ y = it ∨ y = et)
    (hsa : (g.blk (Fin.ofNat (last + 1) a)).isState = false) : DomN st last g acc h a := by
  right
  have head : ∀ m, 0 < m → m ≤ last → h = Fin.ofNat (last + 1) m → (g.blk (Fin.ofNat (last + 1) m)).isState = false → False := by
    rintro m h1 h2 rfl h3
    rcases hs with h | h
    · rw [h3] at h; cases h
    · have := P.over.inj m 0 (by omega) (by omega) h
      omega
  have inner : ∀ {l : List (Fin (last + 1))} {y}, Walk (accGraph acc g) h l y → ∀ b ∈ l, Reached g ff b := by
    intro l y hw b hb
    obtain ⟨l1, l2, _, hw', hi⟩ := hw.pre b hb
    exact walk_reached hr hw' hi
  by_cases hrc : Reached g ff (Fin.ofNat (last + 1) c)
  · obtain ⟨w1, w2, _⟩ := P.when c q i v it e w et a (by omega) (P.reached _ hrc) ha hsa
    refine ⟨c, hc, by rw [ha]; simp [kids], fun y l hy hw hi hn => ?_⟩
    rcases hp y hy hn with e | e | e
    · exact .inl e
    · subst e
      have hv := w1.resolve_right (fun hx => hx (P.reached _ (walk_reached hr hw hi)))
      rcases walk_region W M (fun n hn => (b1 n hn).2) p1 hw y h1 rfl hi with h | ⟨m, hm, e⟩
      · exact .inr h
      · exact (head m (b1 m hm).1 (b1 m hm).2 e (s1 hv m hm)).elim
    · subst e
      have hv := w2.resolve_right (fun hx => hx (P.reached _ (walk_reached hr hw hi)))
      rcases walk_region W M (fun n hn => (b2 n hn).2) p2 hw y h2 rfl hi with h | ⟨m, hm, e⟩
      · exact .inr h
      · exact (head m (b2 m hm).1 (b2 m hm).2 e (s2 hv m hm)).elim
  · by_cases hin : ∃ m, R1 m ∧ h = Fin.ofNat (last + 1) m
    · refine ⟨it, (b1 _ h1).2, by rw [hit]; simp [kids], fun y l hy hw hi hn => ?_⟩
      rcases hp y hy hn with e | e | e
      · subst e
        exact absurd (walk_reached hr hw hi) hrc
      · exact .inl e
      · subst e
        rcases walk_region W M (fun n hn => (b2 n hn).2) p2 hw y h2 rfl hi with h | ⟨m, hm, e⟩
        · exact absurd (inner hw _ h) hrc
        · obtain ⟨m', hm', e'⟩ := hin
          have := P.over.inj m' m (by have := (b1 m' hm').2; omega) (by have := (b2 m hm).2; omega) (e'.symm.trans e)
          subst this
          exact (hd _ hm' hm).elim
    · refine ⟨et, (b2 _ h2).2, by rw [het]; simp [kids], fun y l hy hw hi hn => ?_⟩
      rcases hp y hy hn with e | e | e
      · subst e
        exact absurd (walk_reached hr hw hi) hrc
      · subst e
        rcases walk_region W M (fun n hn => (b1 n hn).2) p1 hw y h1 rfl hi with h | h
        · exact absurd (inner hw _ h) hrc
        · exact absurd h hin
      · exact .inl e

theorem Frag.dom {tops' : List Nat} {s : Option Nat} {p : Prg} {bt : Option Nat} {c : Nat} {pre : List PIns} {l lo hi : Nat}
    (f : Frag st.blk tops' s p bt c pre l lo hi) {tp : List Nat} (I : Inlet st.blk tp (last + 1) bt c l lo hi) :
    ∀ n, lo ≤ n → n < hi → (g.blk (Fin.ofNat (last + 1) n)).isState = false → DomN st last g acc h n := by
  have state : ∀ {n : Nat}, n < last + 1 → (st.blk n).isState = true → (g.blk (Fin.ofNat (last + 1) n)).isState = false → False := by
    intro n hn h1 h2
    rw [P.over.state n hn h1] at h2
    cases h2
  induction f with
  | nil => intro n h1 h2; omega
  | instr _ ih => exact ih I
  | @step k bt c pre l lo hi h1 ha hs' h4 f1 ih =>
    intro n g1 g2 g3
    have hN := I.le
    by_cases e : n = lo
    · subst e; exact (state (by omega) hs' g3).elim
    · exact ih (I.step ha f1) n (by omega) g2 g3
  | @block b k bt c pre l lo hi m x h1 ha h3 f1 hm h5 f2 hz ih1 ih2 =>
    intro n g1 g2 g3
    obtain ⟨I1, I2, q1, q2⟩ := I.block ha f1 hm f2
    have r1 := f1.range
    have r2 := f2.range
    have hN := I.le
    have hlt := I.lt
    by_cases e : n = lo
    · subst e; exact .one (by omega) (by rw [ha]; simp [kids]) q1
    by_cases e2 : n = x
    · subst e2; exact .one (by omega) (by rw [hm]; simp [kids]) q2
    by_cases e3 : n < x
    · exact ih1 I1 n (by omega) e3 g3
    · exact ih2 I2 n (by omega) g2 g3
  | @ifThen q t k bt c pre l lo hi it a h1 ha f1 hm h4 h5 h6 he h8 h9 h10 f2 hz ih1 ih2 =>
    intro n g1 g2 g3
    have f0 : Frag st.blk tops' s .nil bt (lo + 1) [] (lo + 1) a a := .nil h6
    have key := I.ifElse_key ha f1 hm f0 he f2
    obtain ⟨I1, I0, I2, _⟩ := I.ifElse ha f1 hm f0 he f2
    have r1 := f1.range
    have r2 := f2.range
    have hN := I.le
    have hlt := I.lt
    by_cases e : n = lo
    · subst e
      exact .one (p := c) (by omega) (by rw [ha]; simp [kids]) fun y hy hn => by have := key y n hy hn le_rfl g2; omega
    by_cases e1 : n = lo + 1
    · subst e1
      exact .one (p := c) (by omega) (by rw [ha]; simp [kids]) fun y hy hn => by have := key y _ hy hn (by omega) g2; omega
    by_cases e2 : n = a
    · subst e2
      refine dom_after W M P hs hr (R1 := fun y => y = lo ∨ (lo + 2 ≤ y ∧ y < n)) (R2 := fun y => y = lo + 1) (by omega) ha hm he (by omega) rfl
        (fun m h => by omega) (fun m h => by omega) (fun m h h' => by omega) (fun y m hy h hn => ?_) (fun y m hy h hn => ?_) (fun ht m h => ?_)
        (fun _ m h => ?_) (fun y hy hn => ?_) g3
      · have := key y m hy hn (by omega) (by omega); omega
      · have := key y m hy hn (by omega) (by omega); omega
      · exact f1.quiet P (by simp [Prg.stateless, ht]) (by omega) (by omega) ⟨_, hm⟩ h4 h5 m h
      · have : m = lo + 1 := h
        rw [this]
        exact f0.quiet P rfl (by omega) (by omega) ⟨_, he⟩ h8 (fun x n h1 h2 => h9 x n h1 (by omega)  |>.imp_right (by omega)) _ (.inl rfl)
      · have := key y n hy hn (by omega) g2; omega
    by_cases e3 : n < a
    · exact ih1 I1 n (by omega) e3 g3
    · exact ih2 I2 n (by omega) g2 g3
  | @ifElse q t e0 k bt c pre l lo hi it et m a h1 ha f1 hm h4 h5 f2 he h8 h9 h10 f3 hz ih1 ih2 ih3 =>
    intro n g1 g2 g3
    have key := I.ifElse_key ha f1 hm f2 he f3
    obtain ⟨I1, I2, I3, _⟩ := I.ifElse ha f1 hm f2 he f3
    have r1 := f1.range
    have r2 := f2.range
    have r3 := f3.range
    have hN := I.le
    have hlt := I.lt
    by_cases e : n = lo
    · subst e
      exact .one (p := c) (by omega) (by rw [ha]; simp [kids]) fun y hy hn => by have := key y n hy hn le_rfl g2; omega
    by_cases e1 : n = lo + 1
    · subst e1
      exact .one (p := c) (by omega) (by rw [ha]; simp [kids]) fun y hy hn => by have := key y _ hy hn (by omega) g2; omega
    by_cases e2 : n = a
    · subst e2
      refine dom_after W M P hs hr (R1 := fun y => y = lo ∨ (lo + 2 ≤ y ∧ y < m)) (R2 := fun y => y = lo + 1 ∨ (m ≤ y ∧ y < n)) (by omega) ha hm he
        (by omega) (by omega)
        (fun m h => by omega) (fun m h => by omega) (fun m h h' => by omega) (fun y m hy h hn => ?_) (fun y m hy h hn => ?_) (fun ht m h => ?_)
        (fun ht m h => ?_) (fun y hy hn => ?_) g3
      · have := key y m hy hn (by omega) (by omega); omega
      · have := key y m hy hn (by omega) (by omega); omega
      · exact f1.quiet P (by simp [Prg.stateless, ht]) (by omega) (by omega) ⟨_, hm⟩ h4 h5 m h
      · exact f2.quiet P (by simp [Prg.stateless, ht]) (by omega) (by omega) ⟨_, he⟩ h8 h9 m h
      · have := key y n hy hn (by omega) g2; omega
    by_cases e3 : n < m
    · exact ih1 I1 n (by omega) e3 g3
    by_cases e3 : n < a
    · exact ih2 I2 n (by omega) e3 g3
    · exact ih3 I3 n (by omega) g2 g3
  | @loop q b k bt c pre l lo hi m x h1 ha hs' h4 hh h6 f1 hm f2 hz ih1 ih2 =>
    intro n g1 g2 g3
    have key := I.loop_key ha hh f1 hm f2
    obtain ⟨I1, I2, _⟩ := I.loop ha hh f1 hm f2
    have r1 := f1.range
    have r2 := f2.range
    have hN := I.le
    have hlt := I.lt
    by_cases e : n = lo
    · subst e; exact (state (by omega) hs' g3).elim
    by_cases e1 : n = lo + 1
    · subst e1
      exact .one (p := lo) (by omega) (by rw [hh]; simp [kids]) fun y hy hn => by have := key y _ hy hn (by omega) g2; omega
    by_cases e2 : n = lo + 2
    · subst e2
      refine .one (p := lo) (by omega) (by rw [hh]; simp [kids]) fun y hy hn => ?_
      have hb : b.breaks = false := by
        by_contra hb
        exact state (by omega) (by rw [hz.2.2]; simp at hb; simp [hb]) g3
      rcases key y _ hy hn (by omega) g2 with h | h | ⟨h1', h2', h3'⟩ | h
      · omega
      · omega
      · rcases (f1.noBrk (by simp [Prg.breaks, hb])).next h1' h2' hn with h | h
        · omega
        · cases h.1
      · omega
    by_cases e3 : n < x
    · exact ih1 I1 n (by omega) e3 g3
    · exact ih2 I2 n (by omega) g2 g3
  | @brk k b c pre l lo hi h1 ha hs' f1 ih =>
    intro n g1 g2 g3
    have hb := I.brk b rfl
    obtain ⟨I1, hd⟩ := I.skip (fun n hn h1 _ => by have := succs_goto ha hn; omega) f1
    by_cases e : n = lo
    · subst e; exact .inl hd
    · exact ih I1 n (by omega) g2 g3
  | @switch q cs k bt c pre l lo hi x es bb mm h1 ha h3 h4 h5 h6 f1 h7 h8 h9 f2 hz ih1 ih2 =>
    intro n g1 g2 g3
    have key := I.switch_key ha h3 h4 h5 h6 f1 (fun j v p hg => (h7 j v p hg).1) f2
    obtain ⟨I1, I2⟩ := I.switch ha h3 h4 h5 h6 f1 (fun j v p hg => (h7 j v p hg).1) f2
    have step : ∀ j, j < cs.length → bb j + 1 ≤ bb (j + 1) := fun j hj => by
      obtain ⟨⟨v, p⟩, hg⟩ := get_of_lt hj
      exact (f1 j v p hg).range.1
    have hmn := seq_le step
    have r2 := f2.range
    have hx := (hmn 0 (by omega)).2
    have hN := I.le
    have hlt := I.lt
    by_cases e : n = lo
    · subst e
      right
      have hst : casesStateless cs = true := by
        by_contra hb
        exact state (by omega) (by rw [h9]; simp at hb; simp [hb]) g3
      refine ⟨c, by omega, by rw [ha]; simp [kids], fun y l' hy hw hi' hn => ?_⟩
      rcases key y n hy hn le_rfl g2 with h | h | ⟨j, hj, h⟩ | h
      · exact .inl h.1
      · have hpred : ∀ y m, y < last + 1 → (n + 1 ≤ m ∧ m < x) → m ∈ succs (st.blk y).act → y = c ∨ (n + 1 ≤ y ∧ y < x) := by
          intro y m hy h hn
          rcases key y m hy hn (by omega) (by omega) with h' | h' | ⟨j, hj, h'⟩ | h'
          · exact .inl h'.1
          · omega
          · have := hmn j (by omega)
            have := hmn (j + 1) hj
            omega
          · omega
        rcases walk_region W M (R := fun y => n + 1 ≤ y ∧ y < x) (c := c) (fun n h => by omega) hpred hw y ⟨h.1, h.2.1⟩ rfl hi'
          with h | ⟨m, hm, rfl⟩
        · exact .inr h
        · obtain ⟨j, hj, k1, k2⟩ := seq_cover (bb := bb) (n := cs.length) (x := m) (by omega) (by omega)
          obtain ⟨⟨v, p⟩, hg⟩ := get_of_lt hj
          have := hmn (j + 1) hj
          have := (f1 j v p hg).quiet P (by
            have := (casesStateless_iff cs).mp hst _ (List.mem_of_getElem? hg)
            simp [Prg.stateless, this]) (by omega) (by omega) ⟨_, (h7 j v p hg).1⟩ (h7 j v p hg).2.1 (h7 j v p hg).2.2 m (by omega)
          rcases hs with hs | hs
          · rw [this] at hs
            cases hs
          · have := P.over.inj m 0 (by omega) (by omega) hs
            omega
      · have := hmn j (by omega)
        omega
      · omega
    by_cases e3 : n < x
    · obtain ⟨j, hj, k1, k2⟩ := seq_cover (bb := bb) (n := cs.length) (x := n) (by omega) (by omega)
      obtain ⟨⟨v, p⟩, hg⟩ := get_of_lt hj
      by_cases e4 : n = bb j
      · subst e4
        refine .one (p := c) (by omega) ?_ fun y hy hn => ?_
        · rw [ha]
          simp only [kids, List.mem_append, List.mem_map]
          exact .inl ⟨(v, bb j), List.mem_of_getElem? (h4 j v p hg), rfl⟩
        · rcases key y _ hy hn g1 g2 with h' | h' | ⟨j', hj', h1', h2', h3', h4'⟩ | h'
          · exact h'.1
          · omega
          · exfalso
            by_cases hjj : j' < j
            · have := (seq_le (bb := bb) (n := j) (fun i hi => step i (by omega)) (j' + 1) (by omega)).2
              omega
            · have := (seq_le (bb := bb) (n := j') (fun i hi => step i (by omega)) j (by omega)).2
              omega
          · omega
      · exact ih1 j v p hg (I1 j v p hg).1 n (by omega) k2 g3
    · exact ih2 I2 n (by omega) g2 g3
  | @call z give take outs k bt c pre l lo hi t h1 ht ha hs' f1 hz ih =>
    intro n g1 g2 g3
    have hN := I.le
    by_cases e : n = lo
    · subst e; exact (state (by omega) hs' g3).elim
    · exact ih (I.call ha f1) n (by omega) g2 g3
  | @join inst take outs k bt c pre l lo hi h1 ha hs' h4 hh h6 f1 hz ih =>
    intro n g1 g2 g3
    have hN := I.le
    by_cases e : n = lo
    · subst e; exact (state (by omega) hs' g3).elim
    by_cases e : n = lo + 1
    · subst e; exact (state (by omega) h6 g3).elim
    · exact ih (I.join ha hh f1) n (by omega) g2 g3
  | @ret k bt c pre l lo hi z h1 hz ha hs' f1 ih =>
    intro n g1 g2 g3
    obtain ⟨I1, hd⟩ := I.skip (fun n hn _ _ => by rw [ha] at hn; simp [succs, kids] at hn) f1
    by_cases e : n = lo
    · subst e; exact .inl hd
    · exact ih I1 n (by omega) g2 g3

end

section
variable {u : AlgUnit} {st : PSt} {last n0 l0 lo0 : Nat} (U : UnitFrag u st.blk st.tops last n0 l0 lo0)
  {g : Cfg (Fin (last + 1))} {ff ff0 : Fin (last + 1) → Fin (last + 1)} {num : Num (Fin (last + 1))}
  (M : MoreStates (st.cfg last) g)
  (P : Promoted st.blk (Fin.ofNat (last + 1)) (last + 1) g (st.cfg last) ff ff0 num)
  {acc : Fin (last + 1) → List (List String × List String)} {h : Fin (last + 1)} (hs : (g.blk h).isState = true) (hr : Reached g ff h)
include U M P hs hr

/-- In the graph made from statements, each block that is not a state follows a block that all walks from a reached state to it go through. -/
theorem unit_dominated : Dominated (accGraph acc g) h := by
  have hpos := U.pos
  have state : ∀ {n : Nat}, n < last + 1 → (st.blk n).isState = true → (g.blk (Fin.ofNat (last + 1) n)).isState = false → False := by
    intro n hn h1 h2
    rw [P.over.state n hn h1] at h2
    cases h2
  have dom : ∀ n, n ≤ last → (g.blk (Fin.ofNat (last + 1) n)).isState = false → DomN st last g acc h n := by
    intro n hn hsn
    rcases U.cover n hn with rfl | rfl | rfl | h' | ⟨j, p, t, hi, k, hj, S, g1, g2⟩
    · exact (state (by omega) (by rw [U.first]) hsn).elim
    · refine .one (p := 0) (by omega) (by rw [U.first]; simp [kids]) fun y hy hy' => ?_
      obtain ⟨_, hsub⟩ := U.succ (by omega) hy'
      rw [U.mainSub n (.inl rfl)] at hsub
      have main : y = n ∨ (lo0 ≤ y ∧ y < last) → y = 0 := by
        intro h
        by_cases e : y = l0
        · rw [e, U.mainEnd] at hy'
          simp [succs, kids] at hy'
          omega
        · rcases U.main.next h e hy' with h | h
          · omega
          · cases h.1
      rcases U.cover y (by omega) with h | h | rfl | h | ⟨j, p, t, hi, k, hj, S, g1, g2⟩
      · exact h
      · exact main (.inl h)
      · rw [U.stop] at hy'; simp [succs, kids] at hy'
      · exact main (.inr h)
      · rw [S.sub y g1 g2] at hsub
        cases hsub
    · have hl0 : l0 ≤ n := by have := U.main.range; omega
      refine .one (p := l0) hl0 (by rw [U.mainEnd]; simp [kids]) fun y hy hy' => ?_
      obtain ⟨_, hsub⟩ := U.succ (by omega) hy'
      rw [U.stop] at hsub
      have main : y = n0 ∨ (lo0 ≤ y ∧ y < n) → y = l0 := by
        intro h
        by_contra e
        rcases U.main.next h e hy' with h | h
        · omega
        · cases h.1
      rcases U.cover y (by omega) with rfl | h | rfl | h | ⟨j, p, t, hi, k, hj, S, g1, g2⟩
      · rw [U.first] at hy'
        simp [succs, kids] at hy'
        omega
      · exact main (.inl h)
      · rw [U.stop] at hy'; simp [succs, kids] at hy'
      · exact main (.inr h)
      · rw [S.sub y g1 g2] at hsub
        cases hsub
    · exact U.main.dom U.flowsIn M P (.inl hs) hr U.inlet n h'.1 h'.2 hsn
    · by_cases e : n = t
      · subst e; exact (state (by omega) S.state hsn).elim
      · have hhi : hi ≤ last := by
          obtain ⟨t', hi', k', _, _, _, S'⟩ := U.subs j p hj
          have e := S.top.symm.trans S'.top
          cases e
          obtain ⟨rfl, rfl⟩ := S.frag.func S'.frag
          omega
        exact S.frag.dom U.flowsIn M P (.inl hs) hr (U.subInlet hj S hhi) n (by omega) g2 hsn
  intro l c hw hl hsc
  obtain ⟨n, hn, rfl⟩ := fin_name c
  obtain ⟨l', b, rfl, hw', hb, hc⟩ := hw.snoc_inv hl
  obtain ⟨y, hy, rfl⟩ := fin_name b
  have hk := child_kids U.flowsIn M hy hn hc hsc
  rcases dom n hn hsc with hd | ⟨p, hp, hpk, hall⟩
  · exact absurd (kids_succs hk) (hd y (by omega))
  · refine ⟨Fin.ofNat (last + 1) p, kids_child M hp hpk, fun l2 hw2 => ?_⟩
    have hne : l2 ≠ [] := by
      rintro rfl
      rw [hw2.nil_inv] at hsc
      exact absurd hsc (by simp [accGraph, hs])
    refine ⟨hne, ?_⟩
    obtain ⟨l3, b, rfl, hw3, hb3, hc3⟩ := hw2.snoc_inv hne
    obtain ⟨y3, hy3, rfl⟩ := fin_name b
    rcases hall y3 l3 (by omega) hw3 hb3 (kids_succs (child_kids U.flowsIn M hy3 hn hc3 hsc)) with h | h
    · simp [h]
    · exact List.mem_append_left _ h

end

end Silice
