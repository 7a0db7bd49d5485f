import Verif.Lemmas.Gather

/-! The shape of the blocks that come from a sequence of statements. -/

set_option autoImplicit false

namespace Silice

/-- Blocks of a part (the first one `i`, the others from `lo` to `hi - 1`) come after statements of the same part. -/
def Local (F : Nat → PBlk) (i lo hi : Nat) : Prop :=
  ∀ x n, afterOf (F x).act = some n → (n = i ∨ (lo ≤ n ∧ n < hi)) → (x = i ∨ (lo ≤ x ∧ x < hi))

/-- `Frag F tops s p bt c pre l lo hi`: in the blocks `F`, statements `p` start in block `c` after its instructions `pre`, end in block `l`, and
have blocks `lo` to `hi - 1` for themselves. `bt` is where `break` goes, `s` the subroutine, `tops` the entries of the subroutines that can be called. -/
inductive Frag (F : Nat → PBlk) (tops : List Nat) (s : Option Nat) : Prg → Option Nat → Nat → List PIns → Nat → Nat → Nat → Prop where
  | nil {bt : Option Nat} {c : Nat} {pre : List PIns} {lo : Nat} : (F c).ins = pre → Frag F tops s .nil bt c pre c lo lo
  | instr {i : Nat} {k : Prg} {bt : Option Nat} {c : Nat} {pre : List PIns} {l lo hi : Nat} :
      Frag F tops s k bt c (pre ++ [.plain i]) l lo hi → Frag F tops s (.instr i k) bt c pre l lo hi
  | step {k : Prg} {bt : Option Nat} {c : Nat} {pre : List PIns} {l lo hi : Nat} :
      (F c).ins = pre → (F c).act = .goto lo → (F lo).isState = true → (F lo).noSkip = true →
      Frag F tops s k bt lo [] l (lo + 1) hi → Frag F tops s (.step k) bt c pre l lo hi
  | block {b k : Prg} {bt : Option Nat} {c : Nat} {pre : List PIns} {l lo hi m x : Nat} :
      (F c).ins = pre → (F c).act = .goto lo → (F lo).isState = b.endsAtRet →
      Frag F tops s b bt lo [] m (lo + 1) x → (F m).act = .goto x → (F x).isState = k.endsAtRet →
      Frag F tops s k bt x [] l (x + 1) hi → (F lo).noSkip = false ∧ (F x).noSkip = false →
      Frag F tops s (.block b k) bt c pre l lo hi
  | ifThen {q : Nat} {t k : Prg} {bt : Option Nat} {c : Nat} {pre : List PIns} {l lo hi it a : Nat} :
      (F c).ins = pre → (F c).act = .ifElse q lo t.stateless it (lo + 1) true (lo + 1) a →
      Frag F tops s (.block t .nil) bt lo [] it (lo + 2) a → (F it).act = .goto a → (F lo).isState = false →
      Local F lo (lo + 2) a →
      (F (lo + 1)).ins = [] → (F (lo + 1)).act = .goto a → (F (lo + 1)).isState = false → Local F (lo + 1) 0 0 →
      (F a).isState = k.endsAtRet → Frag F tops s k bt a [] l (a + 1) hi → (F a).noSkip = false →
      Frag F tops s (.ifThen q t k) bt c pre l lo hi
  | ifElse {q : Nat} {t f k : Prg} {bt : Option Nat} {c : Nat} {pre : List PIns} {l lo hi it et m a : Nat} :
      (F c).ins = pre → (F c).act = .ifElse q lo t.stateless it (lo + 1) f.stateless et a →
      Frag F tops s (.block t .nil) bt lo [] it (lo + 2) m → (F it).act = .goto a → (F lo).isState = false →
      Local F lo (lo + 2) m →
      Frag F tops s (.block f .nil) bt (lo + 1) [] et m a → (F et).act = .goto a → (F (lo + 1)).isState = false →
      Local F (lo + 1) m a →
      (F a).isState = k.endsAtRet → Frag F tops s k bt a [] l (a + 1) hi → (F a).noSkip = false →
      Frag F tops s (.ifElse q t f k) bt c pre l lo hi
  | loop {q : Nat} {b k : Prg} {bt : Option Nat} {c : Nat} {pre : List PIns} {l lo hi m x : Nat} :
      (F c).ins = pre → (F c).act = .goto lo → (F lo).isState = true → (F lo).ins = [] →
      (F lo).act = .loop q (lo + 1) (lo + 2) → (F (lo + 1)).isState = false →
      Frag F tops s (.block b .nil) (some (lo + 2)) (lo + 1) [] m (lo + 3) x → (F m).act = .goto lo →
      Frag F tops s k bt (lo + 2) [] l x hi →
      (F lo).noSkip = false ∧ (F (lo + 2)).noSkip = false ∧ (F (lo + 2)).isState = (b.breaks || k.endsAtRet) → Frag F tops s (.loop q b k) bt c pre l lo hi
  | brk {k : Prg} {b c : Nat} {pre : List PIns} {l lo hi : Nat} :
      (F c).ins = pre → (F c).act = .goto b → (F b).isState = true →
      Frag F tops s k (some b) lo [] l (lo + 1) hi → Frag F tops s (.brk k) (some b) c pre l lo hi
  | switch {q : Nat} {cs : List (Option Nat × Prg)} {k : Prg} {bt : Option Nat} {c : Nat} {pre : List PIns} {l lo hi x : Nat}
      {es : List (Option Nat × Nat)} {bb mm : Nat → Nat} :
      (F c).ins = pre → (F c).act = .switch q es lo → es.length = cs.length →
      (∀ j v p, cs[j]? = some (v, p) → es[j]? = some (v, bb j)) → bb 0 = lo + 1 → bb cs.length = x →
      (∀ j v p, cs[j]? = some (v, p) → Frag F tops s (.block p .nil) bt (bb j) [] (mm j) (bb j + 1) (bb (j + 1))) →
      (∀ j v p, cs[j]? = some (v, p) → (F (mm j)).act = .goto lo ∧ (F (bb j)).isState = false ∧ Local F (bb j) (bb j + 1) (bb (j + 1))) →
      (∀ y, afterOf (F y).act = some lo → y = c) → (F lo).isState = (!casesStateless cs || k.endsAtRet) →
      Frag F tops s k bt lo [] l x hi → (F lo).noSkip = false → Frag F tops s (.switch q cs k) bt c pre l lo hi
  | call {z give take : Nat} {outs : Bool} {k : Prg} {bt : Option Nat} {c : Nat} {pre : List PIns} {l lo hi t : Nat} :
      (F c).ins = pre ++ [.plain give] → tops[z]? = some t → (F c).act = .call t lo → (F lo).isState = true →
      Frag F tops s k bt lo [.readback take outs] l (lo + 1) hi → (F lo).noSkip = false →
      Frag F tops s (.call z give take outs k) bt c pre l lo hi
  | join {inst take : Nat} {outs : Bool} {k : Prg} {bt : Option Nat} {c : Nat} {pre : List PIns} {l lo hi : Nat} :
      (F c).ins = pre → (F c).act = .goto lo → (F lo).isState = true → (F lo).ins = [] → (F lo).act = .wait inst lo (lo + 1) →
      (F (lo + 1)).isState = true → Frag F tops s k bt (lo + 1) [.readback take outs] l (lo + 2) hi →
      (F lo).noSkip = false ∧ (F (lo + 1)).noSkip = false →
      Frag F tops s (.join inst take outs k) bt c pre l lo hi
  | ret {k : Prg} {bt : Option Nat} {c : Nat} {pre : List PIns} {l lo hi z : Nat} :
      (F c).ins = pre → s = some z → (F c).act = .ret z → (F c).isState = true →
      Frag F tops s k bt lo [] l (lo + 1) hi → Frag F tops s (.ret k) bt c pre l lo hi

variable {F : Nat → PBlk} {tops : List Nat} {s : Option Nat} {p : Prg} {bt : Option Nat} {c : Nat} {pre : List PIns} {l lo hi : Nat}

theorem seq_le {bb : Nat → Nat} {n : Nat} (h : ∀ j, j < n → bb j + 1 ≤ bb (j + 1)) : ∀ j, j ≤ n → bb 0 ≤ bb j ∧ bb j ≤ bb n := by
  induction n with
  | zero => intro j hj; obtain rfl : j = 0 := by omega
            exact ⟨le_rfl, le_rfl⟩
  | succ n ih =>
    intro j hj
    have h1 := h n (by omega)
    have h2 := ih (fun j hj => h j (by omega))
    by_cases e : j = n + 1
    · subst e
      have := h2 n le_rfl
      exact ⟨by omega, le_rfl⟩
    · have := h2 j (by omega)
      exact ⟨this.1, by omega⟩

theorem seq_cover {bb : Nat → Nat} {n x : Nat} (h0 : bb 0 ≤ x) (hn : x < bb n) : ∃ j, j < n ∧ bb j ≤ x ∧ x < bb (j + 1) := by
  induction n with
  | zero => omega
  | succ n ih =>
    by_cases e : x < bb n
    · obtain ⟨j, hj, h⟩ := ih e
      exact ⟨j, by omega, h⟩
    · exact ⟨n, by omega, by omega, hn⟩

theorem get_of_lt {A : Type} {cs : List A} {j : Nat} (h : j < cs.length) : ∃ a, cs[j]? = some a :=
  ⟨cs[j], List.getElem?_eq_getElem h⟩

theorem Frag.range (h : Frag F tops s p bt c pre l lo hi) : lo ≤ hi ∧ (l = c ∨ (lo ≤ l ∧ l < hi)) := by
  induction h with
  | nil => exact ⟨le_rfl, .inl rfl⟩
  | instr _ ih => exact ih
  | step _ _ _ _ _ ih => omega
  | block _ _ _ _ _ _ _ hz ih1 ih2 => omega
  | ifThen _ _ _ _ _ _ _ _ _ _ _ _ hz ih1 ih2 => omega
  | ifElse _ _ _ _ _ _ _ _ _ _ _ _ hz ih1 ih2 ih3 => omega
  | loop _ _ _ _ _ _ _ _ _ hz ih1 ih2 => omega
  | brk _ _ _ _ ih => omega
  | @switch q cs k bt c pre l lo hi x es bb mm _ _ hlen _ h0 hx _ _ _ _ _ hz ih1 ih2 =>
    have := (seq_le (bb := bb) (n := cs.length) (fun j hj => by
      obtain ⟨⟨v, p⟩, hg⟩ := get_of_lt hj
      exact (ih1 j v p hg).1) 0 (by omega)).2
    omega
  | call _ _ _ _ _ hz ih => omega
  | join _ _ _ _ _ _ _ hz ih => omega
  | ret _ _ _ _ _ ih => omega

theorem stateless_noRet : ∀ {p : Prg}, p.stateless = true → p.endsAtRet = false
  | .nil, _ => rfl
  | .instr _ k, h => by
    rw [Prg.stateless] at h
    rw [Prg.endsAtRet]
    exact stateless_noRet h
  | .step _, _ | .block _ _, _ | .ifThen _ _ _, _ | .ifElse _ _ _ _, _ | .loop _ _ _, _ | .brk _, _ | .switch _ _ _, _
  | .call _ _ _ _ _, _ | .join _ _ _ _, _ => rfl
  | .ret _, h => by simp [Prg.stateless] at h

theorem casesStateless_iff (cs : List (Option Nat × Prg)) : casesStateless cs = true ↔ ∀ p ∈ cs, p.2.stateless = true := by
  induction cs with
  | nil => simp [casesStateless]
  | cons x cs ih => obtain ⟨v, p⟩ := x; simp [casesStateless, ih]

theorem casesSwitchOk_iff (cs : List (Option Nat × Prg)) : casesSwitchOk cs = true ↔ ∀ p ∈ cs, p.2.switchOk = true := by
  induction cs with
  | nil => simp [casesSwitchOk]
  | cons x cs ih => obtain ⟨v, p⟩ := x; simp [casesSwitchOk, ih]

/-- Blocks of statements that fit in one cycle are not states. -/
theorem Frag.plain (h : Frag F tops s p bt c pre l lo hi) (hs : p.stateless = true) : ∀ n, lo ≤ n → n < hi → (F n).isState = false := by
  induction h with
  | nil => intro n h1 h2; omega
  | instr _ ih => exact ih (by rw [Prg.stateless] at hs; exact hs)
  | @block b k bt c pre l lo hi m x _ _ h1 f1 _ h2 f2 hz ih1 ih2 =>
    intro n hn hn'
    rw [Prg.stateless, Bool.and_eq_true] at hs
    by_cases e1 : n = lo
    · rw [e1, h1, stateless_noRet hs.1]
    by_cases e2 : n = x
    · rw [e2, h2, stateless_noRet hs.2]
    by_cases e3 : n < x
    · exact ih1 hs.1 n (by omega) e3
    · exact ih2 hs.2 n (by omega) hn'
  | @ifThen q t k bt c pre l lo hi it a _ _ f1 _ h1 _ _ _ h2 _ h3 f2 hz ih1 ih2 =>
    intro n hn hn'
    rw [Prg.stateless, Bool.and_eq_true] at hs
    by_cases e1 : n = lo
    · rw [e1, h1]
    by_cases e2 : n = lo + 1
    · rw [e2, h2]
    by_cases e2 : n = a
    · rw [e2, h3, stateless_noRet hs.2]
    by_cases e3 : n < a
    · exact ih1 (by simp [Prg.stateless, hs.1]) n (by omega) e3
    · exact ih2 hs.2 n (by omega) hn'
  | @ifElse q t f k bt c pre l lo hi it et m a _ _ f1 _ h1 _ f2 _ h2 _ h3 f3 hz ih1 ih2 ih3 =>
    intro n hn hn'
    rw [Prg.stateless, Bool.and_eq_true, Bool.and_eq_true] at hs
    by_cases e1 : n = lo
    · rw [e1, h1]
    by_cases e2 : n = lo + 1
    · rw [e2, h2]
    by_cases e2 : n = a
    · rw [e2, h3, stateless_noRet hs.2]
    by_cases e3 : n < m
    · exact ih1 (by simp [Prg.stateless, hs.1]) n (by omega) e3
    by_cases e3 : n < a
    · exact ih2 (by simp [Prg.stateless, hs.1]) n (by omega) e3
    · exact ih3 hs.2 n (by omega) hn'
  | @switch q cs k bt c pre l lo hi x es bb mm _ _ hlen _ h0 hx f1 hh _ h3 f2 hz ih1 ih2 =>
    intro n hn hn'
    rw [Prg.stateless, Bool.and_eq_true] at hs
    by_cases e2 : n = lo
    · rw [e2, h3, stateless_noRet hs.2, hs.1]; rfl
    by_cases e3 : n < x
    · obtain ⟨j, hj, h1, h2⟩ := seq_cover (bb := bb) (n := cs.length) (x := n) (by omega) (by omega)
      obtain ⟨⟨v, p⟩, hg⟩ := get_of_lt hj
      by_cases e4 : n = bb j
      · rw [e4, (hh j v p hg).2.1]
      · exact ih1 j v p hg (by
          have := (casesStateless_iff cs).mp hs.1 (v, p) (List.mem_of_getElem? hg)
          simp [Prg.stateless, this]) n (by omega) h2
    · exact ih2 hs.2 n (by omega) hn'
  | _ => simp [Prg.stateless] at hs

/-! ### Statements that fit in one cycle are recognised -/

namespace PSt
variable {st : PSt}

theorem noState_succ {d b : Nat} :
    st.noState (d + 1) b = true ↔ (st.blk b).isState = false ∧ st.isCall b = false ∧ ∀ n ∈ st.children b, st.noState d n = true := by
  rw [noState]
  simp [and_assoc]

theorem noState_mono {d : Nat} : ∀ {d' b : Nat}, d ≤ d' → st.noState d' b = true → st.noState d b = true := by
  induction d with
  | zero => intro _ _ _ _; rfl
  | succ d ih =>
    intro d' b hd h
    obtain ⟨d', rfl⟩ : ∃ e, d' = e + 1 := ⟨d' - 1, by omega⟩
    rw [noState_succ] at h ⊢
    exact ⟨h.1, h.2.1, fun n hn => ih (by omega) (h.2.2 n hn)⟩

theorem noState_goto {b n : Nat} (ha : (st.blk b).act = .goto n) (hb : (st.blk b).isState = false) (hn : ∀ d, st.noState d n = true) (d : Nat) :
    st.noState d b = true := by
  cases d with
  | zero => rfl
  | succ d =>
    rw [noState_succ]
    refine ⟨hb, by simp [isCall, ha], ?_⟩
    simp [children, ha, hn d]

theorem noState_child {b n d : Nat} (h : st.noState (d + 1) b = true) (hn : n ∈ st.children b) : st.noState d n = true :=
  (noState_succ.mp h).2.2 n hn

end PSt

variable {st : PSt}

theorem Frag.noState_of (h : Frag st.blk tops s p bt c pre l lo hi) (hs : p.stateless = true) (hc : (st.blk c).isState = false)
    (hl : ∀ d, st.noState d l = true) : ∀ d, st.noState d c = true := by
  induction h with
  | nil => exact hl
  | instr _ ih => exact ih (by rw [Prg.stateless] at hs; exact hs) hc hl
  | @block b k bt c pre l lo hi m x _ ha h1 f1 ha' h2 f2 hz ih1 ih2 =>
    rw [Prg.stateless, Bool.and_eq_true] at hs
    have hx := ih2 hs.2 (by rw [h2, stateless_noRet hs.2]) hl
    have hlo : (st.blk lo).isState = false := by rw [h1, stateless_noRet hs.1]
    have hm : (st.blk m).isState = false := by
      rcases f1.range.2 with e | e
      · rw [e]; exact hlo
      · exact f1.plain hs.1 m e.1 e.2
    exact PSt.noState_goto ha hc (ih1 hs.1 hlo (PSt.noState_goto ha' hm hx))
  | @ifThen q t k bt c pre l lo hi it a _ ha f1 ha' h1 _ _ he h2 _ h3 f2 hz ih1 ih2 =>
    rw [Prg.stateless, Bool.and_eq_true] at hs
    have hst : (Prg.block t .nil).stateless = true := by simp [Prg.stateless, hs.1]
    have hx := ih2 hs.2 (by rw [h3, stateless_noRet hs.2]) hl
    have hm : (st.blk it).isState = false := by
      rcases f1.range.2 with e | e
      · rw [e]; exact h1
      · exact f1.plain hst it e.1 e.2
    have hi := ih1 hst h1 (PSt.noState_goto ha' hm hx)
    have he' := PSt.noState_goto he h2 hx
    intro d
    cases d with
    | zero => rfl
    | succ d =>
      rw [PSt.noState_succ]
      refine ⟨hc, by simp [PSt.isCall, ha], ?_⟩
      simp [PSt.children, ha, hi d, hx d, he' d]
  | @ifElse q t f k bt c pre l lo hi it et m a _ ha f1 ha1 h1 _ f2 ha2 h2 _ h3 f3 hz ih1 ih2 ih3 =>
    rw [Prg.stateless, Bool.and_eq_true, Bool.and_eq_true] at hs
    have hst : (Prg.block t .nil).stateless = true := by simp [Prg.stateless, hs.1]
    have hsf : (Prg.block f .nil).stateless = true := by simp [Prg.stateless, hs.1]
    have hx := ih3 hs.2 (by rw [h3, stateless_noRet hs.2]) hl
    have hm : (st.blk it).isState = false := by
      rcases f1.range.2 with e | e
      · rw [e]; exact h1
      · exact f1.plain hst it e.1 e.2
    have hm' : (st.blk et).isState = false := by
      rcases f2.range.2 with e | e
      · rw [e]; exact h2
      · exact f2.plain hsf et e.1 e.2
    have hi := ih1 hst h1 (PSt.noState_goto ha1 hm hx)
    have he' := ih2 hsf h2 (PSt.noState_goto ha2 hm' hx)
    intro d
    cases d with
    | zero => rfl
    | succ d =>
      rw [PSt.noState_succ]
      refine ⟨hc, by simp [PSt.isCall, ha], ?_⟩
      simp [PSt.children, ha, hi d, hx d, he' d]
  | @switch q cs k bt c pre l lo hi x es bb mm _ ha hlen hes h0 hx f1 hh _ h3 f2 hz ih1 ih2 =>
    rw [Prg.stateless, Bool.and_eq_true] at hs
    have ha' := ih2 hs.2 (by rw [h3, stateless_noRet hs.2, hs.1]; rfl) hl
    intro d
    cases d with
    | zero => rfl
    | succ d =>
      rw [PSt.noState_succ]
      refine ⟨hc, by simp [PSt.isCall, ha], ?_⟩
      intro n hn
      simp only [PSt.children, ha, List.mem_append, List.mem_map, List.mem_singleton] at hn
      rcases hn with ⟨e, he, rfl⟩ | rfl
      · obtain ⟨j, hj⟩ := List.mem_iff_getElem?.mp he
        have hjl : j < cs.length := by
          rw [← hlen]
          exact (List.getElem?_eq_some_iff.mp hj).1
        obtain ⟨⟨v, p⟩, hg⟩ := get_of_lt hjl
        rw [hes j v p hg] at hj
        cases hj
        have hst : (Prg.block p .nil).stateless = true := by
          have := (casesStateless_iff cs).mp hs.1 (v, p) (List.mem_of_getElem? hg)
          simp [Prg.stateless, this]
        obtain ⟨g1, g2, _⟩ := hh j v p hg
        have hm : (st.blk (mm j)).isState = false := by
          rcases (f1 j v p hg).range.2 with e | e
          · rw [e]; exact g2
          · exact (f1 j v p hg).plain hst _ e.1 e.2
        exact ih1 j v p hg hst g2 (PSt.noState_goto g1 hm ha') d
      · exact ha' d
  | _ => simp [Prg.stateless] at hs

/-- What is seen from the end of such statements is seen from their start. -/
theorem Frag.noState_end (h : Frag st.blk tops s p bt c pre l lo hi) (hs : p.stateless = true) :
    ∀ d, st.noState (d + (hi - lo)) c = true → st.noState d l = true := by
  induction h with
  | nil => intro d hd; exact PSt.noState_mono (by omega) hd
  | instr _ ih => exact ih (by rw [Prg.stateless] at hs; exact hs)
  | @block b k bt c pre l lo hi m x _ ha h1 f1 ha' h2 f2 hz ih1 ih2 =>
    rw [Prg.stateless, Bool.and_eq_true] at hs
    intro d hd
    have r1 := f1.range.1
    have r2 := f2.range.1
    refine ih2 hs.2 d (PSt.noState_child (b := m) ?_ (by simp [PSt.children, ha']))
    refine ih1 hs.1 _ (PSt.noState_child (b := c) ?_ (by simp [PSt.children, ha]))
    exact PSt.noState_mono (by omega) hd
  | @ifThen q t k bt c pre l lo hi it a _ ha f1 ha' h1 _ _ he h2 _ h3 f2 hz ih1 ih2 =>
    rw [Prg.stateless, Bool.and_eq_true] at hs
    intro d hd
    have r1 := f1.range.1
    have r2 := f2.range.1
    refine ih2 hs.2 d (PSt.noState_child (b := c) ?_ (by simp [PSt.children, ha]))
    exact PSt.noState_mono (by omega) hd
  | @ifElse q t f k bt c pre l lo hi it et m a _ ha f1 ha1 h1 _ f2 ha2 h2 _ h3 f3 hz ih1 ih2 ih3 =>
    rw [Prg.stateless, Bool.and_eq_true, Bool.and_eq_true] at hs
    intro d hd
    have r1 := f1.range.1
    have r2 := f2.range.1
    have r3 := f3.range.1
    refine ih3 hs.2 d (PSt.noState_child (b := c) ?_ (by simp [PSt.children, ha]))
    exact PSt.noState_mono (by omega) hd
  | @switch q cs k bt c pre l lo hi x es bb mm e1 ha hlen hes h0 hx f1 hh e2 h3 f2 hz ih1 ih2 =>
    have hr := (Frag.switch (q := q) e1 ha hlen hes h0 hx f1 hh e2 h3 f2 hz).range.1
    rw [Prg.stateless, Bool.and_eq_true] at hs
    intro d hd
    have r2 := f2.range.1
    have r3 : lo + 1 ≤ x := by
      have := (seq_le (bb := bb) (n := cs.length) (fun j hj => by
        obtain ⟨⟨v, p⟩, hg⟩ := get_of_lt hj
        exact (f1 j v p hg).range.1) 0 (by omega)).2
      omega
    refine ih2 hs.2 d (PSt.noState_child (b := c) ?_ (by simp [PSt.children, ha]))
    exact PSt.noState_mono (by omega) hd
  | _ => simp [Prg.stateless] at hs

/-- In all other cases a state or a call is seen from the start. -/
theorem Frag.seen (h : Frag st.blk tops s p bt c pre l lo hi) (hs : p.stateless = false) : ∀ d, hi - lo < d → st.noState d c = false := by
  have key : ∀ {b n : Nat} {d : Nat}, n ∈ st.children b → (∀ e, e < d → d ≤ e + 1 → st.noState e n = false) → 0 < d → st.noState d b = false := by
    intro b n d hn hf hd
    obtain ⟨e, rfl⟩ : ∃ e, d = e + 1 := ⟨d - 1, by omega⟩
    rw [← Bool.not_eq_true]
    intro ht
    have := PSt.noState_child ht hn
    rw [hf e (by omega) (by omega)] at this
    cases this
  have state : ∀ {b : Nat} {d : Nat}, (st.blk b).isState = true → 0 < d → st.noState d b = false := by
    intro b d hb hd
    obtain ⟨e, rfl⟩ : ∃ e, d = e + 1 := ⟨d - 1, by omega⟩
    simp [PSt.noState, hb]
  induction h with
  | nil => simp [Prg.stateless] at hs
  | instr _ ih => exact ih (by rw [Prg.stateless] at hs; exact hs)
  | @step k bt c pre l lo hi _ ha h1 _ f1 ih =>
    intro d hd
    have := f1.range.1
    exact key (n := lo) (by simp [PSt.children, ha]) (fun e h1' h2' => state h1 (by omega)) (by omega)
  | @block b k bt c pre l lo hi m x _ ha h1 f1 ha' h2 f2 hz ih1 ih2 =>
    intro d hd
    have r1 := f1.range.1
    have r2 := f2.range.1
    refine key (n := lo) (by simp [PSt.children, ha]) (fun e h1' h2' => ?_) (by omega)
    rw [Prg.stateless] at hs
    cases hb : b.stateless with
    | false => exact ih1 hb e (by omega)
    | true =>
      rw [hb, Bool.true_and] at hs
      rw [← Bool.not_eq_true]
      intro ht
      have h3 := f1.noState_end hb (e - (x - (lo + 1))) (by rw [Nat.sub_add_cancel (by omega)]; exact ht)
      obtain ⟨e', he'⟩ : ∃ e', e - (x - (lo + 1)) = e' + 1 := ⟨e - (x - (lo + 1)) - 1, by omega⟩
      rw [he'] at h3
      have h4 := PSt.noState_child h3 (n := x) (by simp [PSt.children, ha'])
      rw [ih2 hs e' (by omega)] at h4
      cases h4
  | @ifThen q t k bt c pre l lo hi it a _ ha f1 ha' h1 _ _ he h2 _ h3 f2 hz ih1 ih2 =>
    intro d hd
    have r1 := f1.range.1
    have r2 := f2.range.1
    rw [Prg.stateless] at hs
    cases hb : t.stateless with
    | false =>
      exact key (n := lo) (by simp [PSt.children, ha]) (fun e h1' h2' => ih1 (by simp [Prg.stateless, hb]) e (by omega)) (by omega)
    | true =>
      rw [hb, Bool.true_and] at hs
      exact key (n := a) (by simp [PSt.children, ha]) (fun e h1' h2' => ih2 hs e (by omega)) (by omega)
  | @ifElse q t f k bt c pre l lo hi it et m a _ ha f1 ha1 h1 _ f2 ha2 h2 _ h3 f3 hz ih1 ih2 ih3 =>
    intro d hd
    have r1 := f1.range.1
    have r2 := f2.range.1
    have r3 := f3.range.1
    rw [Prg.stateless] at hs
    cases hb : t.stateless with
    | false =>
      exact key (n := lo) (by simp [PSt.children, ha]) (fun e h1' h2' => ih1 (by simp [Prg.stateless, hb]) e (by omega)) (by omega)
    | true =>
      cases hf : f.stateless with
      | false =>
        exact key (n := lo + 1) (by simp [PSt.children, ha]) (fun e h1' h2' => ih2 (by simp [Prg.stateless, hf]) e (by omega)) (by omega)
      | true =>
        rw [hb, hf, Bool.true_and, Bool.true_and] at hs
        exact key (n := a) (by simp [PSt.children, ha]) (fun e h1' h2' => ih3 hs e (by omega)) (by omega)
  | @loop q b k bt c pre l lo hi m x _ ha h1 _ _ _ f1 _ f2 hz _ _ =>
    intro d hd
    have r1 := f1.range.1
    have r2 := f2.range.1
    exact key (n := lo) (by simp [PSt.children, ha]) (fun e h1' h2' => state h1 (by omega)) (by omega)
  | @brk k b c pre l lo hi _ ha h1 f1 ih =>
    intro d hd
    have := f1.range.1
    exact key (n := b) (by simp [PSt.children, ha]) (fun e h1' h2' => state h1 (by omega)) (by omega)
  | @switch q cs k bt c pre l lo hi x es bb mm e1 ha hlen hes h0 hx f1 hh e2 h3 f2 hz ih1 ih2 =>
    intro d hd
    have r2 := f2.range.1
    have r3 : lo + 1 ≤ x := by
      have := (seq_le (bb := bb) (n := cs.length) (fun j hj => by
        obtain ⟨⟨v, p⟩, hg⟩ := get_of_lt hj
        exact (f1 j v p hg).range.1) 0 (by omega)).2
      omega
    rw [Prg.stateless] at hs
    refine key (n := lo) (by simp [PSt.children, ha]) (fun e h1' h2' => ?_) (by omega)
    cases hb : casesStateless cs with
    | false => exact state (by rw [h3, hb]; rfl) (by omega)
    | true =>
      rw [hb, Bool.true_and] at hs
      exact ih2 hs e (by omega)
  | @call z give take outs k bt c pre l lo hi t _ _ ha h1 f1 hz _ =>
    intro d hd
    obtain ⟨e, rfl⟩ : ∃ e, d = e + 1 := ⟨d - 1, by omega⟩
    simp [PSt.noState, PSt.isCall, ha]
  | @join inst take outs k bt c pre l lo hi _ ha h1 _ _ _ f1 hz _ =>
    intro d hd
    have := f1.range.1
    exact key (n := lo) (by simp [PSt.children, ha]) (fun e h1' h2' => state h1 (by omega)) (by omega)
  | @ret k bt c pre l lo hi z _ _ _ h1 f1 _ =>
    intro d hd
    exact state h1 (by omega)

/-- The side of a conditional is found to be without states exactly if its statements fit in one cycle. -/
theorem Frag.isStateless_eq {t : Prg} {i it a : Nat} (h : Frag st.blk tops s (.block t .nil) bt i pre it lo hi) (hi0 : (st.blk i).isState = false)
    (hit : (st.blk it).act = .goto a) (ha : (st.blk a).isState = false) (ha' : (st.blk a).act = .stop) (hn : hi - lo < st.next) :
    st.isStateless i = t.stateless := by
  cases ht : t.stateless with
  | true =>
    have hs : (Prg.block t .nil).stateless = true := by simp [Prg.stateless, ht]
    refine h.noState_of hs hi0 (PSt.noState_goto hit ?_ ?_) _
    · rcases h.range.2 with e | e
      · rw [e]; exact hi0
      · exact h.plain hs it e.1 e.2
    · intro d
      cases d with
      | zero => rfl
      | succ d => rw [PSt.noState_succ]; simp [ha, PSt.isCall, ha', PSt.children]
  | false => exact h.seen (by simp [Prg.stateless, ht]) _ hn

end Silice
