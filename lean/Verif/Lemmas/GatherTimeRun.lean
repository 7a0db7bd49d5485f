import Verif.Lemmas.GatherSim

/-! Runs of the statements follow runs of the graph. -/

set_option autoImplicit false

namespace Silice

/-! ### The statements do one thing only -/

theorem TCycle.det {σ : Type} {subs : List Prg} {M : Meaning σ} {c : Ctl} {f : Bool} {s s1 : σ} {e1 : List Did} {o1 : Option (Ctl × Bool)}
    (h : TCycle subs M c f s e1 s1 o1) : ∀ {s2 : σ} {e2 : List Did} {o2 : Option (Ctl × Bool)}, TCycle subs M c f s e2 s2 o2 →
    e1 = e2 ∧ s1 = s2 ∧ o1 = o2 := by
  induction h with
  | halt hm =>
    intro s2 e2 o2 h2
    cases h2 <;> rename_i hm2 <;> first
      | exact ⟨rfl, rfl, rfl⟩
      | (rename_i hm3; rw [hm] at hm3; cases hm3)
      | (rw [hm] at hm2; cases hm2)
  | did hm _ ih =>
    intro s2 e2 o2 h2
    cases h2 with
    | did hm2 h2 =>
      rw [hm] at hm2
      cases hm2
      obtain ⟨rfl, rfl, rfl⟩ := ih h2
      exact ⟨rfl, rfl, rfl⟩
    | halt hm2 | on hm2 | tested hm2 | merged hm2 | cut hm2 | step hm2 | jump hm2 => rw [hm] at hm2; cases hm2
  | on hm _ ih =>
    intro s2 e2 o2 h2
    cases h2 with
    | on hm2 h2 =>
      rw [hm] at hm2
      cases hm2
      exact ih h2
    | halt hm2 | did hm2 | tested hm2 | merged hm2 | cut hm2 | step hm2 | jump hm2 => rw [hm] at hm2; cases hm2
  | tested hm _ ih =>
    intro s2 e2 o2 h2
    cases h2 with
    | tested hm2 h2 =>
      rw [hm] at hm2
      cases hm2
      exact ih h2
    | halt hm2 | did hm2 | on hm2 | merged hm2 | cut hm2 | step hm2 | jump hm2 => rw [hm] at hm2; cases hm2
  | merged hm _ ih =>
    intro s2 e2 o2 h2
    cases h2 with
    | merged hm2 h2 =>
      rw [hm] at hm2
      cases hm2
      exact ih h2
    | halt hm2 | did hm2 | on hm2 | tested hm2 | step hm2 | jump hm2 => rw [hm] at hm2; cases hm2
  | cut hm =>
    intro s2 e2 o2 h2
    cases h2 with
    | cut hm2 => rw [hm] at hm2; cases hm2; exact ⟨rfl, rfl, rfl⟩
    | halt hm2 | did hm2 | on hm2 | tested hm2 | step hm2 | jump hm2 => rw [hm] at hm2; cases hm2
  | step hm =>
    intro s2 e2 o2 h2
    cases h2 with
    | step hm2 => rw [hm] at hm2; cases hm2; exact ⟨rfl, rfl, rfl⟩
    | halt hm2 | did hm2 | on hm2 | tested hm2 | merged hm2 | cut hm2 | jump hm2 => rw [hm] at hm2; cases hm2
  | jump hm =>
    intro s2 e2 o2 h2
    cases h2 with
    | jump hm2 => rw [hm] at hm2; cases hm2; exact ⟨rfl, rfl, rfl⟩
    | halt hm2 | did hm2 | on hm2 | tested hm2 | merged hm2 | cut hm2 | step hm2 => rw [hm] at hm2; cases hm2

theorem TRun.det {σ : Type} {subs : List Prg} {main : Prg} {M : Meaning σ} {env : Nat → σ → σ} {s0 : σ} {n : Nat} {t1 : List (List Did)}
    {o1 : Option (Ctl × Bool)} {s1 : σ} (h : TRun subs main M env s0 n t1 o1 s1) : ∀ {t2 : List (List Did)} {o2 : Option (Ctl × Bool)} {s2 : σ},
    TRun subs main M env s0 n t2 o2 s2 → t1 = t2 ∧ o1 = o2 ∧ s1 = s2 := by
  induction h with
  | start => intro t2 o2 s2 h2; cases h2; exact ⟨rfl, rfl, rfl⟩
  | next _ hc ih =>
    intro t2 o2 s2 h2
    cases h2 with
    | next h2 hc2 =>
      obtain ⟨rfl, ho, rfl⟩ := ih h2
      cases ho
      obtain ⟨rfl, rfl, rfl⟩ := hc.det hc2
      exact ⟨rfl, rfl, rfl⟩
    | over h2 => have := (ih h2).2.1; cases this
  | over _ ih =>
    intro t2 o2 s2 h2
    cases h2 with
    | next h2 hc2 => have := (ih h2).2.1; cases this
    | over h2 =>
      obtain ⟨rfl, _, rfl⟩ := ih h2
      exact ⟨rfl, rfl, rfl⟩

/-! ### Runs -/

theorem insDids_of_empty {is : List PIns} (h : insEmpty is = true) : insDids is = [] := by
  unfold insEmpty at h
  split at h
  · rfl
  · rename_i outs
    cases outs with
    | false => rfl
    | true => cases h
  · cases h

theorem Cycle.jump_state {B σ : Type} {g : Cfg B} {S : Sem B σ} {b : B} {s s' : σ} {tr : List B} {o : Out B} (h : Cycle g S b s tr s' o) :
    ∀ n, o = .jump n → (g.blk n).isState = true := by
  induction h with
  | @out b s o hg =>
    rintro n rfl
    unfold go at hg
    split at hg <;> first | cases hg | (split at hg <;> cases hg)
  | state _ hs => intro m hm; cases hm; exact hs
  | more _ _ _ ih => exact ih

section
variable {u : AlgUnit} {st : PSt} {last n0 l0 lo0 : Nat} {g : Cfg (Fin (last + 1))} {ff ff0 : Fin (last + 1) → Fin (last + 1)}
  {num : Num (Fin (last + 1))}

/-- Where the graph and the statements are at the start of a cycle. -/
inductive Here (u : AlgUnit) (st : PSt) (last : Nat) (ff0 : Fin (last + 1) → Fin (last + 1)) (g : Cfg (Fin (last + 1))) :
    Pos (Fin (last + 1)) → Option (Ctl × Bool) → Prop where
  | over : Here u st last ff0 g .halted none
  | start : Here u st last ff0 g (.at (nm last 0) []) (some (.run u.main [], false))
  | «at» {b : Nat} {f : Bool} {d : Fin (last + 1)} {c : Ctl} {stk : List Nat} : b < last + 1 → Starts g 0 (nm last b) f d →
      Walked (st.cfg last) (nm last b) → Match st last ff0 g c b stk → Here u st last ff0 g (.at d (stk.map (nm last))) (some (c, f))

variable (C : Comp u st last n0 l0 lo0 g ff ff0 num) (hlast : g.last = nm last last) {σ : Type} {M : Meaning σ}
include C

theorem Comp.nop : EmptyIsNop g (unitSem st last M) := by
  intro b s h
  obtain ⟨n, hn, rfl⟩ := fin_name b
  have hn : n < last + 1 := by omega
  rw [C.M.blk, cfg_blk n hn] at h
  rw [exec_nm M hn, insDids_of_empty h]
  rfl

theorem Comp.fsm (b : Fin (last + 1)) : (g.blk b).fsm = 0 := by rw [C.M.blk]; rfl

theorem Comp.events {tr tr' : List (Fin (last + 1))} (h : instrs g tr' = instrs g tr) : events st last tr' = events st last tr := by
  have key : ∀ tr, Silice.events st last tr = Silice.events st last (instrs g tr) := by
    intro tr
    induction tr with
    | nil => rfl
    | cons b tr ih =>
      obtain ⟨n, hn, rfl⟩ := fin_name b
      have hn : n < last + 1 := by omega
      have he : (g.blk (nm last n)).empty = insEmpty (st.blk n).ins := by rw [C.M.blk, cfg_blk n hn]
      unfold instrs at ih ⊢
      rw [List.filter_cons]
      split_ifs with hc
      · rw [events_cons hn, events_cons hn, ih]
      · rw [events_cons hn, insDids_of_empty (by rw [← he]; simpa using hc), ih]
        rfl
  rw [key tr', h, ← key tr]

include hlast

/-- The last block is not jumped to. -/
theorem Comp.lands {n : Fin (last + 1)} (hs : (g.blk n).isState = true) {stk : List (Fin (last + 1))} {p : Pos (Fin (last + 1))}
    (h : Lands g ff stk n p) : p = .at (ff n) stk := by
  cases h with
  | state => rfl
  | done _ _ h3 =>
    have hff : (g.blk (ff n)).isState = true := by
      obtain ⟨k, hk⟩ := C.hff n
      unfold fastForward at hk
      split_ifs at hk with hn
      · rw [Option.some.injEq] at hk
        rwa [← hk]
      · rcases ffLoop_exact g _ k n n (ff n) hk with ⟨e, _⟩ | ⟨_, h2, _⟩
        · rwa [e]
        · exact h2
    rw [h3, hlast] at hff
    have h1 := C.plain (by omega) C.U.noIf_last
    rw [C.U.stop] at h1
    have h2 := withRule_more (F := st.blk) (f := Fin.ofNat (last + 1)) (N := last + 1) (g0 := st.cfg last) (ff0 := ff0) |>.more _ hff
    rw [h1] at h2
    cases h2

/-- One cycle, from a block of the statements. -/
theorem here_cycle {env : σ → σ} {d : Fin (last + 1)} {stk : List Nat} {c : Ctl} {f : Bool} {b : Nat} {s s' : σ} {tr : List (Fin (last + 1))}
    {p' : Pos (Fin (last + 1))} (hst : Starts g 0 (nm last b) f d)
    (hfine : ∀ s tr s' o, BCycle (ruled st last ff0 g) (unitSem st last M) (nm last b) f s tr s' o → Fine u st last g ff0 M c f s [] tr s' o stk)
    (h : SrcCycle g ff (unitSem st last M) env (.at d (stk.map (nm last))) s tr p' s') :
    ∃ s1 o, TCycle (u.globals ++ u.locals) M c f s (events st last tr) s1 o ∧ s' = env s1 ∧ Here u st last ff0 g p' o := by
  have step : ∀ {s1 : σ} {o : Out (Fin (last + 1))}, Cycle g (unitSem st last M) d s tr s1 o →
      ∃ o' o'', TCycle (u.globals ++ u.locals) M c f s (events st last tr) s1 o'' ∧ OutTo g 0 o o' ∧ Ended st last ff0 g stk o' o'' := by
    intro s1 o hc
    obtain ⟨tr', o', h1, h2, h3⟩ := bcycle_of_starts (fsm := 0) withRule_more C.fsm C.nop
      (fun m h1 h2 => rule_harm C.P C.M C.hff0 (fun _ => rfl) m h1 h2) hst hc
    obtain ⟨es, o'', t1, t2, t3⟩ := hfine _ _ _ _ h1
    rw [List.nil_append, C.events h2] at t2
    exact ⟨o', o'', t2 ▸ t1, h3, t3⟩
  have hns : ∀ {n : Nat}, n < last + 1 → (g.blk (nm last n)).noSkip = (st.blk n).noSkip := fun hn => by rw [C.M.blk, cfg_blk _ hn]
  generalize hstk : stk.map (nm last) = stk0 at h
  cases h with
  | @jump _ n0' _ _ _ _ _ hc hl =>
    obtain ⟨o', o'', t1, t2, t3⟩ := step hc
    rw [C.lands hlast (hc.jump_state _ rfl) hl]
    have : ∃ m', o' = .jump m' ∧ JumpsTo g 0 n0' m' := by
      rcases t2 with rfl | ⟨m, m', e1, e2, e3⟩
      · exact ⟨_, rfl, .inl rfl⟩
      · cases e1
        exact ⟨m', e2, e3⟩
    obtain ⟨m', rfl, hj⟩ := this
    generalize ho : Out.jump m' = o1 at t3
    cases t3 with
    | @jump n c' hn hW hM =>
      cases ho
      have := starts_of_ff C.hff C.fsm hj
      rw [hns hn] at this
      exact ⟨_, _, t1, rfl, hstk ▸ .at hn this hW hM⟩
    | _ => cases ho
  | halt hc =>
    obtain ⟨o', o'', t1, t2, t3⟩ := step hc
    rcases t2 with rfl | ⟨m, m', e1, _⟩
    · cases t3
      exact ⟨_, _, t1, rfl, .over⟩
    · cases e1
  | call hc hl =>
    obtain ⟨o', o'', t1, t2, t3⟩ := step hc
    rcases t2 with rfl | ⟨m, m', e1, _⟩
    · cases t3 with
      | @call _ t r c' ht hs hW hM =>
        rw [C.lands hlast (C.P.over.state t ht hs.1) hl]
        have := starts_of_ff C.hff C.fsm (m := nm last t) (.inl rfl)
        rw [hns ht, hs.2] at this
        exact ⟨_, _, t1, rfl, hstk ▸ Here.at (stk := r :: stk) ht this hW hM⟩
    · cases e1
  | ret hc hl =>
    obtain ⟨o', o'', t1, t2, t3⟩ := step hc
    rcases t2 with rfl | ⟨m, m', e1, _⟩
    · cases t3 with
      | @ret _ z r stk' c' e hr hs hW hM =>
        subst e
        rw [List.map_cons, List.cons.injEq] at hstk
        obtain ⟨rfl, rfl⟩ := hstk
        rw [C.lands hlast (C.P.over.state r hr hs.1) hl]
        have := starts_of_ff C.hff C.fsm (m := nm last r) (.inl rfl)
        rw [hns hr, hs.2] at this
        exact ⟨_, _, t1, rfl, .at hr this hW hM⟩
    · cases e1

omit hlast in
/-- The first cycle starts with the empty block before the statements. -/
theorem fine_start {s s' : σ} {tr : List (Fin (last + 1))} {o : Out (Fin (last + 1))}
    (H : BCycle (ruled st last ff0 g) (unitSem st last M) (nm last 0) false s tr s' o) :
    Fine u st last g ff0 M (.run u.main []) false s [] tr s' o [] := by
  have hpos := C.U.pos
  have h0 : (0 : Nat) < last + 1 := by omega
  have hn0 : n0 < last + 1 := by omega
  have ha : (st.blk 0).act = .goto n0 := by rw [C.U.first]
  have hi : (st.blk 0).ins = [] := by rw [C.U.first]
  have hgo : ∀ s, go (ruled st last ff0 g) (unitSem st last M) (nm last 0) s = .to (nm last n0) := by
    intro s; unfold go; rw [C.act h0, ha]; rfl
  have htidy : u.main.tidy = true := by
    have := C.tidy
    rw [AlgUnit.tidy, Bool.and_eq_true] at this
    exact this.1
  have A : At st last none u.main none n0 [] l0 := ⟨st.tops, lo0, last, fun _ _ h => h, C.U.main, C.U.inlet, htidy, hn0⟩
  have hs := C.plain hn0 C.U.noIf_start
  rw [C.U.start, A.notRet] at hs
  have hex : (unitSem st last M).exec (nm last 0) s = s := by rw [exec_nm M h0, hi]; rfl
  cases H with
  | out h => rw [hgo] at h; cases h
  | state h h1 => rw [hgo] at h; cases h; rw [hs] at h1; cases h1
  | more h h1 h2 =>
    rw [hgo] at h
    cases h
    have hfr : freshTo (ruled st last ff0 g) (nm last 0) (nm last n0) false = false := by simp [freshTo]
    rw [hfr, hex] at h2
    obtain ⟨es, o', t1, t2, t3⟩ := sim_cycle C _ n0 _ _ _ _ _ [] hn0 h2 (C.goto h0 ha .first) (.run A (.halt C.U.mainEnd))
    exact ⟨es, o', t1, by rw [events_cons h0, hi, t2]; rfl, t3⟩

/-- Runs of the graph are runs of the statements. -/
theorem here_run {env : Nat → σ → σ} {s0 : σ} {n : Nat} {trs : List (List (Fin (last + 1)))} {p : Pos (Fin (last + 1))} {s : σ}
    (h : SrcRun g ff (unitSem st last M) env s0 n trs p s) :
    ∃ o, TRun (u.globals ++ u.locals) u.main M env s0 n (trs.map (events st last)) o s ∧ Here u st last ff0 g p o := by
  induction h with
  | start =>
    refine ⟨_, .start, ?_⟩
    rw [C.M.first]
    exact .start
  | @next n trs tr p p' s s' _ hc ih =>
    obtain ⟨o, h1, h2⟩ := ih
    rw [List.map_append, List.map_singleton]
    cases h2 with
    | over =>
      cases hc with
      | halted => exact ⟨none, .over h1, .over⟩
    | start =>
      obtain ⟨s1, o, t1, rfl, t2⟩ := here_cycle C hlast (b := 0) (stk := []) (.inl ⟨rfl, rfl⟩) (fun _ _ _ _ H => fine_start C H) hc
      exact ⟨o, .next h1 t1, t2⟩
    | «at» hb hst hW hM =>
      obtain ⟨s1, o, t1, rfl, t2⟩ := here_cycle C hlast hst (fun _ _ _ _ H => sim_cycle C _ _ _ _ _ _ _ _ hb H hW hM) hc
      exact ⟨o, .next h1 t1, t2⟩

end

end Silice
