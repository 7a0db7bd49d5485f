import Verif.Spec.FsmMachine
import Verif.Props.FsmStates

/-! Lockstep of the generated machine with the source-level execution. -/

set_option autoImplicit false

namespace Silice
variable {B σ : Type} [DecidableEq B]

/-! ### Call ids -/

omit [DecidableEq B] in
theorem callIdsFrom_ge (g : Cfg B) : ∀ (bs : List B) (n : Nat), ∀ p ∈ callIdsFrom g n bs, n ≤ p.2 := by
  intro bs
  induction bs with
  | nil => intro n p hp; simp [callIdsFrom] at hp
  | cons b bs ih =>
    intro n p hp
    rw [callIdsFrom] at hp
    split at hp
    · rcases List.mem_cons.mp hp with rfl | hp
      · exact Nat.le_refl _
      · exact Nat.le_of_succ_le (ih _ p hp)
    · exact ih _ p hp

omit [DecidableEq B] in
theorem callIdsFrom_lt (g : Cfg B) : ∀ (bs : List B) (n : Nat),
    (callIdsFrom g n bs).Pairwise (fun p q => p.2 < q.2) := by
  intro bs
  induction bs with
  | nil => intro n; simp [callIdsFrom]
  | cons b bs ih =>
    intro n
    rw [callIdsFrom]
    split
    · rw [List.pairwise_cons]
      exact ⟨fun q hq => callIdsFrom_ge g bs (n + 1) q hq, ih _⟩
    · exact ih _

omit [DecidableEq B] in
theorem callIdsFrom_mem (g : Cfg B) : ∀ (bs : List B) (n : Nat) (b : B) (t r : B), b ∈ bs →
    (g.blk b).act = .call t r → ∃ i, (b, i) ∈ callIdsFrom g n bs := by
  intro bs
  induction bs with
  | nil => intro n b t r hb; cases hb
  | cons a bs ih =>
    intro n b t r hb ha
    rw [callIdsFrom]
    rcases List.mem_cons.mp hb with rfl | hb
    · rw [ha]; exact ⟨n, List.mem_cons_self⟩
    · split
      · obtain ⟨i, hi⟩ := ih (n + 1) b t r hb ha
        exact ⟨i, List.mem_cons_of_mem _ hi⟩
      · exact ih n b t r hb ha

theorem idOf_mem {ids : List (B × Nat)} {b : B} {i : Nat} (h : idOf ids b = some i) : (b, i) ∈ ids := by
  unfold idOf at h
  obtain ⟨p, hp, rfl⟩ := Option.map_eq_some_iff.mp h
  have h1 := List.find?_some hp
  have h2 := List.mem_of_find?_eq_some hp
  simp only [decide_eq_true_eq] at h1
  rw [← h1]; exact h2

theorem idOf_some {ids : List (B × Nat)} {b : B} {i : Nat} (h : (b, i) ∈ ids) : ∃ j, idOf ids b = some j := by
  unfold idOf
  cases hf : ids.find? (fun p => decide (p.1 = b)) with
  | none =>
    have := List.find?_eq_none.mp hf _ h
    simp at this
  | some p => exact ⟨p.2, rfl⟩

omit [DecidableEq B] in
theorem returnStates_mem (g : Cfg B) {ids : List (B × Nat)} {k i : Nat} {b t r : B} (h : (b, i) ∈ ids)
    (ha : (g.blk b).act = .call t r) (hk : (g.blk t).sub = some k) : (i, r) ∈ returnStates g ids k := by
  unfold returnStates
  rw [List.mem_filterMap]
  exact ⟨(b, i), h, by simp [ha, hk]⟩

omit [DecidableEq B] in
theorem returnStates_lt (g : Cfg B) {ids : List (B × Nat)} (k : Nat)
    (h : ids.Pairwise (fun p q => p.2 < q.2)) :
    (returnStates g ids k).Pairwise (fun p q => p.1 < q.1) := by
  induction ids with
  | nil => simp [returnStates]
  | cons p ids ih =>
    obtain ⟨b, n⟩ := p
    rw [List.pairwise_cons] at h
    have ih := ih h.2
    have hge : ∀ q ∈ returnStates g ids k, n < q.1 := by
      intro q hq
      unfold returnStates at hq
      rw [List.mem_filterMap] at hq
      obtain ⟨⟨b', n'⟩, hm, he⟩ := hq
      have := h.1 _ hm
      simp only at he this
      split at he
      · split_ifs at he
        cases he
        exact this
      · cases he
    unfold returnStates at ih hge ⊢
    rw [List.filterMap_cons]
    split
    · exact ih
    · rename_i q hq
      rw [List.pairwise_cons]
      refine ⟨?_, ih⟩
      simp only at hq
      split at hq
      · split_ifs at hq
        cases hq
        exact hge
      · cases hq

omit [DecidableEq B] in
theorem find_unique {l : List (Nat × B)} (h : l.Pairwise (fun p q => p.1 < q.1)) {i : Nat} {r : B}
    (hm : (i, r) ∈ l) : l.find? (fun p => decide (p.1 = i)) = some (i, r) := by
  induction l with
  | nil => cases hm
  | cons p l ih =>
    rw [List.pairwise_cons] at h
    rcases List.mem_cons.mp hm with rfl | hm
    · simp
    · have := h.1 _ hm
      simp only at this
      rw [List.find?_cons_of_neg (by simp; omega)]
      exact ih h.2 hm

/-! ### Bookkeeping of calls -/

/-- The registers remember the calls in progress: `cs` are the call sites, innermost first, `st` their
return points. -/
inductive Frames (g : Cfg B) (ff : B → B) (ids : List (B × Nat)) (ok : B → Prop) (saved : Nat → Nat) :
    Nat → Option Nat → List B → List B → Prop where
  | nil {caller : Nat} : Frames g ff ids ok saved caller none [] []
  | cons {c t r : B} {k caller caller' : Nat} {cs st : List B} :
      (g.blk c).act = .call t r → (g.blk t).sub = some k → idOf ids c = some caller → Reached g ff c → ok r →
      (∀ k', (g.blk c).sub = some k' → saved k' = caller') →
      Frames g ff ids ok saved caller' (g.blk c).sub cs st →
      Frames g ff ids ok saved caller (some k) (c :: cs) (r :: st)

theorem Frames.calls {g : Cfg B} {ff : B → B} {ids : List (B × Nat)} {ok : B → Prop} {saved : Nat → Nat}
    {caller k : Nat} {cs st : List B} (h : Frames g ff ids ok saved caller (some k) cs st) :
    ∀ c ∈ cs, ∀ k', (g.blk c).sub = some k' → Relation.TransGen (SubCalls g) k' k := by
  generalize hs : some k = sub at h
  induction h generalizing k with
  | nil => intro c hc; cases hc
  | @cons c t r k0 caller caller' cs st ha ht _ _ _ _ hf ih =>
    cases hs
    intro d hd k' hk'
    rcases List.mem_cons.mp hd with rfl | hd
    · exact .single ⟨_, _, _, ha, hk', ht⟩
    · cases hc : (g.blk c).sub with
      | none =>
        rw [hc] at hf
        cases hf
        cases hd
      | some k1 => exact (ih hc.symm d hd k' hk').tail ⟨_, _, _, ha, hc, ht⟩

theorem Frames.upd {g : Cfg B} {ff : B → B} {ids : List (B × Nat)} {ok : B → Prop} {saved : Nat → Nat}
    {caller : Nat} {sub : Option Nat} {cs st : List B} (h : Frames g ff ids ok saved caller sub cs st)
    (k v : Nat) (hk : ∀ c ∈ cs, (g.blk c).sub ≠ some k) :
    Frames g ff ids ok (Silice.upd saved k v) caller sub cs st := by
  induction h with
  | nil => exact .nil
  | @cons c t r k0 caller caller' cs st ha ht hi hr ho hsv _ ih =>
    refine .cons ha ht hi hr ho ?_ (ih fun d hd => hk d (List.mem_cons_of_mem _ hd))
    intro k' hk'
    have hne : k' ≠ k := by
      rintro rfl
      exact hk c List.mem_cons_self hk'
    rw [Silice.upd, if_neg hne]
    exact hsv k' hk'

/-! ### Simulation -/

variable {g : Cfg B} {fsm : Nat} {ff : B → B} {num : Num B} {maxState : Nat} {blocks : List B}
  {entries : List (Entry B)}

/-- The hardware is where the source is. -/
def Sim (g : Cfg B) (ff : B → B) (blocks : List B) (entries : List (Entry B)) (h : HW σ) :
    Pos B → σ → Prop
  | .halted, s => h.idx = 0 ∧ h.data = s
  | .at b st, s => h.data = s ∧ (∃ e ∈ entries, e.block = b ∧ e.index = h.idx) ∧
      ∃ cs, Frames g ff (callIdsFrom g 0 blocks)
        (fun r => (g.blk r).isState = true ∧ ff r ∈ entries.map (·.block)) h.saved h.caller (g.blk b).sub cs st

theorem lands (m : Machine g fsm ff num maxState blocks entries) (st : List B) (n : B)
    (hm : ff n ∈ entries.map (·.block)) :
    ∃ p k, Lands g ff st n p ∧ stateIndex g num ff n = some k ∧
      ((p = .halted ∧ k = 0) ∨ (p = .at (ff n) st ∧ ∃ e ∈ entries, e.block = ff n ∧ e.index = k)) := by
  obtain ⟨ef, fu, hst⟩ := m.states
  have inv := emitStates_inv hst
  obtain ⟨e, he, hb⟩ := List.mem_map.mp hm
  by_cases hl : (g.blk (ff n)).empty = true ∧ ff n = g.last
  · refine ⟨.halted, 0, .done hl.1 ?_ hl.2, by rw [stateIndex, if_pos hl], .inl ⟨rfl, rfl⟩⟩
    rw [hl.2]
    exact m.wf.lastEnds (hl.2 ▸ hl.1)
  · refine ⟨.at (ff n) st, e.index, .state ?_, ?_, .inr ⟨rfl, e, he, hb, rfl⟩⟩
    · rintro ⟨h1, _, h3⟩; exact hl ⟨h1, h3⟩
    · rw [stateIndex, if_neg hl, ← hb]; exact inv.index e he

theorem sim_step (m : Machine g fsm ff num maxState blocks entries) (S : Sem B σ) (env : σ → σ) (h : HW σ)
    (p : Pos B) (s : σ) (hsim : Sim g ff blocks entries h p s) :
    ∃ tr p' s' h', SrcCycle g ff S env p s tr p' s' ∧
      hwCycle g num ff (callIdsFrom g 0 blocks) entries S env h = some (tr, h') ∧
      Sim g ff blocks entries h' p' s' := by
  obtain ⟨ef, fu, hst⟩ := m.states
  have inv := emitStates_inv hst
  cases p with
  | halted =>
    obtain ⟨h1, h2⟩ := hsim
    refine ⟨[], .halted, env s, { h with data := env h.data }, .halted, ?_, h1, by simp [h2]⟩
    rw [hwCycle, if_pos h1]
  | «at» b st =>
    obtain ⟨rfl, ⟨e, he, rfl, hidx⟩, cs, hfr⟩ := hsim
    obtain ⟨hndi, _, hgood⟩ := C20_entries_distinct g fsm ff num maxState ef fu entries m.numbers hst
    have hge := hgood e he
    have hfind : entries.find? (fun x => decide (x.index = h.idx)) = some e := by
      cases hf : entries.find? (fun x => decide (x.index = h.idx)) with
      | none =>
        have := List.find?_eq_none.mp hf e he
        simp [hidx] at this
      | some e' =>
        have h1 := List.find?_some hf
        have h2 := List.mem_of_find?_eq_some hf
        simp only [decide_eq_true_eq] at h1
        rw [← hidx] at h1
        rw [List.inj_on_of_nodup_map hndi h2 he h1]
    obtain ⟨tr, s', o, hcyc, hrun⟩ := entry_cycle m.wf m.numbers hst S e he h.data
    have hreach := hge.2.2.2.1
    have hfrom := hcyc.from hreach
    have hctl := run_ctl S e.code.pushes e.code ⟨[], h.data, none⟩ (fun x hx => hx) trivial
    rw [hrun] at hctl
    have hhw : hwCycle g num ff (callIdsFrom g 0 blocks) entries S env h =
        (applyOut g num ff (callIdsFrom g 0 blocks) h s' (some o)).map
          (fun h' => (tr, { h' with data := env h'.data })) := by
      rw [hwCycle, if_neg (by omega), hfind]
      simp only [hrun]
    rw [hhw]
    have htarget : ∀ n ∈ e.code.pushes, (g.blk n).isState = true → ff n ∈ entries.map (·.block) := by
      intro n hn hs
      have := inv.targets e he n hn hs
      simpa using this
    cases o with
    | jump n =>
      obtain ⟨p', k, hl, hk, hcase⟩ := lands m st n (htarget n hctl hfrom.1)
      refine ⟨tr, p', env s', { h with idx := k, data := env s' }, .jump hcyc hl, ?_, ?_⟩
      · simp [applyOut, hk]
      · rcases hcase with ⟨rfl, rfl⟩ | ⟨rfl, e', he', hb', hi'⟩
        · exact ⟨rfl, rfl⟩
        · refine ⟨rfl, ⟨e', he', hb', hi'⟩, cs, ?_⟩
          rw [m.subs.skip n hfrom.1, hfrom.2.2 m.subs]
          exact hfr
    | halt =>
      exact ⟨tr, .halted, env s', { h with idx := 0, data := env s' }, .halt hcyc, by simp [applyOut], rfl, rfl⟩
    | call c t r =>
      obtain ⟨hact, hrc, hsub⟩ := hfrom
      have hsub := hsub m.subs
      obtain ⟨hts, hrs, _⟩ := m.wf.calls c t r hrc hact
      obtain ⟨⟨k0, hk0⟩, hrsub⟩ := m.subs.call c t r hrc hact
      obtain ⟨i, hi⟩ := callIdsFrom_mem g blocks 0 c t r (m.all c) hact
      obtain ⟨j, hj⟩ := idOf_some hi
      obtain ⟨p', k, hl, hk, hcase⟩ := lands m (r :: st) t (htarget t hctl.1 hts)
      have happ : applyOut g num ff (callIdsFrom g 0 blocks) h s' (some (.call c t r)) =
          some { idx := k, caller := j,
                 saved := saveCaller h.saved h.caller (g.blk c).sub,
                 data := s' } := by
        simp [applyOut, hk, hj]
      rw [happ]
      refine ⟨tr, p', env s', _, .call hcyc hl, rfl, ?_⟩
      rcases hcase with ⟨rfl, rfl⟩ | ⟨rfl, e', he', hb', hi'⟩
      · exact ⟨rfl, rfl⟩
      · refine ⟨rfl, ⟨e', he', hb', hi'⟩, c :: cs, ?_⟩
        show Frames g ff _ _ (saveCaller h.saved h.caller (g.blk c).sub) j _ _ _
        rw [m.subs.skip t hts, hk0]
        have hok : (g.blk r).isState = true ∧ ff r ∈ entries.map (·.block) := ⟨hrs, htarget r hctl.2 hrs⟩
        cases hcs : (g.blk c).sub with
        | none =>
          rw [← hsub, hcs] at hfr
          refine .cons (caller' := h.caller) hact hk0 hj hrc hok ?_ ?_
          · intro k' hk'; rw [hcs] at hk'; cases hk'
          · rw [hcs]; exact hfr
        | some k1 =>
          rw [← hsub, hcs] at hfr
          refine .cons (caller' := h.caller) hact hk0 hj hrc hok ?_ ?_
          · intro k' hk'
            rw [hcs] at hk'
            cases hk'
            simp [saveCaller, upd]
          · rw [hcs]
            refine hfr.upd k1 h.caller ?_
            intro d hd hdk
            exact m.norec k1 (hfr.calls d hd k1 hdk)
    | ret c k =>
      obtain ⟨hact, hrc, hsub⟩ := hfrom
      have hsub := hsub m.subs
      have hck := m.subs.ret c k hrc hact
      rw [← hsub, hck] at hfr
      cases hfr with
      | @cons c0 t r _ _ caller' cs st ha ht hi hr0 hok hsv hfr' =>
        have hmem : (h.caller, r) ∈ g.returns k := by
          rw [m.returns]
          exact returnStates_mem g (idOf_mem hi) ha ht
        have hlt : (g.returns k).Pairwise (fun p q => p.1 < q.1) := by
          rw [m.returns]
          exact returnStates_lt g k (callIdsFrom_lt g blocks 0)
        have hfindr := find_unique hlt hmem
        obtain ⟨p', kk, hl, hk, hcase⟩ := lands m st r hok.2
        have happ : applyOut g num ff (callIdsFrom g 0 blocks) h s' (some (.ret c k)) =
            some { idx := kk,
                   caller := restoreCaller h.saved h.caller (g.blk r).sub,
                   saved := h.saved, data := s' } := by
          unfold applyOut
          simp only
          match hrs : g.returns k with
          | [] => rw [hrs] at hmem; cases hmem
          | [(x, y)] =>
            rw [hrs] at hmem
            simp only [List.mem_singleton] at hmem
            cases hmem
            simp [hk]
          | x :: y :: l =>
            rw [hrs] at hfindr
            simp [hfindr, hk]
        rw [happ]
        refine ⟨tr, p', env s', _, .ret hcyc hl, rfl, ?_⟩
        have hrsub := (m.subs.call c0 t r hr0 ha).2
        rcases hcase with ⟨rfl, rfl⟩ | ⟨rfl, e', he', hb', hi'⟩
        · exact ⟨rfl, rfl⟩
        · refine ⟨rfl, ⟨e', he', hb', hi'⟩, cs, ?_⟩
          show Frames g ff _ _ h.saved (restoreCaller h.saved h.caller (g.blk r).sub) _ _ _
          rw [m.subs.skip r hok.1, hrsub]
          cases hcs : (g.blk c0).sub with
          | none =>
            rw [hcs] at hfr'
            cases hfr'
            exact .nil
          | some k1 =>
            rw [hcs] at hfr'
            rw [restoreCaller, hsv k1 hcs]
            exact hfr'

omit [DecidableEq B] in
theorem SrcCycle.det {S : Sem B σ} {env : σ → σ} {p p1 p2 : Pos B} {s s1 s2 : σ} {t1 t2 : List B}
    (h1 : SrcCycle g ff S env p s t1 p1 s1) (h2 : SrcCycle g ff S env p s t2 p2 s2) :
    t1 = t2 ∧ p1 = p2 ∧ s1 = s2 := by
  have hl : ∀ (st : List B) (n : B) (p p' : Pos B), Lands g ff st n p → Lands g ff st n p' → p = p' := by
    intro st n p p' h h'
    cases h with
    | done a b c =>
      cases h' with
      | done => rfl
      | state x => exact absurd ⟨a, b, c⟩ x
    | state x =>
      cases h' with
      | done a b c => exact absurd ⟨a, b, c⟩ x
      | state => rfl
  cases h1 with
  | halted => cases h2; exact ⟨rfl, rfl, rfl⟩
  | jump hc hn =>
    cases h2 with
    | jump hc' hn' =>
      obtain ⟨rfl, rfl, he⟩ := hc.det hc'
      cases he
      exact ⟨rfl, hl _ _ _ _ hn hn', rfl⟩
    | halt hc' => have := (hc.det hc').2.2; cases this
    | call hc' _ => have := (hc.det hc').2.2; cases this
    | ret hc' _ => have := (hc.det hc').2.2; cases this
  | halt hc =>
    cases h2 with
    | jump hc' _ => have := (hc.det hc').2.2; cases this
    | halt hc' =>
      obtain ⟨rfl, rfl, he⟩ := hc.det hc'
      exact ⟨rfl, rfl, rfl⟩
    | call hc' _ => have := (hc.det hc').2.2; cases this
    | ret hc' _ => have := (hc.det hc').2.2; cases this
  | call hc hn =>
    cases h2 with
    | jump hc' _ => have := (hc.det hc').2.2; cases this
    | halt hc' => have := (hc.det hc').2.2; cases this
    | call hc' hn' =>
      obtain ⟨rfl, rfl, he⟩ := hc.det hc'
      cases he
      exact ⟨rfl, hl _ _ _ _ hn hn', rfl⟩
    | ret hc' _ => have := (hc.det hc').2.2; cases this
  | ret hc hn =>
    cases h2 with
    | jump hc' _ => have := (hc.det hc').2.2; cases this
    | halt hc' => have := (hc.det hc').2.2; cases this
    | call hc' _ => have := (hc.det hc').2.2; cases this
    | ret hc' hn' =>
      obtain ⟨rfl, rfl, he⟩ := hc.det hc'
      exact ⟨rfl, hl _ _ _ _ hn hn', rfl⟩

omit [DecidableEq B] in
theorem SrcRun.det {S : Sem B σ} {env : Nat → σ → σ} {s0 : σ} {n : Nat} {p1 p2 : Pos B} {s1 s2 : σ}
    {t1 t2 : List (List B)} (h1 : SrcRun g ff S env s0 n t1 p1 s1) (h2 : SrcRun g ff S env s0 n t2 p2 s2) :
    t1 = t2 ∧ p1 = p2 ∧ s1 = s2 := by
  induction h1 generalizing t2 p2 s2 with
  | start => cases h2; exact ⟨rfl, rfl, rfl⟩
  | next _ hc ih =>
    cases h2 with
    | next h' hc' =>
      obtain ⟨rfl, rfl, rfl⟩ := ih h'
      obtain ⟨rfl, rfl, rfl⟩ := hc.det hc'
      exact ⟨rfl, rfl, rfl⟩

theorem sim_run (m : Machine g fsm ff num maxState blocks entries) (S : Sem B σ) (env : Nat → σ → σ)
    (h0 : HW σ) (hidx : num.sid g.first = some h0.idx) (n : Nat) :
    ∃ trs p s h, SrcRun g ff S env h0.data n trs p s ∧
      hwRun g num ff (callIdsFrom g 0 blocks) entries S env h0 n = some (trs, h) ∧
      Sim g ff blocks entries h p s := by
  induction n with
  | zero =>
    obtain ⟨ef, fu, hst⟩ := m.states
    have inv := emitStates_inv hst
    have hm : g.first ∈ entries.map (·.block) := by simpa using inv.first
    obtain ⟨e, he, hb⟩ := List.mem_map.mp hm
    refine ⟨[], .at g.first [], h0.data, h0, .start, rfl, rfl, ⟨e, he, hb, ?_⟩, [], ?_⟩
    · have := inv.index e he
      rw [hb, hidx] at this
      exact (Option.some.inj this).symm
    · rw [m.subs.main]; exact .nil
  | succ n ih =>
    obtain ⟨trs, p, s, h, h1, h2, h3⟩ := ih
    obtain ⟨tr, p', s', h', h4, h5, h6⟩ := sim_step m S (env n) h p s h3
    refine ⟨trs ++ [tr], p', s', h', .next h1 h4, ?_, h6⟩
    rw [hwRun, h2]
    simp [h5]

end Silice
