import Verif.Lemmas.Loops
import Verif.Props.Deps

/-!
# C57: combinational loops through instances are reported
-/

set_option autoImplicit false

namespace Silice

/-- Instances that are called, or with `<reginputs>`, have no input bound with `<:` or no immediate output. -/
def LUnit.RegisteredApart (u : LUnit) : Prop :=
  ∀ I ∈ u.insts, (I.callable = true ∨ I.regInput = true) → (∀ b ∈ I.binds, b.dir ≠ .left) ∨ ∀ o, ¬ I.Gives o

/-- Tracked expressions written with `<::` read variables held by flip-flops: no output of an instance, no other tracked
expression. -/
def LUnit.DelayedHeld (u : LUnit) : Prop := ∀ w ∈ u.wires, w.delayed = true → ∀ r ∈ w.reads, ¬ u.Outside r

theorem through_into {u : LUnit} (hreg : u.RegisteredApart) (hdel : u.DelayedHeld) (r o : String) (h : u.Through r o) :
    Into u.insts u.wires r o := by
  rcases h with ⟨I, hI, hs, hg⟩ | ⟨w, hw, hn, hr, hd⟩
  · refine Or.inl ⟨I, hI, ?_, hs, hg⟩
    by_contra hc
    have hc' : I.callable = true ∨ I.regInput = true := by
      cases h1 : I.callable <;> cases h2 : I.regInput <;> simp_all
    rcases hreg I hI hc' with h1 | h1
    · rcases hs with ⟨b, hb, hd, _⟩ | ⟨h2, h3, _⟩
      · exact h1 b hb hd
      · exact hc ⟨h2, h3⟩
    · exact h1 o hg
  · refine Or.inr ⟨w, hw, ?_, hn, hr⟩
    cases hdw : w.delayed with
    | false => rfl
    | true => exact absurd (hd hdw) (hdel w hw hdw r hr)

/-- C57: if a unit is accepted, no value of a cycle is computed from itself, whatever the path taken in the code, whether
through instructions, through the immediate outputs (`output!`) of instances, or through tracked expressions, in any
combination and for any number of each. Partial: the claim fails without the last four hypotheses (see the
counterexamples; for the one on conditionals, see C29), and the tests of conditionals are not followed. -/
theorem C57_no_loop_partial (u : LUnit) (hone : u.OneOrigin) (fuel : Nat) (D : Deps) (e : u.check fuel = some (.ok D))
    (hs : u.SameFlags) (hreg : u.RegisteredApart) (hdel : u.DelayedHeld) (hm : u.code.MergeOk [])
    (p : List (List String × List String)) (f : Bool) (hp : u.code.Path p f) : u.NoLoop p :=
  no_loop (through_into hreg hdel) (check_acyc hs hone hm e hp)

/-! ### A verdict is always reached -/

theorem instrL_total (Is : List LInst) (wires : List String) (D : Deps) (reads writes : List String) :
    ∃ n r, ∀ k, Deps.instrL (n + k) Is wires D reads writes = some r := by
  obtain ⟨n, r, h⟩ := instr_total D reads writes
  cases r with
  | error w => exact ⟨n, .error w, fun k => by simp only [Deps.instrL, h k]⟩
  | ok D' =>
    cases hf : writes.find? fun w => D'.loops Is wires w with
    | some w => exact ⟨n, .error w, fun k => by simp only [Deps.instrL, h k, hf]⟩
    | none => exact ⟨n, .ok D', fun k => by simp only [Deps.instrL, h k, hf]⟩

theorem instDeps_total (Is : List LInst) (wires : List String) : ∀ (rest : List LInst) (D : Deps),
    ∃ n r, ∀ k, instDeps (n + k) Is wires D rest = some r
  | [], D => ⟨0, .ok D, fun k => rfl⟩
  | I :: rest, D => by
    by_cases hc : (I.callable || I.regInput) = true
    · obtain ⟨n, r, h⟩ := instDeps_total Is wires rest D
      exact ⟨n, r, fun k => by simp only [instDeps, if_pos hc]; exact h k⟩
    · obtain ⟨n, r, h⟩ := instrL_total Is wires D I.reads I.writes
      cases r with
      | error x => exact ⟨n, .error x, fun k => by simp only [instDeps, if_neg hc, h k]⟩
      | ok D1 =>
        cases hf : D1.keys.find? fun k => (D1.on k k).here with
        | some x => exact ⟨n, .error x, fun k => by simp only [instDeps, if_neg hc, h k, hf]⟩
        | none =>
          obtain ⟨n', r', h'⟩ := instDeps_total Is wires rest D1
          refine ⟨n + n', r', fun k => ?_⟩
          have h2 := h' (n + k)
          have h1 := h (n' + k)
          rw [← Nat.add_assoc] at h1 h2
          rw [Nat.add_comm n' n] at h2
          simp only [instDeps, if_neg hc, h1, hf, h2]

theorem wireDeps_total (Is : List LInst) (wires : List String) : ∀ (rest : List LWire) (D : Deps),
    ∃ n r, ∀ k, wireDeps (n + k) Is wires D rest = some r
  | [], D => ⟨0, .ok D, fun k => rfl⟩
  | w :: rest, D => by
    obtain ⟨n, r, h⟩ := instrL_total Is wires D w.reads [w.name]
    cases r with
    | error x => exact ⟨n, .error x, fun k => by simp only [wireDeps, h k]⟩
    | ok D1 =>
      obtain ⟨n', r', h'⟩ := wireDeps_total Is wires rest (if w.delayed then D else D1)
      refine ⟨n + n', r', fun k => ?_⟩
      have h2 := h' (n + k)
      have h1 := h (n' + k)
      rw [← Nat.add_assoc] at h1 h2
      rw [Nat.add_comm n' n] at h2
      simp only [wireDeps, h1, h2]

mutual
theorem stmL_total (Is : List LInst) (wires : List String) : ∀ (s : DStm) (D : Deps), ∃ n r, ∀ k, Deps.stmL (n + k) Is wires D s = some r
  | .skip, D => ⟨0, .ok D, fun k => by simp only [Deps.stmL]⟩
  | .stop, D => ⟨0, .ok D, fun k => by simp only [Deps.stmL]⟩
  | .ins reads writes, D => by
    obtain ⟨n, r, h⟩ := instrL_total Is wires D reads writes
    exact ⟨n, r, fun k => by simp only [Deps.stmL]; exact h k⟩
  | .seq a b, D => by
    obtain ⟨n, r, h⟩ := stmL_total Is wires a D
    cases r with
    | error x => exact ⟨n, .error x, fun k => by simp only [Deps.stmL, h k]⟩
    | ok D1 =>
      obtain ⟨n', r', h'⟩ := stmL_total Is wires b D1
      refine ⟨n + n', r', fun k => ?_⟩
      have h2 := h' (n + k)
      have h1 := h (n' + k)
      rw [← Nat.add_assoc] at h1 h2
      rw [Nat.add_comm n' n] at h2
      simp only [Deps.stmL, h1, h2]
  | .branch bs, D => by
    obtain ⟨n, r, h⟩ := brsL_total Is wires bs D D
    exact ⟨n, r, fun k => by simp only [Deps.stmL]; exact h k⟩

theorem brsL_total (Is : List LInst) (wires : List String) : ∀ (bs : DBrs) (D acc : Deps),
    ∃ n r, ∀ k, Deps.brsL (n + k) Is wires D acc bs = some r
  | .one s, D, acc => by
    obtain ⟨n, r, h⟩ := stmL_total Is wires s D
    cases r with
    | error x => exact ⟨n, .error x, fun k => by simp only [Deps.brsL, h k]⟩
    | ok D1 => exact ⟨n, .ok (Deps.merge D1 acc), fun k => by simp only [Deps.brsL, h k]⟩
  | .cons s bs, D, acc => by
    obtain ⟨n, r, h⟩ := stmL_total Is wires s D
    cases r with
    | error x => exact ⟨n, .error x, fun k => by simp only [Deps.brsL, h k]⟩
    | ok D1 =>
      obtain ⟨n', r', h'⟩ := brsL_total Is wires bs D (Deps.merge D1 acc)
      refine ⟨n + n', r', fun k => ?_⟩
      have h2 := h' (n + k)
      have h1 := h (n' + k)
      rw [← Nat.add_assoc] at h1 h2
      rw [Nat.add_comm n' n] at h2
      simp only [Deps.brsL, h1, h2]
end

/-- C57: the search ends on every unit, with the same verdict whatever the number of turns allowed beyond. -/
theorem C57_verdict (u : LUnit) : ∃ fuel r, ∀ k, u.check (fuel + k) = some r := by
  unfold LUnit.check
  cases hb : u.badDelayed with
  | some x => exact ⟨0, .error x, fun k => rfl⟩
  | none =>
    obtain ⟨n1, r1, h1⟩ := instDeps_total u.insts u.wireNames u.insts Deps.empty
    cases r1 with
    | error x => exact ⟨n1, .error x, fun k => by simp only [h1 k]⟩
    | ok D1 =>
      obtain ⟨n2, r2, h2⟩ := wireDeps_total u.insts u.wireNames u.wires D1
      cases r2 with
      | error x =>
        refine ⟨n1 + n2, .error x, fun k => ?_⟩
        have e1 := h1 (n2 + k)
        have e2 := h2 (n1 + k)
        rw [← Nat.add_assoc] at e1 e2
        rw [Nat.add_comm n2 n1] at e2
        simp only [e1, e2]
      | ok D2 =>
        obtain ⟨n3, r3, h3⟩ := stmL_total u.insts u.wireNames u.code D2
        refine ⟨n1 + n2 + n3, r3, fun k => ?_⟩
        have e1 := h1 (n2 + n3 + k)
        have e2 := h2 (n1 + n3 + k)
        have e3 := h3 (n1 + n2 + k)
        rw [show n1 + (n2 + n3 + k) = n1 + n2 + n3 + k by omega] at e1
        rw [show n2 + (n1 + n3 + k) = n1 + n2 + n3 + k by omega] at e2
        rw [show n3 + (n1 + n2 + k) = n1 + n2 + n3 + k by omega] at e3
        simp only [e1, e2, e3]

/-! ### Instances alone: exactly the loops are reported -/

/-- What is recorded comes from bindings. -/
def Backed (Is : List LInst) (D : Deps) : Prop := ∀ w x, (D.on w x).here = true → Relation.TransGen (Into Is []) x w

theorem backed_closure {Is : List LInst} {D E : Deps} {I : LInst} (hI : I ∈ Is) (hc : I.callable = false) (hr : I.regInput = false)
    (h : Backed Is D) (hj : Justified (D.assign I.reads I.writes) E) : Backed Is E := by
  have h1 : ∀ w x, ((D.assign I.reads I.writes).on w x).here = true → Relation.TransGen (Into Is []) x w := by
    intro w x hx
    by_cases hw : w ∈ I.writes
    · by_cases hx' : x ∈ I.reads
      · exact .single (Or.inl ⟨I, hI, ⟨hc, hr⟩, (mem_reads hc hr).mp hx', mem_writes.mp hw⟩)
      · simp [Deps.assign, hw, hx', QD.here] at hx
    · simp only [Deps.assign, if_neg hw] at hx
      exact h w x hx
  intro w x hx
  obtain ⟨b, hb⟩ := (QD.here_iff _).mp hx
  obtain ⟨y, hy, hyx⟩ := hj.2 w x b hb
  have h2 := h1 y x ((QD.here_iff _).mpr ⟨b, hyx⟩)
  have h3 : Relation.ReflTransGen (Into Is []) y w := by
    clear hyx h2
    induction hy with
    | refl => exact .refl
    | tail _ h4 ih => exact Relation.ReflTransGen.trans ((h1 _ _ ((QD.here_iff' _).mpr h4.2)).to_reflTransGen) ih
  exact Relation.TransGen.trans_left h2 h3

theorem inst_error {fuel : Nat} {Is : List LInst} {wires : List String} : ∀ (rest : List LInst) (D : Deps), (∀ I ∈ rest, I ∈ Is) →
    D.Wf → Backed Is D → ∀ x, instDeps fuel Is wires D rest = some (.error x) → ∃ o, Relation.TransGen (Into Is []) o o
  | [], D, _, _, _, x, e => by simp [instDeps] at e
  | I :: rest, D, hm, hwf, hbk, x, e => by
    unfold instDeps at e
    split at e
    · exact inst_error rest D (fun J hJ => hm J (by simp [hJ])) hwf hbk x e
    · rename_i hc
      simp only [Bool.or_eq_true, not_or, Bool.not_eq_true] at hc
      have hIs := hm I (by simp)
      cases hcl : Deps.closure fuel (D.assign I.reads I.writes) with
      | none => simp [Deps.instrL, Deps.instr, hcl] at e
      | some E =>
        obtain ⟨hEwf, _, _, hj, _, _⟩ := closure_spec fuel _ _ (justified_refl _) (Deps.Le.refl _) (assign_wf hwf I.reads I.writes) rfl hcl
        have hE := backed_closure hIs hc.1 hc.2 hbk hj
        cases hd : I.writes.find? fun w => (E.on w w).d with
        | some w =>
          refine ⟨w, hE w w ?_⟩
          have : (E.on w w).d = true := by simpa using List.find?_some hd
          simp [QD.here, this]
        | none =>
          cases hl : I.writes.find? fun w => E.loops Is wires w with
          | some w =>
            have hlo : E.loops Is wires w = true := by simpa using List.find?_some hl
            simp only [Deps.loops, Bool.or_eq_true, Bool.and_eq_true, List.any_eq_true] at hlo
            rcases hlo with ⟨h, _⟩ | ⟨y, _, ⟨⟨h1, _⟩, _⟩, h2⟩
            · exact ⟨w, hE w w h⟩
            · exact ⟨w, (hE y w h2).trans (hE w y h1)⟩
          | none =>
            simp only [Deps.instrL, Deps.instr, hcl, Option.map_some, hd, hl] at e
            cases hk : E.keys.find? fun k => (E.on k k).here with
            | some k => exact ⟨k, hE k k (by simpa using List.find?_some hk)⟩
            | none =>
              rw [hk] at e
              exact inst_error rest E (fun J hJ => hm J (by simp [hJ])) hEwf hE x e

theorem into_edge {u : LUnit} {p : List (List String × List String)} {a b : String} (ha : u.Outside a) (h : Relation.TransGen (Into u.insts []) a b) :
    u.Outside b ∧ Relation.TransGen (u.Edge p) (.out a) (.out b) := by
  have one : ∀ r o, Into u.insts [] r o → u.Through r o ∧ u.Outside o := by
    rintro r o (⟨I, hI, _, hs, hg⟩ | ⟨w, hw, _⟩)
    · exact ⟨Or.inl ⟨I, hI, hs, hg⟩, Or.inl ⟨I, hI, hg⟩⟩
    · simp at hw
  induction h with
  | single h1 => exact ⟨(one _ _ h1).2, .single (.direct ha (one _ _ h1).1)⟩
  | tail _ h1 ih => exact ⟨(one _ _ h1).2, ih.2.tail (.direct ih.1 (one _ _ h1).1)⟩

/-- C57: when only bindings are concerned (no tracked expression, no instruction), a unit is accepted if and only if its
instances do not form a loop: nothing is missed, and nothing is reported wrongly as long as each immediate output of an
instance depends on each of its immediate inputs. -/
theorem C57_bindings_exact (u : LUnit) (hw : u.wires = []) (hc : u.code = .skip) (hb : u.badDelayed = none) (hone : u.OneOrigin)
    (hreg : u.RegisteredApart) (fuel : Nat) (r : Except String Deps) (e : u.check fuel = some r) :
    (∃ D, r = .ok D) ↔ u.NoLoop [] := by
  unfold LUnit.check at e
  rw [hb] at e
  simp only at e
  constructor
  · rintro ⟨D, rfl⟩
    cases hi : instDeps fuel u.insts u.wireNames Deps.empty u.insts with
    | none => rw [hi] at e; cases e
    | some r1 =>
      cases r1 with
      | error x => rw [hi] at e; cases e
      | ok D1 =>
        have h1 := insts_inv (u := u) u.insts [] _ _ hone.insts (empty_inv u) hi
        simp only [List.nil_append] at h1
        refine no_loop (through_into hreg ?_) ?_
        · intro w hw'
          rw [hw] at hw'
          cases hw'
        · rw [hw]
          exact h1.acyc
  · intro hno
    cases hi : instDeps fuel u.insts u.wireNames Deps.empty u.insts with
    | none => rw [hi] at e; cases e
    | some r1 =>
      cases r1 with
      | error x =>
        exfalso
        obtain ⟨o, ho⟩ := inst_error (Is := u.insts) u.insts Deps.empty (fun _ h => h) empty_wf (fun w x h => by simp [Deps.empty, QD.here] at h) x hi
        have hout : u.Outside o := by
          obtain ⟨_, _, (⟨I, hI, _, _, hg⟩ | ⟨w, hw', _⟩)⟩ := Relation.TransGen.tail'_iff.mp ho
          · exact Or.inl ⟨I, hI, hg⟩
          · simp at hw'
        exact hno _ (into_edge hout ho).2
      | ok D1 =>
        rw [hi] at e
        simp only [hw, hc, wireDeps, Deps.stmL, Option.some.injEq] at e
        exact ⟨D1, e.symm⟩

/-- C57: in an accepted unit, `<::` is only used on variables that have a value of their own from the previous cycle: not on an
input, an output of an instance (immediate or not), or a tracked expression. -/
theorem C57_delayed_bindings (u : LUnit) (fuel : Nat) (D : Deps) (e : u.check fuel = some (.ok D)) (I : LInst) (hI : I ∈ u.insts)
    (b : LBind) (hb : b ∈ I.binds) (hq : b.dir = .leftQ) :
    b.host ∉ u.ports ∧ (∀ w ∈ u.wires, w.name ≠ b.host) ∧
      ∀ J ∈ u.insts, (∀ b' ∈ J.binds, ∀ c n, b'.dir = .right c n → b'.host ≠ b.host) ∧ ∀ o ∈ J.outs, o.1 ≠ b.host := by
  unfold LUnit.check at e
  split at e
  · cases e
  · rename_i h
    simp only [LUnit.badDelayed, Option.map_eq_none_iff, List.find?_eq_none] at h
    have h1 := h b (List.mem_flatMap.mpr ⟨I, hI, hb⟩)
    simp only [hq, beq_self_eq_true, Bool.true_and, Bool.or_eq_true, List.any_eq_true, Bool.and_eq_true, beq_iff_eq, decide_eq_true_eq,
      not_or, not_exists, not_and] at h1
    obtain ⟨⟨⟨h2, h3⟩, h4⟩, h5⟩ := h1
    refine ⟨h5, fun w hw hn => h4 (List.mem_map.mpr ⟨w, hw, hn⟩), fun J hJ => ⟨?_, fun o ho => h3 J hJ o ho⟩⟩
    intro b' hb' c n hd
    exact h2 J hJ b' hb' (by simp [hd, LDir.isRight])

/-! ### Without immediate outputs, nothing more is reported -/

theorem no_loops {Is : List LInst} (h : ∀ I ∈ Is, ∀ o, ¬ I.Gives o) (D : Deps) (w : String) : D.loops Is [] w = false := by
  have h1 : ∀ y, combOut Is y = false := by
    intro y
    simp only [combOut, List.any_eq_false]
    rintro I hI hc
    obtain ⟨o, ho, hy⟩ := List.any_eq_true.mp hc
    simp only [Bool.and_eq_true, beq_iff_eq] at hy
    refine h I hI o.1 (mem_writes.mp ?_)
    simp only [LInst.writes, List.mem_append, List.mem_map, List.mem_filter]
    exact Or.inr ⟨o, ⟨ho, by simpa using hy.2⟩, rfl⟩
  have h2 : ∀ y, boundComb Is y = false := by
    intro y
    simp only [boundComb, List.any_eq_false]
    rintro I hI hc
    split at hc
    · rename_i b hb
      refine h I hI b.host (mem_writes.mp ?_)
      simp only [LInst.writes, List.mem_append, List.mem_map, List.mem_filter]
      exact Or.inl ⟨b, ⟨List.mem_of_find?_eq_some hb, hc⟩, rfl⟩
    · cases hc
  simp [Deps.loops, h1, h2]

theorem instrL_plain {Is : List LInst} (h : ∀ I ∈ Is, ∀ o, ¬ I.Gives o) (fuel : Nat) (D : Deps) (reads writes : List String) :
    Deps.instrL fuel Is [] D reads writes = Deps.instr fuel D reads writes := by
  unfold Deps.instrL
  cases hi : Deps.instr fuel D reads writes with
  | none => rfl
  | some r =>
    cases r with
    | error w => rfl
    | ok D' =>
      have : (writes.find? fun w => D'.loops Is [] w) = none := by simp [List.find?_eq_none, no_loops h]
      simp [this]

mutual
theorem stmL_plain {Is : List LInst} (h : ∀ I ∈ Is, ∀ o, ¬ I.Gives o) (fuel : Nat) : ∀ (s : DStm) (D : Deps),
    Deps.stmL fuel Is [] D s = Deps.stm fuel D s
  | .skip, D => by simp only [Deps.stmL, Deps.stm]
  | .stop, D => by simp only [Deps.stmL, Deps.stm]
  | .ins reads writes, D => by simp only [Deps.stmL, Deps.stm, instrL_plain h]
  | .seq a b, D => by
    simp only [Deps.stmL, Deps.stm, stmL_plain h fuel a D]
    split <;> simp_all [stmL_plain h fuel b]
  | .branch bs, D => by simp only [Deps.stmL, Deps.stm, brsL_plain h fuel bs D D]

theorem brsL_plain {Is : List LInst} (h : ∀ I ∈ Is, ∀ o, ¬ I.Gives o) (fuel : Nat) : ∀ (bs : DBrs) (D acc : Deps),
    Deps.brsL fuel Is [] D acc bs = Deps.brs fuel D acc bs
  | .one s, D, acc => by
    simp only [Deps.brsL, Deps.brs, stmL_plain h fuel s D]
    split <;> simp_all
  | .cons s bs, D, acc => by
    simp only [Deps.brsL, Deps.brs, stmL_plain h fuel s D]
    split <;> simp_all [brsL_plain h fuel bs]
end

/-- C57: no error is added by instances without immediate outputs: the verdict is then the one of C29 on the code, started with
nothing recorded (in particular a variable may be computed from its own previous value). -/
theorem C57_registered_instances (u : LUnit) (hg : ∀ I ∈ u.insts, ∀ o, ¬ I.Gives o) (hw : u.wires = []) (hb : u.badDelayed = none)
    (fuel : Nat) (r : Except String Deps) (e : u.check fuel = some r) :
    ∃ D, (∀ w x, (D.on w x).here = false) ∧ Deps.stm fuel D u.code = some r := by
  have key : ∀ (rest : List LInst) (D : Deps), (∀ I ∈ rest, I ∈ u.insts) → D.Wf → (∀ w x, (D.on w x).here = false) →
      instDeps fuel u.insts [] D rest = none ∨ ∃ E, instDeps fuel u.insts [] D rest = some (.ok E) ∧ ∀ w x, (E.on w x).here = false := by
    intro rest
    induction rest with
    | nil => exact fun D _ _ hD => Or.inr ⟨D, rfl, hD⟩
    | cons I rest ih =>
      intro D hm hwf hD
      have hIs := hm I (by simp)
      have hrest : ∀ J ∈ rest, J ∈ u.insts := fun J hJ => hm J (by simp [hJ])
      unfold instDeps
      split
      · exact ih D hrest hwf hD
      · have hwr : I.writes = [] := by
          rw [List.eq_nil_iff_forall_not_mem]
          exact fun o ho => hg I hIs o (mem_writes.mp ho)
        rw [instrL_plain hg, hwr]
        cases hcl : Deps.closure fuel (D.assign I.reads []) with
        | none => left; simp [Deps.instr, hcl]
        | some E =>
          obtain ⟨hEwf, _, _, hj, _, _⟩ := closure_spec fuel _ _ (justified_refl _) (Deps.Le.refl _) (assign_wf hwf I.reads []) rfl hcl
          have hE : ∀ w x, (E.on w x).here = false := by
            intro w x
            by_contra hc
            rw [Bool.not_eq_false] at hc
            obtain ⟨b, hb⟩ := (QD.here_iff _).mp hc
            obtain ⟨y, _, hyx⟩ := hj.2 w x b hb
            have := (QD.here_iff _).mpr ⟨b, hyx⟩
            simp only [Deps.assign, List.not_mem_nil, if_false] at this
            rw [hD] at this
            cases this
          have hf : (E.keys.find? fun k => (E.on k k).here) = none := by simp [List.find?_eq_none, hE]
          simp only [Deps.instr, hcl, Option.map_some, List.find?_nil, hf]
          exact ih E hrest hEwf hE
  have hwn : u.wireNames = [] := by simp [LUnit.wireNames, hw]
  unfold LUnit.check at e
  rw [hb, hwn] at e
  rcases key u.insts Deps.empty (fun _ h => h) empty_wf (fun w x => by simp [Deps.empty, QD.here]) with h | ⟨E, h, hE⟩
  · rw [h] at e
    cases e
  · rw [h] at e
    simp only [hw, wireDeps] at e
    exact ⟨E, hE, by rw [← stmL_plain hg]; exact e⟩

/-- An instance with a registered output, and a variable computed from its previous value and from this output. -/
example : let u : LUnit := { insts := [{ binds := [⟨"a", .left⟩, ⟨"b", .right false false⟩] }], code := .ins ["a", "b"] ["a"] }
    (∀ I ∈ u.insts, ∀ o, ¬ I.Gives o) ∧ u.wires = [] ∧ u.badDelayed = none ∧ verdict (u.check 20) = some none := by
  refine ⟨?_, rfl, by decide +kernel, by decide +kernel⟩
  intro I hI o ho
  rw [← mem_writes] at ho
  revert I
  simp [LInst.writes, LDir.checked]

/-! ### Cases meeting the hypotheses -/

/-- Two instances and a tracked expression: `g` bound to `f`'s output, an instruction between. -/
def exTwoUnits : LUnit where
  ports := ["in"]
  insts := [{ binds := [⟨"a", .left⟩, ⟨"v", .right true false⟩], ins := ["f_i"], outs := [("f_v", true, false)] },
            { binds := [⟨"b", .left⟩, ⟨"r", .right false false⟩], ins := ["g_i"], outs := [("g_v", false, false), ("g_w", true, false)] }]
  wires := [⟨"t", ["v", "in"], false⟩, ⟨"s", ["b"], true⟩]
  code := .seq (.branch (.cons (.ins ["in", "r"] ["a"]) (.one .skip))) (.seq (.ins ["t", "v"] ["c"]) (.seq (.ins ["c"] ["b"]) (.ins ["g_w"] ["d"])))

example : verdict (exTwoUnits.check 20) = some none := by decide +kernel

/-- The same, where the last instruction closes the loop. -/
example : verdict ({ exTwoUnits with code := .seq exTwoUnits.code (.ins ["g_w"] ["a"]) }.check 20) = some (some "a") := by decide +kernel

theorem gives_iff {I : LInst} {o : String} : I.Gives o ↔ o ∈ I.writes := mem_writes.symm

theorem outside_iff {u : LUnit} {o : String} : u.Outside o ↔ o ∈ u.insts.flatMap (·.writes) ++ u.wireNames := by
  simp only [LUnit.Outside, gives_iff, List.mem_append, List.mem_flatMap, LUnit.wireNames, List.mem_map]

theorem oneOrigin_of {u : LUnit} (h1 : ∀ w ∈ u.code.writes, w ∉ u.insts.flatMap (·.writes) ++ u.wireNames)
    (h2 : u.insts.Pairwise fun I J => ∀ o ∈ I.writes, o ∉ J.writes) (h3 : u.wireNames.Nodup)
    (h4 : ∀ w ∈ u.wires, ∀ I ∈ u.insts, w.name ∉ I.writes) : u.OneOrigin where
  code := fun w hw h => h1 w hw (outside_iff.mp h)
  insts := h2.imp fun h o ho ho' => h o (gives_iff.mp ho) (gives_iff.mp ho')
  wires := h3
  both := fun w hw I hI h => h4 w hw I hI (gives_iff.mp h)

example : exTwoUnits.OneOrigin ∧ exTwoUnits.SameFlags ∧ exTwoUnits.RegisteredApart ∧ exTwoUnits.DelayedHeld := by
  refine ⟨oneOrigin_of (by decide +kernel) (by decide +kernel) (by decide +kernel) (by decide +kernel), by unfold LUnit.SameFlags; decide +kernel, ?_, ?_⟩
  · intro I hI h
    have : I.callable = false ∧ I.regInput = false := by
      revert I
      decide
    simp [this.1, this.2] at h
  · intro w hw hd r hr ho
    rw [outside_iff] at ho
    revert w
    have : ∀ w ∈ exTwoUnits.wires, w.delayed = true → ∀ r ∈ w.reads, r ∉ exTwoUnits.insts.flatMap (·.writes) ++ exTwoUnits.wireNames := by
      decide +kernel
    intro w hw hd hr
    exact this w hw hd r hr ho

example : exTwoUnits.code.MergeOk [] ∧ exTwoUnits.code.Path [(["in", "r"], ["a"]), (["t", "v"], ["c"]), (["c"], ["b"]), (["g_w"], ["d"])] true := by
  constructor
  · simp [exTwoUnits, DStm.MergeOk, DBrs.MergeOk, DBrs.writes, DStm.writes]
  · exact .seq (p := [(["in", "r"], ["a"])]) (.branch (.here .ins)) (.seq (p := [(["t", "v"], ["c"])]) .ins (.seq (p := [(["c"], ["b"])]) .ins .ins))

/-- Two instances bound to each other, and the same with a registered output on the way. -/
example : verdict (LUnit.check 20 { insts := [{ binds := [⟨"a", .left⟩, ⟨"b", .right true false⟩] }, { binds := [⟨"b", .left⟩, ⟨"a", .right true false⟩] }] }) =
      some (some "a") ∧
    verdict (LUnit.check 20 { insts := [{ binds := [⟨"a", .left⟩, ⟨"b", .right true false⟩] }, { binds := [⟨"b", .left⟩, ⟨"a", .right false false⟩] }] }) =
      some none ∧
    verdict (LUnit.check 20 { insts := [{ binds := [⟨"a", .leftQ⟩, ⟨"b", .right true false⟩] }, { binds := [⟨"b", .left⟩, ⟨"a", .right false false⟩] }] }) =
      some (some "a") := by
  refine ⟨?_, ?_, ?_⟩ <;> decide +kernel

/-! ### Loops that are not reported -/

/-- Finding: an instance that is called is left out of the search because its inputs would be registered, but those bound with
`<:` are not: here the instance's immediate output comes back to such an input, without any error. Same with
`<reginputs>`. -/
theorem C57_counterexample_registered (callable regInput : Bool) (h : callable = true ∨ regInput = true) :
    let u : LUnit := { insts := [{ callable := callable, regInput := regInput, binds := [⟨"a", .left⟩, ⟨"b", .right true false⟩] }],
                       code := .ins ["b"] ["a"] }
    verdict (u.check 20) = some none ∧ u.OneOrigin ∧ u.SameFlags ∧ u.DelayedHeld ∧ ∃ p, u.code.Path p true ∧ ¬ u.NoLoop p := by
  intro u
  have ho : u.Outside "b" := Or.inl ⟨_, List.mem_singleton.mpr rfl, Or.inl ⟨⟨"b", .right true false⟩, by simp, rfl, rfl⟩⟩
  have ht : u.Through "a" "b" := Or.inl ⟨_, List.mem_singleton.mpr rfl, Or.inl ⟨⟨"a", .left⟩, by simp, rfl, rfl⟩,
    Or.inl ⟨⟨"b", .right true false⟩, by simp, rfl, rfl⟩⟩
  refine ⟨?_, ?_, ?_, ?_, ?_⟩
  · clear ho ht
    revert u
    revert callable regInput
    decide +kernel
  · exact oneOrigin_of (by clear ho ht; revert u; clear h; revert callable regInput; decide +kernel) (by simp [u]) (by simp [u, LUnit.wireNames]) (by simp [u])
  · unfold LUnit.SameFlags
    clear ho ht
    revert u
    clear h
    revert callable regInput
    decide +kernel
  · intro w hw
    simp [u] at hw
  · refine ⟨[(["b"], ["a"])], .ins, fun hno => ?_⟩
    refine hno (.out "b") (.tail (b := .val 0 "a") (.single ?_) ?_)
    · exact .read (i := (["b"], ["a"])) rfl (by simp) (by simp) ho
    · refine .final ⟨⟨(["b"], ["a"]), rfl, by simp⟩, ?_⟩ ht
      intro m im hm h1
      rw [List.getElem?_eq_none (by simp; omega)] at h1
      cases h1

/-- Finding: what a tracked expression written with `<::` reads is forgotten, as values of the previous cycle. An output of an
instance has no value from the previous cycle: the expression follows it, and the loop closed with the expression is not
reported. -/
theorem C57_counterexample_delayed :
    let u : LUnit := { insts := [{ binds := [⟨"a", .left⟩, ⟨"b", .right true false⟩] }], wires := [⟨"t", ["b"], true⟩],
                       code := .ins ["t"] ["a"] }
    verdict (u.check 20) = some none ∧ u.OneOrigin ∧ u.SameFlags ∧ u.RegisteredApart ∧ ∃ p, u.code.Path p true ∧ ¬ u.NoLoop p := by
  intro u
  have ho : u.Outside "b" := Or.inl ⟨_, List.mem_singleton.mpr rfl, Or.inl ⟨⟨"b", .right true false⟩, by simp, rfl, rfl⟩⟩
  refine ⟨by decide +kernel, oneOrigin_of (by decide +kernel) (by simp [u]) (by simp [u, LUnit.wireNames]) (by decide +kernel), ?_, ?_, ?_⟩
  · unfold LUnit.SameFlags
    decide +kernel
  · intro I hI h
    simp only [u, List.mem_singleton] at hI
    subst hI
    simp at h
  · refine ⟨[(["t"], ["a"])], .ins, fun hno => ?_⟩
    refine hno (.out "b") (.tail (b := .val 0 "a") (.tail (b := .out "t") (.single ?_) ?_) ?_)
    · exact .direct ho (Or.inr ⟨_, List.mem_singleton.mpr rfl, rfl, by simp, fun _ => ho⟩)
    · exact .read (i := (["t"], ["a"])) rfl (by simp) (by simp) (Or.inr ⟨_, List.mem_singleton.mpr rfl, rfl⟩)
    · refine .final ⟨⟨(["t"], ["a"]), rfl, by simp⟩, ?_⟩ (Or.inl ⟨_, List.mem_singleton.mpr rfl,
        Or.inl ⟨⟨"a", .left⟩, by simp, rfl, rfl⟩, Or.inl ⟨⟨"b", .right true false⟩, by simp, rfl, rfl⟩⟩)
      intro m im hm h1
      rw [List.getElem?_eq_none (by simp; omega)] at h1
      cases h1

/-- Finding: when bits of a variable receive a registered output and others an immediate one, only the first binding is
considered: the loop through the second is not reported if the registered output comes first, and is reported
otherwise. -/
theorem C57_counterexample_parts :
    let I : LInst := { binds := [⟨"a", .left⟩, ⟨"x", .right false false⟩, ⟨"x", .right true false⟩] }
    let J : LInst := { binds := [⟨"a", .left⟩, ⟨"x", .right true false⟩, ⟨"x", .right false false⟩] }
    let u : LUnit := { insts := [I], code := .ins ["x"] ["a"] }
    verdict (u.check 20) = some none ∧ verdict (LUnit.check 20 { u with insts := [J] }) = some (some "a") ∧
      u.OneOrigin ∧ u.RegisteredApart ∧ u.DelayedHeld ∧ ∃ p, u.code.Path p true ∧ ¬ u.NoLoop p := by
  intro I J u
  have ho : u.Outside "x" := Or.inl ⟨_, List.mem_singleton.mpr rfl, Or.inl ⟨⟨"x", .right true false⟩, by simp [I], rfl, rfl⟩⟩
  refine ⟨by decide +kernel, by decide +kernel,
    oneOrigin_of (by decide +kernel) (by simp [u]) (by simp [u, LUnit.wireNames]) (by decide +kernel), ?_, ?_, ?_⟩
  · intro I' hI h
    simp only [u, List.mem_singleton] at hI
    subst hI
    simp [I] at h
  · intro w hw
    simp [u] at hw
  · refine ⟨[(["x"], ["a"])], .ins, fun hno => ?_⟩
    refine hno (.out "x") (.tail (b := .val 0 "a") (.single ?_) ?_)
    · exact .read (i := (["x"], ["a"])) rfl (by simp) (by simp) ho
    · refine .final ⟨⟨(["x"], ["a"]), rfl, by simp⟩, ?_⟩ (Or.inl ⟨_, List.mem_singleton.mpr rfl, Or.inl ⟨⟨"a", .left⟩, by simp [I], rfl, rfl⟩,
        Or.inl ⟨⟨"x", .right true false⟩, by simp [I], rfl, rfl⟩⟩)
      intro m im hm h1
      rw [List.getElem?_eq_none (by simp; omega)] at h1
      cases h1

/-- A loop may also be reported where there is none: a value read from an instance is overwritten before the instance sees
the variable, yet the first assignment is rejected. -/
theorem C57_counterexample_overwritten :
    let u : LUnit := { insts := [{ binds := [⟨"a", .left⟩, ⟨"b", .right true false⟩] }], code := .seq (.ins ["b"] ["a"]) (.ins [] ["a"]) }
    verdict (u.check 20) = some (some "a") ∧ ∀ p f, u.code.Path p f → u.NoLoop p := by
  intro u
  refine ⟨by decide +kernel, ?_⟩
  intro p f hp
  obtain rfl : p = [(["b"], ["a"]), ([], ["a"])] := by
    cases hp with
    | seqStop h => cases h
    | seq h1 h2 =>
      cases h1
      cases h2
      rfl
  have hw : u.insts.flatMap (·.writes) ++ u.wireNames = ["b"] := by decide +kernel
  have key : ∀ n m, u.Edge [(["b"], ["a"]), ([], ["a"])] n m → (n = .out "b" ∧ m = .val 0 "a") ∨ (n = .val 1 "a" ∧ m = .out "b") := by
    intro n m h
    have hthr : ∀ r o, u.Through r o → r = "a" ∧ o = "b" := by
      rintro r o (⟨I, hI, hs, hg⟩ | ⟨w, hw, _⟩)
      · simp only [u, List.mem_singleton] at hI
        subst hI
        constructor
        · rcases hs with ⟨b, hb, hd, rfl⟩ | ⟨_, _, h⟩
          · simp only [List.mem_cons, List.not_mem_nil, or_false] at hb
            rcases hb with rfl | rfl
            · rfl
            · cases hd
          · simp at h
        · rcases hg with ⟨b, hb, hd, rfl⟩ | h
          · simp only [List.mem_cons, List.not_mem_nil, or_false] at hb
            rcases hb with rfl | rfl
            · cases hd
            · rfl
          · simp at h
      · simp [u] at hw
    cases h with
    | @use j k r w hu =>
      exfalso
      obtain ⟨ij, ik, h1, h2, h3, h4, h5, _, _⟩ := hu
      simp only at h1 h2 h3 h4 h5
      match k, h2 with
      | 0, _ => omega
      | 1, h2 =>
        simp only [List.getElem?_cons_succ, List.getElem?_cons_zero, Option.some.injEq] at h2
        subst h2
        simp at h5
    | @read o w k i h1 h2 h3 h4 =>
      left
      rw [outside_iff, hw] at h4
      simp only [List.mem_singleton] at h4
      subst h4
      match k, h1 with
      | 0, h1 =>
        simp only [List.getElem?_cons_zero, Option.some.injEq] at h1
        subst h1
        simp only [List.mem_singleton] at h3
        subst h3
        exact ⟨rfl, rfl⟩
      | 1, h1 =>
        simp only [List.getElem?_cons_succ, List.getElem?_cons_zero, Option.some.injEq] at h1
        subst h1
        simp at h2
    | @final r o k hf ht =>
      right
      obtain ⟨rfl, rfl⟩ := hthr _ _ ht
      obtain ⟨⟨i, h1, h2⟩, h3⟩ := hf
      match k, h1 with
      | 0, _ => exact absurd (by simp) (h3 1 ([], ["a"]) (by omega) rfl)
      | 1, _ => exact ⟨rfl, rfl⟩
    | @direct r o ho ht =>
      exfalso
      obtain ⟨rfl, rfl⟩ := hthr _ _ ht
      rw [outside_iff, hw] at ho
      simp at ho
  have end0 : ∀ n m, Relation.TransGen (u.Edge [(["b"], ["a"]), ([], ["a"])]) n m → m = .val 0 "a" ∨ (n = .val 1 "a" ∧ m = .out "b") := by
    intro n m h
    induction h with
    | single h1 =>
      rcases key _ _ h1 with ⟨_, h⟩ | h
      · exact Or.inl h
      · exact Or.inr h
    | tail _ h1 ih =>
      rcases key _ _ h1 with ⟨_, h⟩ | ⟨h2, h3⟩
      · exact Or.inl h
      · rcases ih with ih | ⟨ih, ih'⟩
        · rw [ih] at h2; cases h2
        · rw [ih'] at h2; cases h2
  intro n hn
  rcases end0 n n hn with rfl | ⟨rfl, h⟩
  · obtain ⟨m, h1, _⟩ := Relation.TransGen.head'_iff.mp hn
    rcases key _ _ h1 with ⟨h, _⟩ | ⟨h, _⟩ <;> cases h
  · cases h

end Silice
