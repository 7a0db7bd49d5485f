import Verif.Spec.Permission
import Verif.Props.Gather
import Verif.Prelude

/-! Lemmas for C76. -/

set_option autoImplicit false

namespace Silice

theorem withMembers_mem {h : SubHost} {x y : String} : x ∈ h.withMembers y ↔ PartOf h x y := by
  unfold SubHost.withMembers PartOf
  rw [List.mem_cons]
  refine or_congr Iff.rfl ?_
  cases e : h.groups y with
  | none => simp
  | some ms =>
    simp only [List.mem_map, Option.some.injEq]
    constructor
    · rintro ⟨m, hm, rfl⟩; exact ⟨ms, m, rfl, hm, rfl⟩
    · rintro ⟨ms', m, rfl, hm, rfl⟩; exact ⟨m, hm, rfl⟩

theorem calls_mem {d : SubDecl} {f : String} : f ∈ d.calls ↔ .calls f ∈ d.params := by
  unfold SubDecl.calls
  rw [List.mem_filterMap]
  constructor
  · rintro ⟨p, hp, h⟩
    cases p <;> simp at h
    subst h; exact hp
  · intro h; exact ⟨_, h, rfl⟩

theorem addCalls_ok {h : SubHost} {fs : List String} {p q : SubPerms} (e : SubPerms.addCalls h fs p = .ok q) :
    (∀ x, x ∈ q.reads ↔ x ∈ p.reads ∨ ∃ f ins outs, f ∈ fs ∧ h.callee f = some (ins, outs) ∧ x ∈ outs) ∧
      (∀ x, x ∈ q.writes ↔ x ∈ p.writes ∨ ∃ f ins outs, f ∈ fs ∧ h.callee f = some (ins, outs) ∧ x ∈ ins) := by
  induction fs generalizing p with
  | nil =>
    cases e
    simp
  | cons f fs ih =>
    rw [SubPerms.addCalls] at e
    cases hc : h.callee f with
    | none => rw [hc] at e; cases e
    | some io =>
      obtain ⟨ins, outs⟩ := io
      rw [hc] at e
      obtain ⟨i1, i2⟩ := ih e
      constructor
      · intro x
        rw [i1, List.mem_append]
        constructor
        · rintro ((h1 | h1) | ⟨g, a, b, hg, h1⟩)
          · exact .inl h1
          · exact .inr ⟨f, ins, outs, List.mem_cons_self, hc, h1⟩
          · exact .inr ⟨g, a, b, List.mem_cons_of_mem _ hg, h1⟩
        · rintro (h1 | ⟨g, a, b, hg, h1, h2⟩)
          · exact .inl (.inl h1)
          · rcases List.mem_cons.mp hg with rfl | hg
            · rw [hc] at h1; cases h1; exact .inl (.inr h2)
            · exact .inr ⟨g, a, b, hg, h1, h2⟩
      · intro x
        rw [i2, List.mem_append]
        constructor
        · rintro ((h1 | h1) | ⟨g, a, b, hg, h1⟩)
          · exact .inl h1
          · exact .inr ⟨f, ins, outs, List.mem_cons_self, hc, h1⟩
          · exact .inr ⟨g, a, b, List.mem_cons_of_mem _ hg, h1⟩
        · rintro (h1 | ⟨g, a, b, hg, h1, h2⟩)
          · exact .inl (.inl h1)
          · rcases List.mem_cons.mp hg with rfl | hg
            · rw [hc] at h1; cases h1; exact .inl (.inr h2)
            · exact .inr ⟨g, a, b, hg, h1, h2⟩

theorem addCalls_error {h : SubHost} {fs : List String} {p : SubPerms} :
    (∃ f, SubPerms.addCalls h fs p = .error (.unknown f)) ↔ ∃ f ∈ fs, h.callee f = none := by
  induction fs generalizing p with
  | nil => simp [SubPerms.addCalls]
  | cons f fs ih =>
    rw [SubPerms.addCalls]
    cases hc : h.callee f with
    | none => simp [hc]
    | some io =>
      simp only [List.mem_cons, exists_eq_or_imp, hc]
      rw [ih]
      simp

theorem perms_spec {h : SubHost} {d : SubDecl} {q : SubPerms} (e : d.perms h = .ok q) :
    (∀ x, x ∈ q.reads ↔ MayRead h d x) ∧ (∀ x, x ∈ q.writes ↔ MayWrite h d x) := by
  obtain ⟨h1, h2⟩ := addCalls_ok e
  constructor
  · intro x
    rw [h1, SubDecl.ownPerms]
    simp only [List.mem_append, List.mem_flatMap]
    constructor
    · rintro ((⟨p, hp, hx⟩ | hx) | ⟨f, ins, outs, hf, hc, hx⟩)
      · cases p with
        | reads y => exact .reads hp (withMembers_mem.mp hx)
        | writes y => simp [SubDecl.paramPerms] at hx
        | readwrites y => exact .readwrites hp (withMembers_mem.mp hx)
        | calls f => simp [SubDecl.paramPerms] at hx
        | input y => exact .input hp (by simpa [SubDecl.paramPerms, SubDecl.ioVar, String.append_assoc] using hx)
        | output y => exact .output hp (by simpa [SubDecl.paramPerms, SubDecl.ioVar, String.append_assoc] using hx)
      · exact .own hx
      · exact .call (calls_mem.mp hf) hc hx
    · intro hx
      cases hx with
      | reads hp hx => exact .inl (.inl ⟨_, hp, withMembers_mem.mpr hx⟩)
      | readwrites hp hx => exact .inl (.inl ⟨_, hp, withMembers_mem.mpr hx⟩)
      | own hx => exact .inl (.inr hx)
      | input hp hx => exact .inl (.inl ⟨_, hp, by simpa [SubDecl.paramPerms, SubDecl.ioVar, String.append_assoc] using hx⟩)
      | output hp hx => exact .inl (.inl ⟨_, hp, by simpa [SubDecl.paramPerms, SubDecl.ioVar, String.append_assoc] using hx⟩)
      | call hp hc hx => exact .inr ⟨_, _, _, calls_mem.mpr hp, hc, hx⟩
  · intro x
    rw [h2, SubDecl.ownPerms]
    simp only [List.mem_append, List.mem_flatMap]
    constructor
    · rintro ((⟨p, hp, hx⟩ | hx) | ⟨f, ins, outs, hf, hc, hx⟩)
      · cases p with
        | reads y => simp [SubDecl.paramPerms] at hx
        | writes y => exact .writes hp (withMembers_mem.mp hx)
        | readwrites y => exact .readwrites hp (withMembers_mem.mp hx)
        | calls f => simp [SubDecl.paramPerms] at hx
        | input y => simp [SubDecl.paramPerms] at hx
        | output y => exact .output hp (by simpa [SubDecl.paramPerms, SubDecl.ioVar, String.append_assoc] using hx)
      · exact .own hx
      · exact .call (calls_mem.mp hf) hc hx
    · intro hx
      cases hx with
      | writes hp hx => exact .inl (.inl ⟨_, hp, withMembers_mem.mpr hx⟩)
      | readwrites hp hx => exact .inl (.inl ⟨_, hp, withMembers_mem.mpr hx⟩)
      | own hx => exact .inl (.inr hx)
      | output hp hx => exact .inl (.inl ⟨_, hp, by simpa [SubDecl.paramPerms, SubDecl.ioVar, String.append_assoc] using hx⟩)
      | call hp hc hx => exact .inr ⟨_, _, _, calls_mem.mpr hp, hc, hx⟩

/-- The table of permissions, entry by entry. -/
theorem permTable {h : SubHost} {ds : List SubDecl} {ps : List SubPerms} (e : ds.mapM (SubDecl.perms h) = .ok ps) (k : Nat) :
    (∀ d, ds[k]? = some d → ∃ p, ps[k]? = some p ∧ d.perms h = .ok p) ∧ (∀ p, ps[k]? = some p → ∃ d, ds[k]? = some d ∧ d.perms h = .ok p) := by
  induction ds generalizing ps k with
  | nil =>
    rw [List.mapM_nil] at e
    cases e
    simp
  | cons d ds ih =>
    rw [List.mapM_cons] at e
    cases e1 : d.perms h with
    | error x => rw [e1] at e; cases e
    | ok p =>
      rw [e1] at e
      cases e2 : ds.mapM (SubDecl.perms h) with
      | error x => rw [e2] at e; cases e
      | ok ps' =>
        rw [e2] at e
        cases e
        cases k with
        | zero =>
          constructor
          · intro d' h'; simp at h'; subst h'; exact ⟨p, rfl, e1⟩
          · intro p' h'; simp at h'; subst h'; exact ⟨d, rfl, e1⟩
        | succ k => simpa using ih e2 k

theorem testOf_iff {a : Act Nat} {c : Nat} : a.cond = some c ↔ TestOf c a := by
  constructor
  · intro h
    cases a <;> simp [Act.cond] at h <;> subst h <;> constructor
  · rintro (_ | _ | _) <;> rfl

/-- Warnings on an instruction. -/
theorem permWarnings_mem {k : Nat} {p : SubPerms} {rs ws : List String} {w : PermWarn} :
    w ∈ permWarnings k p rs ws ↔ w.sub = k ∧ ((w.write = false ∧ w.var ∈ rs ∧ w.var ∉ p.reads) ∨ (w.write = true ∧ w.var ∈ ws ∧ w.var ∉ p.writes)) := by
  unfold permWarnings
  simp only [List.mem_append, List.mem_map, List.mem_filter, decide_eq_true_eq]
  constructor
  · rintro (⟨x, hx, rfl⟩ | ⟨x, hx, rfl⟩)
    · exact ⟨rfl, .inl ⟨rfl, hx⟩⟩
    · exact ⟨rfl, .inr ⟨rfl, hx⟩⟩
  · obtain ⟨s, v, b⟩ := w
    rintro ⟨rfl, (⟨rfl, hx⟩ | ⟨rfl, hx⟩)⟩
    · exact .inl ⟨v, hx, rfl⟩
    · exact .inr ⟨v, hx, rfl⟩

/-- The first block of a cycle is a state. -/
theorem hwRun_heads {B σ : Type} [DecidableEq B] {g : Cfg B} {fsm : Nat} {ff : B → B} {num : Num B} {maxState : Nat} {blocks : List B}
    {entries : List (Entry B)} (m : Machine g fsm ff num maxState blocks entries) (ids : List (B × Nat)) (S : Sem B σ) (env : Nat → σ → σ)
    (h0 : HW σ) (n : Nat) (trs : List (List B)) (h : HW σ) (hr : hwRun g num ff ids entries S env h0 n = some (trs, h)) :
    ∀ tr ∈ trs, ∀ b, tr.head? = some b → (num.sid b).isSome = true := by
  induction n generalizing trs h with
  | zero =>
    cases hr
    intro tr htr; cases htr
  | succ n ih =>
    rw [hwRun, Option.bind_eq_some_iff] at hr
    obtain ⟨⟨trs1, h1⟩, e1, e2⟩ := hr
    rw [Option.map_eq_some_iff] at e2
    obtain ⟨⟨tr1, h2⟩, e2, e3⟩ := e2
    simp only [Prod.mk.injEq] at e3
    obtain ⟨rfl, rfl⟩ := e3
    intro tr htr b hb
    rcases List.mem_append.mp htr with htr | htr
    · exact ih _ _ e1 tr htr b hb
    · rw [List.mem_singleton] at htr
      subst htr
      unfold hwCycle at e2
      split_ifs at e2 with hi
      · cases e2; cases hb
      · cases hf : entries.find? (fun e => decide (e.index = h1.idx)) with
        | none => rw [hf] at e2; cases e2
        | some e =>
          rw [hf] at e2
          have he := List.mem_of_find?_eq_some hf
          obtain ⟨ef, fu, hst⟩ := m.states
          obtain ⟨tr', s', o, hc, hrun⟩ := entry_cycle m.wf m.numbers hst S e he h1.data
          simp only [hrun, Option.map_eq_some_iff, Prod.mk.injEq] at e2
          obtain ⟨_, _, rfl, _⟩ := e2
          have : b = e.block := by cases hc <;> simp at hb <;> exact hb.symm
          rw [this, (emitStates_inv hst).index e he]
          rfl

mutual

/-- Calls without permission. -/
theorem callWarnings_mem (name : Nat → String) (allowed : List String) (f : String) :
    ∀ p : Prg, f ∈ callWarnings name allowed p ↔ ∃ s, CallsIn s p ∧ name s = f ∧ f ∉ allowed
  | .nil => by simp only [callWarnings, List.not_mem_nil, false_iff]; rintro ⟨s, h, _⟩; cases h
  | .instr i k => by
    rw [callWarnings, callWarnings_mem name allowed f k]
    exact exists_congr fun s => and_congr_left' ⟨.instr, fun h => by cases h; assumption⟩
  | .step k => by
    rw [callWarnings, callWarnings_mem name allowed f k]
    exact exists_congr fun s => and_congr_left' ⟨.step, fun h => by cases h; assumption⟩
  | .block b k => by
    rw [callWarnings, List.mem_append, callWarnings_mem name allowed f b, callWarnings_mem name allowed f k, ← exists_or]
    refine exists_congr fun s => ?_
    rw [← or_and_right]
    exact and_congr_left' ⟨fun h => h.elim .block .afterBlock, fun h => by cases h <;> simp_all⟩
  | .ifThen c t k => by
    rw [callWarnings, List.mem_append, callWarnings_mem name allowed f t, callWarnings_mem name allowed f k, ← exists_or]
    refine exists_congr fun s => ?_
    rw [← or_and_right]
    exact and_congr_left' ⟨fun h => h.elim .ifThen .afterIfThen, fun h => by cases h <;> simp_all⟩
  | .ifElse c t e k => by
    rw [callWarnings, List.mem_append, List.mem_append, callWarnings_mem name allowed f t, callWarnings_mem name allowed f e,
      callWarnings_mem name allowed f k, ← exists_or, ← exists_or]
    refine exists_congr fun s => ?_
    rw [← or_and_right, ← or_and_right]
    exact and_congr_left' ⟨fun h => h.elim .then_ fun h => h.elim .else_ .afterIf, fun h => by cases h <;> simp_all⟩
  | .loop c b k => by
    rw [callWarnings, List.mem_append, callWarnings_mem name allowed f b, callWarnings_mem name allowed f k, ← exists_or]
    refine exists_congr fun s => ?_
    rw [← or_and_right]
    exact and_congr_left' ⟨fun h => h.elim .loop .afterLoop, fun h => by cases h <;> simp_all⟩
  | .brk k => by
    rw [callWarnings, callWarnings_mem name allowed f k]
    exact exists_congr fun s => and_congr_left' ⟨.brk, fun h => by cases h; assumption⟩
  | .switch c cs k => by
    rw [callWarnings, List.mem_append, casesWarnings_mem name allowed f cs, callWarnings_mem name allowed f k]
    constructor
    · rintro (⟨s, v, p, hp, h1, h2⟩ | ⟨s, h1, h2⟩)
      · exact ⟨s, .case hp h1, h2⟩
      · exact ⟨s, .afterSwitch h1, h2⟩
    · rintro ⟨s, h1, h2⟩
      cases h1 with
      | case hp h1 => exact .inl ⟨s, _, _, hp, h1, h2⟩
      | afterSwitch h1 => exact .inr ⟨s, h1, h2⟩
  | .call s' g t o k => by
    rw [callWarnings, List.mem_append, callWarnings_mem name allowed f k]
    constructor
    · rintro (h | ⟨s, h1, h2⟩)
      · split_ifs at h with ha
        · cases h
        · rw [List.mem_singleton] at h
          subst h
          exact ⟨s', .here, rfl, ha⟩
      · exact ⟨s, .afterCall h1, h2⟩
    · rintro ⟨s, h1, h2, h3⟩
      cases h1 with
      | here => subst h2; rw [if_neg h3]; exact .inl (List.mem_singleton.mpr rfl)
      | afterCall h1 => exact .inr ⟨s, h1, h2, h3⟩
  | .join i t o k => by
    rw [callWarnings, callWarnings_mem name allowed f k]
    exact exists_congr fun s => and_congr_left' ⟨.join, fun h => by cases h; assumption⟩
  | .ret k => by
    rw [callWarnings, callWarnings_mem name allowed f k]
    exact exists_congr fun s => and_congr_left' ⟨.ret, fun h => by cases h; assumption⟩

/-- In the cases of a switch. -/
theorem casesWarnings_mem (name : Nat → String) (allowed : List String) (f : String) :
    ∀ cs : List (Option Nat × Prg), f ∈ casesWarnings name allowed cs ↔ ∃ s v p, (v, p) ∈ cs ∧ CallsIn s p ∧ name s = f ∧ f ∉ allowed
  | [] => by simp [casesWarnings]
  | (v, p) :: cs => by
    rw [casesWarnings, List.mem_append, callWarnings_mem name allowed f p, casesWarnings_mem name allowed f cs]
    constructor
    · rintro (⟨s, h⟩ | ⟨s, v', p', hp, h⟩)
      · exact ⟨s, v, p, List.mem_cons_self, h⟩
      · exact ⟨s, v', p', List.mem_cons_of_mem _ hp, h⟩
    · rintro ⟨s, v', p', hp, h⟩
      rcases List.mem_cons.mp hp with e | hp
      · cases e; exact .inl ⟨s, h⟩
      · exact .inr ⟨s, v', p', hp, h⟩

end

end Silice
