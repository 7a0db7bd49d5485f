import Verif.Lemmas.AlwaysUnit
import Verif.Lemmas.GatherDom

/-! The graph of an always block: how its blocks follow each other. -/

set_option autoImplicit false

namespace Silice

section
variable {st : PSt} {tops asg : List Nat} {p : Prg} {last : Nat} (A : AlwaysFrag st tops asg p last) (hs : p.stateless = true)
include A hs

theorem AlwaysFrag.plain {n : Nat} (hn : n ≤ last) : (st.blk n).isState = false := by
  by_cases e : n = 0
  · rw [e]; exact A.first
  · exact A.frag.plain (by simp [Prg.stateless, hs]) n (by omega) (by omega)

omit hs in
theorem AlwaysFrag.succ {y n : Nat} (hy : y ≤ last) (hn : n ∈ succs (st.blk y).act) : 1 ≤ n ∧ n ≤ last := by
  by_cases e : y = last
  · rw [e, A.stop] at hn; simp [succs, kids] at hn
  · rcases A.frag.next (by omega) e hn with h | h
    · omega
    · cases h.1

theorem AlwaysFrag.noCall {y : Nat} (hy : y ≤ last) (t r : Nat) : (st.blk y).act ≠ .call t r := by
  intro ha
  by_cases e : y = last
  · rw [e, A.stop] at ha; cases ha
  · obtain ⟨h1, h2, h3, _⟩ := (A.frag.stays y (by omega) e).call t r ha
    rw [A.plain hs (by omega)] at h3
    cases h3

theorem AlwaysFrag.flowsIn : FlowsIn st last := by
  refine ⟨fun y hy n hn => ?_, fun y hy t r ha => absurd ha (A.noCall hs hy t r)⟩
  exact (A.succ hy (kids_succs hn)).2

omit hs in
theorem AlwaysFrag.inlet : Inlet st.blk [] (last + 1) none 0 last 1 (last + 1) := by
  refine ⟨by omega, le_rfl, by simp, fun y n hy _ _ _ => by omega, fun n hn _ _ => ?_, by simp⟩
  rw [A.stop] at hn; simp [succs, kids] at hn

theorem AlwaysFrag.quiet (b : Fin (last + 1)) : ((st.cfg last).blk b).isState = false := by
  obtain ⟨n, hn, rfl⟩ := fin_name b
  rw [cfg_blk n (by omega)]
  exact A.plain hs hn

theorem AlwaysFrag.promoted : ∃ num : Num (Fin (last + 1)),
    Promoted st.blk (Fin.ofNat (last + 1)) (last + 1) (st.cfg last) (st.cfg last) id id num := by
  classical
  have O : Over st.blk (Fin.ofNat (last + 1)) (last + 1) (st.cfg last) := cfg_over
  refine ⟨⟨fun _ => none, fun b => if Reached (st.cfg last) id b then some 0 else none⟩, O, O, fun n hn => by rw [cfg_blk n hn], fun b => ?_, fun _ h => h,
    fun n hn h => ?_, fun x q i u it e v et n hx hr ha _ => ?_⟩
  · by_cases h : Reached (st.cfg last) id b <;> simp [h]
  · rw [A.quiet hs] at h; cases h
  · have hl : x ≠ last := by
      rintro rfl
      rw [A.stop] at ha; cases ha
    obtain ⟨h1, h2, h3⟩ := A.frag.sides (ff := id) (by simp [Prg.stateless, hs]) O (fun n _ _ => A.quiet hs _) (by omega) le_rfl x (by omega) hl
      _ _ _ _ _ _ _ _ ha
    exact ⟨.inl h1, .inl h2, .inl (h3 hr).1⟩

theorem AlwaysFrag.dominated (acc : Fin (last + 1) → List (List String × List String)) :
    Dominated (accGraph acc (st.cfg last)) (Fin.ofNat (last + 1) 0) := by
  have W := A.flowsIn hs
  have M : MoreStates (st.cfg last) (st.cfg last) := ⟨rfl, rfl, fun _ => rfl, fun _ h => h⟩
  have O : Over st.blk (Fin.ofNat (last + 1)) (last + 1) (st.cfg last) := cfg_over
  obtain ⟨num, P⟩ := A.promoted hs
  intro l c hw hl hsc
  obtain ⟨n, hn, rfl⟩ := fin_name c
  -- the first block is not entered again
  have back : ∀ l2, Walk (accGraph acc (st.cfg last)) (Fin.ofNat (last + 1) 0) l2 (Fin.ofNat (last + 1) n) → l2 ≠ [] → 1 ≤ n := by
    intro l2 hw2 hne
    obtain ⟨l', b, rfl, _, _, hc⟩ := hw2.snoc_inv hne
    obtain ⟨y, hy, rfl⟩ := fin_name b
    exact (A.succ hy (kids_succs (child_kids W M hy hn hc hsc))).1
  have h1 := back l hw hl
  obtain ⟨l', b, rfl, hw', hb, hc⟩ := hw.snoc_inv hl
  obtain ⟨y, hy, rfl⟩ := fin_name b
  have hk := child_kids W M hy hn hc hsc
  rcases A.frag.dom W M P (.inr rfl) .first A.inlet (acc := acc) n h1 (by omega) hsc with hd | ⟨p, hp, hpk, hall⟩
  · exact absurd (kids_succs hk) (hd y (by omega))
  · refine ⟨Fin.ofNat (last + 1) p, kids_child M hp hpk, fun l2 hw2 => ?_⟩
    have hne : l2 ≠ [] := by
      rintro rfl
      have := O.inj n 0 (by omega) (by omega) hw2.nil_inv
      omega
    refine ⟨hne, ?_⟩
    obtain ⟨l3, b, rfl, hw3, hb3, hc3⟩ := hw2.snoc_inv hne
    obtain ⟨y3, hy3, rfl⟩ := fin_name b
    rcases hall y3 l3 (by omega) hw3 hb3 (kids_succs (child_kids W M hy3 hn hc3 hsc)) with h | h
    · simp [h]
    · exact List.mem_append_left _ h

theorem AlwaysFrag.reg (num : Num (Fin (last + 1))) (hnum : ∀ b, num.pid b = none) :
    Reg (st.cfg last) num none (Fin.ofNat (last + 1) 0) true := by
  have O : Over st.blk (Fin.ofNat (last + 1)) (last + 1) (st.cfg last) := cfg_over
  refine A.frag.fall (ff := id) (by simp [Prg.stateless, hs]) O (fun b b' _ _ => by rw [hnum, hnum]) (fun n _ _ => A.quiet hs _) (by omega) le_rfl
    .first none true (by simp) (.stop ?_)
  rw [O.act last (by omega), A.stop]
  rfl

end

/-- The graph of an always block that is accepted, or of no always block. -/
theorem always_graph {tops asg : List Nat} {p : Option Prg} {last : Nat} {st : PSt} (h : buildAlways tops asg p = some (last, st)) :
    (∀ b, ((st.cfg last).blk b).isState = false) ∧
    (∀ acc : Fin (last + 1) → List (List String × List String), Dominated (accGraph acc (st.cfg last)) (Fin.ofNat (last + 1) 0)) ∧
    ∀ num : Num (Fin (last + 1)), (∀ b, num.pid b = none) → Reg (st.cfg last) num none (Fin.ofNat (last + 1) 0) true := by
  cases p with
  | some p =>
    obtain ⟨h1, h2⟩ := buildAlways_some.mp h
    have A := always_frag h1
    exact ⟨A.quiet h2, A.dominated h2, A.reg h2⟩
  | none =>
    simp only [buildAlways, Option.some.injEq, Prod.mk.injEq] at h
    obtain ⟨rfl, rfl⟩ := h
    have e0 : (alwaysStart tops asg).blk 0 = { ins := asg.map .plain } := by rw [alwaysStart_eq]; rfl
    have O : Over (alwaysStart tops asg).blk (Fin.ofNat 1) 1 ((alwaysStart tops asg).cfg 0) := cfg_over
    have act : ∀ b, (((alwaysStart tops asg).cfg 0).blk b).act = .stop := by
      intro b
      obtain ⟨n, hn, rfl⟩ := fin_name b
      obtain rfl : n = 0 := by omega
      rw [O.act 0 (by omega), e0]
      rfl
    refine ⟨fun b => ?_, fun acc l c hw hl _ => ?_, fun num _ => .stop (act _)⟩
    · obtain ⟨n, hn, rfl⟩ := fin_name b
      obtain rfl : n = 0 := by omega
      rw [cfg_blk 0 (by omega), e0]
    · obtain ⟨l', b, rfl, _, _, hc⟩ := hw.snoc_inv hl
      simp [accGraph, Cfg.children, act] at hc

end Silice
