import Verif.Lemmas.AlwaysDom
import Verif.Lemmas.WholeEvs
import Verif.Model.WholeUnit
import Verif.Spec.WholeUnit

/-! Always blocks as part of the design, and the graphs that `determineAccess` explores. -/

set_option autoImplicit false

namespace Silice

/-! ### Code without control assignments -/

section
variable {V L L' : Type}

mutual

theorem Stm.inert_run : ∀ (s : Stm V L), s.NoExit → ∀ m : String → V,
    ((s.inert : Stm V L').run m).env = (s.run m).env ∧ ((s.inert : Stm V L').run m).evs = (s.run m).evs ∧ ((s.inert : Stm V L').run m).out = none
  | .skip, _, m => ⟨rfl, rfl, rfl⟩
  | .ins _, _, m => ⟨rfl, rfl, rfl⟩
  | .seq a b, h, m => by
    obtain ⟨a1, a2, a3⟩ := Stm.inert_run a h.1 m
    have a4 := Stm.run_noExit a h.1 m
    obtain ⟨b1, b2, b3⟩ := Stm.inert_run b h.2 (a.run m).env
    simp only [Stm.inert, Stm.run, a3, a4, a1, a2, b1, b2, b3]
    exact ⟨trivial, trivial, trivial⟩
  | .branch rs sel bs push other, h, m => by
    simp only [Stm.inert, Stm.run]
    cases sel (rs.map m) with
    | none => exact ⟨rfl, rfl, rfl⟩
    | some k =>
      obtain ⟨b1, b2, b3⟩ := Brs.inert_run bs h.1 k m
      simp only [b1, b2, b3]
      exact ⟨trivial, trivial, trivial⟩

theorem Brs.inert_run : ∀ (bs : Brs V L), bs.NoExit → ∀ (k : Nat) (m : String → V),
    ((bs.inert : Brs V L').run k m).env = (bs.run k m).env ∧ ((bs.inert : Brs V L').run k m).evs = (bs.run k m).evs ∧
      ((bs.inert : Brs V L').run k m).out = none
  | .one s, h, _, m => Stm.inert_run s h m
  | .cons s _, h, 0, m => Stm.inert_run s h.1 m
  | .cons _ bs, h, k + 1, m => Brs.inert_run bs h.2 k m

end

mutual

theorem Stm.inert_noExit : ∀ s : Stm V L, (s.inert : Stm V L').NoExit
  | .skip | .ins _ | .exit _ => trivial
  | .seq a b => ⟨a.inert_noExit, b.inert_noExit⟩
  | .branch _ _ bs _ _ => ⟨bs.inert_noExit, rfl⟩

theorem Brs.inert_noExit : ∀ bs : Brs V L, (bs.inert : Brs V L').NoExit
  | .one s => s.inert_noExit
  | .cons s bs => ⟨s.inert_noExit, bs.inert_noExit⟩

end

mutual

theorem Stm.inert_shape : ∀ s : Stm V L, s.NoExit → s.Shape → (s.inert : Stm V L').Shape
  | .skip, _, _ | .ins _, _, _ | .exit _, _, _ => trivial
  | .seq a b, h, hs => ⟨a.inert_noExit, a.inert_shape h.1 hs.2.1, b.inert_shape h.2 hs.2.2⟩
  | .branch _ _ bs _ _, h, hs => ⟨bs.inert_shape h.1 hs.1, fun hp _ => hs.2 hp h.2⟩

theorem Brs.inert_shape : ∀ bs : Brs V L, bs.NoExit → bs.Shape → (bs.inert : Brs V L').Shape
  | .one s, h, hs => s.inert_shape h hs
  | .cons s bs, h, hs => ⟨s.inert_shape h.1 hs.1, bs.inert_shape h.2 hs.2⟩

end

mutual

theorem Stm.inert_noField {x : String} : ∀ s : Stm V L, s.NoField x → (s.inert : Stm V L').NoField x
  | .skip, _ | .exit _, _ => trivial
  | .ins _, h => h
  | .seq a b, h => ⟨a.inert_noField h.1, b.inert_noField h.2⟩
  | .branch _ _ bs _ _, h => bs.inert_noField h

theorem Brs.inert_noField {x : String} : ∀ bs : Brs V L, bs.NoField x → (bs.inert : Brs V L').NoField x
  | .one s, h => s.inert_noField h
  | .cons s bs, h => ⟨s.inert_noField h.1, bs.inert_noField h.2⟩

end

mutual

theorem Stm.inert_noRead {x : String} : ∀ s : Stm V L, s.NoRead x → (s.inert : Stm V L').NoRead x
  | .skip, _ | .exit _, _ => trivial
  | .ins _, h => h
  | .seq a b, h => ⟨a.inert_noRead h.1, b.inert_noRead h.2⟩
  | .branch _ _ bs _ _, h => ⟨h.1, bs.inert_noRead h.2⟩

theorem Brs.inert_noRead {x : String} : ∀ bs : Brs V L, bs.NoRead x → (bs.inert : Brs V L').NoRead x
  | .one s, h => s.inert_noRead h
  | .cons s bs, h => ⟨s.inert_noRead h.1, bs.inert_noRead h.2⟩

end

end

section
variable {V B : Type} {D : DataOf V} {ins : B → List PIns}

theorem seqIns_noRead {L : Type} {x : String} : ∀ is : List (Ins V), (∀ i ∈ is, x ∉ i.reads) → (seqIns is : Stm V L).NoRead x
  | [], _ => trivial
  | i :: is, h => ⟨h i List.mem_cons_self, seqIns_noRead is fun j hj => h j (List.mem_cons_of_mem _ hj)⟩

theorem DataOf.Unread.flat {x : String} (h : D.Unread x) (ps : List PIns) : ∀ i ∈ ps.flatMap D.ins, x ∉ i.reads := by
  intro i hi
  obtain ⟨p, _, hi⟩ := List.mem_flatMap.mp hi
  cases p with
  | plain j => exact h.1 j i (List.mem_append_left _ hi)
  | readback j outs =>
    cases outs with
    | true => exact h.1 j i (List.mem_append_right _ hi)
    | false => cases hi

mutual

theorem stm_noRead {x : String} (h : D.Unread x) : ∀ c : Code B, (c.stm D ins).NoRead x
  | .skip => trivial
  | .body b => seqIns_noRead _ (h.flat (ins b))
  | .seq a b => ⟨stm_noRead h a, stm_noRead h b⟩
  | .ite c a b => ⟨(h.2 c).1, stm_noRead h a, stm_noRead h b⟩
  | .wend c a _ => ⟨(h.2 c).1, stm_noRead h a⟩
  | .case c es => ⟨(h.2 c).2, brs_noRead h es⟩
  | .waitDone _ _ _ | .jump _ | .halt | .call _ _ _ | .ret _ _ => trivial

theorem brs_noRead {x : String} (h : D.Unread x) : ∀ es : List (Option Nat × Code B), (Code.stm.brs D ins es).NoRead x
  | [] => trivial
  | [(_, a)] => stm_noRead h a
  | (_, a) :: e :: es => ⟨stm_noRead h a, brs_noRead h (e :: es)⟩

end

mutual

theorem noHalt_of_stays : ∀ c : Code B, c.stays → c.noHalt = c
  | .skip, _ | .body _, _ => rfl
  | .seq x y, h => by rw [Code.noHalt, noHalt_of_stays x h.1, noHalt_of_stays y h.2]
  | .ite _ x y, h => by rw [Code.noHalt, noHalt_of_stays x h.1, noHalt_of_stays y h.2]
  | .case _ es, h => by rw [Code.noHalt, noHalt_entries_of_stay es h]

theorem noHalt_entries_of_stay : ∀ es : List (Option Nat × Code B), entriesStay es → Code.noHalt.entries es = es
  | [], _ => rfl
  | (_, x) :: es, h => by rw [Code.noHalt.entries, noHalt_of_stays x h.1, noHalt_entries_of_stay es h.2]

end

mutual

/-- Not assigning the index at the end changes nothing of what is done to variables. -/
theorem noHalt_run : ∀ c : Code B, c.shaped → ∀ m : String → V, ((c.noHalt.stm D ins).run m).env = ((c.stm D ins).run m).env ∧
    ((c.noHalt.stm D ins).run m).evs = ((c.stm D ins).run m).evs
  | .skip, _, m | .body _, _, m | .waitDone _ _ _, _, m | .jump _, _, m | .halt, _, m | .call _ _ _, _, m | .ret _ _, _, m => ⟨rfl, rfl⟩
  | .seq x y, h, m => by
    obtain ⟨y1, y2⟩ := noHalt_run y h.2.2 ((x.stm D ins).run m).env
    simp only [Code.noHalt, noHalt_of_stays x h.1, Code.stm, Stm.run, Stm.run_noExit _ (stm_noExit D ins x h.1) m, y1, y2]
    exact ⟨trivial, trivial⟩
  | .ite q x y, h, m => by
    obtain ⟨x1, x2⟩ := noHalt_run x h.1 m
    obtain ⟨y1, y2⟩ := noHalt_run y h.2 m
    simp only [Code.noHalt, Code.stm, Stm.run]
    by_cases hq : D.test q ((D.testReads q).map m) = true
    · simp [hq, Brs.run, x1, x2]
    · simp [hq, Brs.run, y1, y2]
  | .wend q x b, h, m => by
    obtain ⟨x1, x2⟩ := noHalt_run x h m
    simp only [Code.noHalt, Code.stm, Stm.run]
    by_cases hq : D.test q ((D.testReads q).map m) = true
    · simp [hq, Brs.run, x1, x2]
    · simp [hq]
  | .case q es, h, m => by
    have hl : (Code.noHalt.entries es).map (·.1) = es.map (·.1) := by rw [noHalt_entries, List.map_map]; rfl
    simp only [Code.noHalt, Code.stm, Stm.run, hl]
    cases hk : pickIdx (fun v => D.label q v ((D.labelReads q).map m)) (es.map (·.1)) with
    | none => exact ⟨rfl, rfl⟩
    | some k =>
      obtain ⟨e, he, _⟩ := (pickIdx_pick _ es).1 k hk
      have he' : (Code.noHalt.entries es)[k]? = some (e.1, e.2.noHalt) := by rw [noHalt_entries, List.getElem?_map, he]; rfl
      obtain ⟨x1, x2⟩ := noHalt_runs es h e (List.mem_of_getElem? he) m
      simp only [brs_run D ins es k e he, brs_run D ins _ k _ he', x1, x2]
      exact ⟨trivial, trivial⟩

theorem noHalt_runs : ∀ es : List (Option Nat × Code B), entriesShaped es → ∀ e ∈ es, ∀ m : String → V,
    ((e.2.noHalt.stm D ins).run m).env = ((e.2.stm D ins).run m).env ∧ ((e.2.noHalt.stm D ins).run m).evs = ((e.2.stm D ins).run m).evs
  | [], _, e, he, _ => by cases he
  | (v, x) :: es, h, e, he, m => by
    rcases List.mem_cons.mp he with rfl | he
    · exact noHalt_run x h.1 m
    · exact noHalt_runs es h.2 e he m

end

end

/-! ### Graphs side by side -/

section
variable {B C : Type} {f : B → C} {G : C → ABlock C} {H : B → ABlock B}

theorem Walk.embed (hG : ∀ b, G (f b) = (H b).map f) {h c : B} {l : List B} (w : Walk H h l c) : Walk G (f h) (l.map f) (f c) := by
  induction w with
  | start => exact .start
  | @step l b c _ hb hc ih =>
    rw [List.map_append, List.map_cons, List.map_nil]
    refine .step ih ?_ ?_
    · rcases hb with rfl | hb
      · exact .inl rfl
      · exact .inr (by rw [hG]; exact hb)
    · rw [hG]; exact List.mem_map_of_mem hc

theorem Walk.unembed (hG : ∀ b, G (f b) = (H b).map f) {h : B} {L : List C} {c' : C} (w : Walk G (f h) L c') :
    ∃ l c, L = l.map f ∧ c' = f c ∧ Walk H h l c := by
  induction w with
  | start => exact ⟨[], h, rfl, rfl, .start⟩
  | @step L b' c' _ hb hc ih =>
    obtain ⟨l, b, rfl, rfl, w⟩ := ih
    rw [hG] at hc hb
    obtain ⟨c, hc2, rfl⟩ := List.mem_map.mp hc
    refine ⟨l ++ [b], c, by simp, rfl, .step w ?_ hc2⟩
    rcases hb with hb | hb
    · exact .inl (List.map_eq_nil_iff.mp hb)
    · exact .inr hb

theorem Dominated.embed (hG : ∀ b, G (f b) = (H b).map f) (hf : Function.Injective f) {h : B} (d : Dominated H h) : Dominated G (f h) := by
  intro L c' w hL hs
  obtain ⟨l, c, rfl, rfl, w2⟩ := w.unembed hG
  rw [hG] at hs
  obtain ⟨p, hp, hall⟩ := d l c w2 (fun e => hL (by rw [e]; rfl)) hs
  refine ⟨f p, by rw [hG]; exact List.mem_map_of_mem hp, fun L' w' => ?_⟩
  obtain ⟨l', c2, rfl, e, w3⟩ := w'.unembed hG
  cases hf e
  obtain ⟨h1, h2⟩ := hall l' w3
  exact ⟨fun e => h1 (List.map_eq_nil_iff.mp e), List.mem_map_of_mem h2⟩

theorem Enters.embed (hG : ∀ b, G (f b) = (H b).map f) {l : List B} {c : B} (h : Enters H l c) : Enters G (l.map f) (f c) := by
  rcases h with rfl | h
  · exact .inl rfl
  · exact .inr (by rw [hG]; exact h)

theorem ReadsFirst.embed (hG : ∀ b, G (f b) = (H b).map f) {l : List B} {c : B} {x : String} (h : ReadsFirst H l c x) :
    ReadsFirst G (l.map f) (f c) x := by
  obtain ⟨before, i, after, h1, h2, h3, h4⟩ := h
  refine ⟨before, i, after, by rw [hG]; exact h1, h2, ?_, h4⟩
  intro b' hb'
  obtain ⟨b, hb, rfl⟩ := List.mem_map.mp hb'
  rw [hG]
  exact h3 b hb

end

end Silice
