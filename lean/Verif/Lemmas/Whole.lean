import Verif.Spec.Whole
import Verif.Lemmas.FsmEmit
import Verif.Lemmas.Usage

/-! The code of states as the tree walked by the first pass. -/

set_option autoImplicit false

namespace Silice

section
variable {B : Type}

mutual

/-- The code does not assign the control registers. -/
def Code.stays : Code B → Prop
  | .skip | .body _ => True
  | .seq x y | .ite _ x y => x.stays ∧ y.stays
  | .case _ es => entriesStay es
  | .wend _ _ _ | .waitDone _ _ _ | .jump _ | .halt | .call _ _ _ | .ret _ _ => False

/-- Nor do the entries of a case. -/
def entriesStay : List (Option Nat × Code B) → Prop
  | [] => True
  | (_, x) :: es => x.stays ∧ entriesStay es

end

mutual

/-- Nothing follows an assignment of the control registers. -/
def Code.shaped : Code B → Prop
  | .skip | .body _ | .waitDone _ _ _ | .jump _ | .halt | .call _ _ _ | .ret _ _ => True
  | .seq x y => x.stays ∧ x.shaped ∧ y.shaped
  | .ite _ x y => x.shaped ∧ y.shaped
  | .wend _ x _ => x.shaped
  | .case _ es => entriesShaped es

/-- Nor in the entries of a case. -/
def entriesShaped : List (Option Nat × Code B) → Prop
  | [] => True
  | (_, x) :: es => x.shaped ∧ entriesShaped es

end

/-- What is claimed of the code of a region. -/
def Tidied (k : Bool) (c : Code B) : Prop := c.shaped ∧ (k = false → c.stays)

theorem entriesStay_of : ∀ {es : List (Option Nat × Code B)}, (∀ e ∈ es, e.2.stays) → entriesStay es
  | [], _ => trivial
  | (_, _) :: _, h => ⟨h _ List.mem_cons_self, entriesStay_of fun e he => h e (List.mem_cons_of_mem _ he)⟩

theorem entriesShaped_of : ∀ {es : List (Option Nat × Code B)}, (∀ e ∈ es, e.2.shaped) → entriesShaped es
  | [], _ => trivial
  | (_, _) :: _, h => ⟨h _ List.mem_cons_self, entriesShaped_of fun e he => h e (List.mem_cons_of_mem _ he)⟩

theorem mapM_entries {en : B → Option (Code B)} : ∀ {cs : List (Option Nat × B)} {es : List (Option Nat × Code B)},
    (cs.mapM fun p => (en p.2).map fun x => (p.1, x)) = some es → ∀ e ∈ es, ∃ p ∈ cs, en p.2 = some e.2
  | [], es, h, e, he => by simp at h; subst h; cases he
  | p :: cs, es, h, e, he => by
    rw [List.mapM_cons] at h
    simp only [Option.pure_def, Option.bind_eq_bind, Option.bind_eq_some_iff, Option.map_eq_some_iff, Option.some.injEq] at h
    obtain ⟨q, ⟨x, hx, rfl⟩, es', hes, rfl⟩ := h
    rcases List.mem_cons.mp he with rfl | he
    · exact ⟨p, List.mem_cons_self, hx⟩
    · obtain ⟨p', hp, h'⟩ := mapM_entries hes e he
      exact ⟨p', List.mem_cons_of_mem _ hp, h'⟩

variable [DecidableEq B]

theorem emit_shaped {g : Cfg B} {num : Num B} {st : Option B} {b : B} {k : Bool} (h : Reg g num st b k) :
    ∀ {f : Nat} {code : Code B}, emitFrom g num f st b = some code → Tidied k code := by
  -- entering a side that ends
  have enterEnds : ∀ (a i : B) (f : Nat) (c : Code B), ((g.blk i).isState = false →
      ∀ {f : Nat} {code : Code B}, emitFrom g num f (some a) i = some code → Tidied true code) →
      (if (g.blk i).isState then some (.jump i) else emitFrom g num f (some a) i) = some c → c.shaped := by
    intro a i f c hi hc
    by_cases hs : (g.blk i).isState = true
    · rw [if_pos hs] at hc; cases hc; trivial
    · rw [if_neg hs] at hc
      exact (hi (by simpa using hs) hc).1
  -- entering a side that stays
  have enterStays : ∀ (a i : B) (f : Nat) (c : Code B), (g.blk i).isState = false →
      (∀ {f : Nat} {code : Code B}, emitFrom g num f (some a) i = some code → Tidied false code) →
      (if (g.blk i).isState then some (.jump i) else emitFrom g num f (some a) i) = some c → c.shaped ∧ c.stays := by
    intro a i f c hs hi hc
    rw [if_neg (by simp [hs])] at hc
    exact ⟨(hi hc).1, (hi hc).2 rfl⟩
  -- continuing
  have cont : ∀ (st : Option B) (a : B) (k : Bool) (f : Nat) (c : Code B), (g.blk a).isState = false →
      (st ≠ some a → ∀ {f : Nat} {code : Code B}, emitFrom g num f st a = some code → Tidied k code) →
      (if (g.blk a).isState then some (.jump a) else if st = some a then some .skip else emitFrom g num f st a) = some c →
      Tidied k c := by
    intro st a k f c hs hi hc
    rw [if_neg (by simp [hs])] at hc
    by_cases hst : st = some a
    · rw [if_pos hst] at hc; cases hc; exact ⟨trivial, fun _ => trivial⟩
    · rw [if_neg hst] at hc; exact hi hst hc
  induction h with
  | @stop st b ha =>
    intro f code hc
    cases f with
    | zero => cases hc
    | succ f => simp only [emitFrom, ha] at hc; cases hc; exact ⟨⟨trivial, trivial, trivial⟩, fun h => nomatch h⟩
  | @ret st b k ha =>
    intro f code hc
    cases f with
    | zero => cases hc
    | succ f => simp only [emitFrom, ha] at hc; cases hc; exact ⟨⟨trivial, trivial, trivial⟩, fun h => nomatch h⟩
  | @call st b t r ha =>
    intro f code hc
    cases f with
    | zero => cases hc
    | succ f => simp only [emitFrom, ha] at hc; cases hc; exact ⟨⟨trivial, trivial, trivial⟩, fun h => nomatch h⟩
  | @wait st b w n k ha hw hn =>
    intro f code hc
    cases f with
    | zero => cases hc
    | succ f => simp only [emitFrom, ha] at hc; cases hc; exact ⟨⟨trivial, trivial, trivial⟩, fun h => nomatch h⟩
  | @gotoState st b n ha hn =>
    intro f code hc
    cases f with
    | zero => cases hc
    | succ f =>
      simp only [emitFrom, ha, hn, if_true, Option.map_some, Option.some.injEq] at hc
      subst hc; exact ⟨⟨trivial, trivial, trivial⟩, fun h => nomatch h⟩
  | @gotoStop b n ha hn =>
    intro f code hc
    cases f with
    | zero => cases hc
    | succ f =>
      simp only [emitFrom, ha, hn, if_true, Bool.false_eq_true, if_false, Option.map_some, Option.some.injEq] at hc
      subst hc; exact ⟨⟨trivial, trivial, trivial⟩, fun _ => ⟨trivial, trivial⟩⟩
  | @gotoMore st b n k ha hn hst _ ih =>
    intro f code hc
    cases f with
    | zero => cases hc
    | succ f =>
      simp only [emitFrom, ha, Option.map_eq_some_iff] at hc
      obtain ⟨c, hc, rfl⟩ := hc
      have := cont st n k f c hn (fun _ => ih) hc
      exact ⟨⟨trivial, trivial, this.1⟩, fun hk => ⟨trivial, this.2 hk⟩⟩
  | @ifBoth st b i it e et a c x y k ha hna hpp hi _ he _ hk1 _ ih1 ih2 ih3 =>
    intro f code hc
    cases f with
    | zero => cases hc
    | succ f =>
      simp only [emitFrom, ha, Option.bind_eq_some_iff] at hc
      obtain ⟨ci, h1, ce, h2, hc⟩ := hc
      have t1 := enterStays a i f ci hi ih1 h1
      have t2 := enterStays a e f ce he ih2 h2
      rw [if_neg (by simp [hna]), if_neg (by rw [hpp]; cases (num.pid et).isSome <;> decide), if_neg (by rw [hpp]; cases (num.pid et).isSome <;> decide), Option.map_eq_some_iff] at hc
      obtain ⟨ca, hc, rfl⟩ := hc
      have t3 := cont st a k f ca hna ih3 hc
      exact ⟨⟨⟨trivial, t1.2, t2.2⟩, ⟨trivial, trivial, t1.1, t2.1⟩, t3.1⟩, fun hk => ⟨⟨trivial, t1.2, t2.2⟩, t3.2 hk⟩⟩
  | @ifElseEnds st b i it e et a c x y ha hna hit het hi _ _ _ ih1 ih2 ih3 =>
    intro f code hc
    cases f with
    | zero => cases hc
    | succ f =>
      simp only [emitFrom, ha, Option.bind_eq_some_iff] at hc
      obtain ⟨ci, h1, ce, h2, hc⟩ := hc
      have t1 := enterStays a i f ci hi ih1 h1
      have t2 := enterEnds a e f ce ih2 h2
      rw [if_neg (by simp [hna]), if_pos (by simp [hit, het]), Option.map_eq_some_iff] at hc
      obtain ⟨ca, hc, rfl⟩ := hc
      exact ⟨⟨trivial, trivial, ⟨t1.2, t1.1, (ih3 hc).1⟩, t2⟩, fun h => nomatch h⟩
  | @ifIfEnds st b i it e et a c x y ha hna hit het _ he _ _ ih1 ih2 ih3 =>
    intro f code hc
    cases f with
    | zero => cases hc
    | succ f =>
      simp only [emitFrom, ha, Option.bind_eq_some_iff] at hc
      obtain ⟨ci, h1, ce, h2, hc⟩ := hc
      have t1 := enterEnds a i f ci ih1 h1
      have t2 := enterStays a e f ce he ih2 h2
      rw [if_neg (by simp [hna]), if_neg (by simp [hit]), if_pos (by simp [hit, het]), Option.map_eq_some_iff] at hc
      obtain ⟨ca, hc, rfl⟩ := hc
      exact ⟨⟨trivial, trivial, t1, t2.2, t2.1, (ih3 hc).1⟩, fun h => nomatch h⟩
  | @ifState st b i it e et a c x y ha hna _ _ ih1 ih2 =>
    intro f code hc
    cases f with
    | zero => cases hc
    | succ f =>
      simp only [emitFrom, ha, Option.bind_eq_some_iff] at hc
      obtain ⟨ci, h1, ce, h2, hc⟩ := hc
      rw [if_pos hna, Option.some.injEq] at hc
      subst hc
      exact ⟨⟨trivial, trivial, enterEnds a i f ci ih1 h1, enterEnds a e f ce ih2 h2⟩, fun h => nomatch h⟩
  | @switchFall st b a c cs k ha hna hcs _ hk1 _ ih1 ih2 =>
    intro f code hc
    cases f with
    | zero => cases hc
    | succ f =>
      simp only [emitFrom, ha, Option.bind_eq_some_iff] at hc
      obtain ⟨es, h1, hc⟩ := hc
      have t1 : ∀ e ∈ es, e.2.shaped ∧ e.2.stays := by
        intro e he
        obtain ⟨p, hp, h2⟩ := mapM_entries (en := fun n => if (g.blk n).isState then some (.jump n) else emitFrom g num f (some a) n) h1 e he
        exact enterStays a p.2 f e.2 (hcs p hp) (ih1 p hp) h2
      have s1 := entriesShaped_of fun e he => (t1 e he).1
      have s2 := entriesStay_of fun e he => (t1 e he).2
      rw [if_neg (by simp [hna]), Option.map_eq_some_iff] at hc
      obtain ⟨ca, hc, rfl⟩ := hc
      have t3 := cont st a k f ca hna ih2 hc
      exact ⟨⟨⟨trivial, s2⟩, ⟨trivial, trivial, s1⟩, t3.1⟩, fun hk => ⟨⟨trivial, s2⟩, t3.2 hk⟩⟩
  | @switchState st b a c cs ha hna hdef _ ih1 =>
    intro f code hc
    cases f with
    | zero => cases hc
    | succ f =>
      simp only [emitFrom, ha, Option.bind_eq_some_iff] at hc
      obtain ⟨es, h1, hc⟩ := hc
      rw [if_pos hna, Option.some.injEq] at hc
      subst hc
      refine ⟨⟨trivial, trivial, entriesShaped_of fun e he => ?_⟩, fun h => nomatch h⟩
      obtain ⟨p, hp, h2⟩ := mapM_entries (en := fun n => if (g.blk n).isState then some (.jump n) else emitFrom g num f (some a) n) h1 e he
      exact enterEnds a p.2 f e.2 (ih1 p hp) h2
  | @loop st b i a c ha _ _ ih1 ih2 =>
    intro f code hc
    cases f with
    | zero => cases hc
    | succ f =>
      simp only [emitFrom, ha, Option.bind_eq_some_iff] at hc
      obtain ⟨ci, h1, hc⟩ := hc
      have t1 := enterEnds a i f ci ih1 h1
      by_cases hna : (g.blk a).isState = true
      · rw [if_pos hna, Option.some.injEq] at hc
        subst hc
        exact ⟨⟨trivial, trivial, t1⟩, fun h => nomatch h⟩
      · rw [if_neg hna, Option.map_eq_some_iff] at hc
        obtain ⟨ca, hc, rfl⟩ := hc
        exact ⟨⟨trivial, trivial, t1, (ih2 (by simpa using hna) hc).1⟩, fun h => nomatch h⟩

end

/-! ### The tree of a state -/

section
variable {V B L : Type}

theorem seqIns_noExit : ∀ is : List (Ins V), (seqIns is : Stm V L).NoExit
  | [] => trivial
  | _ :: is => ⟨trivial, seqIns_noExit is⟩

theorem seqIns_shape : ∀ is : List (Ins V), (seqIns is : Stm V L).Shape
  | [] => trivial
  | _ :: is => ⟨trivial, trivial, seqIns_shape is⟩

theorem seqIns_env : ∀ (is : List (Ins V)) (m : String → V), ((seqIns is : Stm V L).run m).env = assignAll is m
  | [], _ => rfl
  | i :: is, m => by
    simp only [seqIns, Stm.run]
    rw [seqIns_env is]
    rfl

theorem seqIns_evs : ∀ (is : List (Ins V)) (m : String → V), ∀ i ∈ is, ∃ e ∈ ((seqIns is : Stm V L).run m).evs, e.writes = i.writes
  | [], _, i, hi => by cases hi
  | j :: is, m, i, hi => by
    simp only [seqIns, Stm.run]
    rcases List.mem_cons.mp hi with rfl | hi
    · exact ⟨_, List.mem_cons_self, rfl⟩
    · obtain ⟨e, he, h⟩ := seqIns_evs is _ i hi
      exact ⟨e, List.mem_cons_of_mem _ he, h⟩

variable (D : DataOf V) (ins : B → List PIns)

mutual

theorem stm_noExit : ∀ c : Code B, c.stays → (c.stm D ins).NoExit
  | .skip, _ => trivial
  | .body _, _ => seqIns_noExit _
  | .seq x y, h => ⟨stm_noExit x h.1, stm_noExit y h.2⟩
  | .ite _ x y, h => ⟨⟨stm_noExit x h.1, stm_noExit y h.2⟩, rfl⟩
  | .case _ es, h => ⟨brs_noExit es h, rfl⟩

theorem brs_noExit : ∀ es : List (Option Nat × Code B), entriesStay es → (Code.stm.brs D ins es).NoExit
  | [], _ => trivial
  | [(_, x)], h => stm_noExit x h.1
  | (_, x) :: e :: es, h => ⟨stm_noExit x h.1, brs_noExit (e :: es) h.2⟩

end

theorem pickIdx_isSome {m : Nat → Bool} {ls : List (Option Nat)} (h : ls.any (·.isNone) = true) : (pickIdx m ls).isSome := by
  unfold pickIdx
  split
  · rfl
  · rw [List.findIdx?_isSome]
    exact h

mutual

theorem stm_shape : ∀ c : Code B, c.shaped → (c.stm D ins).Shape
  | .skip, _ => trivial
  | .body b, _ => seqIns_shape _
  | .seq x y, h => ⟨stm_noExit D ins x h.1, stm_shape x h.2.1, stm_shape y h.2.2⟩
  | .ite _ x y, h => ⟨⟨stm_shape x h.1, stm_shape y h.2⟩, fun _ _ _ => rfl⟩
  | .wend _ x _, h => ⟨stm_shape x h, fun _ h => by cases h⟩
  | .case _ es, h => ⟨brs_shape es h, fun hp _ vs => by
      apply pickIdx_isSome
      rw [List.any_map]
      simpa using hp⟩
  | .waitDone _ _ _, _ | .jump _, _ | .halt, _ | .call _ _ _, _ | .ret _ _, _ => trivial

theorem brs_shape : ∀ es : List (Option Nat × Code B), entriesShaped es → (Code.stm.brs D ins es).Shape
  | [], _ => trivial
  | [(_, x)], h => stm_shape x h.1
  | (_, x) :: e :: es, h => ⟨stm_shape x h.1, brs_shape (e :: es) h.2⟩

end

/-! ### Running it -/

theorem all_assign (es : List Did) (m : String → V) (d : Nat → Bool) :
    D.meaning.all es (m, d) = (assignAll (es.flatMap D.did) m, d) := by
  induction es generalizing m with
  | nil => rfl
  | cons e es ih =>
    show D.meaning.all es (D.meaning.did e (m, d)) = _
    have : D.meaning.did e (m, d) = (assignAll (D.did e) m, d) := by cases e <;> rfl
    rw [this, ih]
    simp [assignAll]

theorem dids_ins (p : PIns) : p.dids.flatMap D.did = D.ins p := by
  cases p with
  | plain i => simp [PIns.dids, DataOf.did, DataOf.ins]
  | readback i outs => cases outs <;> simp [PIns.dids, DataOf.did, DataOf.ins]

theorem insDids_ins (is : List PIns) : (insDids is).flatMap D.did = is.flatMap D.ins := by
  rw [insDids, List.flatMap_assoc]
  simp only [dids_ins]

theorem brs_run : ∀ (es : List (Option Nat × Code B)) (k : Nat) (e : Option Nat × Code B), es[k]? = some e → ∀ m : String → V,
    (Code.stm.brs D ins es).run k m = (e.2.stm D ins).run m
  | [], _, _, h, _ => by cases h
  | [(_, x)], 0, e, h, m => by cases h; rfl
  | [(_, x)], k + 1, e, h, m => by cases h
  | (_, x) :: e' :: es, 0, e, h, m => by cases h; rfl
  | (_, x) :: e' :: es, k + 1, e, h, m => brs_run (e' :: es) k e h m

theorem runEntries_eq {σ : Type} (S : Sem B σ) : ∀ es : List (Option Nat × Code B), Code.run.runEntries S es = es.map fun e => (e.1, e.2.run S)
  | [] => rfl
  | (_, _) :: es => by rw [Code.run.runEntries, runEntries_eq S es]; rfl

theorem find?_of_findIdx? {α : Type} {p : α → Bool} : ∀ {xs : List α} {k : Nat}, xs.findIdx? p = some k →
    ∃ x, xs[k]? = some x ∧ xs.find? p = some x
  | [], _, h => by cases h
  | x :: xs, k, h => by
    rw [List.findIdx?_cons] at h
    by_cases hx : p x = true
    · rw [if_pos hx] at h
      cases h
      exact ⟨x, rfl, by rw [List.find?_cons_of_pos hx]⟩
    · rw [if_neg hx, Option.map_eq_some_iff] at h
      obtain ⟨k', h', rfl⟩ := h
      obtain ⟨y, h1, h2⟩ := find?_of_findIdx? h'
      exact ⟨y, h1, by rw [List.find?_cons_of_neg hx]; exact h2⟩

theorem pickIdx_pick {α : Type} (m : Nat → Bool) (es : List (Option Nat × α)) :
    (∀ k, pickIdx m (es.map (·.1)) = some k → ∃ e, es[k]? = some e ∧ pickCase m es = some e.2) ∧
    (pickIdx m (es.map (·.1)) = none → pickCase m es = none) := by
  have hm : ∀ p : Option Nat → Bool, (es.map (·.1)).findIdx? p = es.findIdx? fun e => p e.1 := by
    intro p
    rw [List.findIdx?_map]
    rfl
  unfold pickIdx pickCase
  rw [hm, hm]
  cases h1 : es.findIdx? (fun e => labelMatches m e.1) with
  | some k =>
    obtain ⟨x, h2, h3⟩ := find?_of_findIdx? h1
    refine ⟨fun k' hk => ?_, fun h => by cases h⟩
    cases hk
    exact ⟨x, h2, by rw [h3]⟩
  | none =>
    have h3 : es.find? (fun e => labelMatches m e.1) = none := by
      rw [List.find?_eq_none]
      intro x hx
      rw [List.findIdx?_eq_none_iff] at h1
      simpa using h1 x hx
    rw [h3]
    cases h4 : es.findIdx? (fun e => e.1.isNone) with
    | some k =>
      obtain ⟨x, h5, h6⟩ := find?_of_findIdx? h4
      refine ⟨fun k' hk => ?_, fun h => by cases h⟩
      cases hk
      exact ⟨x, h5, by rw [h6]; rfl⟩
    | none =>
      refine ⟨fun k hk => (nomatch hk), fun _ => ?_⟩
      have : es.find? (fun e => e.1.isNone) = none := by
        rw [List.find?_eq_none]
        intro x hx
        rw [List.findIdx?_eq_none_iff] at h4
        simp [h4 x hx]
      rw [this]
      rfl

/-- What running the code of a state does, in terms of the tree. -/
def RunsAs (d : Nat → Bool) (c : Code B) : Prop := ∀ (m : String → V) (t : List B) (c0 : Option (Out B)), ∃ tr,
  c.run (D.meaning.sem ins) ⟨t, (m, d), c0⟩ =
    ⟨t ++ tr, (((c.stm D ins).run m).env, d), (((c.stm D ins).run m).out.map (·.resolve d)) <|> c0⟩ ∧
  ∀ b ∈ tr, ∀ p ∈ ins b, ∀ i ∈ D.ins p, ∃ e ∈ ((c.stm D ins).run m).evs, e.writes = i.writes

mutual

theorem stm_run (d : Nat → Bool) : ∀ c : Code B, c.shaped → RunsAs D ins d c
  | .skip, _ => fun m t c0 => ⟨[], by simp [Code.run, Code.stm, Stm.run], fun _ h => by cases h⟩
  | .body b, _ => fun m t c0 => by
    refine ⟨[b], ?_, ?_⟩
    · simp only [Code.run, Code.stm, seqIns_env, Stm.run_noExit _ (seqIns_noExit _), Meaning.sem, all_assign, insDids_ins]
      rfl
    · intro b' hb p hp i hi
      cases List.mem_singleton.mp hb
      exact seqIns_evs _ m i (List.mem_flatMap.mpr ⟨p, hp, hi⟩)
  | .seq x y, h => fun m t c0 => by
    obtain ⟨t1, e1, v1⟩ := stm_run d x h.2.1 m t c0
    have hx := Stm.run_noExit _ (stm_noExit D ins x h.1) m
    obtain ⟨t2, e2, v2⟩ := stm_run d y h.2.2 ((x.stm D ins).run m).env (t ++ t1) c0
    refine ⟨t1 ++ t2, ?_, ?_⟩
    · rw [Code.run, e1, hx]
      simp only [Option.map_none, Code.stm, Stm.run, hx]
      rw [show ((none : Option (Out B)) <|> c0) = c0 from rfl, e2, List.append_assoc]
    · intro b hb p hp i hi
      simp only [Code.stm, Stm.run, hx]
      rcases List.mem_append.mp hb with hb | hb
      · obtain ⟨e, he, hw⟩ := v1 b hb p hp i hi
        exact ⟨e, List.mem_append_left _ he, hw⟩
      · obtain ⟨e, he, hw⟩ := v2 b hb p hp i hi
        exact ⟨e, List.mem_append_right _ he, hw⟩
  | .ite c x y, h => fun m t c0 => by
    rw [Code.run, Code.stm]
    have ht : (D.meaning.sem ins).test c (m, d) = D.test c ((D.testReads c).map m) := rfl
    simp only [ht]
    cases hc : D.test c ((D.testReads c).map m) with
    | true =>
      obtain ⟨t1, e1, v1⟩ := stm_run d x h.1 m t c0
      refine ⟨t1, ?_, ?_⟩
      · simp only [if_true, Stm.run, hc, Brs.run]
        exact e1
      · intro b hb p hp i hi
        obtain ⟨e, he, hw⟩ := v1 b hb p hp i hi
        simp only [if_true, Stm.run, hc, Brs.run]
        exact ⟨e, List.mem_cons_of_mem _ he, hw⟩
    | false =>
      obtain ⟨t1, e1, v1⟩ := stm_run d y h.2 m t c0
      refine ⟨t1, ?_, ?_⟩
      · simp only [Bool.false_eq_true, if_false, Stm.run, hc, Brs.run]
        exact e1
      · intro b hb p hp i hi
        obtain ⟨e, he, hw⟩ := v1 b hb p hp i hi
        simp only [Bool.false_eq_true, if_false, Stm.run, hc, Brs.run]
        exact ⟨e, List.mem_cons_of_mem _ he, hw⟩
  | .wend c x b, h => fun m t c0 => by
    rw [Code.run, Code.stm]
    have ht : (D.meaning.sem ins).test c (m, d) = D.test c ((D.testReads c).map m) := rfl
    simp only [ht]
    cases hc : D.test c ((D.testReads c).map m) with
    | true =>
      obtain ⟨t1, e1, v1⟩ := stm_run d x h m t c0
      refine ⟨t1, ?_, ?_⟩
      · simp only [if_true, Stm.run, hc, Brs.run]
        exact e1
      · intro b hb p hp i hi
        obtain ⟨e, he, hw⟩ := v1 b hb p hp i hi
        simp only [if_true, Stm.run, hc, Brs.run]
        exact ⟨e, List.mem_cons_of_mem _ he, hw⟩
    | false =>
      refine ⟨[], ?_, fun _ h => by cases h⟩
      simp only [Bool.false_eq_true, if_false, Stm.run, hc, List.append_nil]
      rfl
  | .case c es, h => fun m t c0 => by
    rw [Code.run, Code.stm, runEntries_eq]
    have hl : (fun v => (D.meaning.sem ins).label c v (m, d)) = fun v => D.label c v ((D.labelReads c).map m) := rfl
    simp only [hl]
    have pk := pickIdx_pick (fun v => D.label c v ((D.labelReads c).map m)) (es.map fun e => (e.1, e.2.run (D.meaning.sem ins)))
    rw [List.map_map] at pk
    change (∀ k, pickIdx _ (es.map (·.1)) = some k → _) ∧ (pickIdx _ (es.map (·.1)) = none → _) at pk
    cases hk : pickIdx (fun v => D.label c v ((D.labelReads c).map m)) (es.map (·.1)) with
    | some k =>
      obtain ⟨e', h1, h2⟩ := pk.1 k hk
      rw [List.getElem?_map, Option.map_eq_some_iff] at h1
      obtain ⟨e, h1, rfl⟩ := h1
      rw [h2]
      obtain ⟨t1, e1, v1⟩ := entries_run d es h e (List.mem_of_getElem? h1) m t c0
      refine ⟨t1, ?_, ?_⟩
      · simp only [Stm.run, hk, brs_run D ins es k e h1]
        exact e1
      · intro b hb p hp i hi
        obtain ⟨e, he, hw⟩ := v1 b hb p hp i hi
        simp only [Stm.run, hk, brs_run D ins es k _ h1]
        exact ⟨e, List.mem_cons_of_mem _ he, hw⟩
    | none =>
      rw [pk.2 hk]
      refine ⟨[], ?_, fun _ h => by cases h⟩
      simp only [Stm.run, hk, List.append_nil]
      rfl
  | .waitDone k n w, _ => fun m t c0 => ⟨[], by simp only [Code.run, Code.stm, Stm.run, List.append_nil]; rfl, fun _ h => by cases h⟩
  | .jump _, _ => fun m t c0 => ⟨[], by simp only [Code.run, Code.stm, Stm.run, List.append_nil]; rfl, fun _ h => by cases h⟩
  | .halt, _ => fun m t c0 => ⟨[], by simp only [Code.run, Code.stm, Stm.run, List.append_nil]; rfl, fun _ h => by cases h⟩
  | .call _ _ _, _ => fun m t c0 => ⟨[], by simp only [Code.run, Code.stm, Stm.run, List.append_nil]; rfl, fun _ h => by cases h⟩
  | .ret _ _, _ => fun m t c0 => ⟨[], by simp only [Code.run, Code.stm, Stm.run, List.append_nil]; rfl, fun _ h => by cases h⟩

theorem entries_run (d : Nat → Bool) : ∀ es : List (Option Nat × Code B), entriesShaped es → ∀ e ∈ es, RunsAs D ins d e.2
  | [], _, e, he => by cases he
  | (v, x) :: es, h, e, he => by
    rcases List.mem_cons.mp he with rfl | he
    · exact stm_run d x h.1
    · exact entries_run d es h.2 e he

end

/-! ### Names in the statements -/

section
variable {D}

theorem seqIns_noField {x : String} : ∀ is : List (Ins V), (∀ i ∈ is, x ∉ i.fields) → (seqIns is : Stm V L).NoField x
  | [], _ => trivial
  | _ :: is, h => ⟨h _ List.mem_cons_self, seqIns_noField is fun i hi => h i (List.mem_cons_of_mem _ hi)⟩

theorem seqIns_noWrite {x : String} : ∀ is : List (Ins V), (∀ i ∈ is, x ∉ i.writes ∧ x ∉ i.parts ∧ x ∉ i.fields) →
    (seqIns is : Stm V L).NoWrite x
  | [], _ => trivial
  | _ :: is, h => ⟨h _ List.mem_cons_self, seqIns_noWrite is fun i hi => h i (List.mem_cons_of_mem _ hi)⟩

theorem ins_cases {D : DataOf V} {P : Ins V → Prop} (h1 : ∀ i, ∀ s ∈ D.instr i, P s) (h2 : ∀ i, ∀ s ∈ D.take i, P s) (ps : List PIns) :
    ∀ s ∈ ps.flatMap D.ins, P s := by
  intro s hs
  obtain ⟨p, _, hs⟩ := List.mem_flatMap.mp hs
  cases p with
  | plain i => exact h1 i s hs
  | readback i o =>
    cases o with
    | true => exact h2 i s hs
    | false => cases hs

mutual

theorem stm_noField {x : String} (h1 : ∀ i, ∀ s ∈ D.instr i, x ∉ s.fields)
    (h2 : ∀ i, ∀ s ∈ D.take i, x ∉ s.fields) : ∀ c : Code B, (c.stm D ins).NoField x
  | .skip => trivial
  | .body _ => seqIns_noField _ (ins_cases h1 h2 _)
  | .seq a b => ⟨stm_noField h1 h2 a, stm_noField h1 h2 b⟩
  | .ite _ a b => ⟨stm_noField h1 h2 a, stm_noField h1 h2 b⟩
  | .wend _ a _ => stm_noField h1 h2 a
  | .case _ es => brs_noField h1 h2 es
  | .waitDone _ _ _ | .jump _ | .halt | .call _ _ _ | .ret _ _ => trivial

theorem brs_noField {x : String} (h1 : ∀ i, ∀ s ∈ D.instr i, x ∉ s.fields)
    (h2 : ∀ i, ∀ s ∈ D.take i, x ∉ s.fields) : ∀ es : List (Option Nat × Code B), (Code.stm.brs D ins es).NoField x
  | [] => trivial
  | [(_, a)] => stm_noField h1 h2 a
  | (_, a) :: e :: es => ⟨stm_noField h1 h2 a, brs_noField h1 h2 (e :: es)⟩

end

mutual

theorem stm_noWrite {x : String} (h1 : ∀ i, ∀ s ∈ D.instr i, x ∉ s.writes ∧ x ∉ s.parts ∧ x ∉ s.fields)
    (h2 : ∀ i, ∀ s ∈ D.take i, x ∉ s.writes ∧ x ∉ s.parts ∧ x ∉ s.fields) : ∀ c : Code B, (c.stm D ins).NoWrite x
  | .skip => trivial
  | .body _ => seqIns_noWrite _ (ins_cases h1 h2 _)
  | .seq a b => ⟨stm_noWrite h1 h2 a, stm_noWrite h1 h2 b⟩
  | .ite _ a b => ⟨stm_noWrite h1 h2 a, stm_noWrite h1 h2 b⟩
  | .wend _ a _ => stm_noWrite h1 h2 a
  | .case _ es => brs_noWrite h1 h2 es
  | .waitDone _ _ _ | .jump _ | .halt | .call _ _ _ | .ret _ _ => trivial

theorem brs_noWrite {x : String} (h1 : ∀ i, ∀ s ∈ D.instr i, x ∉ s.writes ∧ x ∉ s.parts ∧ x ∉ s.fields)
    (h2 : ∀ i, ∀ s ∈ D.take i, x ∉ s.writes ∧ x ∉ s.parts ∧ x ∉ s.fields) : ∀ es : List (Option Nat × Code B), (Code.stm.brs D ins es).NoWrite x
  | [] => trivial
  | [(_, a)] => stm_noWrite h1 h2 a
  | (_, a) :: e :: es => ⟨stm_noWrite h1 h2 a, brs_noWrite h1 h2 (e :: es)⟩

end

end

/-! ### A cycle -/

variable [DecidableEq B]

theorem applyOut_data {σ : Type} (g : Cfg B) (num : Num B) (ff : B → B) (ids : List (B × Nat)) (i c : Nat) (s : Nat → Nat) (x d : σ)
    (o : Option (Out B)) : applyOut g num ff ids ⟨i, c, s, x⟩ d o =
      (applyOut g num ff ids ⟨i, c, s, ()⟩ () o).map fun k => ⟨k.idx, k.caller, k.saved, d⟩ := by
  match o with
  | none => rfl
  | some (.jump b) => simp [applyOut, Function.comp_def]
  | some .halt => rfl
  | some (.call p t r) =>
    simp only [applyOut]
    cases stateIndex g num ff t with
    | none => rfl
    | some k => simp [Function.comp_def]
  | some (.ret b k) =>
    simp only [applyOut]
    split
    · rfl
    · simp [Function.comp_def]
    · cases hf : (g.returns k).find? (fun p => decide (p.1 = c)) with
      | some p => simp [Function.comp_def]
      | none => rfl

theorem find_findIdx {α : Type} {p : α → Bool} : ∀ {xs : List α} {x : α}, xs.find? p = some x → xs[xs.findIdx p]? = some x
  | [], _, h => by cases h
  | y :: xs, x, h => by
    rw [List.findIdx_cons]
    by_cases hy : p y = true
    · rw [List.find?_cons_of_pos hy] at h
      simp [hy, h]
    · rw [List.find?_cons_of_neg hy] at h
      simp [hy, find_findIdx h]

/-- A cycle of the hardware with its registers is a cycle of the state machine. -/
theorem whole_cycle (g : Cfg B) (num : Num B) (ff : B → B) (ids : List (B × Nat)) (entries : List (Entry B))
    (pre post : Stm V (Ctrl B)) (bindQ bindD outs : List String) (cls : String → Store) (inputs : List String)
    (hidx : ∀ e ∈ entries, e.index ≠ 0) (hsh : ∀ e ∈ entries, e.code.shaped)
    (hs : (wholeDesign D ins entries pre post bindQ bindD outs).Shape)
    (junk inp : String → V) (done : Nat → Bool) (m : String → V) (r : WReg V) (hw hw1 : HW ((String → V) × (Nat → Bool))) (tr : List B)
    (hcov : ∀ x, cls x = .temp → Covered x false ((wholeDesign D ins entries pre post bindQ bindD outs).srcCycle
      ⟨entries.findIdx fun e => e.index = r.idx, overlay inputs inp m⟩).evs)
    (h1 : hw.idx = r.idx) (h2 : hw.caller = r.caller) (h3 : hw.saved = r.saved)
    (h4 : hw.data = ((pre.run (overlay inputs inp m)).env, done)) (h5 : ∀ x, cls x = .flipflop → r.q x = m x)
    (hc : hwCycle g num ff ids entries (D.meaning.sem ins) id hw = some (tr, hw1)) :
    ∃ h r', wCycle g num ff ids entries (wholeDesign D ins entries pre post bindQ bindD outs) cls inputs junk inp done r = some (h, r') ∧
      hw1.idx = r'.idx ∧ hw1.caller = r'.caller ∧ hw1.saved = r'.saved ∧ hw1.data.2 = done ∧
      ((wholeDesign D ins entries pre post bindQ bindD outs).srcCycle
        ⟨entries.findIdx fun e => e.index = r.idx, overlay inputs inp m⟩).env = (post.run hw1.data.1).env ∧
      (∀ x, cls x = .flipflop → r'.q x = (post.run hw1.data.1).env x) ∧
      (∀ x, cls x = .flipflop → h.v x = (post.run hw1.data.1).env x) ∧
      (∀ x, cls x = .temp → wrote x false ((wholeDesign D ins entries pre post bindQ bindD outs).srcCycle
        ⟨entries.findIdx fun e => e.index = r.idx, overlay inputs inp m⟩).evs = true →
        h.v x = (post.run hw1.data.1).env x) ∧
      (∀ b ∈ tr, ∀ p ∈ ins b, ∀ i ∈ D.ins p,
        ∃ e ∈ ((wholeDesign D ins entries pre post bindQ bindD outs).srcCycle
        ⟨entries.findIdx fun e => e.index = r.idx, overlay inputs inp m⟩).evs, e.writes = i.writes) ∧
      (∀ e, e ∈ (pre.run (overlay inputs inp m)).evs ∨ e ∈ (post.run hw1.data.1).evs →
        e ∈ ((wholeDesign D ins entries pre post bindQ bindD outs).srcCycle
        ⟨entries.findIdx fun e => e.index = r.idx, overlay inputs inp m⟩).evs) := by
  generalize ha : wholeDesign D ins entries pre post bindQ bindD outs = a at *
  have ep : a.pre = pre := by rw [← ha]; rfl
  have eq : a.post = post := by rw [← ha]; rfl
  have es : a.states = entries.map fun e => e.code.stm D ins := by rw [← ha]; rfl
  have hov : ∀ x, cls x = .flipflop → overlay inputs inp r.q x = overlay inputs inp m x := by
    intro x hx
    unfold overlay
    split
    · rfl
    · exact h5 x hx
  -- position of the state
  have key : ∃ o, (applyOut g num ff ids ⟨r.idx, r.caller, r.saved, ()⟩ () o).map
        (fun k => (⟨k.idx, k.caller, k.saved, hw1.data⟩ : HW ((String → V) × (Nat → Bool)))) = some hw1 ∧
      (a.stateRun (entries.findIdx fun e => decide (e.index = r.idx)) (pre.run (overlay inputs inp m)).env).out.map (·.resolve done) = o ∧
      hw1.data = ((a.stateRun (entries.findIdx fun e => decide (e.index = r.idx)) (pre.run (overlay inputs inp m)).env).env, done) ∧
      (∀ b ∈ tr, ∀ p ∈ ins b, ∀ i ∈ D.ins p,
        ∃ e ∈ (a.stateRun (entries.findIdx fun e => decide (e.index = r.idx)) (pre.run (overlay inputs inp m)).env).evs, e.writes = i.writes) ∧
      ¬ (r.idx ≠ 0 ∧ ∀ e ∈ entries, e.index ≠ r.idx) := by
    unfold hwCycle at hc
    by_cases hz : hw.idx = 0
    · rw [if_pos hz, Option.some.injEq, Prod.mk.injEq] at hc
      obtain ⟨rfl, rfl⟩ := hc
      have hz' : r.idx = 0 := h1 ▸ hz
      have hpos : entries.findIdx (fun e => decide (e.index = r.idx)) = entries.length := by
        rw [List.findIdx_eq_length]
        intro e he
        simp only [decide_eq_false_iff_not, hz']
        exact hidx e he
      have hrun : a.stateRun (entries.findIdx fun e => decide (e.index = r.idx)) (pre.run (overlay inputs inp m)).env =
          ⟨(pre.run (overlay inputs inp m)).env, none, []⟩ := by
        rw [hpos]
        unfold Design.stateRun
        rw [es, List.getElem?_eq_none (by simp)]
      rw [hrun]
      refine ⟨none, ?_, rfl, ?_, (fun _ h => by cases h), fun h => h.1 hz'⟩
      · simp only [applyOut, Option.map_some, ← h1, ← h2, ← h3, id]
      · exact h4
    · rw [if_neg hz] at hc
      split at hc
      · cases hc
      · rename_i e he
        have hpos : a.states[entries.findIdx fun e => decide (e.index = r.idx)]? = some (e.code.stm D ins) := by
          rw [es, List.getElem?_map, ← h1, find_findIdx he]
          rfl
        have hrun : a.stateRun (entries.findIdx fun e => decide (e.index = r.idx)) (pre.run (overlay inputs inp m)).env =
            (e.code.stm D ins).run (pre.run (overlay inputs inp m)).env := by
          unfold Design.stateRun
          rw [hpos]
        have hmem := List.mem_of_find?_eq_some he
        obtain ⟨t1, e1, v1⟩ := stm_run D ins done e.code (hsh e hmem) (pre.run (overlay inputs inp m)).env [] none
        rw [h4, e1] at hc
        rw [hrun]
        simp only [List.nil_append, Option.map_eq_some_iff, Prod.mk.injEq] at hc
        obtain ⟨k, hk, rfl, rfl⟩ := hc
        have hw_eq : hw = ⟨r.idx, r.caller, r.saved, hw.data⟩ := by rw [← h1, ← h2, ← h3]
        rw [hw_eq, applyOut_data, Option.map_eq_some_iff] at hk
        obtain ⟨k', hk, rfl⟩ := hk
        refine ⟨_, ?_, rfl, rfl, v1, fun h => ?_⟩
        · rw [Option.orElse_eq_orElse, show ((Option.map (fun x => x.resolve done)
            ((e.code.stm D ins).run (pre.run (overlay inputs inp m)).env).out).orElse fun _ => none) =
              Option.map (fun x => x.resolve done) ((e.code.stm D ins).run (pre.run (overlay inputs inp m)).env).out by
              cases ((e.code.stm D ins).run (pre.run (overlay inputs inp m)).env).out <;> rfl] at hk
          rw [hk]
          rfl
        · refine h.2 e hmem ?_
          have := List.find?_some he
          simpa [h1] using this
  obtain ⟨o, k1, k2, k3, k4, k5⟩ := key
  have ag := Design.cycle_agree hs junk ⟨entries.findIdx fun e => decide (e.index = r.idx), overlay inputs inp r.q⟩
    ⟨entries.findIdx fun e => decide (e.index = r.idx), overlay inputs inp m⟩ rfl hov hcov
  have henv : (a.srcCycle ⟨entries.findIdx fun e => decide (e.index = r.idx), overlay inputs inp m⟩).env = (post.run hw1.data.1).env := by
    rw [k3]
    simp only [Design.srcCycle, ep, eq]
  have hnext : ((a.emit cls).cycle cls junk ⟨entries.findIdx fun e => decide (e.index = r.idx), overlay inputs inp r.q⟩).next.map (·.resolve done) =
      o := by
    rw [ag.next, ← k2]
    simp only [Design.srcCycle, ep]
    cases (a.stateRun (entries.findIdx fun e => decide (e.index = r.idx)) (pre.run (overlay inputs inp m)).env).out <;> rfl
  rw [Option.map_eq_some_iff] at k1
  obtain ⟨c, k1, k6⟩ := k1
  refine ⟨(a.emit cls).cycle cls junk ⟨entries.findIdx fun e => decide (e.index = r.idx), overlay inputs inp r.q⟩,
    ⟨c.idx, c.caller, c.saved, ((a.emit cls).cycle cls junk ⟨entries.findIdx fun e => decide (e.index = r.idx), overlay inputs inp r.q⟩).latched cls
      (overlay inputs inp r.q)⟩, ?_, ?_, ?_, ?_, ?_, henv, ?_, ?_, ?_, ?_, ?_⟩
  · unfold wCycle
    rw [if_neg k5]
    simp only [hnext, k1, Option.map_some]
  · rw [← k6]
  · rw [← k6]
  · rw [← k6]
  · rw [k3]
  · intro x hx
    simp only [HSt.latched, hx]
    rw [← henv]
    exact ag.ff x hx
  · intro x hx
    rw [← henv]
    exact ag.ff x hx
  · intro x hx hwr
    rw [← henv]
    exact ag.tmp x hx hwr
  · intro b hb p hp i hi
    obtain ⟨e, he, hw⟩ := k4 b hb p hp i hi
    refine ⟨e, ?_, hw⟩
    simp only [Design.srcCycle, ep]
    exact List.mem_append_left _ (List.mem_append_right _ he)
  · intro e he
    rw [k3] at he
    simp only [Design.srcCycle, ep, eq]
    rcases he with he | he
    · exact List.mem_append_left _ (List.mem_append_left _ he)
    · exact List.mem_append_right _ he

end

end Silice
