import Verif.Spec.Scope
import Mathlib.Data.List.Forall2

set_option autoImplicit false

namespace Silice

theorem assoc_cons {β : Type} (k : String) (v : β) (r : List (String × β)) (x : String) : assoc ((k, v) :: r) x = if k = x then some v else assoc r x := rfl

theorem assoc_mem {β : Type} : ∀ {l : List (String × β)} {x : String} {v : β}, assoc l x = some v → (x, v) ∈ l
  | [], _, _, h => by cases h
  | (k, w) :: r, x, v, h => by
    rw [assoc_cons] at h
    split at h
    · rename_i hk; cases h; rw [hk]; exact List.mem_cons_self
    · exact List.mem_cons_of_mem _ (assoc_mem h)

theorem assoc_append {β : Type} : ∀ (l r : List (String × β)) (x : String), assoc (l ++ r) x = (assoc l x).or (assoc r x)
  | [], _, _ => rfl
  | (k, v) :: l, r, x => by
    rw [List.cons_append, assoc_cons, assoc_cons, assoc_append l r x]
    split <;> simp

/-- Names declared in a block or around it. -/
inductive Sees (blocks : List ScBlock) : Nat → String → Prop
  | here {i : Nat} {b : ScBlock} {n : String} : blocks[i]? = some b → n ∈ b.declared → Sees blocks i n
  | up {i p : Nat} {b : ScBlock} {n : String} : blocks[i]? = some b → b.parent = some p → Sees blocks p n → Sees blocks i n

/-- Translations come from variables; parents come before. -/
structure WFS (st : ScState) : Prop where
  rew : ∀ (i : Nat) (b : ScBlock), st.blocks[i]? = some b → ∀ k n, (k, n) ∈ b.rewrites → ∃ v ∈ st.vars, v.base = k ∧ v.name = n
  io : ∀ (i : Nat) (b : ScBlock), st.blocks[i]? = some b → ∀ io, b.io = some io → ∀ k n, (k, n) ∈ io → ∃ v ∈ st.vars, v.base = k ∧ v.name = n ∧ v.name ≠ v.base
  up : ∀ (i : Nat) (b : ScBlock), st.blocks[i]? = some b → ∀ p, b.parent = some p → p < i

/-- What an identifier is in a block. -/
def Den (st : ScState) (i : Nat) (b : ScBlock) (x : String) : Option Nat → Prop
  | some d => ∃ v ∈ st.vars, v.id = d ∧ v.base = x ∧ translate b x = v.name ∧ Sees st.blocks i v.name
  | none => assoc b.rewrites x = none ∧ ∀ io, b.io = some io → assoc io x = none

/-- A use that is what the source says. -/
def UseRes (st : ScState) (u : Nat × Nat × String) (den : Nat × Option Nat) : Prop := u.2.1 = den.1 ∧ ∃ b : ScBlock, st.blocks[u.1]? = some b ∧ Den st u.1 b u.2.2 den.2

/-- The block in which gathering goes on knows what the source declares. -/
def ScInv (st : ScState) (cur : Nat) (env : ScEnv) (D : List String) : Prop :=
  ∃ b : ScBlock, st.blocks[cur]? = some b ∧ (∀ x, Den st cur b x (assoc env x)) ∧ ∀ io, b.io = some io → ∀ x ∈ D, assoc io x = none

/-- Blocks are kept, or declare more. -/
def Grows (st st' : ScState) : Prop := ∀ (i : Nat) (b : ScBlock), st.blocks[i]? = some b → ∃ b' : ScBlock, st'.blocks[i]? = some b' ∧ b'.parent = b.parent ∧ b.declared ⊆ b'.declared

theorem Sees.mono {st st' : ScState} (h : Grows st st') {i : Nat} {n : String} (hs : Sees st.blocks i n) : Sees st'.blocks i n := by
  induction hs with
  | here h1 h2 =>
    obtain ⟨b', h3, _, h5⟩ := h _ _ h1
    exact .here h3 (h5 h2)
  | up h1 h2 _ ih =>
    obtain ⟨b', h3, h4, _⟩ := h _ _ h1
    exact .up h3 (h4.trans h2) ih

theorem NamesApart.sub {st st' : ScState} (h : NamesApart st') (hs : st.vars ⊆ st'.vars) : NamesApart st := fun v hv hn w hw => h v (hs hv) hn w (hs hw)

/-- Parameters of a subroutine are translated to their variables. -/
theorem translate_io {st : ScState} (hw : WFS st) (hn : NamesApart st) {i : Nat} {b : ScBlock} (hb : st.blocks[i]? = some b) {io : List (String × String)} (hi : b.io = some io)
    {x y : String} (hx : assoc io x = some y) : translate b x = y := by
  obtain ⟨v, hv, h1, h2, h3⟩ := hw.io i b hb io hi x y (assoc_mem hx)
  unfold translate
  simp only [hi, hx]
  cases hr : assoc b.rewrites y with
  | none => rfl
  | some z =>
    obtain ⟨w, hw', h4, _⟩ := hw.rew i b hb y z (assoc_mem hr)
    exact absurd (h4.trans h2.symm) (hn v hv h3 w hw')

theorem translate_plain {b : ScBlock} {x : String} (h : ∀ io, b.io = some io → assoc io x = none) : translate b x = (assoc b.rewrites x).getD x := by
  unfold translate
  cases hi : b.io with
  | none => simp only []; cases assoc b.rewrites x <;> rfl
  | some io => simp only [h io hi]; cases assoc b.rewrites x <;> rfl

/-- The same translations of an identifier in two blocks. -/
theorem translate_same {st st' : ScState} (hw : WFS st) (hn : NamesApart st) (hw' : WFS st') (hn' : NamesApart st') {i i' : Nat} {b b' : ScBlock} (hb : st.blocks[i]? = some b)
    (hb' : st'.blocks[i']? = some b') (hio : b'.io = b.io) {x : String} (hx : assoc b'.rewrites x = assoc b.rewrites x) : translate b' x = translate b x := by
  by_cases h : ∃ io y, b.io = some io ∧ assoc io x = some y
  · obtain ⟨io, y, h1, h2⟩ := h
    rw [translate_io hw hn hb h1 h2, translate_io hw' hn' hb' (hio.trans h1) h2]
  · have h1 : ∀ io, b.io = some io → assoc io x = none := by
      intro io hi
      cases ha : assoc io x with
      | none => rfl
      | some y => exact absurd ⟨io, y, hi, ha⟩ h
    rw [translate_plain h1, translate_plain (fun io hi => h1 io (hio ▸ hi)), hx]

theorem Den.move {st st' : ScState} (hg : Grows st st') (hv : st.vars ⊆ st'.vars) (hw : WFS st) (hn : NamesApart st) (hw' : WFS st') (hn' : NamesApart st') {i : Nat} {b b' : ScBlock}
    (hb : st.blocks[i]? = some b) (hb' : st'.blocks[i]? = some b') (hio : b'.io = b.io) {x : String} (hx : assoc b'.rewrites x = assoc b.rewrites x) {den : Option Nat}
    (h : Den st i b x den) : Den st' i b' x den := by
  cases den with
  | none => exact ⟨hx.trans h.1, fun io hi => h.2 io (hio ▸ hi)⟩
  | some d =>
    obtain ⟨v, h1, h2, h3, h4, h5⟩ := h
    exact ⟨v, hv h1, h2, h3, by rw [translate_same hw hn hw' hn' hb hb' hio hx]; exact h4, h5.mono hg⟩

/-- A block seen from a block inside it. -/
theorem Den.child {st : ScState} (hw : WFS st) (hn : NamesApart st) {i j : Nat} {b c : ScBlock} (hb : st.blocks[i]? = some b) (hc : st.blocks[j]? = some c) (hp : c.parent = some i)
    (hio : c.io = b.io) (hr : c.rewrites = b.rewrites) {x : String} {den : Option Nat} (h : Den st i b x den) : Den st j c x den := by
  cases den with
  | none => exact ⟨by rw [hr]; exact h.1, fun io hi => h.2 io (hio ▸ hi)⟩
  | some d =>
    obtain ⟨v, h1, h2, h3, h4, h5⟩ := h
    exact ⟨v, h1, h2, h3, by rw [translate_same hw hn hw hn hb hc hio (by rw [hr])]; exact h4, .up hc hp h5⟩

/-- What gathering does to the blocks that were there: nothing. -/
structure StepOut (st st' : ScState) (us : List (Nat × Nat × String)) (den : List (Nat × Option Nat)) : Prop where
  vars : st.vars ⊆ st'.vars
  keeps : ∀ (i : Nat) (b : ScBlock), st.blocks[i]? = some b → st'.blocks[i]? = some b
  uses : st'.uses = st.uses ++ us
  ok : List.Forall₂ (UseRes st') us den
  fresh : ∀ u ∈ us, st.blocks.length ≤ u.1 ∧ u.1 < st'.blocks.length
  wf : WFS st'

theorem keeps_grows {st st' : ScState} (h : ∀ (i : Nat) (b : ScBlock), st.blocks[i]? = some b → st'.blocks[i]? = some b) : Grows st st' := fun i b hb => ⟨b, h i b hb, rfl, List.Subset.refl _⟩

theorem keeps_length {st st' : ScState} (h : ∀ (i : Nat) (b : ScBlock), st.blocks[i]? = some b → st'.blocks[i]? = some b) : st.blocks.length ≤ st'.blocks.length := by
  by_contra hc
  have hlt : st'.blocks.length < st.blocks.length := by omega
  have := h _ _ (List.getElem?_eq_getElem hlt)
  rw [List.getElem?_eq_none (Nat.le_refl _)] at this
  cases this

theorem UseRes.keep {st st' : ScState} (hw : WFS st) (hw' : WFS st') (hn' : NamesApart st') (hv : st.vars ⊆ st'.vars) (hg : Grows st st') {u : Nat × Nat × String} {d : Nat × Option Nat}
    (hk : ∀ b : ScBlock, st.blocks[u.1]? = some b → st'.blocks[u.1]? = some b) (h : UseRes st u d) : UseRes st' u d := by
  obtain ⟨h1, b, hb, h2⟩ := h
  exact ⟨h1, b, hk b hb, h2.move hg hv hw (hn'.sub hv) hw' hn' hb (hk b hb) rfl rfl⟩

theorem StepOut.refl {st : ScState} (hw : WFS st) : StepOut st st [] [] :=
  ⟨List.Subset.refl _, fun _ _ h => h, by simp, .nil, fun _ h => (by cases h), hw⟩

theorem StepOut.trans {st st1 st2 : ScState} {us1 us2 : List (Nat × Nat × String)} {d1 d2 : List (Nat × Option Nat)} (h1 : StepOut st st1 us1 d1) (h2 : StepOut st1 st2 us2 d2)
    (hn : NamesApart st2) : StepOut st st2 (us1 ++ us2) (d1 ++ d2) := by
  refine ⟨fun _ h => h2.vars (h1.vars h), fun i b h => h2.keeps i b (h1.keeps i b h), by rw [h2.uses, h1.uses, List.append_assoc], ?_, ?_, h2.wf⟩
  · refine List.rel_append ?_ h2.ok
    exact h1.ok.imp fun u d h => h.keep h1.wf h2.wf hn h2.vars (keeps_grows h2.keeps) (h2.keeps _)
  · have l1 := keeps_length h1.keeps
    have l2 := keeps_length h2.keeps
    intro u hu
    rcases List.mem_append.mp hu with h | h
    · have := h1.fresh u h; omega
    · have := h2.fresh u h; omega

theorem ScInv.keep {st st' : ScState} {us : List (Nat × Nat × String)} {den : List (Nat × Option Nat)} (h : StepOut st st' us den) (hw : WFS st) (hn : NamesApart st') {cur : Nat}
    {env : ScEnv} {D : List String} (hi : ScInv st cur env D) : ScInv st' cur env D := by
  obtain ⟨b, hb, h1, h2⟩ := hi
  refine ⟨b, h.keeps _ _ hb, fun x => ?_, h2⟩
  exact (h1 x).move (keeps_grows h.keeps) h.vars hw (hn.sub h.vars) h.wf hn hb (h.keeps _ _ hb) rfl rfl

theorem ScInv.mono {st : ScState} {cur : Nat} {env : ScEnv} {D D' : List String} (hi : ScInv st cur env D) (hs : D' ⊆ D) : ScInv st cur env D' := by
  obtain ⟨b, hb, h1, h2⟩ := hi
  exact ⟨b, hb, h1, fun io h x hx => h2 io h x (hs hx)⟩

/-- A new block. -/
theorem addBlock_spec {st st' : ScState} {name : String} {parent cur : Nat} (h : st.addBlock name parent = .ok (st', cur)) (hw : WFS st) :
    StepOut st st' [] [] ∧ cur = st.blocks.length ∧ cur < st'.blocks.length ∧ st'.last = cur ∧
    ∃ p c : ScBlock, st.blocks[parent]? = some p ∧ st'.blocks[cur]? = some c ∧ c.parent = some parent ∧ c.io = p.io ∧ c.rewrites = p.rewrites := by
  unfold ScState.addBlock at h
  split at h
  · cases h
  · rename_i p hp
    simp only [Except.ok.injEq, Prod.mk.injEq] at h
    obtain ⟨rfl, rfl⟩ := h
    have hplt : parent < st.blocks.length := by
      by_contra hc
      rw [List.getElem?_eq_none (by omega)] at hp; cases hp
    have hkeep : ∀ (i : Nat) (b : ScBlock), st.blocks[i]? = some b → (st.blocks ++ [(⟨name, some parent, p.io, p.rewrites, []⟩ : ScBlock)])[i]? = some b := by
      intro i b hb
      have : i < st.blocks.length := by
        by_contra hc
        rw [List.getElem?_eq_none (by omega)] at hb; cases hb
      rw [List.getElem?_append_left this]; exact hb
    have hsplit : ∀ (i : Nat) (b : ScBlock), (st.blocks ++ [(⟨name, some parent, p.io, p.rewrites, []⟩ : ScBlock)])[i]? = some b → st.blocks[i]? = some b ∨ (i = st.blocks.length ∧ b = ⟨name, some parent, p.io, p.rewrites, []⟩) := by
      intro i b hb
      by_cases hlt : i < st.blocks.length
      · left; rw [List.getElem?_append_left hlt] at hb; exact hb
      · right
        rw [List.getElem?_append_right (by omega)] at hb
        have : i - st.blocks.length = 0 := by
          by_contra hc
          rw [List.getElem?_eq_none (by simp; omega)] at hb; cases hb
        rw [this] at hb
        simp only [List.getElem?_cons_zero, Option.some.injEq] at hb
        exact ⟨by omega, hb.symm⟩
    refine ⟨⟨List.Subset.refl _, hkeep, by simp, .nil, fun _ h => (by cases h), ⟨?_, ?_, ?_⟩⟩, rfl, by simp, rfl, p, ⟨name, some parent, p.io, p.rewrites, []⟩, hp, by simp, rfl, rfl, rfl⟩
    · intro i b hb k n hk
      rcases hsplit i b hb with h | ⟨_, rfl⟩
      · exact hw.rew i b h k n hk
      · exact hw.rew parent p hp k n hk
    · intro i b hb io hio k n hk
      rcases hsplit i b hb with h | ⟨_, rfl⟩
      · exact hw.io i b h io hio k n hk
      · exact hw.io parent p hp io hio k n hk
    · intro i b hb q hq
      rcases hsplit i b hb with h | ⟨rfl, rfl⟩
      · exact hw.up i b h q hq
      · cases hq; exact hplt

/-- Facts about the state that do not depend on counters. -/
theorem WFS.congr {st st' : ScState} (hb : st'.blocks = st.blocks) (hv : st'.vars = st.vars) (h : WFS st) : WFS st' :=
  ⟨by rw [hb, hv]; exact h.rew, by rw [hb, hv]; exact h.io, by rw [hb]; exact h.up⟩

theorem ScInv.congr {st st' : ScState} (hb : st'.blocks = st.blocks) (hv : st'.vars = st.vars) {cur : Nat} {env : ScEnv} {D : List String} (h : ScInv st cur env D) : ScInv st' cur env D := by
  obtain ⟨b, h1, h2, h3⟩ := h
  refine ⟨b, by rw [hb]; exact h1, ?_, h3⟩
  intro x
  have := h2 x
  revert this
  cases assoc env x with
  | none => exact id
  | some d =>
    rintro ⟨v, g1, g2, g3, g4, g5⟩
    exact ⟨v, by rw [hv]; exact g1, g2, g3, g4, by rw [hb]; exact g5⟩

theorem NamesApart.congr {st st' : ScState} (hv : st'.vars = st.vars) (h : NamesApart st') : NamesApart st := fun v h1 h2 w h3 => h v (by rw [hv]; exact h1) h2 w (by rw [hv]; exact h3)

theorem StepOut.left {st st0 st' : ScState} {us : List (Nat × Nat × String)} {den : List (Nat × Option Nat)} (h : StepOut st0 st' us den) (hb : st0.blocks = st.blocks)
    (hv : st0.vars = st.vars) (hu : st0.uses = st.uses) : StepOut st st' us den :=
  ⟨by rw [← hv]; exact h.vars, by rw [← hb]; exact h.keeps, by rw [← hu]; exact h.uses, h.ok, by rw [← hb]; exact h.fresh, h.wf⟩

theorem UseRes.congr {st st' : ScState} (hb : st'.blocks = st.blocks) (hv : st'.vars = st.vars) {u : Nat × Nat × String} {d : Nat × Option Nat} (h : UseRes st u d) : UseRes st' u d := by
  obtain ⟨h1, b, h2, h3⟩ := h
  refine ⟨h1, b, by rw [hb]; exact h2, ?_⟩
  revert h3
  cases d.2 with
  | none => exact id
  | some k =>
    rintro ⟨v, g1, g2, g3, g4, g5⟩
    exact ⟨v, by rw [hv]; exact g1, g2, g3, g4, by rw [hb]; exact g5⟩

theorem StepOut.right {st st0 st' : ScState} {us : List (Nat × Nat × String)} {den : List (Nat × Option Nat)} (h : StepOut st st0 us den) (hb : st'.blocks = st0.blocks)
    (hv : st'.vars = st0.vars) (hu : st'.uses = st0.uses) : StepOut st st' us den :=
  ⟨by rw [hv]; exact h.vars, by rw [hb]; exact h.keeps, by rw [hu]; exact h.uses, h.ok.imp fun _ _ => UseRes.congr hb hv, by rw [hb]; exact h.fresh, h.wf.congr hb hv⟩

theorem newBlock_spec {st st' : ScState} {pre post : String} {parent cur : Nat} (h : st.newBlock pre post parent = .ok (st', cur)) (hw : WFS st) :
    StepOut st st' [] [] ∧ cur = st.blocks.length ∧ cur < st'.blocks.length ∧ st'.last = cur ∧
    ∃ p c : ScBlock, st.blocks[parent]? = some p ∧ st'.blocks[cur]? = some c ∧ c.parent = some parent ∧ c.io = p.io ∧ c.rewrites = p.rewrites := by
  unfold ScState.newBlock at h
  obtain ⟨h1, h2⟩ := addBlock_spec h (WFS.congr (st := st) (st' := st.genName.2) rfl rfl hw)
  exact ⟨StepOut.left (st := st) (st0 := st.genName.2) h1 rfl rfl rfl, h2⟩

/-- A new block knows what its parent knows. -/
theorem inv_child {st st' : ScState} (h : StepOut st st' [] []) (hw : WFS st) (hn : NamesApart st') {parent cur : Nat} {p c : ScBlock} (hp : st.blocks[parent]? = some p)
    (hc : st'.blocks[cur]? = some c) (hcp : c.parent = some parent) (hio : c.io = p.io) (hr : c.rewrites = p.rewrites) {env : ScEnv} {D : List String} (hi : ScInv st parent env D) :
    ScInv st' cur env D := by
  obtain ⟨b, hb, h1, h2⟩ := hi.keep h hw hn
  have hp' := h.keeps _ _ hp
  rw [hb] at hp'
  simp only [Option.some.injEq] at hp'
  subst hp'
  exact ⟨c, hc, fun x => (h1 x).child h.wf hn hb hc hcp hio hr, fun io hi x hx => h2 io (hio ▸ hi) x hx⟩

/-- What gathering a sequence does: only the block it starts in may change. -/
structure ListOut (st st' : ScState) (cur cur' : Nat) (R : List String) (us : List (Nat × Nat × String)) (den : List (Nat × Option Nat)) (env' : ScEnv) (D : List String) : Prop where
  vars : st.vars ⊆ st'.vars
  others : ∀ (i : Nat) (b : ScBlock), i ≠ cur → st.blocks[i]? = some b → st'.blocks[i]? = some b
  own : ∀ b : ScBlock, st.blocks[cur]? = some b → ∃ b' : ScBlock, st'.blocks[cur]? = some b' ∧ b'.parent = b.parent ∧ b'.io = b.io ∧ b.declared ⊆ b'.declared ∧
    ∀ x, x ∉ R → assoc b'.rewrites x = assoc b.rewrites x
  uses : st'.uses = st.uses ++ us
  ok : List.Forall₂ (UseRes st') us den
  place : ∀ u ∈ us, (u.1 = cur ∨ st.blocks.length ≤ u.1) ∧ u.1 < st'.blocks.length
  wf : WFS st'
  inv : ScInv st' cur' env' D

theorem ListOut.grows {st st' : ScState} {cur cur' : Nat} {R : List String} {us : List (Nat × Nat × String)} {den : List (Nat × Option Nat)} {env' : ScEnv} {D : List String}
    (h : ListOut st st' cur cur' R us den env' D) : Grows st st' := by
  intro i b hb
  by_cases hi : i = cur
  · subst hi
    obtain ⟨b', h1, h2, _, h4, _⟩ := h.own b hb
    exact ⟨b', h1, h2, h4⟩
  · exact ⟨b, h.others i b hi hb, rfl, List.Subset.refl _⟩

theorem Grows.length {st st' : ScState} (h : Grows st st') : st.blocks.length ≤ st'.blocks.length := by
  by_contra hc
  have hlt : st'.blocks.length < st.blocks.length := by omega
  obtain ⟨b', h1, _⟩ := h _ _ (List.getElem?_eq_getElem hlt)
  rw [List.getElem?_eq_none (Nat.le_refl _)] at h1
  cases h1

/-- A sequence in a block that was just made, seen from before. -/
theorem ListOut.step {st0 st st' : ScState} {cur cur' : Nat} {R : List String} {us : List (Nat × Nat × String)} {den : List (Nat × Option Nat)} {env' : ScEnv} {D : List String}
    (h : ListOut st st' cur cur' R us den env' D) (h0 : StepOut st0 st [] []) (hc : st0.blocks.length ≤ cur) : StepOut st0 st' us den := by
  have l0 := keeps_length h0.keeps
  refine ⟨fun _ hv => h.vars (h0.vars hv), ?_, by rw [h.uses, h0.uses]; simp, h.ok, ?_, h.wf⟩
  · intro i b hb
    have : i < st0.blocks.length := by
      by_contra hc
      rw [List.getElem?_eq_none (by omega)] at hb; cases hb
    exact h.others i b (by omega) (h0.keeps i b hb)
  · intro u hu
    have := h.place u hu
    omega

/-- The end of a `StepOut` followed by a sequence that goes on in the new block. -/
theorem StepOut.list {st st1 st' : ScState} {us1 us2 : List (Nat × Nat × String)} {d1 d2 : List (Nat × Option Nat)} {cur cur1 cur' : Nat} {R : List String} {env' : ScEnv} {D : List String}
    (h1 : StepOut st st1 us1 d1) (hc : st.blocks.length ≤ cur1) (hcur : cur < st.blocks.length) (hne : ∀ u ∈ us1, u.1 ≠ cur1) (h2 : ListOut st1 st' cur1 cur' R us2 d2 env' D)
    (hn : NamesApart st') : ListOut st st' cur cur' [] (us1 ++ us2) (d1 ++ d2) env' D := by
  have l1 := keeps_length h1.keeps
  have l2 := h2.grows.length
  have hlt : ∀ (i : Nat) (b : ScBlock), st.blocks[i]? = some b → i < st.blocks.length := by
    intro i b hb
    by_contra hc
    rw [List.getElem?_eq_none (by omega)] at hb; cases hb
  refine ⟨fun _ hv => h2.vars (h1.vars hv), ?_, ?_, by rw [h2.uses, h1.uses, List.append_assoc], ?_, ?_, h2.wf, h2.inv⟩
  · intro i b _ hb
    exact h2.others i b (by have := hlt i b hb; omega) (h1.keeps i b hb)
  · intro b hb
    exact ⟨b, h2.others cur b (by omega) (h1.keeps _ _ hb), rfl, rfl, List.Subset.refl _, fun _ _ => rfl⟩
  · refine List.rel_append ?_ h2.ok
    have : List.Forall₂ (fun u d => UseRes st1 u d ∧ u ∈ us1) us1 d1 := by
      clear h2 hne
      have key : ∀ {us : List (Nat × Nat × String)} {ds : List (Nat × Option Nat)}, List.Forall₂ (UseRes st1) us ds → (∀ u ∈ us, u ∈ us1) →
          List.Forall₂ (fun u d => UseRes st1 u d ∧ u ∈ us1) us ds := by
        intro us ds h
        induction h with
        | nil => intro _; exact .nil
        | cons hab _ ih => intro hm; exact .cons ⟨hab, hm _ List.mem_cons_self⟩ (ih fun u hu => hm u (List.mem_cons_of_mem _ hu))
      exact key h1.ok fun _ h => h
    exact this.imp fun u d ⟨h, hu⟩ => h.keep h1.wf h2.wf hn h2.vars h2.grows fun b hb => h2.others u.1 b (hne u hu) hb
  · intro u hu
    rcases List.mem_append.mp hu with h | h
    · have := h1.fresh u h; omega
    · have := h2.place u h; omega

theorem Forall₂.withMem {α β : Type} {P : α → β → Prop} {l : List α} {r : List β} (h : List.Forall₂ P l r) : List.Forall₂ (fun a b => P a b ∧ a ∈ l) l r := by
  have key : ∀ {l' : List α} {r' : List β}, List.Forall₂ P l' r' → (∀ u ∈ l', u ∈ l) → List.Forall₂ (fun a b => P a b ∧ a ∈ l) l' r' := by
    intro l' r' h
    induction h with
    | nil => intro _; exact .nil
    | cons hab _ ih => intro hm; exact .cons ⟨hab, hm _ List.mem_cons_self⟩ (ih fun u hu => hm u (List.mem_cons_of_mem _ hu))
  exact key h fun _ h => h

theorem ListOut.weaken {st st' : ScState} {cur cur' : Nat} {R R' : List String} {us : List (Nat × Nat × String)} {den : List (Nat × Option Nat)} {env' : ScEnv} {D : List String}
    (h : ListOut st st' cur cur' R us den env' D) (hs : R ⊆ R') : ListOut st st' cur cur' R' us den env' D := by
  refine ⟨h.vars, h.others, ?_, h.uses, h.ok, h.place, h.wf, h.inv⟩
  intro b hb
  obtain ⟨b', h1, h2, h3, h4, h5⟩ := h.own b hb
  exact ⟨b', h1, h2, h3, h4, fun x hx => h5 x fun hm => hx (hs hm)⟩

/-- Two pieces in the same block. -/
theorem ListOut.trans {st st1 st' : ScState} {cur cur' : Nat} {R1 R2 : List String} {us1 us2 : List (Nat × Nat × String)} {d1 d2 : List (Nat × Option Nat)} {env1 env2 : ScEnv}
    {D : List String} (h1 : ListOut st st1 cur cur R1 us1 d1 env1 D) (h2 : ListOut st1 st' cur cur' R2 us2 d2 env2 D) (hn : NamesApart st')
    (hu : ∀ u ∈ us1, u.1 = cur → u.2.2 ∉ R2) : ListOut st st' cur cur' (R1 ++ R2) (us1 ++ us2) (d1 ++ d2) env2 D := by
  have l1 := h1.grows.length
  have l2 := h2.grows.length
  refine ⟨fun _ hv => h2.vars (h1.vars hv), fun i b hi hb => h2.others i b hi (h1.others i b hi hb), ?_, by rw [h2.uses, h1.uses, List.append_assoc], ?_, ?_, h2.wf, h2.inv⟩
  · intro b hb
    obtain ⟨b1, g1, g2, g3, g4, g5⟩ := h1.own b hb
    obtain ⟨b2, k1, k2, k3, k4, k5⟩ := h2.own b1 g1
    refine ⟨b2, k1, k2.trans g2, k3.trans g3, fun _ hx => k4 (g4 hx), fun x hx => ?_⟩
    rw [k5 x fun h => hx (List.mem_append_right _ h), g5 x fun h => hx (List.mem_append_left _ h)]
  · refine List.rel_append ?_ h2.ok
    refine (Forall₂.withMem h1.ok).imp fun u d ⟨h, hm⟩ => ?_
    by_cases hc : u.1 = cur
    · obtain ⟨g1, b, hb, g2⟩ := h
      rw [hc] at hb g2
      obtain ⟨b', k1, k2, k3, k4, k5⟩ := h2.own b hb
      refine ⟨g1, b', by rw [hc]; exact k1, ?_⟩
      rw [hc]
      exact g2.move h2.grows h2.vars h1.wf (hn.sub h2.vars) h2.wf hn hb k1 k3 (k5 _ (hu u hm hc))
    · exact h.keep h1.wf h2.wf hn h2.vars h2.grows fun b hb => h2.others u.1 b hc hb
  · intro u hu
    rcases List.mem_append.mp hu with h | h
    · have := h1.place u h; omega
    · have := h2.place u h; omega

/-! Variables are only added. -/

theorem addBlock_vars {st st' : ScState} {name : String} {parent cur : Nat} (h : st.addBlock name parent = .ok (st', cur)) : st'.vars = st.vars := by
  unfold ScState.addBlock at h
  split at h
  · cases h
  · simp only [Except.ok.injEq, Prod.mk.injEq] at h
    rw [← h.1]

theorem newBlock_vars {st st' : ScState} {pre post : String} {parent cur : Nat} (h : st.newBlock pre post parent = .ok (st', cur)) : st'.vars = st.vars := by
  unfold ScState.newBlock at h
  rw [addBlock_vars h]; rfl

/-- Something that declarations and parameters preserve. -/
structure VarsKept (P : List ScVar → Prop) : Prop where
  decl : ∀ vs d x n, P vs → n ∉ vs.map ScVar.name → P (⟨d, x, n⟩ :: vs)
  param : ∀ vs f p, P vs → P (⟨p.1, p.2.2, paramVar f p⟩ :: vs)

theorem inBlock_ind {P : List ScVar → Prop} {st st' : ScState} {c cur : Nat} {k : ScState → Nat → Except ScErr (ScState × Nat)}
    (hk : ∀ s c s' c', k s c = .ok (s', c') → P s.vars → P s'.vars) (h : st.inBlock c k = .ok (st', cur)) (hp : P st.vars) : P st'.vars := by
  unfold ScState.inBlock at h
  split at h
  · cases h
  · rename_i st1 nb h1
    split at h
    · cases h
    · rename_i st2 c2 h2
      rw [newBlock_vars h]
      have hp1 : P st1.vars := by rw [newBlock_vars h1]; exact hp
      exact hk _ _ _ _ h2 hp1

theorem addParams_ind {P : List ScVar → Prop} (hP : VarsKept P) : ∀ (ps : List (Nat × Bool × String)) {st st' : ScState} {cur : Nat} {f : String} {io : List (String × String)},
    st.addParams cur f ps = .ok (st', io) → P st.vars → P st'.vars
  | [], st, st', cur, f, io, h, hp => by
    simp only [ScState.addParams, Except.ok.injEq, Prod.mk.injEq] at h
    rw [← h.1]; exact hp
  | p :: ps, st, st', cur, f, io, h, hp => by
    rw [ScState.addParams] at h
    split at h
    · cases h
    · split at h
      · cases h
      · split at h
        · cases h
        · rename_i st1 io1 h1
          simp only [Except.ok.injEq, Prod.mk.injEq] at h
          rw [← h.1]
          exact addParams_ind hP ps h1 (hP.param _ f p hp)

theorem addVar_ind {P : List ScVar → Prop} (hP : VarsKept P) {st st' : ScState} {cur d : Nat} {x : String} (h : st.addVar cur d x = .ok st') (hp : P st.vars) : P st'.vars := by
  simp only [ScState.addVar] at h
  split at h
  · cases h
  · split at h
    · cases h
    · rename_i hfree
      simp only [Except.ok.injEq] at h
      rw [← h]
      exact hP.decl _ _ _ _ hp hfree

mutual
theorem gStmt_ind {P : List ScVar → Prop} (hP : VarsKept P) : ∀ (s : ScStmt) {st st' : ScState} {cur cur' : Nat}, gStmt st cur s = .ok (st', cur') → P st.vars → P st'.vars
  | .decl d x, st, st', cur, cur', h, hp => by
    simp only [gStmt] at h
    split at h
    · cases h
    · rename_i st1 h1
      simp only [Except.ok.injEq, Prod.mk.injEq] at h
      rw [← h.1]; exact addVar_ind hP h1 hp
  | .use u x, st, st', cur, cur', h, hp => by
    simp only [gStmt, Except.ok.injEq, Prod.mk.injEq] at h
    rw [← h.1]; exact hp
  | .step none, st, st', cur, cur', h, hp => by
    simp only [gStmt] at h
    rw [newBlock_vars h]; exact hp
  | .step (some l), st, st', cur, cur', h, hp => by
    simp only [gStmt] at h
    rw [addBlock_vars h]; exact hp
  | .cut, st, st', cur, cur', h, hp => by
    simp only [gStmt] at h
    rw [newBlock_vars h]; exact hp
  | .block b, st, st', cur, cur', h, hp => by
    simp only [gStmt] at h
    exact inBlock_ind (fun _ _ _ _ h => gStmts_ind hP b h) h hp
  | .ifElse t e, st, st', cur, cur', h, hp => by
    simp only [gStmt] at h
    split at h
    · cases h
    · rename_i st1 ib h1
      split at h
      · cases h
      · rename_i st2 eb h2
        split at h
        · cases h
        · rename_i st3 c3 h3
          split at h
          · cases h
          · rename_i st4 c4 h4
            rw [newBlock_vars h]
            refine inBlock_ind (fun _ _ _ _ h => gStmts_ind hP e h) h4 (inBlock_ind (fun _ _ _ _ h => gStmts_ind hP t h) h3 ?_)
            rw [newBlock_vars h2, newBlock_vars h1]; exact hp
  | .ifThen t, st, st', cur, cur', h, hp => by
    simp only [gStmt] at h
    split at h
    · cases h
    · rename_i st1 ib h1
      split at h
      · cases h
      · rename_i st2 eb h2
        split at h
        · cases h
        · rename_i st3 c3 h3
          rw [newBlock_vars h]
          refine inBlock_ind (fun _ _ _ _ h => gStmts_ind hP t h) h3 ?_
          rw [newBlock_vars h2, newBlock_vars h1]; exact hp
  | .switch cs, st, st', cur, cur', h, hp => by
    simp only [gStmt] at h
    split at h
    · cases h
    · rename_i st1 after h1
      split at h
      · cases h
      · rename_i st2 h2
        simp only [Except.ok.injEq, Prod.mk.injEq] at h
        rw [← h.1]
        refine gCases_ind hP cs h2 ?_
        rw [newBlock_vars h1]; exact hp
  | .loop b, st, st', cur, cur', h, hp => by
    simp only [gStmt] at h
    split at h
    · cases h
    · rename_i st1 c1 h1
      split at h
      · cases h
      · rename_i st2 iter h2
        split at h
        · cases h
        · rename_i st3 after h3
          split at h
          · cases h
          · rename_i st4 c4 h4
            simp only [Except.ok.injEq, Prod.mk.injEq] at h
            rw [← h.1]
            have hp3 : P st3.vars := by rw [newBlock_vars h3, newBlock_vars h2, newBlock_vars h1]; exact hp
            have := inBlock_ind (fun _ _ _ _ h => gStmts_ind hP b h) h4 hp3
            exact this
  | .pipe stages, st, st', cur, cur', h, hp => by
    simp only [gStmt] at h
    split at h
    · cases h
    · rename_i st1 h1
      rw [newBlock_vars h]
      have := gStages_ind hP stages h1 hp
      exact this
  | .sub f ps b, st, st', cur, cur', h, hp => by
    simp only [gStmt] at h
    split at h
    · cases h
    · split at h
      · cases h
      · split at h
        · cases h
        · split at h
          · cases h
          · rename_i st1 io h1
            split at h
            · cases h
            · split at h
              · cases h
              · rename_i st2 c2 h2
                simp only [Except.ok.injEq, Prod.mk.injEq] at h
                rw [← h.1]
                have hp1 := addParams_ind hP ps h1 hp
                have := gStmts_ind hP b h2 hp1
                exact this

theorem gStmts_ind {P : List ScVar → Prop} (hP : VarsKept P) : ∀ (s : ScStmts) {st st' : ScState} {cur cur' : Nat}, gStmts st cur s = .ok (st', cur') → P st.vars → P st'.vars
  | .nil, st, st', cur, cur', h, hp => by
    simp only [gStmts, Except.ok.injEq, Prod.mk.injEq] at h
    rw [← h.1]; exact hp
  | .cons s r, st, st', cur, cur', h, hp => by
    simp only [gStmts] at h
    split at h
    · cases h
    · rename_i st1 cur1 h1
      exact gStmts_ind hP r h (gStmt_ind hP s h1 hp)

theorem gCases_ind {P : List ScVar → Prop} (hP : VarsKept P) : ∀ (cs : ScCases) {st st' : ScState} {cur : Nat}, gCases st cur cs = .ok st' → P st.vars → P st'.vars
  | .nil, st, st', cur, h, hp => by
    simp only [gCases, Except.ok.injEq] at h
    rw [← h]; exact hp
  | .cons b r, st, st', cur, h, hp => by
    simp only [gCases] at h
    split at h
    · cases h
    · rename_i st1 cb h1
      split at h
      · cases h
      · rename_i st2 c2 h2
        refine gCases_ind hP r h (inBlock_ind (fun _ _ _ _ h => gStmts_ind hP b h) h2 ?_)
        rw [newBlock_vars h1]; exact hp

theorem gStages_ind {P : List ScVar → Prop} (hP : VarsKept P) : ∀ (cs : ScCases) {st st' : ScState} {cur : Nat}, gStages st cur cs = .ok st' → P st.vars → P st'.vars
  | .nil, st, st', cur, h, hp => by
    simp only [gStages, Except.ok.injEq] at h
    rw [← h]; exact hp
  | .cons b r, st, st', cur, h, hp => by
    simp only [gStages] at h
    split at h
    · cases h
    · rename_i st1 cb h1
      split at h
      · cases h
      · rename_i st2 c2 h2
        refine gStages_ind hP r h (gStmts_ind hP b h2 ?_)
        rw [newBlock_vars h1]; exact hp
end

theorem varsKept_subset (vs : List ScVar) : VarsKept (vs ⊆ ·) :=
  ⟨fun _ _ _ _ h _ => fun _ hv => List.mem_cons_of_mem _ (h hv), fun _ _ _ h => fun _ hv => List.mem_cons_of_mem _ (h hv)⟩

theorem inBlock_vars {st st' : ScState} {c cur : Nat} {k : ScState → Nat → Except ScErr (ScState × Nat)} (hk : ∀ s c s' c', k s c = .ok (s', c') → s.vars ⊆ s'.vars)
    (h : st.inBlock c k = .ok (st', cur)) : st.vars ⊆ st'.vars :=
  inBlock_ind (P := (st.vars ⊆ ·)) (fun _ _ _ _ h hs => fun _ hv => hk _ _ _ _ h (hs hv)) h (List.Subset.refl _)

theorem addParams_vars (ps : List (Nat × Bool × String)) {st st' : ScState} {cur : Nat} {f : String} {io : List (String × String)} (h : st.addParams cur f ps = .ok (st', io)) : st.vars ⊆ st'.vars :=
  addParams_ind (varsKept_subset st.vars) ps h (List.Subset.refl _)

theorem gStmt_vars (s : ScStmt) {st st' : ScState} {cur cur' : Nat} (h : gStmt st cur s = .ok (st', cur')) : st.vars ⊆ st'.vars := gStmt_ind (varsKept_subset st.vars) s h (List.Subset.refl _)

theorem gStmts_vars (s : ScStmts) {st st' : ScState} {cur cur' : Nat} (h : gStmts st cur s = .ok (st', cur')) : st.vars ⊆ st'.vars := gStmts_ind (varsKept_subset st.vars) s h (List.Subset.refl _)

theorem gCases_vars (cs : ScCases) {st st' : ScState} {cur : Nat} (h : gCases st cur cs = .ok st') : st.vars ⊆ st'.vars := gCases_ind (varsKept_subset st.vars) cs h (List.Subset.refl _)

theorem gStages_vars (cs : ScCases) {st st' : ScState} {cur : Nat} (h : gStages st cur cs = .ok st') : st.vars ⊆ st'.vars := gStages_ind (varsKept_subset st.vars) cs h (List.Subset.refl _)

/-! What gathering does. -/

theorem inBlock_out {st st' : ScState} {c cur' : Nat} {k : ScState → Nat → Except ScErr (ScState × Nat)} {env env2 : ScEnv} {D R : List String} {den : List (Nat × Option Nat)}
    (hk : ∀ s c s' c', k s c = .ok (s', c') → WFS s → NamesApart s' → ScInv s c env D → ∃ us, ListOut s s' c c' R us den env2 D)
    (hv : ∀ s c s' c', k s c = .ok (s', c') → s.vars ⊆ s'.vars) (h : st.inBlock c k = .ok (st', cur')) (hw : WFS st) (hn : NamesApart st') (hi : ScInv st c env D) :
    ∃ us, StepOut st st' us den ∧ st.blocks.length ≤ cur' ∧ (∀ u ∈ us, u.1 ≠ cur') ∧ ScInv st' cur' env D ∧ st'.last = cur' := by
  have hh := h
  unfold ScState.inBlock at h
  split at h
  · cases h
  · rename_i st1 nb h1
    split at h
    · cases h
    · rename_i st2 c2 h2
      obtain ⟨a1, a2, a3, a4, p, q, a5, a6, a7, a8, a9⟩ := newBlock_spec h1 hw
      have n2 : NamesApart st2 := hn.congr (newBlock_vars h)
      have w1 : WFS { st1 with pre := false } := WFS.congr (st := st1) rfl rfl a1.wf
      have nst : NamesApart st := hn.sub (inBlock_vars hv hh)
      have n1 : NamesApart st1 := (NamesApart.congr (newBlock_vars h1).symm nst)
      have i1 := inv_child a1 hw n1 a5 a6 a7 a8 a9 hi
      obtain ⟨us, hl⟩ := hk _ _ _ _ h2 w1 n2 (i1.congr rfl rfl)
      have s2 : StepOut st st2 us den := hl.step (StepOut.right (st0 := st1) (st' := { st1 with pre := false }) a1 rfl rfl rfl) (by omega)
      obtain ⟨b1, b2, b3, b4, p', q', b5, b6, b7, b8, b9⟩ := newBlock_spec h hl.wf
      have s3 := s2.trans b1 hn
      simp only [List.append_nil] at s3
      have l2 := keeps_length s2.keeps
      refine ⟨us, s3, by omega, ?_, ?_, b4⟩
      · intro u hu
        have := s2.fresh u hu
        omega
      · exact inv_child b1 hl.wf hn b5 b6 b7 b8 b9 (hi.keep s2 hw n2)

theorem getElem?_lt {α : Type} {l : List α} {i : Nat} {a : α} (h : l[i]? = some a) : i < l.length := by
  by_contra hc
  rw [List.getElem?_eq_none (by omega)] at h; cases h

theorem decl_out {st st' : ScState} {cur d : Nat} {x : String} {env : ScEnv} {D : List String} (h : st.addVar cur d x = .ok st') (hw : WFS st) (hn : NamesApart st')
    (hi : ScInv st cur env D) (hx : x ∈ D) : ListOut st st' cur cur [x] [] [] ((x, d) :: env) D := by
  unfold ScState.addVar at h
  split at h
  · cases h
  · rename_i b hb
    split at h
    · cases h
    · rename_i hfree
      simp only [Except.ok.injEq] at h
      have hlt := getElem?_lt hb
      generalize hN : scVIOName b.name x = N at h hfree
      generalize hB : ({ b with rewrites := (x, N) :: b.rewrites, declared := N :: b.declared } : ScBlock) = B at h
      have hcur : st'.blocks[cur]? = some B := by rw [← h]; simp [hlt]
      have hoth : ∀ (i : Nat) (b : ScBlock), i ≠ cur → (st'.blocks[i]? = some b ↔ st.blocks[i]? = some b) := by
        intro i b hi
        rw [← h]; simp only [List.getElem?_set]
        rw [if_neg (fun h => hi h.symm)]
      have hsub : st.vars ⊆ st'.vars := by rw [← h]; exact List.subset_cons_self _ _
      have hnew : (⟨d, x, N⟩ : ScVar) ∈ st'.vars := by rw [← h]; exact List.mem_cons_self
      have hw' : WFS st' := by
        refine ⟨?_, ?_, ?_⟩
        · intro i c hc k n hk
          by_cases hic : i = cur
          · subst hic
            rw [hcur] at hc; cases hc; subst hB
            rcases List.mem_cons.mp hk with hk | hk
            · cases hk; exact ⟨_, hnew, rfl, rfl⟩
            · obtain ⟨v, h1, h2⟩ := hw.rew i b hb k n hk
              exact ⟨v, hsub h1, h2⟩
          · obtain ⟨v, h1, h2⟩ := hw.rew i c ((hoth i c hic).mp hc) k n hk
            exact ⟨v, hsub h1, h2⟩
        · intro i c hc io hio k n hk
          by_cases hic : i = cur
          · subst hic
            rw [hcur] at hc; cases hc; subst hB
            obtain ⟨v, h1, h2⟩ := hw.io i b hb io hio k n hk
            exact ⟨v, hsub h1, h2⟩
          · obtain ⟨v, h1, h2⟩ := hw.io i c ((hoth i c hic).mp hc) io hio k n hk
            exact ⟨v, hsub h1, h2⟩
        · intro i c hc q hq
          by_cases hic : i = cur
          · subst hic
            rw [hcur] at hc; cases hc; subst hB
            exact hw.up i b hb q hq
          · exact hw.up i c ((hoth i c hic).mp hc) q hq
      have hg : Grows st st' := by
        intro i c hc
        by_cases hic : i = cur
        · subst hic
          rw [hb] at hc; cases hc
          exact ⟨B, hcur, by subst hB; rfl, by subst hB; exact List.subset_cons_self _ _⟩
        · exact ⟨c, (hoth i c hic).mpr hc, rfl, List.Subset.refl _⟩
      have hrew : ∀ y, y ≠ x → assoc B.rewrites y = assoc b.rewrites y := by
        intro y hy
        subst hB
        show assoc ((x, N) :: b.rewrites) y = _
        rw [assoc_cons, if_neg fun h => hy h.symm]
      refine ⟨hsub, fun i c hic hc => (hoth i c hic).mpr hc, ?_, by rw [← h]; simp, .nil, fun _ h => (by cases h), hw', ?_⟩
      · intro c hc
        rw [hb] at hc; cases hc
        exact ⟨B, hcur, by subst hB; rfl, by subst hB; rfl, by subst hB; exact List.subset_cons_self _ _, fun y hy => hrew y fun h => hy (by rw [h]; exact List.mem_cons_self)⟩
      · obtain ⟨c, hc, h1, h2⟩ := hi
        rw [hb] at hc; cases hc
        refine ⟨B, hcur, fun y => ?_, fun io hio => h2 io (by subst hB; exact hio)⟩
        by_cases hy : x = y
        · subst hy
          rw [assoc_cons, if_pos rfl]
          refine ⟨_, hnew, rfl, rfl, ?_, .here hcur (by subst hB; exact List.mem_cons_self)⟩
          rw [translate_plain fun io hio => h2 io (by subst hB; exact hio) x hx]
          subst hB
          show (assoc ((x, N) :: b.rewrites) x).getD x = N
          rw [assoc_cons, if_pos rfl]; rfl
        · rw [assoc_cons, if_neg hy]
          exact (h1 y).move hg hsub hw (hn.sub hsub) hw' hn hb hcur (by subst hB; rfl) (hrew y fun h => hy h.symm)

theorem use_out {st : ScState} {cur u : Nat} {x : String} {env : ScEnv} {D : List String} (hw : WFS st) (hi : ScInv st cur env D) :
    ListOut st { st with uses := st.uses ++ [(cur, u, x)], pre := false } cur cur [] [(cur, u, x)] [(u, assoc env x)] env D := by
  refine ⟨List.Subset.refl _, fun _ _ _ h => h, fun b hb => ⟨b, hb, rfl, rfl, List.Subset.refl _, fun _ _ => rfl⟩, rfl, ?_, ?_, WFS.congr (st := st) rfl rfl hw, ScInv.congr (st := st) rfl rfl hi⟩
  · obtain ⟨b, hb, h1, _⟩ := hi
    exact .cons (UseRes.congr (st := st) rfl rfl ⟨rfl, b, hb, h1 x⟩) .nil
  · obtain ⟨b, hb, _⟩ := hi
    intro v hv
    simp only [List.mem_singleton] at hv
    subst hv
    exact ⟨.inl rfl, getElem?_lt hb⟩

/-- The parameters of a subroutine. -/
theorem addParams_spec : ∀ (ps : List (Nat × Bool × String)) {st st' : ScState} {cur : Nat} {f : String} {io : List (String × String)}, st.addParams cur f ps = .ok (st', io) →
    io = ps.map (fun p => (p.2.2, paramVar f p)) ∧ st'.uses = st.uses ∧ st'.blocks.length = st.blocks.length ∧ (∀ p ∈ ps, (⟨p.1, p.2.2, paramVar f p⟩ : ScVar) ∈ st'.vars) ∧
    (∀ (i : Nat) (b : ScBlock), i ≠ cur → (st'.blocks[i]? = some b ↔ st.blocks[i]? = some b)) ∧
    ∀ b : ScBlock, st.blocks[cur]? = some b → ∃ b' : ScBlock, st'.blocks[cur]? = some b' ∧ b'.parent = b.parent ∧ b'.io = b.io ∧ b'.rewrites = b.rewrites ∧ b.declared ⊆ b'.declared
  | [], st, st', cur, f, io, h => by
    simp only [ScState.addParams, Except.ok.injEq, Prod.mk.injEq] at h
    obtain ⟨rfl, rfl⟩ := h
    exact ⟨rfl, rfl, rfl, fun _ h => (by cases h), fun _ _ _ => Iff.rfl, fun b hb => ⟨b, hb, rfl, rfl, rfl, List.Subset.refl _⟩⟩
  | p :: ps, st, st', cur, f, io, h => by
    rw [ScState.addParams] at h
    split at h
    · cases h
    · split at h
      · cases h
      · rename_i b hb
        split at h
        · cases h
        · rename_i st1 io1 h1
          simp only [Except.ok.injEq, Prod.mk.injEq] at h
          obtain ⟨rfl, rfl⟩ := h
          have hlt := getElem?_lt hb
          obtain ⟨g1, g2, g3, g4, g5, g6⟩ := addParams_spec ps h1
          refine ⟨by rw [g1]; rfl, g2, by rw [g3]; simp, ?_, ?_, ?_⟩
          · intro q hq
            rcases List.mem_cons.mp hq with rfl | hq
            · exact addParams_vars ps h1 List.mem_cons_self
            · exact g4 q hq
          · intro i c hi
            rw [g5 i c hi]
            simp only [List.getElem?_set]
            rw [if_neg fun h => hi h.symm]
          · intro c hc
            rw [hb] at hc; cases hc
            obtain ⟨b', k1, k2, k3, k4, k5⟩ := g6 { b with declared := paramVar f p :: b.declared } (by simp [hlt])
            exact ⟨b', k1, k2, k3, k4, fun _ hx => k5 (List.mem_cons_of_mem _ hx)⟩

theorem assoc_map_params {β : Type} (g : Nat × Bool × String → β) : ∀ (ps : List (Nat × Bool × String)) (x : String),
    assoc (ps.map fun p => (p.2.2, g p)) x = (ps.find? fun p => p.2.2 = x).map g
  | [], _ => rfl
  | p :: ps, x => by
    rw [List.map_cons, assoc_cons, List.find?_cons, assoc_map_params g ps x]
    by_cases h : p.2.2 = x <;> simp [h]

theorem paramVar_ne (f : String) (p : Nat × Bool × String) : paramVar f p ≠ p.2.2 := by
  intro h
  have := congrArg String.length h
  unfold paramVar at this
  simp only [String.length_append] at this
  split at this <;> simp at this

theorem sub_out {st st1 st3 : ScState} {cur c2 : Nat} {f : String} {ps : List (Nat × Bool × String)} {io : List (String × String)} {c0 c : ScBlock} {b : ScStmts} {env env2 : ScEnv}
    {D R : List String} {den : List (Nat × Option Nat)} (h1 : st.addParams cur f ps = .ok (st1, io)) (hc0 : st.blocks[cur]? = some c0) (hio0 : c0.io = none)
    (hc : st1.blocks[cur]? = some c)
    (h2 : gStmts { st1 with blocks := st1.blocks ++ [⟨"__sub_" ++ f, some cur, some io, c.rewrites, io.map Prod.snd⟩], last := st1.blocks.length, pre := true } st1.blocks.length b = .ok (st3, c2))
    (hk : ∀ s c s' c', gStmts s c b = .ok (s', c') → WFS s → NamesApart s' → ScInv s c (ps.map (fun p => (p.2.2, p.1)) ++ env) b.declares →
      ∃ us, ListOut s s' c c' R us den env2 b.declares)
    (hps : ∀ p ∈ ps, p.2.2 ∉ b.declares) (hw : WFS st) (hn : NamesApart st3) (hi : ScInv st cur env D) :
    ∃ us, ListOut st { st3 with pre := true } cur cur [] us den env D ∧ ∀ u ∈ us, u.1 ≠ cur := by
  obtain ⟨g1, g2, g3, g4, g5, g6⟩ := addParams_spec ps h1
  obtain ⟨c', k1, k2, k3, k4, k5⟩ := g6 c0 hc0
  rw [hc] at k1; cases k1
  have hv1 := addParams_vars ps h1
  have hv2' : st1.vars ⊆ st3.vars := by
    have := gStmts_vars b h2
    exact this
  have hlt := getElem?_lt hc0
  generalize hN : (⟨"__sub_" ++ f, some cur, some io, c.rewrites, io.map Prod.snd⟩ : ScBlock) = N at h2
  generalize hS : ({ st1 with blocks := st1.blocks ++ [N], last := st1.blocks.length, pre := true } : ScState) = st2 at h2
  have hvs : st2.vars = st1.vars := by rw [← hS]
  have hcN : st2.blocks[st1.blocks.length]? = some N := by rw [← hS]; simp
  have hold : ∀ (i : Nat) (b : ScBlock), i < st1.blocks.length → (st2.blocks[i]? = some b ↔ st1.blocks[i]? = some b) := by
    intro i b hi
    rw [← hS]
    show (st1.blocks ++ [N])[i]? = some b ↔ _
    rw [List.getElem?_append_left hi]
  have hlen : st2.blocks.length = st1.blocks.length + 1 := by rw [← hS]; simp
  have hioW : ∀ k n, (k, n) ∈ io → ∃ v ∈ st2.vars, v.base = k ∧ v.name = n ∧ v.name ≠ v.base := by
    intro k n hm
    rw [g1] at hm
    obtain ⟨p, hp, he⟩ := List.mem_map.mp hm
    simp only [Prod.mk.injEq] at he
    exact ⟨_, by rw [hvs]; exact g4 p hp, he.1, he.2, paramVar_ne f p⟩
  have hpast : ∀ (i : Nat) (b : ScBlock), st2.blocks[i]? = some b → (i = st1.blocks.length ∧ b = N) ∨ ∃ b0, st.blocks[i]? = some b0 ∧ b.parent = b0.parent ∧ b.io = b0.io ∧ b.rewrites = b0.rewrites := by
    intro i b hb
    have hl := getElem?_lt hb
    by_cases hi1 : i = st1.blocks.length
    · left
      rw [hi1, hcN] at hb; cases hb
      exact ⟨hi1, rfl⟩
    · right
      have hb1 := (hold i b (by omega)).mp hb
      by_cases hic : i = cur
      · subst hic
        rw [hc] at hb1; cases hb1
        exact ⟨c0, hc0, k2, k3, k4⟩
      · exact ⟨b, (g5 i b hic).mp hb1, rfl, rfl, rfl⟩
  have hw2 : WFS st2 := by
    refine ⟨?_, ?_, ?_⟩
    · intro i b hb k n hm
      rcases hpast i b hb with ⟨_, rfl⟩ | ⟨b0, q1, _, _, q4⟩
      · rw [← hN] at hm
        simp only [k4] at hm
        obtain ⟨v, a1, a2⟩ := hw.rew cur c0 hc0 k n hm
        exact ⟨v, by rw [hvs]; exact hv1 a1, a2⟩
      · obtain ⟨v, a1, a2⟩ := hw.rew i b0 q1 k n (q4 ▸ hm)
        exact ⟨v, by rw [hvs]; exact hv1 a1, a2⟩
    · intro i b hb io' hio' k n hm
      rcases hpast i b hb with ⟨_, rfl⟩ | ⟨b0, q1, _, q3, _⟩
      · rw [← hN] at hio'
        simp only [Option.some.injEq] at hio'
        subst hio'
        exact hioW k n hm
      · obtain ⟨v, a1, a2⟩ := hw.io i b0 q1 io' (q3 ▸ hio') k n hm
        exact ⟨v, by rw [hvs]; exact hv1 a1, a2⟩
    · intro i b hb q hq
      rcases hpast i b hb with ⟨hi, rfl⟩ | ⟨b0, q1, q2, _, _⟩
      · rw [← hN] at hq
        simp only [Option.some.injEq] at hq
        omega
      · exact hw.up i b0 q1 q (q2 ▸ hq)
  have hgr : Grows st st2 := by
    intro i b hb
    have hl := getElem?_lt hb
    by_cases hic : i = cur
    · subst hic
      rw [hc0] at hb; cases hb
      exact ⟨c, (hold i c (by omega)).mpr hc, k2, k5⟩
    · exact ⟨b, (hold i b (by omega)).mpr ((g5 i b hic).mpr hb), rfl, List.Subset.refl _⟩
  have hsub : st.vars ⊆ st2.vars := by rw [hvs]; exact hv1
  have n2 : NamesApart st2 := hn.sub (by rw [hvs]; exact hv2')
  obtain ⟨b', hb', i1, i2⟩ := hi
  rw [hc0] at hb'; cases hb'
  have hNio : N.io = some io := by rw [← hN]
  have hNrew : N.rewrites = c0.rewrites := by rw [← hN]; exact k4
  have hioN : ∀ x, assoc io x = (ps.find? fun p => p.2.2 = x).map (paramVar f) := by
    intro x; rw [g1]; exact assoc_map_params (paramVar f) ps x
  have inv2 : ScInv st2 st1.blocks.length (ps.map (fun p => (p.2.2, p.1)) ++ env) b.declares := by
    refine ⟨N, hcN, fun x => ?_, ?_⟩
    · rw [assoc_append, assoc_map_params (fun p => p.1) ps x]
      cases hf : ps.find? fun p => p.2.2 = x with
      | some p =>
        have hp := List.mem_of_find?_eq_some hf
        have hpx : p.2.2 = x := by have := List.find?_some hf; simpa using this
        simp only [Option.map_some, Option.or]
        refine ⟨⟨p.1, p.2.2, paramVar f p⟩, by rw [hvs]; exact g4 p hp, rfl, hpx, translate_io hw2 n2 hcN hNio (by rw [hioN x, hf]; rfl), .here hcN ?_⟩
        rw [← hN, g1]
        simp only [List.map_map, List.mem_map]
        exact ⟨p, hp, rfl⟩
      | none =>
        simp only [Option.map_none, Option.or]
        have hx : ∀ io', N.io = some io' → assoc io' x = none := by
          intro io' hio'
          rw [hNio] at hio'; cases hio'
          rw [hioN x, hf]; rfl
        have := i1 x
        revert this
        cases assoc env x with
        | none =>
          rintro ⟨a1, _⟩
          exact ⟨by rw [hNrew]; exact a1, hx⟩
        | some d =>
          rintro ⟨v, a1, a2, a3, a4, a5⟩
          refine ⟨v, hsub a1, a2, a3, ?_, .up hcN (by rw [← hN]) (a5.mono hgr)⟩
          rw [translate_plain hx, hNrew, ← translate_plain (b := c0) fun io' h => by rw [hio0] at h; cases h]
          exact a4
    · intro io' hio' x hx
      rw [hNio] at hio'; cases hio'
      rw [hioN x]
      cases hf : ps.find? fun p => p.2.2 = x with
      | none => rfl
      | some p =>
        have hp := List.mem_of_find?_eq_some hf
        have hpx : p.2.2 = x := by have := List.find?_some hf; simpa using this
        exact absurd (hpx ▸ hx) (hps p hp)
  obtain ⟨us, hl⟩ := hk _ _ _ _ h2 hw2 hn inv2
  have l3 := hl.grows.length
  have hc3 : st3.blocks[cur]? = some c := hl.others cur c (by omega) ((hold cur c (by omega)).mpr hc)
  have hgr3 : Grows st st3 := by
    intro i b hb
    obtain ⟨b1, a1, a2, a3⟩ := hgr i b hb
    obtain ⟨b2, e1, e2, e3⟩ := hl.grows i b1 a1
    exact ⟨b2, e1, e2.trans a2, fun _ hx => e3 (a3 hx)⟩
  have hsub3 : st.vars ⊆ st3.vars := fun _ hv => hl.vars (hsub hv)
  refine ⟨us, ⟨hsub3, ?_, ?_, ?_, hl.ok.imp fun _ _ => UseRes.congr (st := st3) rfl rfl, ?_, WFS.congr (st := st3) rfl rfl hl.wf, ScInv.congr (st := st3) rfl rfl ?_⟩, ?_⟩
  · intro i b hic hb
    have hl' := getElem?_lt hb
    exact hl.others i b (by omega) ((hold i b (by omega)).mpr ((g5 i b hic).mpr hb))
  · intro b hb
    rw [hc0] at hb; cases hb
    exact ⟨c, hc3, k2, k3, k5, fun x _ => by rw [k4]⟩
  · show st3.uses = _
    rw [hl.uses, ← hS, ← g2]
  · intro u hu
    have := hl.place u hu
    show _ ∧ u.1 < st3.blocks.length
    omega
  · exact ⟨c, hc3, fun x => (i1 x).move hgr3 hsub3 hw (hn.sub hsub3) hl.wf hn hc0 hc3 k3 (by rw [k4]), fun io' h => i2 io' (k3 ▸ h)⟩
  · intro u hu
    have := hl.place u hu
    omega

theorem orderly_cons {s : ScStmt} {r : ScStmts} (h : (ScStmts.cons s r).Orderly) : s.Orderly ∧ r.Orderly ∧ ∀ u x, s = .use u x → x ∉ runDecls r := by
  cases s with
  | use u x => exact ⟨trivial, h.2, fun u' x' he => by cases he; exact h.1⟩
  | _ => exact ⟨h.1, h.2, fun _ _ he => by cases he⟩

/-- What gathering a statement does, in the block it starts in or in a new one. -/
def StmtOut (st st' : ScState) (cur cur' : Nat) (env : ScEnv) (D : List String) (s : ScStmt) : Prop :=
  (cur' = cur ∧ ∃ R us, (∀ r, runDecls (.cons s r) = R ++ runDecls r) ∧ ListOut st st' cur cur R us (scStmt env s).1 (scStmt env s).2 D ∧
    ∀ u ∈ us, u.1 = cur → s = .use u.2.1 u.2.2) ∨
  ∃ us, StepOut st st' us (scStmt env s).1 ∧ (scStmt env s).2 = env ∧ st.blocks.length ≤ cur' ∧ (∀ u ∈ us, u.1 ≠ cur') ∧ ScInv st' cur' env D

theorem newBlock_out {st st' : ScState} {pre post : String} {c cur' : Nat} {env : ScEnv} {D : List String} (h : st.newBlock pre post c = .ok (st', cur')) (hw : WFS st)
    (hn : NamesApart st') (hi : ScInv st c env D) : StepOut st st' [] [] ∧ cur' = st.blocks.length ∧ st'.last = cur' ∧ ScInv st' cur' env D := by
  obtain ⟨a1, a2, _, a4, p, q, a5, a6, a7, a8, a9⟩ := newBlock_spec h hw
  exact ⟨a1, a2, a4, inv_child a1 hw hn a5 a6 a7 a8 a9 hi⟩

theorem addBlock_out {st st' : ScState} {name : String} {c cur' : Nat} {env : ScEnv} {D : List String} (h : st.addBlock name c = .ok (st', cur')) (hw : WFS st)
    (hn : NamesApart st') (hi : ScInv st c env D) : StepOut st st' [] [] ∧ cur' = st.blocks.length ∧ st'.last = cur' ∧ ScInv st' cur' env D := by
  obtain ⟨a1, a2, _, a4, p, q, a5, a6, a7, a8, a9⟩ := addBlock_spec h hw
  exact ⟨a1, a2, a4, inv_child a1 hw hn a5 a6 a7 a8 a9 hi⟩

/-- The last block of a stage is where its last instructions are. -/
theorem inBlock_last {st st' : ScState} {c cur' : Nat} {k : ScState → Nat → Except ScErr (ScState × Nat)} (h : st.inBlock c k = .ok (st', cur')) : st'.last = cur' := by
  unfold ScState.inBlock at h
  split at h
  · cases h
  · split at h
    · cases h
    · exact newBlock_last h
where
  newBlock_last {st st' : ScState} {pre post : String} {c cur' : Nat} (h : st.newBlock pre post c = .ok (st', cur')) : st'.last = cur' := by
    unfold ScState.newBlock ScState.addBlock at h
    split at h
    · cases h
    · simp only [Except.ok.injEq, Prod.mk.injEq] at h
      rw [← h.1, ← h.2]

theorem addBlock_last {st st' : ScState} {name : String} {c cur' : Nat} (h : st.addBlock name c = .ok (st', cur')) : st'.last = cur' := by
  unfold ScState.addBlock at h
  split at h
  · cases h
  · simp only [Except.ok.injEq, Prod.mk.injEq] at h
    rw [← h.1, ← h.2]

theorem gStmts_last : ∀ (s : ScStmts) {st st' : ScState} {cur cur' : Nat}, gStmts st cur s = .ok (st', cur') → s.noSwitch → st.last = cur → st'.last = cur'
  | .nil, st, st', cur, cur', h, _, hl => by
    simp only [gStmts, Except.ok.injEq, Prod.mk.injEq] at h
    rw [← h.1, ← h.2]; exact hl
  | .cons s r, st, st', cur, cur', h, hs, hl => by
    simp only [gStmts] at h
    split at h
    · cases h
    · rename_i st1 cur1 h1
      have key : st1.last = cur1 ∧ r.noSwitch := by
        cases s with
        | decl d x =>
          simp only [gStmt, ScState.addVar] at h1
          split at h1
          · cases h1
          · rename_i st2 h2
            split at h2
            · cases h2
            · split at h2
              · cases h2
              · simp only [Except.ok.injEq, Prod.mk.injEq] at h1 h2
                rw [← h1.1, ← h1.2, ← h2]; exact ⟨hl, hs⟩
        | use u x =>
          simp only [gStmt, Except.ok.injEq, Prod.mk.injEq] at h1
          rw [← h1.1, ← h1.2]; exact ⟨hl, hs⟩
        | step l =>
          cases l with
          | none => simp only [gStmt] at h1; exact ⟨inBlock_last.newBlock_last h1, hs⟩
          | some l => simp only [gStmt] at h1; exact ⟨addBlock_last h1, hs⟩
        | cut => simp only [gStmt] at h1; exact ⟨inBlock_last.newBlock_last h1, hs⟩
        | block b => simp only [gStmt] at h1; exact ⟨inBlock_last h1, hs⟩
        | ifElse t e =>
          simp only [gStmt] at h1
          split at h1
          · cases h1
          · split at h1
            · cases h1
            · split at h1
              · cases h1
              · split at h1
                · cases h1
                · exact ⟨inBlock_last.newBlock_last h1, hs⟩
        | ifThen t =>
          simp only [gStmt] at h1
          split at h1
          · cases h1
          · split at h1
            · cases h1
            · split at h1
              · cases h1
              · exact ⟨inBlock_last.newBlock_last h1, hs⟩
        | switch cs => exact hs.elim
        | loop b =>
          simp only [gStmt] at h1
          split at h1
          · cases h1
          · split at h1
            · cases h1
            · split at h1
              · cases h1
              · split at h1
                · cases h1
                · simp only [Except.ok.injEq, Prod.mk.injEq] at h1
                  rw [← h1.1, ← h1.2]; exact ⟨rfl, hs⟩
        | pipe stages =>
          simp only [gStmt] at h1
          split at h1
          · cases h1
          · exact ⟨inBlock_last.newBlock_last h1, hs⟩
        | sub f ps b => exact hs.elim
      exact gStmts_last r h key.2 key.1

mutual
theorem gStmt_out : ∀ (s : ScStmt) {st st' : ScState} {cur cur' : Nat} {env : ScEnv} {D : List String}, gStmt st cur s = .ok (st', cur') → s.Orderly → s.declares ⊆ D → WFS st →
    NamesApart st' → ScInv st cur env D → StmtOut st st' cur cur' env D s
  | .decl d x, st, st', cur, cur', env, D, h, _, hD, hw, hn, hi => by
    simp only [gStmt] at h
    split at h
    · cases h
    · rename_i st1 h1
      simp only [Except.ok.injEq, Prod.mk.injEq] at h
      obtain ⟨rfl, rfl⟩ := h
      exact .inl ⟨rfl, [x], [], fun _ => rfl, decl_out h1 hw hn hi (hD List.mem_cons_self), fun _ h => (by cases h)⟩
  | .use u x, st, st', cur, cur', env, D, h, _, _, hw, _, hi => by
    simp only [gStmt, Except.ok.injEq, Prod.mk.injEq] at h
    obtain ⟨rfl, rfl⟩ := h
    refine .inl ⟨rfl, [], _, fun _ => rfl, use_out hw hi, fun v hv _ => ?_⟩
    simp only [List.mem_singleton] at hv
    rw [hv]
  | .step none, st, st', cur, cur', env, D, h, _, _, hw, hn, hi => by
    simp only [gStmt] at h
    obtain ⟨a1, a2, _, a4⟩ := newBlock_out h (WFS.congr (st := st) rfl rfl hw) hn (ScInv.congr (st := st) rfl rfl hi)
    exact .inr ⟨[], StepOut.left (st := st) a1 rfl rfl rfl, rfl, by rw [a2], fun _ h => (by cases h), a4⟩
  | .step (some l), st, st', cur, cur', env, D, h, _, _, hw, hn, hi => by
    simp only [gStmt] at h
    obtain ⟨a1, a2, _, a4⟩ := addBlock_out h (WFS.congr (st := st) rfl rfl hw) hn (ScInv.congr (st := st) rfl rfl hi)
    exact .inr ⟨[], StepOut.left (st := st) a1 rfl rfl rfl, rfl, by rw [a2], fun _ h => (by cases h), a4⟩
  | .cut, st, st', cur, cur', env, D, h, _, _, hw, hn, hi => by
    simp only [gStmt] at h
    obtain ⟨a1, a2, _, a4⟩ := newBlock_out h (WFS.congr (st := st) rfl rfl hw) hn (ScInv.congr (st := st) rfl rfl hi)
    exact .inr ⟨[], StepOut.left (st := st) a1 rfl rfl rfl, rfl, by rw [a2], fun _ h => (by cases h), a4⟩
  | .block b, st, st', cur, cur', env, D, h, ho, hD, hw, hn, hi => by
    simp only [gStmt] at h
    obtain ⟨us, a1, a2, a3, a4, _⟩ := inBlock_out (fun _ _ _ _ h hw hn hi => gStmts_out b h ho hD hw hn hi) (fun _ _ _ _ h => gStmts_vars b h) h hw hn hi
    exact .inr ⟨us, a1, rfl, a2, a3, a4⟩
  | .ifElse t e, st, st', cur, cur', env, D, h, ho, hD, hw, hn, hi => by
    simp only [gStmt] at h
    split at h
    · cases h
    · rename_i st1 ib h1
      split at h
      · cases h
      · rename_i st2 eb h2
        split at h
        · cases h
        · rename_i st3 c3 h3
          split at h
          · cases h
          · rename_i st4 c4 h4
            simp only [ScStmt.Orderly] at ho
            simp only [ScStmt.declares] at hD
            have n4 : NamesApart st4 := hn.congr (newBlock_vars h)
            have n3 : NamesApart st3 := n4.sub (inBlock_vars (fun _ _ _ _ h => gStmts_vars e h) h4)
            have n2 : NamesApart st2 := n3.sub (inBlock_vars (fun _ _ _ _ h => gStmts_vars t h) h3)
            have n1 : NamesApart st1 := n2.congr (newBlock_vars h2)
            obtain ⟨a1, a2, _, a4⟩ := newBlock_out h1 (WFS.congr (st := st) rfl rfl hw) n1 (ScInv.congr (st := st) rfl rfl hi)
            have s1 : StepOut st st1 [] [] := StepOut.left (st := st) a1 rfl rfl rfl
            have ic1 := hi.keep s1 hw n1
            obtain ⟨b1, b2, _, b4⟩ := newBlock_out h2 s1.wf n2 ic1
            obtain ⟨us3, d1, d2, d3, d4, _⟩ := inBlock_out (fun _ _ _ _ h hw hn hi => gStmts_out t h ho.1 (fun _ hx => hD (List.mem_append_left _ hx)) hw hn hi)
              (fun _ _ _ _ h => gStmts_vars t h) h3 b1.wf n3 (a4.keep b1 s1.wf n2)
            have s2 := s1.trans b1 n2
            have s3 := s2.trans d1 n3
            obtain ⟨us4, e1, e2, e3, e4, _⟩ := inBlock_out (fun _ _ _ _ h hw hn hi => gStmts_out e h ho.2 (fun _ hx => hD (List.mem_append_right _ hx)) hw hn hi)
              (fun _ _ _ _ h => gStmts_vars e h) h4 d1.wf n4 (b4.keep d1 b1.wf n3)
            have s4 := s3.trans e1 n4
            obtain ⟨f1, f2, _, f4⟩ := newBlock_out h e1.wf hn (hi.keep s4 hw n4)
            have s5 := s4.trans f1 hn
            simp only [List.nil_append, List.append_nil] at s4 s5
            refine .inr ⟨_, s5, rfl, by rw [f2]; exact keeps_length s4.keeps, ?_, f4⟩
            intro u hu
            have := s4.fresh u hu
            omega
  | .ifThen t, st, st', cur, cur', env, D, h, ho, hD, hw, hn, hi => by
    simp only [gStmt] at h
    split at h
    · cases h
    · rename_i st1 ib h1
      split at h
      · cases h
      · rename_i st2 eb h2
        split at h
        · cases h
        · rename_i st3 c3 h3
          simp only [ScStmt.Orderly] at ho
          simp only [ScStmt.declares] at hD
          have n3 : NamesApart st3 := hn.congr (newBlock_vars h)
          have n2 : NamesApart st2 := n3.sub (inBlock_vars (fun _ _ _ _ h => gStmts_vars t h) h3)
          have n1 : NamesApart st1 := n2.congr (newBlock_vars h2)
          obtain ⟨a1, a2, _, a4⟩ := newBlock_out h1 (WFS.congr (st := st) rfl rfl hw) n1 (ScInv.congr (st := st) rfl rfl hi)
          have s1 : StepOut st st1 [] [] := StepOut.left (st := st) a1 rfl rfl rfl
          have ic1 := hi.keep s1 hw n1
          obtain ⟨b1, b2, _, b4⟩ := newBlock_out h2 s1.wf n2 ic1
          obtain ⟨us3, d1, d2, d3, d4, _⟩ := inBlock_out (fun _ _ _ _ h hw hn hi => gStmts_out t h ho hD hw hn hi)
            (fun _ _ _ _ h => gStmts_vars t h) h3 b1.wf n3 (a4.keep b1 s1.wf n2)
          have s2 := s1.trans b1 n2
          have s3 := s2.trans d1 n3
          obtain ⟨f1, f2, _, f4⟩ := newBlock_out h d1.wf hn (hi.keep s3 hw n3)
          have s5 := s3.trans f1 hn
          simp only [List.nil_append, List.append_nil] at s3 s5
          refine .inr ⟨_, s5, rfl, by rw [f2]; exact keeps_length s3.keeps, ?_, f4⟩
          intro u hu
          have := s3.fresh u hu
          omega
  | .switch cs, st, st', cur, cur', env, D, h, ho, hD, hw, hn, hi => by
    simp only [gStmt] at h
    split at h
    · cases h
    · rename_i st1 after h1
      split at h
      · cases h
      · rename_i st2 h2
        simp only [Except.ok.injEq, Prod.mk.injEq] at h
        obtain ⟨rfl, rfl⟩ := h
        simp only [ScStmt.Orderly] at ho
        simp only [ScStmt.declares] at hD
        have n1 : NamesApart st1 := hn.sub (gCases_vars cs h2)
        obtain ⟨a1, a2, _, a4⟩ := newBlock_out h1 (WFS.congr (st := st) rfl rfl hw) n1 (ScInv.congr (st := st) rfl rfl hi)
        have s1 : StepOut st st1 [] [] := StepOut.left (st := st) a1 rfl rfl rfl
        obtain ⟨us, b1⟩ := gCases_out cs h2 ho hD s1.wf hn (hi.keep s1 hw n1)
        have s2 := s1.trans b1 hn
        simp only [List.nil_append] at s2
        obtain ⟨q, hq, _⟩ := a4
        have ha := getElem?_lt hq
        have a2' : after = st.blocks.length := a2
        refine .inr ⟨us, s2, rfl, by omega, ?_, ?_⟩
        · intro u hu
          have := b1.fresh u hu
          omega
        · obtain ⟨_, _, _, a4⟩ := newBlock_out h1 (WFS.congr (st := st) rfl rfl hw) n1 (ScInv.congr (st := st) rfl rfl hi)
          exact a4.keep b1 s1.wf hn
  | .loop b, st, st', cur, cur', env, D, h, ho, hD, hw, hn, hi => by
    simp only [gStmt] at h
    split at h
    · cases h
    · rename_i st1 c1 h1
      split at h
      · cases h
      · rename_i st2 iter h2
        split at h
        · cases h
        · rename_i st3 after h3
          split at h
          · cases h
          · rename_i st4 c4 h4
            simp only [Except.ok.injEq, Prod.mk.injEq] at h
            obtain ⟨rfl, rfl⟩ := h
            simp only [ScStmt.Orderly] at ho
            simp only [ScStmt.declares] at hD
            have n4 : NamesApart st4 := NamesApart.congr (st := st4) rfl hn
            have n3 : NamesApart st3 := n4.sub (inBlock_vars (fun _ _ _ _ h => gStmts_vars b h) h4)
            have n2 : NamesApart st2 := n3.congr (newBlock_vars h3)
            have n1 : NamesApart st1 := n2.congr (newBlock_vars h2)
            obtain ⟨a1, a2, _, a4⟩ := newBlock_out h1 (WFS.congr (st := st) rfl rfl hw) n1 (ScInv.congr (st := st) rfl rfl hi)
            have s1 : StepOut st st1 [] [] := StepOut.left (st := st) a1 rfl rfl rfl
            obtain ⟨b1, b2, _, b4⟩ := newBlock_out h2 s1.wf n2 (hi.keep s1 hw n1)
            have s2 := s1.trans b1 n2
            obtain ⟨e1, e2, _, e4⟩ := newBlock_out h3 b1.wf n3 (hi.keep s2 hw n2)
            have s3 := s2.trans e1 n3
            obtain ⟨us4, d1, d2, d3, d4, _⟩ := inBlock_out (fun _ _ _ _ h hw hn hi => gStmts_out b h ho hD hw hn hi)
              (fun _ _ _ _ h => gStmts_vars b h) h4 e1.wf n4 (b4.keep e1 b1.wf n3)
            have s4 := s3.trans d1 n4
            simp only [List.nil_append] at s4
            have l1 := keeps_length s1.keeps
            have l2 := keeps_length b1.keeps
            have i4 := e4.keep d1 e1.wf n4
            obtain ⟨q, hq, _⟩ := e4
            have hq' := getElem?_lt hq
            refine .inr ⟨us4, StepOut.right (st0 := st4) s4 rfl rfl rfl, rfl, by omega, ?_, ScInv.congr (st := st4) rfl rfl i4⟩
            intro u hu
            have := d1.fresh u hu
            omega
  | .pipe stages, st, st', cur, cur', env, D, h, ho, hD, hw, hn, hi => by
    simp only [gStmt] at h
    split at h
    · cases h
    · rename_i st1 h1
      simp only [ScStmt.Orderly] at ho
      simp only [ScStmt.declares] at hD
      have n1 : NamesApart st1 := hn.congr (newBlock_vars h)
      obtain ⟨us, b1⟩ := gStages_out stages h1 ho.1 ho.2 hD (WFS.congr (st := st) rfl rfl hw) n1 (ScInv.congr (st := st) rfl rfl hi)
      have s1 : StepOut st st1 us (scStages env stages) := StepOut.left (st := st) b1 rfl rfl rfl
      have i1 := hi.keep s1 hw n1
      obtain ⟨f1, f2, _, f4⟩ := newBlock_out h (WFS.congr (st := st1) rfl rfl s1.wf) hn (ScInv.congr (st := st1) rfl rfl i1)
      have s2 := s1.trans (StepOut.left (st := st1) f1 rfl rfl rfl) hn
      simp only [List.append_nil] at s2
      have l1 := keeps_length s1.keeps
      have f2' : cur' = st1.blocks.length := f2
      refine .inr ⟨us, s2, rfl, by omega, ?_, f4⟩
      intro u hu
      have := s1.fresh u hu
      omega
  | .sub f ps b, st, st', cur, cur', env, D, h, ho, hD, hw, hn, hi => by
    simp only [gStmt] at h
    split at h
    · cases h
    · split at h
      · cases h
      · rename_i c0 hc0
        split at h
        · cases h
        · rename_i hio
          split at h
          · cases h
          · rename_i st1 io h1
            split at h
            · cases h
            · rename_i c hc
              split at h
              · cases h
              · rename_i st2 c2 h2
                simp only [Except.ok.injEq, Prod.mk.injEq] at h
                obtain ⟨rfl, rfl⟩ := h
                simp only [ScStmt.Orderly] at ho
                have hio' : c0.io = none := by simpa using hio
                have n2 : NamesApart st2 := NamesApart.congr (st := st2) rfl hn
                obtain ⟨us, g1, g2⟩ := sub_out h1 hc0 hio' hc h2 (fun _ _ _ _ h hw hn hi => gStmts_out b h ho.1 (fun _ hx => hx) hw hn hi) ho.2.1 hw n2 hi
                exact .inl ⟨rfl, [], us, fun _ => rfl, g1, fun u hu hc => absurd hc (g2 u hu)⟩

theorem gStmts_out : ∀ (s : ScStmts) {st st' : ScState} {cur cur' : Nat} {env : ScEnv} {D : List String}, gStmts st cur s = .ok (st', cur') → s.Orderly → s.declares ⊆ D → WFS st →
    NamesApart st' → ScInv st cur env D → ∃ us, ListOut st st' cur cur' (runDecls s) us (scStmts env s).1 (scStmts env s).2 D
  | .nil, st, st', cur, cur', env, D, h, _, _, hw, _, hi => by
    simp only [gStmts, Except.ok.injEq, Prod.mk.injEq] at h
    obtain ⟨rfl, rfl⟩ := h
    exact ⟨[], List.Subset.refl _, fun _ _ _ h => h, fun b hb => ⟨b, hb, rfl, rfl, List.Subset.refl _, fun _ _ => rfl⟩, by simp, .nil, fun _ h => (by cases h), hw, hi⟩
  | .cons s r, st, st', cur, cur', env, D, h, ho, hD, hw, hn, hi => by
    simp only [gStmts] at h
    split at h
    · cases h
    · rename_i st1 cur1 h1
      simp only [ScStmts.declares] at hD
      obtain ⟨o1, o2, o3⟩ := orderly_cons ho
      have n1 : NamesApart st1 := hn.sub (gStmts_vars r h)
      simp only [scStmts]
      rcases gStmt_out s h1 o1 (fun _ hx => hD (List.mem_append_left _ hx)) hw n1 hi with ⟨rfl, R, us, hR, hl, hu⟩ | ⟨us, hs, he, hc, hne, hi1⟩
      · obtain ⟨us2, hl2⟩ := gStmts_out r h o2 (fun _ hx => hD (List.mem_append_right _ hx)) hl.wf hn hl.inv
        refine ⟨us ++ us2, ?_⟩
        rw [hR r]
        exact hl.trans hl2 hn fun u hm hc => o3 _ _ (hu u hm hc)
      · rw [he]
        obtain ⟨us2, hl2⟩ := gStmts_out r h o2 (fun _ hx => hD (List.mem_append_right _ hx)) hs.wf hn hi1
        obtain ⟨b, hb, _⟩ := hi
        exact ⟨us ++ us2, (hs.list hc (getElem?_lt hb) hne hl2 hn).weaken (List.nil_subset _)⟩

theorem gCases_out : ∀ (cs : ScCases) {st st' : ScState} {cur : Nat} {env : ScEnv} {D : List String}, gCases st cur cs = .ok st' → cs.Orderly → cs.declares ⊆ D → WFS st →
    NamesApart st' → ScInv st cur env D → ∃ us, StepOut st st' us (scCases env cs)
  | .nil, st, st', cur, env, D, h, _, _, hw, _, _ => by
    simp only [gCases, Except.ok.injEq] at h
    subst h
    exact ⟨[], StepOut.refl hw⟩
  | .cons b r, st, st', cur, env, D, h, ho, hD, hw, hn, hi => by
    simp only [gCases] at h
    split at h
    · cases h
    · rename_i st1 cb h1
      split at h
      · cases h
      · rename_i st2 c2 h2
        simp only [ScCases.Orderly] at ho
        simp only [ScCases.declares] at hD
        have n2 : NamesApart st2 := hn.sub (gCases_vars r h)
        have n1 : NamesApart st1 := n2.sub (inBlock_vars (fun _ _ _ _ h => gStmts_vars b h) h2)
        obtain ⟨a1, a2, _, a4⟩ := newBlock_out h1 hw n1 hi
        obtain ⟨us2, d1, d2, d3, d4, _⟩ := inBlock_out (fun _ _ _ _ h hw hn hi => gStmts_out b h ho.1 (fun _ hx => hD (List.mem_append_left _ hx)) hw hn hi)
          (fun _ _ _ _ h => gStmts_vars b h) h2 a1.wf n2 a4
        have s2 := a1.trans d1 n2
        simp only [List.nil_append] at s2
        obtain ⟨us3, e1⟩ := gCases_out r h ho.2 (fun _ hx => hD (List.mem_append_right _ hx)) s2.wf hn (hi.keep s2 hw n2)
        exact ⟨us2 ++ us3, s2.trans e1 hn⟩

theorem gStages_out : ∀ (cs : ScCases) {st st' : ScState} {cur : Nat} {env : ScEnv} {D : List String}, gStages st cur cs = .ok st' → cs.Orderly → cs.NoSwitch → cs.declares ⊆ D →
    WFS st → NamesApart st' → ScInv st cur env D → ∃ us, StepOut st st' us (scStages env cs)
  | .nil, st, st', cur, env, D, h, _, _, _, hw, _, _ => by
    simp only [gStages, Except.ok.injEq] at h
    subst h
    exact ⟨[], StepOut.refl hw⟩
  | .cons b r, st, st', cur, env, D, h, ho, hs, hD, hw, hn, hi => by
    simp only [gStages] at h
    split at h
    · cases h
    · rename_i st1 cb h1
      split at h
      · cases h
      · rename_i st2 c2 h2
        simp only [ScCases.Orderly] at ho
        simp only [ScCases.NoSwitch] at hs
        simp only [ScCases.declares] at hD
        have n2 : NamesApart st2 := hn.sub (gStages_vars r h)
        have n1 : NamesApart st1 := n2.sub (gStmts_vars b h2)
        obtain ⟨a1, a2, a3, a4⟩ := newBlock_out h1 hw n1 hi
        obtain ⟨us2, hl⟩ := gStmts_out b h2 ho.1 (fun _ hx => hD (List.mem_append_left _ hx)) a1.wf n2 a4
        have s2 := hl.step a1 (by omega)
        rw [gStmts_last b h2 hs.1 a3] at h
        obtain ⟨us3, e1⟩ := gStages_out r h ho.2 hs.2 (fun _ hx => hD (List.mem_append_right _ hx)) s2.wf hn hl.inv
        exact ⟨us2 ++ us3, s2.trans e1 hn⟩
end

/-! Algorithms and units. -/

theorem wfs_init : WFS scInit := by
  refine ⟨?_, ?_, ?_⟩ <;> intro i b hb <;> rcases i with _ | _ | _ | i <;> simp [scInit] at hb <;> subst hb <;> simp

theorem inv_init (D : List String) : ScInv scInit 0 [] D := ⟨_, rfl, fun _ => ⟨rfl, fun _ h => (by cases h)⟩, fun _ h => (by cases h)⟩

theorem algorithm_out {body : ScStmts} {st : ScState} (h : gAlgorithm body = .ok st) (ho : body.Orderly) (hn : NamesApart st) : WFS st ∧ List.Forall₂ (UseRes st) st.uses (scStmts [] body).1 := by
  unfold gAlgorithm at h
  split at h
  · cases h
  · rename_i st1 c1 h1
    simp only [Except.ok.injEq] at h
    subst h
    obtain ⟨us, hl⟩ := gStmts_out body h1 ho (fun _ hx => hx) wfs_init hn (inv_init _)
    have : st1.uses = us := by rw [hl.uses]; rfl
    rw [this]
    exact ⟨hl.wf, hl.ok⟩

/-- Declarations of a unit. -/
theorem decls_out : ∀ (ds : List (Nat × String)) {st st' : ScState} {env : ScEnv}, ds.foldlM (fun (st : ScState) d => st.addVar 0 d.1 d.2) st = .ok st' → WFS st → NamesApart st' →
    ScInv st 0 env (ds.map Prod.snd) → ∃ R, ListOut st st' 0 0 R [] [] ((ds.map fun d => (d.2, d.1)).reverse ++ env) []
  | [], st, st', env, h, hw, _, hi => by
    rw [List.foldlM_nil] at h
    cases h
    exact ⟨[], List.Subset.refl _, fun _ _ _ h => h, fun b hb => ⟨b, hb, rfl, rfl, List.Subset.refl _, fun _ _ => rfl⟩, by simp, .nil, fun _ h => (by cases h), hw, hi⟩
  | d :: ds, st, st', env, h, hw, hn, hi => by
    rw [List.foldlM_cons] at h
    cases h1 : st.addVar 0 d.1 d.2 with
    | error e => rw [h1] at h; cases h
    | ok st1 =>
      rw [h1] at h
      have h : ds.foldlM (fun (st : ScState) d => st.addVar 0 d.1 d.2) st1 = .ok st' := h
      have hv : st1.vars ⊆ st'.vars := decls_vars ds h
      have n1 := hn.sub hv
      have hl := decl_out h1 hw n1 hi List.mem_cons_self
      obtain ⟨R, hl2⟩ := decls_out ds h hl.wf hn (hl.inv.mono (List.subset_cons_self _ _))
      have hl' : ListOut st st1 0 0 [d.2] [] [] ((d.2, d.1) :: env) [] := ⟨hl.vars, hl.others, hl.own, hl.uses, hl.ok, hl.place, hl.wf, hl.inv.mono (List.nil_subset _)⟩
      have := hl'.trans hl2 hn (fun _ h => (by cases h))
      simp only [List.map_cons, List.reverse_cons, List.append_assoc, List.cons_append, List.nil_append] at this ⊢
      exact ⟨_, this⟩
where
  decls_vars : ∀ (ds : List (Nat × String)) {st st' : ScState}, ds.foldlM (fun (st : ScState) d => st.addVar 0 d.1 d.2) st = .ok st' → st.vars ⊆ st'.vars
    | [], st, st', h => by
      rw [List.foldlM_nil] at h
      cases h; exact List.Subset.refl _
    | d :: ds, st, st', h => by
      rw [List.foldlM_cons] at h
      cases h1 : st.addVar 0 d.1 d.2 with
      | error e => rw [h1] at h; cases h
      | ok st1 =>
        rw [h1] at h
        exact fun v hv => decls_vars ds h (addVar_ind (varsKept_subset st.vars) h1 (List.Subset.refl _) hv)

/-- Declarations of a unit keep their names. -/
theorem decls_plain : ∀ (ds : List (Nat × String)) {st st' : ScState} {b : ScBlock}, ds.foldlM (fun (st : ScState) d => st.addVar 0 d.1 d.2) st = .ok st' → st.blocks[0]? = some b →
    b.name = "_top" → (∀ v ∈ st.vars, v.name = v.base) → ∀ v ∈ st'.vars, v.name = v.base
  | [], st, st', b, h, _, _, hv => by
    rw [List.foldlM_nil] at h
    cases h; exact hv
  | d :: ds, st, st', b, h, hb, hn, hv => by
    rw [List.foldlM_cons] at h
    cases h1 : st.addVar 0 d.1 d.2 with
    | error e => rw [h1] at h; cases h
    | ok st1 =>
      rw [h1] at h
      have hlt := getElem?_lt hb
      unfold ScState.addVar at h1
      rw [hb] at h1
      simp only at h1
      split at h1
      · cases h1
      · simp only [Except.ok.injEq] at h1
        refine decls_plain ds (st := st1) h (b := { b with rewrites := (d.2, scVIOName b.name d.2) :: b.rewrites, declared := scVIOName b.name d.2 :: b.declared }) ?_ hn ?_
        · rw [← h1]; simp [hlt]
        · rw [← h1]
          intro v hm
          rcases List.mem_cons.mp hm with rfl | hm
          · simp [scVIOName, hn]
          · exact hv v hm

theorem unit_out {decls : List (Nat × String)} {before after body : ScStmts} {st : ScState} (h : gUnit decls before after body = .ok st) (h1 : before.Orderly) (h2 : after.Orderly)
    (h3 : body.Orderly) (hn : NamesApart st) : WFS st ∧ List.Forall₂ (UseRes st) st.uses (scUnit decls before after body) := by
  unfold gUnit at h
  split at h
  · cases h
  · rename_i st0 g0
    split at h
    · cases h
    · rename_i st1 c1 g1
      split at h
      · cases h
      · rename_i st2 c2 g2
        split at h
        · cases h
        · rename_i st3 c3 g3
          simp only [Except.ok.injEq] at h
          subst h
          have n2 : NamesApart st2 := hn.sub (inBlock_vars (fun _ _ _ _ h => by have := gStmts_vars body h; exact this) g3)
          have n1 : NamesApart st1 := n2.sub (inBlock_vars (fun _ _ _ _ h => gStmts_vars after h) g2)
          have n0 : NamesApart st0 := n1.sub (inBlock_vars (fun _ _ _ _ h => gStmts_vars before h) g1)
          obtain ⟨R, hl⟩ := decls_out decls g0 wfs_init n0 (inv_init _)
          have plain := decls_plain decls g0 (b := ⟨"_top", none, none, [], []⟩) rfl rfl (fun _ h => (by cases h))
          rw [List.append_nil] at hl
          unfold scUnit
          generalize (decls.map fun d => (d.2, d.1)).reverse = env at hl ⊢
          obtain ⟨b0, k1, k2, k3, k4, _⟩ := hl.own _ rfl
          have i0 : ∀ D, ScInv st0 0 env D := by
            intro D
            obtain ⟨b, hb, e1, _⟩ := hl.inv
            rw [k1] at hb; cases hb
            exact ⟨b0, k1, e1, fun io hio => by rw [k3] at hio; cases hio⟩
          have ia : ∀ i nm D, st0.blocks[i]? = some ⟨nm, some 0, none, [], []⟩ → ScInv st0 i env D := by
            intro i nm D hb
            refine ⟨_, hb, fun x => ?_, fun _ h => (by cases h)⟩
            obtain ⟨b, hb', e1, _⟩ := i0 []
            have := e1 x
            revert this
            cases assoc env x with
            | none => exact fun _ => ⟨rfl, fun _ h => (by cases h)⟩
            | some d =>
              rintro ⟨v, a1, a2, a3, _, a5⟩
              exact ⟨v, a1, a2, a3, by rw [plain v a1, a3]; rfl, .up hb rfl a5⟩
          have i1 := ia 1 "_always_pre" before.declares (hl.others 1 _ (by decide) rfl)
          have i2 := ia 2 "_always_post" after.declares (hl.others 2 _ (by decide) rfl)
          obtain ⟨us1, s1, _⟩ := inBlock_out (fun _ _ _ _ h hw hn hi => gStmts_out before h h1 (fun _ hx => hx) hw hn hi) (fun _ _ _ _ h => gStmts_vars before h) g1 hl.wf n1 i1
          obtain ⟨us2, s2, _⟩ := inBlock_out (fun _ _ _ _ h hw hn hi => gStmts_out after h h2 (fun _ hx => hx) hw hn hi) (fun _ _ _ _ h => gStmts_vars after h) g2 s1.wf n2 (i2.keep s1 hl.wf n1)
          have s12 := s1.trans s2 n2
          have i3 := (i0 body.declares).keep s12 hl.wf n2
          obtain ⟨us3, s3, _⟩ := inBlock_out (R := runDecls body) (den := (scStmts env body).1) (env2 := (scStmts env body).2) (fun s c s' c' h hw hn hi => by
              obtain ⟨us, hl⟩ := gStmts_out body h h3 (fun _ hx => hx) (WFS.congr (st := s) rfl rfl hw) hn (ScInv.congr (st := s) rfl rfl hi)
              exact ⟨us, hl.vars, hl.others, hl.own, hl.uses, hl.ok, hl.place, hl.wf, hl.inv⟩)
            (fun _ _ _ _ h => by have := gStmts_vars body h; exact this) g3 s12.wf hn i3
          have s123 := s12.trans s3 hn
          have : st3.uses = us1 ++ us2 ++ us3 := by rw [s123.uses, hl.uses]; rfl
          rw [this]
          exact ⟨s123.wf, s123.ok⟩

/-! Reading the result. -/

theorem translate_fix {st : ScState} (hw : WFS st) (hn : NamesApart st) {i : Nat} {b : ScBlock} (hb : st.blocks[i]? = some b) {x : String} {v : ScVar} (hv : v ∈ st.vars)
    (hx : v.base = x) (ht : translate b x = v.name) : ∀ k, translateTimes b k x = v.name := by
  have hfix : translate b v.name = v.name := by
    by_cases he : v.name = v.base
    · rw [he, hx, ht, he, hx]
    · have hr : assoc b.rewrites v.name = none := by
        cases ha : assoc b.rewrites v.name with
        | none => rfl
        | some y =>
          obtain ⟨w, h1, h2, _⟩ := hw.rew i b hb _ _ (assoc_mem ha)
          exact absurd h2 (hn v hv he w h1)
      rw [translate_plain, hr]
      · rfl
      · intro io hio
        cases ha : assoc io v.name with
        | none => rfl
        | some y =>
          obtain ⟨w, h1, h2, _⟩ := hw.io i b hb io hio _ _ (assoc_mem ha)
          exact absurd h2 (hn v hv he w h1)
  have hall : ∀ k, translateTimes b k v.name = v.name := by
    intro k
    induction k with
    | zero => exact hfix
    | succ k ih => rw [translateTimes, hfix, ih]
  intro k
  cases k with
  | zero => exact ht
  | succ k => rw [translateTimes, ht, hall k]

theorem translate_none {b : ScBlock} {x : String} (h : assoc b.rewrites x = none) (hi : ∀ io, b.io = some io → assoc io x = none) : ∀ k, translateTimes b k x = x
  | 0 => by rw [translateTimes, translate_plain hi, h]; rfl
  | k + 1 => by
    rw [translateTimes, translate_plain hi, h]
    exact translate_none h hi k

theorem inScope_of_sees {st : ScState} (hw : WFS st) {i : Nat} {n : String} (h : Sees st.blocks i n) : ∀ m, i < m → inScope st.blocks m i n = true := by
  induction h with
  | here h1 h2 =>
    intro m hm
    obtain ⟨m, rfl⟩ : ∃ k, m = k + 1 := ⟨m - 1, by omega⟩
    rw [inScope, h1]
    simp [h2]
  | @up i p b n h1 h2 _ ih =>
    intro m hm
    obtain ⟨m, rfl⟩ : ∃ k, m = k + 1 := ⟨m - 1, by omega⟩
    have := hw.up _ _ h1 _ h2
    rw [inScope, h1]
    simp only [h2]
    rw [ih m (by omega)]
    simp

/-! Names made by the compiler, from the source. -/

/-- Where names come from. -/
structure SrcOk (L X : List String) (S : List (String × Nat × Bool × String)) (st : ScState) : Prop where
  blocks : ∀ b ∈ st.blocks, b.name = "_top" ∨ b.name.toList.head? = some '_' ∨ b.name ∈ L
  vars : ∀ v ∈ st.vars, (v.base ∈ X ∧ (v.name = v.base ∨ ∃ h, (h.toList.head? = some '_' ∨ h ∈ L) ∧ v.name = h ++ "_" ++ v.base)) ∨ ∃ q ∈ S, v.base = q.2.2.2 ∧ v.name = paramVar q.1 q.2

section
variable {L X : List String} {S : List (String × Nat × Bool × String)}

theorem SrcOk.addBlock {st st' : ScState} {name : String} {parent cur : Nat} (h : st.addBlock name parent = .ok (st', cur)) (hn : name.toList.head? = some '_' ∨ name ∈ L)
    (hq : SrcOk L X S st) : SrcOk L X S st' := by
  unfold ScState.addBlock at h
  split at h
  · cases h
  · simp only [Except.ok.injEq, Prod.mk.injEq] at h
    obtain ⟨rfl, _⟩ := h
    refine ⟨?_, hq.vars⟩
    intro b hb
    rcases List.mem_append.mp hb with hb | hb
    · exact hq.blocks b hb
    · simp only [List.mem_singleton] at hb
      subst hb
      exact .inr hn

theorem SrcOk.congr {st st' : ScState} (hq : SrcOk L X S st) (hb : st'.blocks = st.blocks) (hv : st'.vars = st.vars) : SrcOk L X S st' := ⟨by rw [hb]; exact hq.blocks, by rw [hv]; exact hq.vars⟩

theorem SrcOk.newBlock {st st' : ScState} {pre post : String} {parent cur : Nat} (h : st.newBlock pre post parent = .ok (st', cur)) (hp : pre = "" ∨ pre = "__while" ∨ pre = "__stage_")
    (hq : SrcOk L X S st) : SrcOk L X S st' := by
  unfold ScState.newBlock at h
  refine SrcOk.addBlock h (.inl ?_) (hq.congr rfl rfl)
  rcases hp with rfl | rfl | rfl <;> simp [ScState.genName, String.toList_append]

theorem SrcOk.inBlock {st st' : ScState} {c cur : Nat} {k : ScState → Nat → Except ScErr (ScState × Nat)} (hk : ∀ s c s' c', k s c = .ok (s', c') → SrcOk L X S s → SrcOk L X S s')
    (h : st.inBlock c k = .ok (st', cur)) (hq : SrcOk L X S st) : SrcOk L X S st' := by
  unfold ScState.inBlock at h
  split at h
  · cases h
  · rename_i st1 nb h1
    split at h
    · cases h
    · rename_i st2 c2 h2
      exact (hk _ _ _ _ h2 ((hq.newBlock h1 (.inl rfl)).congr rfl rfl)).newBlock h (.inl rfl)

theorem SrcOk.addVar {st st' : ScState} {cur d : Nat} {x : String} (h : st.addVar cur d x = .ok st') (hx : x ∈ X) (hq : SrcOk L X S st) : SrcOk L X S st' := by
  unfold ScState.addVar at h
  split at h
  · cases h
  · rename_i b hb
    split at h
    · cases h
    · simp only [Except.ok.injEq] at h
      subst h
      have hm := List.mem_of_getElem? hb
      refine ⟨?_, ?_⟩
      · intro c hc
        rcases List.mem_or_eq_of_mem_set hc with hc | rfl
        · exact hq.blocks c hc
        · exact hq.blocks b hm
      · intro v hv
        rcases List.mem_cons.mp hv with rfl | hv
        · refine .inl ⟨hx, ?_⟩
          show scVIOName b.name x = x ∨ _
          unfold scVIOName
          by_cases ht : b.name = "_top"
          · simp [ht]
          · rw [if_pos ht]
            exact .inr ⟨b.name, (hq.blocks b hm).resolve_left ht, rfl⟩
        · exact hq.vars v hv

theorem SrcOk.addParams {f : String} : ∀ (ps : List (Nat × Bool × String)) {st st' : ScState} {cur : Nat} {io : List (String × String)}, st.addParams cur f ps = .ok (st', io) →
    (∀ p ∈ ps, (f, p) ∈ S) → SrcOk L X S st → SrcOk L X S st'
  | [], st, st', cur, io, h, _, hq => by
    simp only [ScState.addParams, Except.ok.injEq, Prod.mk.injEq] at h
    rw [← h.1]; exact hq
  | p :: ps, st, st', cur, io, h, hs, hq => by
    rw [ScState.addParams] at h
    split at h
    · cases h
    · split at h
      · cases h
      · rename_i b hb
        split at h
        · cases h
        · rename_i st1 io1 h1
          simp only [Except.ok.injEq, Prod.mk.injEq] at h
          rw [← h.1]
          refine SrcOk.addParams ps h1 (fun q hq => hs q (List.mem_cons_of_mem _ hq)) ⟨?_, ?_⟩
          · intro c hc
            rcases List.mem_or_eq_of_mem_set hc with hc | rfl
            · exact hq.blocks c hc
            · exact hq.blocks b (List.mem_of_getElem? hb)
          · intro v hv
            rcases List.mem_cons.mp hv with rfl | hv
            · exact .inr ⟨(f, p), hs p List.mem_cons_self, rfl, rfl⟩
            · exact hq.vars v hv

mutual
theorem gStmt_src : ∀ (s : ScStmt) {st st' : ScState} {cur cur' : Nat}, gStmt st cur s = .ok (st', cur') → s.labels ⊆ L → s.declares ⊆ X → s.params ⊆ S → SrcOk L X S st → SrcOk L X S st'
  | .decl d x, st, st', cur, cur', h, _, hX, _, hq => by
    simp only [gStmt] at h
    split at h
    · cases h
    · rename_i st1 h1
      simp only [Except.ok.injEq, Prod.mk.injEq] at h
      rw [← h.1]; exact hq.addVar h1 (hX List.mem_cons_self)
  | .use u x, st, st', cur, cur', h, _, _, _, hq => by
    simp only [gStmt, Except.ok.injEq, Prod.mk.injEq] at h
    rw [← h.1]; exact hq.congr rfl rfl
  | .step none, st, st', cur, cur', h, _, _, _, hq => by
    simp only [gStmt] at h
    exact SrcOk.newBlock h (.inl rfl) (hq.congr rfl rfl)
  | .step (some l), st, st', cur, cur', h, hL, _, _, hq => by
    simp only [gStmt] at h
    exact SrcOk.addBlock h (.inr (hL List.mem_cons_self)) (hq.congr rfl rfl)
  | .cut, st, st', cur, cur', h, _, _, _, hq => by
    simp only [gStmt] at h
    exact SrcOk.newBlock h (.inl rfl) (hq.congr rfl rfl)
  | .block b, st, st', cur, cur', h, hL, hX, hS, hq => by
    simp only [gStmt] at h
    exact hq.inBlock (fun _ _ _ _ h => gStmts_src b h hL hX hS) h
  | .ifElse t e, st, st', cur, cur', h, hL, hX, hS, hq => by
    simp only [gStmt] at h
    simp only [ScStmt.labels, ScStmt.declares, ScStmt.params, List.append_subset] at hL hX hS
    split at h
    · cases h
    · rename_i st1 ib h1
      split at h
      · cases h
      · rename_i st2 eb h2
        split at h
        · cases h
        · rename_i st3 c3 h3
          split at h
          · cases h
          · rename_i st4 c4 h4
            have q2 := SrcOk.newBlock h2 (.inl rfl) (SrcOk.newBlock h1 (.inl rfl) (hq.congr rfl rfl))
            have q3 := q2.inBlock (fun _ _ _ _ h => gStmts_src t h hL.1 hX.1 hS.1) h3
            exact (q3.inBlock (fun _ _ _ _ h => gStmts_src e h hL.2 hX.2 hS.2) h4).newBlock h (.inl rfl)
  | .ifThen t, st, st', cur, cur', h, hL, hX, hS, hq => by
    simp only [gStmt] at h
    split at h
    · cases h
    · rename_i st1 ib h1
      split at h
      · cases h
      · rename_i st2 eb h2
        split at h
        · cases h
        · rename_i st3 c3 h3
          have q2 := SrcOk.newBlock h2 (.inl rfl) (SrcOk.newBlock h1 (.inl rfl) (hq.congr rfl rfl))
          exact (q2.inBlock (fun _ _ _ _ h => gStmts_src t h hL hX hS) h3).newBlock h (.inl rfl)
  | .switch cs, st, st', cur, cur', h, hL, hX, hS, hq => by
    simp only [gStmt] at h
    split at h
    · cases h
    · rename_i st1 after h1
      split at h
      · cases h
      · rename_i st2 h2
        simp only [Except.ok.injEq, Prod.mk.injEq] at h
        rw [← h.1]
        exact gCases_src cs h2 hL hX hS (SrcOk.newBlock h1 (.inl rfl) (hq.congr rfl rfl))
  | .loop b, st, st', cur, cur', h, hL, hX, hS, hq => by
    simp only [gStmt] at h
    split at h
    · cases h
    · rename_i st1 c1 h1
      split at h
      · cases h
      · rename_i st2 iter h2
        split at h
        · cases h
        · rename_i st3 after h3
          split at h
          · cases h
          · rename_i st4 c4 h4
            simp only [Except.ok.injEq, Prod.mk.injEq] at h
            rw [← h.1]
            have q3 := SrcOk.newBlock h3 (.inl rfl) (SrcOk.newBlock h2 (.inl rfl) (SrcOk.newBlock h1 (.inr (.inl rfl)) (hq.congr rfl rfl)))
            exact (q3.inBlock (fun _ _ _ _ h => gStmts_src b h hL hX hS) h4).congr rfl rfl
  | .pipe stages, st, st', cur, cur', h, hL, hX, hS, hq => by
    simp only [gStmt] at h
    split at h
    · cases h
    · rename_i st1 h1
      exact SrcOk.newBlock h (.inl rfl) ((gStages_src stages h1 hL hX hS (hq.congr rfl rfl)).congr rfl rfl)
  | .sub f ps b, st, st', cur, cur', h, hL, hX, hS, hq => by
    simp only [gStmt] at h
    simp only [ScStmt.params, List.append_subset] at hS
    split at h
    · cases h
    · split at h
      · cases h
      · split at h
        · cases h
        · split at h
          · cases h
          · rename_i st1 io h1
            split at h
            · cases h
            · rename_i c hc
              split at h
              · cases h
              · rename_i st2 c2 h2
                simp only [Except.ok.injEq, Prod.mk.injEq] at h
                rw [← h.1]
                have q1 := hq.addParams ps h1 (fun p hp => hS.1 (List.mem_map.mpr ⟨p, hp, rfl⟩))
                refine (gStmts_src b h2 hL hX hS.2 ⟨?_, q1.vars⟩).congr rfl rfl
                intro d hd
                rcases List.mem_append.mp hd with hd | hd
                · exact q1.blocks d hd
                · simp only [List.mem_singleton] at hd
                  subst hd
                  exact .inr (.inl (by simp [String.toList_append]))

theorem gStmts_src : ∀ (s : ScStmts) {st st' : ScState} {cur cur' : Nat}, gStmts st cur s = .ok (st', cur') → s.labels ⊆ L → s.declares ⊆ X → s.params ⊆ S → SrcOk L X S st → SrcOk L X S st'
  | .nil, st, st', cur, cur', h, _, _, _, hq => by
    simp only [gStmts, Except.ok.injEq, Prod.mk.injEq] at h
    rw [← h.1]; exact hq
  | .cons s r, st, st', cur, cur', h, hL, hX, hS, hq => by
    simp only [gStmts] at h
    simp only [ScStmts.labels, ScStmts.declares, ScStmts.params, List.append_subset] at hL hX hS
    split at h
    · cases h
    · rename_i st1 cur1 h1
      exact gStmts_src r h hL.2 hX.2 hS.2 (gStmt_src s h1 hL.1 hX.1 hS.1 hq)

theorem gCases_src : ∀ (cs : ScCases) {st st' : ScState} {cur : Nat}, gCases st cur cs = .ok st' → cs.labels ⊆ L → cs.declares ⊆ X → cs.params ⊆ S → SrcOk L X S st → SrcOk L X S st'
  | .nil, st, st', cur, h, _, _, _, hq => by
    simp only [gCases, Except.ok.injEq] at h
    rw [← h]; exact hq
  | .cons b r, st, st', cur, h, hL, hX, hS, hq => by
    simp only [gCases] at h
    simp only [ScCases.labels, ScCases.declares, ScCases.params, List.append_subset] at hL hX hS
    split at h
    · cases h
    · rename_i st1 cb h1
      split at h
      · cases h
      · rename_i st2 c2 h2
        exact gCases_src r h hL.2 hX.2 hS.2 ((hq.newBlock h1 (.inl rfl)).inBlock (fun _ _ _ _ h => gStmts_src b h hL.1 hX.1 hS.1) h2)

theorem gStages_src : ∀ (cs : ScCases) {st st' : ScState} {cur : Nat}, gStages st cur cs = .ok st' → cs.labels ⊆ L → cs.declares ⊆ X → cs.params ⊆ S → SrcOk L X S st → SrcOk L X S st'
  | .nil, st, st', cur, h, _, _, _, hq => by
    simp only [gStages, Except.ok.injEq] at h
    rw [← h]; exact hq
  | .cons b r, st, st', cur, h, hL, hX, hS, hq => by
    simp only [gStages] at h
    simp only [ScCases.labels, ScCases.declares, ScCases.params, List.append_subset] at hL hX hS
    split at h
    · cases h
    · rename_i st1 cb h1
      split at h
      · cases h
      · rename_i st2 c2 h2
        exact gStages_src r h hL.2 hX.2 hS.2 (gStmts_src b h2 hL.1 hX.1 hS.1 (hq.newBlock h1 (.inr (.inr rfl))))
end

/-- Names made by the compiler are not declared in a source with plain names. -/
theorem SrcOk.apart {st : ScState} (hq : SrcOk L X S st) (hp : PlainNames X L S) : NamesApart st := by
  have hbase : ∀ v ∈ st.vars, v.base ∈ X ∨ v.base ∈ S.map (fun q => q.2.2.2) := by
    intro v hv
    rcases hq.vars v hv with ⟨h, _⟩ | ⟨q, h1, h2, _⟩
    · exact .inl h
    · exact .inr (List.mem_map.mpr ⟨q, h1, h2.symm⟩)
  intro v hv hne w hw he
  obtain ⟨p1, p2, p3⟩ := hp w.base (hbase w hw)
  rcases hq.vars v hv with ⟨hX, h | ⟨h, h1 | h1, h2⟩⟩ | ⟨q, h1, _, h3⟩
  · exact hne h
  · apply p1
    rw [he, h2]
    simp only [String.toList_append]
    cases hl : h.toList with
    | nil => rw [hl] at h1; cases h1
    | cons a r => rw [hl] at h1; simpa using h1
  · exact p2 h h1 v.base (.inl hX) (he.trans h2)
  · exact p3 q h1 (he.trans h3)

end

end Silice
