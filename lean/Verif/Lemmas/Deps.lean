import Verif.Spec.Deps

set_option autoImplicit false

namespace Silice

/-- One of the two bits. -/
def QD.bit (b : Bool) (f : QD) : Bool := if b then f.d else f.q

theorem QD.ext_bit {f g : QD} (h : ∀ b, f.bit b = g.bit b) : f = g := by
  cases f; cases g
  have h1 := h true
  have h2 := h false
  simp only [QD.bit, if_true, Bool.false_eq_true, if_false] at h1 h2
  simp [h1, h2]

theorem QD.here_iff (f : QD) : f.here = true ↔ ∃ b, f.bit b = true := by
  simp [QD.here, QD.bit]

theorem QD.here_iff' (f : QD) : f.here = true ↔ f.q = true ∨ f.d = true := by
  simp [QD.here]

theorem closeKey_bit (D : Deps) (w a x : String) (b : Bool) :
    (((D.closeKey w).on a x).bit b = true) ↔
      ((D.on a x).bit b = true) ∨ (a = w ∧ ∃ y ∈ D.keys, (D.on w y).here = true ∧ (D.on y x).bit b = true) := by
  by_cases h : a = w
  · subst h
    cases b <;> simp [Deps.closeKey, QD.bit]
  · simp [Deps.closeKey, h]

@[simp] theorem closeKey_keys (D : Deps) (w : String) : (D.closeKey w).keys = D.keys := rfl
@[simp] theorem closeKey_names (D : Deps) (w : String) : (D.closeKey w).names = D.names := rfl

/-- Fewer bits. -/
def Deps.Le (D E : Deps) : Prop := ∀ w x b, (D.on w x).bit b = true → (E.on w x).bit b = true

theorem Deps.Le.refl (D : Deps) : D.Le D := fun _ _ _ h => h
theorem Deps.Le.trans {D E F : Deps} (h : D.Le E) (h' : E.Le F) : D.Le F := fun w x b m => h' w x b (h w x b m)
theorem Deps.Le.antisymm {D E : Deps} (h : D.Le E) (h' : E.Le D) : D.on = E.on := by
  funext w x
  apply QD.ext_bit
  intro b
  have h1 := h w x b
  have h2 := h' w x b
  cases e1 : (D.on w x).bit b <;> cases e2 : (E.on w x).bit b <;> simp_all

theorem le_closeKey (D : Deps) (w : String) : D.Le (D.closeKey w) := by
  intro a x b h
  rw [closeKey_bit]
  exact Or.inl h

theorem foldl_closeKey (l : List String) : ∀ D : Deps,
    (l.foldl Deps.closeKey D).keys = D.keys ∧ (l.foldl Deps.closeKey D).names = D.names ∧ D.Le (l.foldl Deps.closeKey D) := by
  induction l with
  | nil => intro D; exact ⟨rfl, rfl, Deps.Le.refl D⟩
  | cons a l ih =>
    intro D
    obtain ⟨h1, h2, h3⟩ := ih (D.closeKey a)
    exact ⟨h1, h2, (le_closeKey D a).trans h3⟩

@[simp] theorem closePass_keys (D : Deps) : D.closePass.keys = D.keys := (foldl_closeKey _ D).1
@[simp] theorem closePass_names (D : Deps) : D.closePass.names = D.names := (foldl_closeKey _ D).2.1
theorem le_closePass (D : Deps) : D.Le D.closePass := (foldl_closeKey _ D).2.2

/-- If a turn changes nothing, no variable of the list could have been extended. -/
theorem foldl_fix (l : List String) : ∀ D : Deps, (l.foldl Deps.closeKey D).on = D.on → ∀ w ∈ l, (D.closeKey w).on = D.on := by
  induction l with
  | nil => intro D _ w hw; simp at hw
  | cons a l ih =>
    intro D h w hw
    have h1 : (D.closeKey a).on = D.on := by
      refine Deps.Le.antisymm (D := D.closeKey a) ?_ (le_closeKey D a)
      have := (foldl_closeKey l (D.closeKey a)).2.2
      intro w x b m
      have := this w x b m
      rw [List.foldl_cons] at h
      rwa [h] at this
    have hD : D.closeKey a = D := by
      have : D.closeKey a = { D with on := (D.closeKey a).on } := rfl
      rw [this, h1]
    rcases List.mem_cons.mp hw with rfl | hw
    · exact h1
    · refine ih D ?_ w hw
      rw [List.foldl_cons, hD] at h
      exact h

theorem wf_bit {D : Deps} (h : D.Wf) {w x : String} {b : Bool} (hb : (D.on w x).bit b = true) : w ∈ D.keys ∧ x ∈ D.names := by
  apply h
  cases b
  · left; simpa [QD.bit] using hb
  · right; simpa [QD.bit] using hb

theorem wf_of_bit {D : Deps} (h : ∀ w x b, (D.on w x).bit b = true → w ∈ D.keys ∧ x ∈ D.names) : D.Wf := by
  rintro w x (hb | hb)
  · exact h w x false (by simpa [QD.bit] using hb)
  · exact h w x true (by simpa [QD.bit] using hb)

theorem wf_closeKey {D : Deps} (h : D.Wf) (w : String) : (D.closeKey w).Wf := by
  apply wf_of_bit
  intro a x b hb
  rw [closeKey_bit] at hb
  rcases hb with hb | ⟨rfl, y, _, h1, h2⟩
  · exact wf_bit h hb
  · obtain ⟨b', h1⟩ := (QD.here_iff _).mp h1
    exact ⟨(wf_bit h h1).1, (wf_bit h h2).2⟩

theorem wf_foldl (l : List String) : ∀ {D : Deps}, D.Wf → (l.foldl Deps.closeKey D).Wf := by
  induction l with
  | nil => intro D h; exact h
  | cons a l ih => intro D h; exact ih (wf_closeKey h a)

theorem wf_closePass {D : Deps} (h : D.Wf) : D.closePass.Wf := wf_foldl _ h

theorem same_iff {D : Deps} (h : D.Wf) : D.same D.closePass = true ↔ D.closePass.on = D.on := by
  constructor
  · intro hs
    simp only [Deps.same, List.all_eq_true, decide_eq_true_eq] at hs
    funext w x
    by_cases hw : w ∈ D.keys ∧ x ∈ D.names
    · exact (hs w hw.1 x hw.2).symm
    · apply QD.ext_bit
      intro b
      have n1 : ¬ (D.on w x).bit b = true := fun m => hw (wf_bit h m)
      have n2 : ¬ (D.closePass.on w x).bit b = true := fun m => hw (by simpa using wf_bit (wf_closePass h) m)
      simp only [Bool.not_eq_true] at n1 n2
      rw [n1, n2]
  · intro e
    simp [Deps.same, e]

/-! ### What is recorded is reachable -/

/-- All bits of `E` are justified in `D`. -/
def Justified (D E : Deps) : Prop :=
  E.keys = D.keys ∧ ∀ w x b, (E.on w x).bit b = true → ∃ y, D.Reaches w y ∧ (D.on y x).bit b = true

theorem direct_of_bit {D : Deps} {w y : String} {b : Bool} (hy : y ∈ D.keys) (h : (D.on w y).bit b = true) : D.Direct w y := by
  refine ⟨hy, ?_⟩
  cases b
  · left; simpa [QD.bit] using h
  · right; simpa [QD.bit] using h

theorem justified_closeKey {D E : Deps} (h : Justified D E) (w : String) : Justified D (E.closeKey w) := by
  refine ⟨h.1, ?_⟩
  intro a x b hb
  rw [closeKey_bit] at hb
  rcases hb with hb | ⟨rfl, y, hy, h1, h2⟩
  · exact h.2 a x b hb
  · obtain ⟨b', h1⟩ := (QD.here_iff _).mp h1
    obtain ⟨z, r1, hz⟩ := h.2 a y b' h1
    obtain ⟨z', r2, hz'⟩ := h.2 y x b h2
    exact ⟨z', (r1.tail (direct_of_bit (h.1 ▸ hy) hz)).trans r2, hz'⟩

theorem justified_foldl (l : List String) {D : Deps} : ∀ {E : Deps}, Justified D E → Justified D (l.foldl Deps.closeKey E) := by
  induction l with
  | nil => intro E h; exact h
  | cons a l ih => intro E h; exact ih (justified_closeKey h a)

theorem justified_closePass {D E : Deps} (h : Justified D E) : Justified D E.closePass := justified_foldl _ h

theorem justified_refl (D : Deps) : Justified D D := ⟨rfl, fun _ _ _ hb => ⟨_, .refl, hb⟩⟩

/-! ### What is reachable is recorded -/

theorem fix_trans {D : Deps} (h : D.closePass.on = D.on) {w y x : String} {b b' : Bool} (hw : w ∈ D.keys) (hy : y ∈ D.keys)
    (h1 : (D.on w y).bit b' = true) (h2 : (D.on y x).bit b = true) : (D.on w x).bit b = true := by
  rw [← foldl_fix _ D h w hw, closeKey_bit]
  exact Or.inr ⟨rfl, y, hy, (QD.here_iff _).mpr ⟨b', h1⟩, h2⟩

theorem fix_reaches {D E : Deps} (hk : E.keys = D.keys) (hle : D.Le E) (h : E.closePass.on = E.on) {w y : String} (hw : w ∈ D.keys)
    (hr : D.Reaches w y) {x : String} {b : Bool} (hx : (D.on y x).bit b = true) : (E.on w x).bit b = true := by
  induction hr using Relation.ReflTransGen.head_induction_on with
  | refl => exact hle y x b hx
  | @head a c hac _ ih =>
    obtain ⟨hc, hd⟩ := hac
    have hE : ∃ b', (E.on a c).bit b' = true := by
      rcases hd with hd | hd
      · exact ⟨false, hle a c false (by simpa [QD.bit] using hd)⟩
      · exact ⟨true, hle a c true (by simpa [QD.bit] using hd)⟩
    obtain ⟨b', hE⟩ := hE
    exact fix_trans h (hk ▸ hw) (hk ▸ hc) hE (ih hc)

theorem closure_spec {D0 : Deps} : ∀ (fuel : Nat) (D D' : Deps), Justified D0 D → D0.Le D → D.Wf → D.names = D0.names →
    Deps.closure fuel D = some D' →
    D'.Wf ∧ D'.keys = D0.keys ∧ D'.names = D0.names ∧ Justified D0 D' ∧ D0.Le D' ∧ D'.closePass.on = D'.on
  | 0, D, D', _, _, _, _, e => by simp [Deps.closure] at e
  | fuel + 1, D, D', hj, hl, hwf, hn, e => by
    simp only [Deps.closure] at e
    by_cases hs : D.same D.closePass = true
    · rw [if_pos hs] at e
      simp only [Option.some.injEq] at e
      have hon := (same_iff hwf).mp hs
      have hD : D.closePass = D := by
        have : D.closePass = ⟨D.closePass.keys, D.closePass.names, D.closePass.on⟩ := rfl
        rw [this, closePass_keys, closePass_names, hon]
      rw [hD] at e
      subst e
      exact ⟨hwf, hj.1, hn, hj, hl, hon⟩
    · rw [if_neg hs] at e
      exact closure_spec fuel _ _ (justified_closePass hj) (hl.trans (le_closePass D)) (wf_closePass hwf) (by simpa using hn) e

/-! ### The loop ends -/

/-- Number of bits of an entry. -/
def QD.bits (f : QD) : Nat := f.q.toNat + f.d.toNat

theorem bits_le {f g : QD} (h : ∀ b, f.bit b = true → g.bit b = true) : f.bits ≤ g.bits := by
  have h1 := h true
  have h2 := h false
  obtain ⟨fq, fd⟩ := f
  obtain ⟨gq, gd⟩ := g
  cases fq <;> cases fd <;> cases gq <;> cases gd <;> simp_all [QD.bit, QD.bits]

theorem bits_lt {f g : QD} (h : ∀ b, f.bit b = true → g.bit b = true) (hne : f ≠ g) : f.bits < g.bits := by
  have h1 := h true
  have h2 := h false
  obtain ⟨fq, fd⟩ := f
  obtain ⟨gq, gd⟩ := g
  cases fq <;> cases fd <;> cases gq <;> cases gd <;> simp_all [QD.bit, QD.bits]

theorem bits_le_two (f : QD) : f.bits ≤ 2 := by
  obtain ⟨fq, fd⟩ := f
  cases fq <;> cases fd <;> simp [QD.bits]

/-- Sum over a list. -/
def sumOf {A : Type} (l : List A) (f : A → Nat) : Nat := (l.map f).sum

theorem sumOf_le {A : Type} (l : List A) {f g : A → Nat} (h : ∀ a ∈ l, f a ≤ g a) : sumOf l f ≤ sumOf l g := by
  induction l with
  | nil => simp [sumOf]
  | cons a l ih =>
    have h1 := h a (by simp)
    have h2 := ih fun b hb => h b (by simp [hb])
    simp only [sumOf, List.map_cons, List.sum_cons] at h2 ⊢
    omega

theorem sumOf_lt {A : Type} (l : List A) {f g : A → Nat} (h : ∀ a ∈ l, f a ≤ g a) {a : A} (ha : a ∈ l) (hlt : f a < g a) :
    sumOf l f < sumOf l g := by
  induction l with
  | nil => simp at ha
  | cons c l ih =>
    have h1 := h c (by simp)
    have h2 := sumOf_le l fun b hb => h b (by simp [hb])
    rcases List.mem_cons.mp ha with rfl | ha
    · simp only [sumOf, List.map_cons, List.sum_cons] at h2 ⊢
      omega
    · have h3 := ih (fun b hb => h b (by simp [hb])) ha
      simp only [sumOf, List.map_cons, List.sum_cons] at h3 ⊢
      omega

theorem sumOf_const_le {A : Type} (l : List A) {f : A → Nat} {k : Nat} (h : ∀ a ∈ l, f a ≤ k) : sumOf l f ≤ l.length * k := by
  induction l with
  | nil => simp [sumOf]
  | cons a l ih =>
    have h1 := h a (by simp)
    have h2 := ih fun b hb => h b (by simp [hb])
    simp only [sumOf, List.map_cons, List.sum_cons, List.length_cons, Nat.succ_mul] at h2 ⊢
    omega

/-- Bits recorded. -/
def Deps.weight (D : Deps) : Nat := sumOf D.keys fun w => sumOf D.names fun x => (D.on w x).bits

theorem weight_le (D : Deps) : D.weight ≤ D.keys.length * (D.names.length * 2) :=
  sumOf_const_le _ fun _ _ => sumOf_const_le _ fun _ _ => bits_le_two _

theorem weight_lt {D : Deps} (h : ¬ D.same D.closePass = true) : D.weight < D.closePass.weight := by
  have hle := le_closePass D
  simp only [Deps.weight, closePass_keys, closePass_names]
  simp only [Deps.same, List.all_eq_true, decide_eq_true_eq, not_forall] at h
  obtain ⟨w, hw, x, hx, hne⟩ := h
  refine sumOf_lt _ (fun a _ => sumOf_le _ fun c _ => bits_le (hle a c)) hw ?_
  exact sumOf_lt _ (fun c _ => bits_le (hle w c)) hx (bits_lt (hle w x) hne)

theorem closure_total : ∀ (fuel : Nat) (D : Deps), D.keys.length * (D.names.length * 2) < D.weight + fuel →
    ∃ D', Deps.closure fuel D = some D'
  | 0, D, h => by
    have := weight_le D
    omega
  | fuel + 1, D, h => by
    simp only [Deps.closure]
    by_cases hs : D.same D.closePass = true
    · rw [if_pos hs]
      exact ⟨_, rfl⟩
    · rw [if_neg hs]
      have := weight_lt hs
      exact closure_total fuel _ (by simp only [closePass_keys, closePass_names]; omega)

theorem closure_mono : ∀ (fuel : Nat) (D D' : Deps), Deps.closure fuel D = some D' → ∀ k, Deps.closure (fuel + k) D = some D'
  | 0, D, D', h, _ => by simp [Deps.closure] at h
  | fuel + 1, D, D', h, k => by
    rw [show fuel + 1 + k = (fuel + k) + 1 by omega]
    simp only [Deps.closure] at h ⊢
    by_cases hs : D.same D.closePass = true
    · rw [if_pos hs] at h ⊢
      exact h
    · rw [if_neg hs] at h ⊢
      exact closure_mono fuel _ _ h k

/-! ### Instructions -/

theorem mem_addNew {l l' : List String} {x : String} : x ∈ addNew l l' ↔ x ∈ l ∨ x ∈ l' := by
  simp only [addNew, List.mem_append, List.mem_filter, decide_eq_true_eq]
  constructor
  · rintro (h | h)
    · exact Or.inl h
    · exact Or.inr h.1
  · rintro (h | h)
    · exact Or.inl h
    · by_cases hx : x ∈ l
      · exact Or.inl hx
      · exact Or.inr ⟨h, hx⟩

theorem assign_wf {D : Deps} (h : D.Wf) (reads writes : List String) : (D.assign reads writes).Wf := by
  intro w x hb
  simp only [Deps.assign, mem_addNew, List.mem_append] at hb ⊢
  by_cases hw : w ∈ writes
  · rw [if_pos hw] at hb
    by_cases hx : x ∈ reads
    · exact ⟨Or.inr hw, Or.inr (Or.inl hx)⟩
    · rw [if_neg hx] at hb
      simp at hb
  · rw [if_neg hw] at hb
    obtain ⟨h1, h2⟩ := h w x hb
    exact ⟨Or.inl h1, Or.inl h2⟩

theorem empty_wf : Deps.empty.Wf := by
  intro w x h
  simp [Deps.empty] at h

/-- What an accepted instruction yields. -/
theorem instr_ok {fuel : Nat} {D D' : Deps} {reads writes : List String} (hwf : D.Wf)
    (e : Deps.instr fuel D reads writes = some (.ok D')) :
    D'.Wf ∧ D'.keys = addNew D.keys writes ∧ (D.assign reads writes).Le D' ∧ Justified (D.assign reads writes) D' ∧
      D'.closePass.on = D'.on ∧ ∀ w ∈ writes, (D'.on w w).d = false := by
  simp only [Deps.instr, Option.map_eq_some_iff] at e
  obtain ⟨E, hc, e⟩ := e
  obtain ⟨h1, h2, _, h4, h5, h6⟩ := closure_spec fuel _ _ (justified_refl _) (Deps.Le.refl _) (assign_wf hwf reads writes) rfl hc
  cases hf : writes.find? fun w => (E.on w w).d with
  | some w => rw [hf] at e; simp at e
  | none =>
    rw [hf] at e
    simp only [Except.ok.injEq] at e
    subst e
    refine ⟨h1, h2, h5, h4, h6, ?_⟩
    intro w hw
    have := List.find?_eq_none.mp hf w hw
    simpa using this

theorem addNew_keys_sub {D D' : Deps} {writes : List String} (h : D'.keys = addNew D.keys writes) {x : String} (hx : x ∈ D.keys) :
    x ∈ D'.keys := by rw [h, mem_addNew]; exact Or.inl hx

/-- Last instruction among the first `n` that writes `y`. -/
def LastWrite (is : List (List String × List String)) (n j : Nat) (y : String) : Prop :=
  j < n ∧ (∃ i, is[j]? = some i ∧ y ∈ i.2) ∧ ∀ m im, j < m → m < n → is[m]? = some im → y ∉ im.2

/-- Invariant of accepted sequences. -/
structure DepInv (is : List (List String × List String)) (n : Nat) (D : Deps) : Prop where
  wf : D.Wf
  keys : ∀ j y, LastWrite is n j y → y ∈ D.keys
  deps : ∀ j y, LastWrite is n j y → ∀ p, UsesTrans is p (j, y) → (D.on y p.2).bit true = true
  clean : ∀ j k y, k < n → ¬ UsesTrans is (j, y) (k, y)

theorem depInv_init (is : List (List String × List String)) : DepInv is 0 Deps.empty where
  wf := empty_wf
  keys := fun _ _ h => absurd h.1 (by omega)
  deps := fun _ _ h => absurd h.1 (by omega)
  clean := fun _ _ _ h => absurd h (by omega)

theorem depInv_step {is : List (List String × List String)} {n : Nat} {D D' : Deps} {fuel : Nat} (h : DepInv is n D)
    {i : List String × List String} (hi : is[n]? = some i) (e : Deps.instr fuel D i.1 i.2 = some (.ok D')) :
    DepInv is (n + 1) D' := by
  obtain ⟨hwf, hkeys, hle, _, hfix, hself⟩ := instr_ok h.wf e
  -- a variable not written keeps its last writer
  have hlast : ∀ j y, LastWrite is (n + 1) j y → (j = n ∧ y ∈ i.2) ∨ (y ∉ i.2 ∧ LastWrite is n j y) := by
    rintro j y ⟨h1, ⟨ij, h2, h3⟩, h4⟩
    by_cases hj : j = n
    · subst hj
      rw [hi] at h2
      cases h2
      exact Or.inl ⟨rfl, h3⟩
    · have hjn : j < n := by omega
      exact Or.inr ⟨h4 n i hjn (by omega) hi, hjn, ⟨ij, h2, h3⟩, fun m im a b c => h4 m im a (by omega) c⟩
  -- what the instruction itself uses
  have hnew : ∀ y ∈ i.2, ∀ p, UsesTrans is p (n, y) → (D'.on y p.2).bit true = true := by
    intro y hy p hp
    have hyk : y ∈ D'.keys := by rw [hkeys, mem_addNew]; exact Or.inr hy
    have one : ∀ p1 : Nat × String, Uses is p1 (n, y) → LastWrite is n p1.1 p1.2 ∧ p1.2 ∈ D'.keys ∧ p1.2 ∉ i.2 ∧ (D'.on y p1.2).bit true = true := by
      rintro ⟨j1, x1⟩ ⟨ij, ik, h1, h2, h3, h4, h5, _, h6⟩
      simp only at h1 h2 h3 h4 h5 h6 ⊢
      rw [hi] at h2
      cases h2
      have hl : LastWrite is n j1 x1 := ⟨h3, ⟨ij, h1, h4⟩, h6⟩
      have hx1 := h.keys j1 x1 hl
      have hbit : ∀ z ∈ i.2, (D'.on z x1).bit true = true := by
        intro z hz
        apply hle z x1 true
        simp [Deps.assign, hz, h5, Deps.side, hx1, QD.bit]
      refine ⟨hl, addNew_keys_sub hkeys hx1, ?_, hbit y hy⟩
      intro hxi
      have h7 := hbit x1 hxi
      have h8 := hself x1 hxi
      simp [QD.bit, h8] at h7
    rcases Relation.TransGen.tail'_iff.mp hp with ⟨p1, hr, hu⟩
    obtain ⟨hl, hk, hni, hb⟩ := one p1 hu
    rcases Relation.reflTransGen_iff_eq_or_transGen.mp hr with rfl | ht
    · exact hb
    · have := h.deps p1.1 p1.2 hl p ht
      refine fix_trans hfix hyk hk hb (hle _ _ _ ?_)
      simpa [Deps.assign, hni] using this
  constructor
  case wf => exact hwf
  case keys =>
    intro j y hl
    rw [hkeys, mem_addNew]
    rcases hlast j y hl with ⟨_, hy⟩ | ⟨_, hl'⟩
    · exact Or.inr hy
    · exact Or.inl (h.keys j y hl')
  case deps =>
    intro j y hl p hp
    rcases hlast j y hl with ⟨rfl, hy⟩ | ⟨hy, hl'⟩
    · exact hnew y hy p hp
    · apply hle
      have := h.deps j y hl' p hp
      simpa [Deps.assign, hy] using this
  case clean =>
    intro j k y hk ht
    by_cases hkn : k = n
    · subst hkn
      have hy : y ∈ i.2 := by
        obtain ⟨p1, _, hu⟩ := Relation.TransGen.tail'_iff.mp ht
        obtain ⟨_, ik, _, h2, _, _, _, h5, _⟩ := hu
        simp only at h2 h5
        rw [hi] at h2
        cases h2
        exact h5
      have h7 := hnew y hy _ ht
      have h8 := hself y hy
      simp [QD.bit, h8] at h7
    · exact h.clean j k y (by omega) ht

theorem instrs_inv {all : List (List String × List String)} {fuel : Nat} :
    ∀ (rest done : List (List String × List String)) (D D' : Deps), all = done ++ rest → DepInv all done.length D →
      Deps.instrs fuel D rest = some (.ok D') → DepInv all all.length D'
  | [], done, D, D', he, h, e => by
    simp only [Deps.instrs, Option.some.injEq, Except.ok.injEq] at e
    subst e
    simpa [he] using h
  | i :: rest, done, D, D', he, h, e => by
    simp only [Deps.instrs] at e
    cases hi : Deps.instr fuel D i.1 i.2 with
    | none => rw [hi] at e; simp at e
    | some r =>
      cases r with
      | error w => rw [hi] at e; simp at e
      | ok D1 =>
        rw [hi] at e
        have hget : all[done.length]? = some i := by simp [he]
        have := depInv_step h hget hi
        exact instrs_inv rest (done ++ [i]) D1 D' (by simp [he]) (by simpa using this) e

/-! ### Sequences that are accepted -/

/-- Nothing depends on the current value of a variable not written yet. -/
def Fresh (D : Deps) : Prop := ∀ y x, x ∉ D.keys → (D.on y x).bit true = false

theorem fresh_instr {D : Deps} {fuel : Nat} {reads writes : List String} (hwf : D.Wf) (hf : Fresh D)
    (hnew : ∀ w ∈ writes, w ∉ D.keys) (r : Except String Deps) (e : Deps.instr fuel D reads writes = some r) :
    ∃ D', r = .ok D' ∧ D'.Wf ∧ Fresh D' ∧ D'.keys = addNew D.keys writes := by
  simp only [Deps.instr, Option.map_eq_some_iff] at e
  obtain ⟨E, hc, e⟩ := e
  obtain ⟨h1, h2, _, h4, _, _⟩ := closure_spec fuel _ _ (justified_refl _) (Deps.Le.refl _) (assign_wf hwf reads writes) rfl hc
  have hfr : ∀ y x, x ∉ D.keys → (E.on y x).bit true = false := by
    intro y x hx
    cases hb : (E.on y x).bit true with
    | false => rfl
    | true =>
      obtain ⟨z, _, hz⟩ := h4.2 y x true hb
      simp only [Deps.assign] at hz
      by_cases hzw : z ∈ writes
      · by_cases hxr : x ∈ reads
        · simp [hzw, hxr, Deps.side, hx, QD.bit] at hz
        · simp [hzw, hxr, QD.bit] at hz
      · rw [if_neg hzw, hf z x hx] at hz
        simp at hz
  have hnone : (writes.find? fun w => (E.on w w).d) = none := by
    rw [List.find?_eq_none]
    intro w hw
    have := hfr w w (hnew w hw)
    simpa [QD.bit] using this
  rw [hnone] at e
  exact ⟨E, e.symm, h1, fun y x hx => hfr y x (fun m => hx (addNew_keys_sub h2 m)), h2⟩

/-! ### Code with conditionals -/

theorem uses_lt {is : List (List String × List String)} {j k : Nat × String} (h : Uses is j k) : j.1 < k.1 := by
  obtain ⟨_, _, _, _, h, _⟩ := h
  exact h

theorem uses_prefix {P p : List (List String × List String)} {j k : Nat × String} (hk : k.1 < P.length) :
    Uses (P ++ p) j k ↔ Uses P j k := by
  have hget : ∀ m, m < P.length → (P ++ p)[m]? = P[m]? := fun m hm => List.getElem?_append_left hm
  constructor
  · rintro ⟨ij, ik, h1, h2, h3, h4, h5, h6, h7⟩
    rw [hget _ (by omega)] at h1
    rw [hget _ hk] at h2
    exact ⟨ij, ik, h1, h2, h3, h4, h5, h6, fun m im a b c => h7 m im a b (by rw [hget m (by omega)]; exact c)⟩
  · rintro ⟨ij, ik, h1, h2, h3, h4, h5, h6, h7⟩
    refine ⟨ij, ik, by rw [hget _ (by omega)]; exact h1, by rw [hget _ hk]; exact h2, h3, h4, h5, h6, fun m im a b c => ?_⟩
    rw [hget m (by omega)] at c
    exact h7 m im a b c

theorem usesTrans_prefix {P p : List (List String × List String)} {j k : Nat × String} (hk : k.1 < P.length) :
    UsesTrans (P ++ p) j k ↔ UsesTrans P j k := by
  constructor
  · intro h
    unfold UsesTrans at h
    induction h with
    | single h => exact .single ((uses_prefix hk).mp h)
    | @tail b c _ h2 ih =>
      have hb : b.1 < P.length := by have := uses_lt h2; omega
      exact .tail (ih hb) ((uses_prefix hk).mp h2)
  · intro h
    unfold UsesTrans at h
    induction h with
    | single h => exact .single ((uses_prefix hk).mpr h)
    | @tail b c _ h2 ih =>
      have hb : b.1 < P.length := by have := uses_lt h2; omega
      exact .tail (ih hb) ((uses_prefix hk).mpr h2)

theorem usesTrans_bound {is : List (List String × List String)} {j k : Nat × String} (h : UsesTrans is j k) :
    k.1 < is.length := by
  obtain ⟨p, _, _, ik, _, h2, _⟩ := Relation.TransGen.tail'_iff.mp h
  exact (List.getElem?_eq_some_iff.mp h2).1

theorem depInv_extend {P p : List (List String × List String)} {D : Deps} (h : DepInv P P.length D) :
    DepInv (P ++ p) P.length D := by
  have hget : ∀ m, m < P.length → (P ++ p)[m]? = P[m]? := fun m hm => List.getElem?_append_left hm
  have hl : ∀ j y, LastWrite (P ++ p) P.length j y → LastWrite P P.length j y := by
    rintro j y ⟨h1, ⟨i, h2, h3⟩, h4⟩
    rw [hget j h1] at h2
    exact ⟨h1, ⟨i, h2, h3⟩, fun m im a b c => h4 m im a b (by rw [hget m b]; exact c)⟩
  refine ⟨h.wf, fun j y hy => h.keys j y (hl j y hy), fun j y hy q hq => ?_, fun j k y hk hu => ?_⟩
  · exact h.deps j y (hl j y hy) q ((usesTrans_prefix hy.1).mp hq)
  · exact h.clean j k y hk ((usesTrans_prefix hk).mp hu)

/-- No self-dependency on a sequence. -/
def Clean (is : List (List String × List String)) : Prop := ∀ j k y, ¬ UsesTrans is (j, y) (k, y)

theorem DepInv.toClean {is : List (List String × List String)} {D : Deps} (h : DepInv is is.length D) : Clean is :=
  fun j k y hu => h.clean j k y (usesTrans_bound hu) hu

theorem merge_wf {A B : Deps} (ha : A.Wf) (hb : B.Wf) : (Deps.merge A B).Wf := by
  intro w x h
  simp only [Deps.merge, mem_addNew] at h ⊢
  by_cases hw : w ∈ B.keys
  · rw [if_pos hw] at h
    obtain ⟨h1, h2⟩ := hb w x h
    exact ⟨Or.inl h1, Or.inl h2⟩
  · rw [if_neg hw] at h
    obtain ⟨h1, h2⟩ := ha w x h
    exact ⟨Or.inr h1, Or.inr h2⟩

mutual
theorem DStm.path_writes {s : DStm} {p : List (List String × List String)} {f : Bool} (h : s.Path p f) :
    ∀ i ∈ p, ∀ x ∈ i.2, x ∈ s.writes := by
  cases h with
  | skip => simp
  | stop => simp
  | ins => simp [DStm.writes]
  | seqStop h1 =>
    intro i hi x hx
    simp only [DStm.writes, List.mem_append]
    exact Or.inl (DStm.path_writes h1 i hi x hx)
  | seq h1 h2 =>
    intro i hi x hx
    simp only [DStm.writes, List.mem_append]
    rcases List.mem_append.mp hi with hi | hi
    · exact Or.inl (DStm.path_writes h1 i hi x hx)
    · exact Or.inr (DStm.path_writes h2 i hi x hx)
  | branch h1 =>
    intro i hi x hx
    simp only [DStm.writes]
    exact DBrs.path_writes h1 i hi x hx

theorem DBrs.path_writes {bs : DBrs} {p : List (List String × List String)} {f : Bool} (h : bs.Path p f) :
    ∀ i ∈ p, ∀ x ∈ i.2, x ∈ bs.writes := by
  cases h with
  | one h1 => exact fun i hi x hx => by simp only [DBrs.writes]; exact DStm.path_writes h1 i hi x hx
  | here h1 =>
    intro i hi x hx
    simp only [DBrs.writes, List.mem_append]
    exact Or.inl (DStm.path_writes h1 i hi x hx)
  | next h1 =>
    intro i hi x hx
    simp only [DBrs.writes, List.mem_append]
    exact Or.inr (DBrs.path_writes h1 i hi x hx)
end

/-- From the map of a branch to the merged one. -/
theorem depInv_merged {P p : List (List String × List String)} {D E R : Deps} {ws : List String}
    (hp : ∀ i ∈ p, ∀ x ∈ i.2, x ∈ ws) (hP : DepInv P P.length D) (hE : DepInv (P ++ p) (P ++ p).length E)
    (hR : R.Wf) (hkeys : ∀ y ∈ E.keys, y ∈ R.keys) (hold : ∀ y ∈ D.keys, R.on y = D.on y)
    (hnew : ∀ y ∈ ws, y ∈ E.keys → R.on y = E.on y) : DepInv (P ++ p) (P ++ p).length R := by
  refine ⟨hR, fun j y hy => hkeys y (hE.keys j y hy), fun j y hy q hq => ?_, hE.clean⟩
  by_cases hw : y ∈ ws
  · rw [hnew y hw (hE.keys j y hy)]
    exact hE.deps j y hy q hq
  · have hj : j < P.length := by
      by_contra hj
      obtain ⟨_, ⟨i, h2, h3⟩, _⟩ := hy
      rw [List.getElem?_append_right (by omega)] at h2
      exact hw (hp i (List.mem_of_getElem? h2) y h3)
    have hy' : LastWrite P P.length j y := by
      obtain ⟨_, ⟨i, h2, h3⟩, h4⟩ := hy
      rw [List.getElem?_append_left hj] at h2
      exact ⟨hj, ⟨i, h2, h3⟩, fun m im a b c => h4 m im a (by simp; omega) (by rw [List.getElem?_append_left b]; exact c)⟩
    rw [hold y (hP.keys j y hy')]
    exact hP.deps j y hy' q ((usesTrans_prefix hj).mp hq)

mutual
theorem stm_ok {fuel : Nat} : ∀ (s : DStm) (D D' : Deps) (w : List String), D.Wf → (∀ y ∈ D.keys, y ∈ w) → s.MergeOk w →
    Deps.stm fuel D s = some (.ok D') →
    D'.Wf ∧ (∀ y ∈ D'.keys, y ∈ D.keys ∨ y ∈ s.writes) ∧ (∀ y ∈ D.keys, y ∈ D'.keys) ∧
    ∀ P p f, DepInv P P.length D → s.Path p f →
      (f = true → DepInv (P ++ p) (P ++ p).length D') ∧ Clean (P ++ p)
  | .skip, D, D', w, hwf, hk, hm, e => by
    simp only [Deps.stm, Option.some.injEq, Except.ok.injEq] at e
    subst e
    refine ⟨hwf, fun y hy => Or.inl hy, fun y hy => hy, fun P p f hP hp => ?_⟩
    cases hp
    simp only [List.append_nil]
    exact ⟨fun _ => hP, hP.toClean⟩
  | .stop, D, D', w, hwf, hk, hm, e => by
    simp only [Deps.stm, Option.some.injEq, Except.ok.injEq] at e
    subst e
    refine ⟨hwf, fun y hy => Or.inl hy, fun y hy => hy, fun P p f hP hp => ?_⟩
    cases hp
    simp only [List.append_nil]
    exact ⟨fun _ => hP, hP.toClean⟩
  | .ins reads writes, D, D', w, hwf, hk, hm, e => by
    simp only [Deps.stm] at e
    obtain ⟨h1, h2, _⟩ := instr_ok hwf e
    refine ⟨h1, fun y hy => ?_, fun y hy => ?_, fun P p f hP hp => ?_⟩
    · rw [h2, mem_addNew] at hy
      exact hy
    · rw [h2, mem_addNew]
      exact Or.inl hy
    · cases hp
      have h3 := depInv_step (i := (reads, writes)) (depInv_extend (p := [(reads, writes)]) hP) (by simp) e
      have h4 : DepInv (P ++ [(reads, writes)]) (P ++ [(reads, writes)]).length D' := by simpa using h3
      exact ⟨fun _ => h4, h4.toClean⟩
  | .seq a b, D, D', w, hwf, hk, hm, e => by
    simp only [Deps.stm] at e
    cases ha : Deps.stm fuel D a with
    | none => rw [ha] at e; simp at e
    | some r =>
      cases r with
      | error x => rw [ha] at e; simp at e
      | ok D1 =>
        rw [ha] at e
        obtain ⟨hma, hmb⟩ := hm
        obtain ⟨h1, h2, h3, h4⟩ := stm_ok a D D1 w hwf hk hma ha
        obtain ⟨g1, g2, g3, g4⟩ := stm_ok b D1 D' (w ++ a.writes) h1 (fun y hy => by
          rcases h2 y hy with h | h
          · exact List.mem_append_left _ (hk y h)
          · exact List.mem_append_right _ h) hmb e
        refine ⟨g1, fun y hy => ?_, fun y hy => g3 y (h3 y hy), fun P p f hP hp => ?_⟩
        · simp only [DStm.writes, List.mem_append]
          rcases g2 y hy with h | h
          · rcases h2 y h with h | h
            · exact Or.inl h
            · exact Or.inr (Or.inl h)
          · exact Or.inr (Or.inr h)
        · cases hp with
          | seqStop hp => exact ⟨by simp, (h4 P p false hP hp).2⟩
          | @seq _ _ p q _ hp hq =>
            have := g4 (P ++ p) q f ((h4 P p true hP hp).1 rfl) hq
            rwa [List.append_assoc] at this
  | .branch bs, D, D', w, hwf, hk, hm, e => by
    simp only [Deps.stm] at e
    obtain ⟨hm1, hm2⟩ := hm
    obtain ⟨h1, h2, h3, h4⟩ := brs_ok bs D D D' w hwf hwf (fun y hy => hy) (fun _ _ => rfl) hk hm2
      (fun x hx hxk => hm1 x hx (hk x hxk)) e
    refine ⟨h1, fun y hy => ?_, fun y hy => (h2 y hy).1, fun P p f hP hp => ?_⟩
    · simp only [DStm.writes]
      exact h3 y hy
    · cases hp with
      | branch hp => exact h4 P p f hP hp

theorem brs_ok {fuel : Nat} : ∀ (bs : DBrs) (D acc R : Deps) (w : List String), D.Wf → acc.Wf →
    (∀ y ∈ D.keys, y ∈ acc.keys) → (∀ y ∈ D.keys, acc.on y = D.on y) → (∀ y ∈ D.keys, y ∈ w) → bs.MergeOk w →
    (∀ x ∈ bs.writes, x ∉ acc.keys) → Deps.brs fuel D acc bs = some (.ok R) →
    R.Wf ∧ (∀ y ∈ acc.keys, y ∈ R.keys ∧ R.on y = acc.on y) ∧ (∀ y ∈ R.keys, y ∈ acc.keys ∨ y ∈ bs.writes) ∧
    ∀ P p f, DepInv P P.length D → bs.Path p f →
      (f = true → DepInv (P ++ p) (P ++ p).length R) ∧ Clean (P ++ p)
  | .one s, D, acc, R, w, hwf, hacc, hsub, hon, hk, hm, hdis, e => by
    simp only [Deps.brs] at e
    cases hs : Deps.stm fuel D s with
    | none => rw [hs] at e; simp at e
    | some r =>
      cases r with
      | error x => rw [hs] at e; simp at e
      | ok E =>
        rw [hs] at e
        simp only [Option.some.injEq, Except.ok.injEq] at e
        subst e
        obtain ⟨h1, h2, h3, h4⟩ := stm_ok s D E w hwf hk hm hs
        have hRwf := merge_wf h1 hacc
        have hRkeys : ∀ y, y ∈ (Deps.merge E acc).keys ↔ y ∈ acc.keys ∨ y ∈ E.keys := fun y => by
          simp [Deps.merge, mem_addNew]
        refine ⟨hRwf, fun y hy => ⟨(hRkeys y).mpr (Or.inl hy), ?_⟩, fun y hy => ?_, fun P p f hP hp => ?_⟩
        · funext x
          simp [Deps.merge, hy]
        · rcases (hRkeys y).mp hy with h | h
          · exact Or.inl h
          · rcases h2 y h with h | h
            · exact Or.inl (hsub y h)
            · exact Or.inr h
        · cases hp with
          | one hp =>
            obtain ⟨g1, g2⟩ := h4 P p f hP hp
            refine ⟨fun hf => ?_, g2⟩
            refine depInv_merged (DStm.path_writes hp) hP (g1 hf) hRwf (fun y hy => (hRkeys y).mpr (Or.inr hy)) ?_ ?_
            · intro y hy
              rw [← hon y hy]
              funext x
              simp [Deps.merge, hsub y hy]
            · intro y hy _
              funext x
              simp [Deps.merge, hdis y hy]
  | .cons s bs, D, acc, R, w, hwf, hacc, hsub, hon, hk, hm, hdis, e => by
    simp only [Deps.brs] at e
    cases hs : Deps.stm fuel D s with
    | none => rw [hs] at e; simp at e
    | some r =>
      cases r with
      | error x => rw [hs] at e; simp at e
      | ok E =>
        rw [hs] at e
        simp only at e
        obtain ⟨hm1, hm2, hm3⟩ := hm
        obtain ⟨h1, h2, h3, h4⟩ := stm_ok s D E w hwf hk hm1 hs
        have hAwf := merge_wf h1 hacc
        have hAkeys : ∀ y, y ∈ (Deps.merge E acc).keys ↔ y ∈ acc.keys ∨ y ∈ E.keys := fun y => by
          simp [Deps.merge, mem_addNew]
        have hAon : ∀ y ∈ acc.keys, (Deps.merge E acc).on y = acc.on y := fun y hy => by
          funext x
          simp [Deps.merge, hy]
        simp only [DBrs.writes, List.mem_append] at hdis
        obtain ⟨g1, g2, g3, g4⟩ := brs_ok bs D (Deps.merge E acc) R w hwf hAwf
          (fun y hy => (hAkeys y).mpr (Or.inl (hsub y hy)))
          (fun y hy => by rw [hAon y (hsub y hy), hon y hy]) hk hm3
          (fun x hx hxk => by
            rcases (hAkeys x).mp hxk with h | h
            · exact hdis x (Or.inr hx) h
            · rcases h2 x h with h | h
              · exact hdis x (Or.inr hx) (hsub x h)
              · exact hm2 x h hx) e
        refine ⟨g1, fun y hy => ?_, fun y hy => ?_, fun P p f hP hp => ?_⟩
        · obtain ⟨a, b⟩ := g2 y ((hAkeys y).mpr (Or.inl hy))
          exact ⟨a, b.trans (hAon y hy)⟩
        · simp only [DBrs.writes, List.mem_append]
          rcases g3 y hy with h | h
          · rcases (hAkeys y).mp h with h | h
            · exact Or.inl h
            · rcases h2 y h with h | h
              · exact Or.inl (hsub y h)
              · exact Or.inr (Or.inl h)
          · exact Or.inr (Or.inr h)
        · cases hp with
          | here hp =>
            obtain ⟨k1, k2⟩ := h4 P p f hP hp
            refine ⟨fun hf => ?_, k2⟩
            refine depInv_merged (DStm.path_writes hp) hP (k1 hf) g1
              (fun y hy => (g2 y ((hAkeys y).mpr (Or.inr hy))).1) ?_ ?_
            · intro y hy
              rw [(g2 y ((hAkeys y).mpr (Or.inl (hsub y hy)))).2, hAon y (hsub y hy), hon y hy]
            · intro y hy hyE
              rw [(g2 y ((hAkeys y).mpr (Or.inr hyE))).2]
              funext x
              simp [Deps.merge, hdis y (Or.inl hy)]
          | next hp => exact g4 P p f hP hp
end

/-! ### Verdicts -/

theorem instr_total (D : Deps) (reads writes : List String) :
    ∃ n r, ∀ k, Deps.instr (n + k) D reads writes = some r := by
  obtain ⟨D1, e1⟩ := closure_total _ (D.assign reads writes)
    (Nat.lt_add_left (D.assign reads writes).weight (Nat.lt_succ_self _))
  have hall := closure_mono _ _ _ e1
  generalize ((D.assign reads writes).keys.length * ((D.assign reads writes).names.length * 2)).succ = n at hall
  cases hf : writes.find? fun w => (D1.on w w).d with
  | some w => exact ⟨n, .error w, fun k => by simp only [Deps.instr, hall k, Option.map_some, hf]⟩
  | none => exact ⟨n, .ok D1, fun k => by simp only [Deps.instr, hall k, Option.map_some, hf]⟩

mutual
theorem stm_total : ∀ (s : DStm) (D : Deps), ∃ n r, ∀ k, Deps.stm (n + k) D s = some r
  | .skip, D => ⟨0, .ok D, fun _ => by simp [Deps.stm]⟩
  | .stop, D => ⟨0, .ok D, fun _ => by simp [Deps.stm]⟩
  | .ins reads writes, D => by
    obtain ⟨n, r, h⟩ := instr_total D reads writes
    exact ⟨n, r, fun k => by simp only [Deps.stm]; exact h k⟩
  | .seq a b, D => by
    obtain ⟨n, r, h⟩ := stm_total a D
    cases r with
    | error x => exact ⟨n, .error x, fun k => by simp [Deps.stm, h k]⟩
    | ok D1 =>
      obtain ⟨n', r', h'⟩ := stm_total b D1
      refine ⟨n + n', r', fun k => ?_⟩
      have h1 := h (n' + k)
      have h2 := h' (n + k)
      rw [show n + (n' + k) = n + n' + k by omega] at h1
      rw [show n' + (n + k) = n + n' + k by omega] at h2
      simp [Deps.stm, h1, h2]
  | .branch bs, D => by
    obtain ⟨n, r, h⟩ := brs_total bs D D
    exact ⟨n, r, fun k => by simp only [Deps.stm]; exact h k⟩

theorem brs_total : ∀ (bs : DBrs) (D acc : Deps), ∃ n r, ∀ k, Deps.brs (n + k) D acc bs = some r
  | .one s, D, acc => by
    obtain ⟨n, r, h⟩ := stm_total s D
    cases r with
    | error x => exact ⟨n, .error x, fun k => by simp [Deps.brs, h k]⟩
    | ok D1 => exact ⟨n, .ok (Deps.merge D1 acc), fun k => by simp [Deps.brs, h k]⟩
  | .cons s bs, D, acc => by
    obtain ⟨n, r, h⟩ := stm_total s D
    cases r with
    | error x => exact ⟨n, .error x, fun k => by simp [Deps.brs, h k]⟩
    | ok D1 =>
      obtain ⟨n', r', h'⟩ := brs_total bs D (Deps.merge D1 acc)
      refine ⟨n + n', r', fun k => ?_⟩
      have h1 := h (n' + k)
      have h2 := h' (n + k)
      rw [show n + (n' + k) = n + n' + k by omega] at h1
      rw [show n' + (n + k) = n + n' + k by omega] at h2
      simp [Deps.brs, h1, h2]
end

end Silice
