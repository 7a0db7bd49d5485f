import Verif.Spec.Circuitry
import Verif.Prelude

/-!
Lemmas about circuitries and repeat blocks.
-/

set_option autoImplicit false

namespace Silice

/-! ## Expressions -/

theorem evalS_setId (I : Nat → Int → Int → Int) (env : String → VName) (id : Option Nat) (st : VStore) (e : AExp String) :
    match e.setId id with
    | none => evalS I env id st e = none
    | some e' => evalW I st (e'.rename env) = evalS I env id st e ∧ (evalS I env id st e).isSome ∧ ∀ x ∈ e'.names, x ∈ e.names := by
  induction e with
  | num n => simp [AExp.setId, evalS, evalW, AExp.rename, AExp.names]
  | var x => simp [AExp.setId, evalS, evalW, AExp.rename, AExp.names]
  | idx => cases id <;> simp [AExp.setId, evalS, evalW, AExp.rename, AExp.names]
  | op k a b iha ihb =>
    simp only [AExp.setId]
    cases ha : a.setId id with
    | none =>
      rw [ha] at iha
      simp only at iha ⊢
      simp only [evalS, iha]
    | some a' =>
      rw [ha] at iha
      simp only at iha
      cases hb : b.setId id with
      | none =>
        rw [hb] at ihb
        simp only at ihb ⊢
        simp only [evalS, ihb]
        cases evalS I env id st a <;> rfl
      | some b' =>
        rw [hb] at ihb
        simp only at ihb ⊢
        obtain ⟨u, hu⟩ := Option.isSome_iff_exists.mp iha.2.1
        obtain ⟨v, hv⟩ := Option.isSome_iff_exists.mp ihb.2.1
        refine ⟨?_, ?_, ?_⟩
        · simp only [AExp.rename, evalW, evalS, iha.1, ihb.1]
        · simp only [evalS, hu, hv, Option.isSome_some]
        · intro x hx
          simp only [AExp.names, List.mem_append] at hx ⊢
          exact hx.imp (iha.2.2 x) (ihb.2.2 x)

theorem evalS_some {I : Nat → Int → Int → Int} {env : String → VName} {id : Option Nat} {st : VStore} {e e' : AExp String}
    (h : e.setId id = some e') : ∃ a, evalS I env id st e = some a ∧ evalW I st (e'.rename env) = some a := by
  have := evalS_setId I env id st e
  rw [h] at this
  obtain ⟨a, ha⟩ := Option.isSome_iff_exists.mp this.2.1
  exact ⟨a, ha, this.1.trans ha⟩

theorem evalS_none {I : Nat → Int → Int → Int} {env : String → VName} {id : Option Nat} {st : VStore} {e : AExp String}
    (h : e.setId id = none) : evalS I env id st e = none := by
  have := evalS_setId I env id st e
  rw [h] at this
  exact this

theorem setId_names {id : Option Nat} {e e' : AExp String} (h : e.setId id = some e') : ∀ x ∈ e'.names, x ∈ e.names := by
  have := evalS_setId (fun _ _ _ => 0) (fun x => .top x) id (fun _ => 0) e
  rw [h] at this
  exact this.2.2

theorem rename_congr {A B : Type} {f g : A → B} (e : AExp A) (h : ∀ x ∈ e.names, f x = g x) : e.rename f = e.rename g := by
  induction e with
  | num n => rfl
  | var x => simp only [AExp.rename]; rw [h x (by simp [AExp.names])]
  | idx => rfl
  | op k a b iha ihb =>
    simp only [AExp.rename]
    rw [iha fun x hx => h x (by simp [AExp.names, hx]), ihb fun x hx => h x (by simp [AExp.names, hx])]

theorem evalS_congr {I : Nat → Int → Int → Int} {env : String → VName} {id : Option Nat} {st st' : VStore} (e : AExp String)
    (h : ∀ x ∈ e.names, st (env x) = st' (env x)) : evalS I env id st e = evalS I env id st' e := by
  induction e with
  | num n => rfl
  | var x => simp only [evalS]; rw [h x (by simp [AExp.names])]
  | idx => rfl
  | op k a b iha ihb =>
    simp only [evalS]
    rw [iha fun x hx => h x (by simp [AExp.names, hx]), ihb fun x hx => h x (by simp [AExp.names, hx])]

theorem runW_append (I : Nat → Int → Int → Int) (a b : List (VName × AExp VName)) (st : VStore) :
    runW I (a ++ b) st = (runW I a st).bind (runW I b) := by
  induction a generalizing st with
  | nil => rfl
  | cons x a ih =>
    obtain ⟨v, e⟩ := x
    simp only [List.cons_append, runW]
    cases evalW I st e with
    | none => rfl
    | some u => exact ih _

/-! ## Rules -/

/-- Rules under which names in scope are not hidden, and different when they come from different names. -/
structure RulesOk (V : List String) (root : String → String) (nt : Nat) (r : Rules) : Prop where
  fix : ∀ x ∈ V, relook r (look r x) = look r x
  tops : ∀ x ∈ V, ∀ y, look r x = .top y → y ∈ V
  locs : ∀ x ∈ V, ∀ b y, look r x = .loc b y → y ∈ V
  temps : ∀ x ∈ V, ∀ k, look r x = .temp k → k < nt
  roots : ∀ x ∈ V, ∀ y ∈ V, look r x = look r y → root x = root y

theorem RulesOk.mono {V : List String} {root : String → String} {n m : Nat} {r : Rules} (h : RulesOk V root n r) (hnm : n ≤ m) :
    RulesOk V root m r :=
  ⟨h.fix, h.tops, h.locs, fun x hx k hk => Nat.lt_of_lt_of_le (h.temps x hx k hk) hnm, h.roots⟩

theorem RulesOk.declare {V : List String} {root : String → String} {nt : Nat} {r : Rules} (h : RulesOk V root nt r) {x : String} (hx : x ∉ V)
    (b : Option Nat) : RulesOk (x :: V) (fun y => if y = x then x else root y) nt ((x, blockName b x) :: r) := by
  have hl : ∀ y ∈ V, look ((x, blockName b x) :: r) y = look r y := fun y hy => by
    simp only [look]
    rw [if_neg fun e => hx (by rw [e]; exact hy)]
  have hs : look ((x, blockName b x) :: r) x = blockName b x := by simp [look]
  have hr : relook ((x, blockName b x) :: r) (blockName b x) = blockName b x := by
    cases b with
    | none => exact hs
    | some b => rfl
  have hne : ∀ y ∈ V, look r y ≠ blockName b x := by
    intro y hy e
    cases b with
    | none => exact hx (h.tops y hy x e)
    | some b => exact hx (h.locs y hy b x e)
  refine ⟨?_, ?_, ?_, ?_, ?_⟩
  · intro y hy
    rcases List.mem_cons.mp hy with rfl | hy
    · rw [hs, hr]
    · rw [hl y hy]
      have := h.fix y hy
      cases hv : look r y with
      | top z =>
        rw [hv] at this
        simp only [relook] at this ⊢
        rw [hl z (h.tops y hy z hv), this]
      | loc c z => rfl
      | temp k => rfl
  · intro y hy z hz
    rcases List.mem_cons.mp hy with rfl | hy
    · rw [hs] at hz
      cases b with
      | none => simp only [blockName, VName.top.injEq] at hz; rw [← hz]; exact List.mem_cons_self ..
      | some b => simp [blockName] at hz
    · rw [hl y hy] at hz
      exact List.mem_cons_of_mem _ (h.tops y hy z hz)
  · intro y hy c z hz
    rcases List.mem_cons.mp hy with rfl | hy
    · rw [hs] at hz
      cases b with
      | none => simp [blockName] at hz
      | some b => simp only [blockName, VName.loc.injEq] at hz; rw [← hz.2]; exact List.mem_cons_self ..
    · rw [hl y hy] at hz
      exact List.mem_cons_of_mem _ (h.locs y hy c z hz)
  · intro y hy k hk
    rcases List.mem_cons.mp hy with rfl | hy
    · rw [hs] at hk
      cases b <;> simp [blockName] at hk
    · rw [hl y hy] at hk
      exact h.temps y hy k hk
  · intro y hy z hz e
    rcases List.mem_cons.mp hy with hyx | hyV
    · rcases List.mem_cons.mp hz with hzx | hzV
      · rw [hyx, hzx]
      · rw [hyx, hs, hl z hzV] at e
        exact absurd e.symm (hne z hzV)
    · rcases List.mem_cons.mp hz with hzx | hzV
      · rw [hzx, hs, hl y hyV] at e
        exact absurd e (hne y hyV)
      · rw [hl y hyV, hl z hzV] at e
        have h1 : y ≠ x := fun e' => hx (e' ▸ hyV)
        have h2 : z ≠ x := fun e' => hx (e' ▸ hzV)
        rw [if_neg h1, if_neg h2]
        exact h.roots y hyV z hzV e

theorem portArg_none {ps : List String} {vs : List VName} {x : String} (h : x ∉ ps) : portArg ps vs x = none := by
  induction ps generalizing vs with
  | nil => cases vs <;> rfl
  | cons p ps ih =>
    cases vs with
    | nil => rfl
    | cons v vs =>
      simp only [List.mem_cons, not_or] at h
      simp only [portArg]
      rw [if_neg fun e => h.1 e.symm, ih h.2]

theorem portArg_mem {ps : List String} {vs : List VName} {x : String} {v : VName} (h : portArg ps vs x = some v) :
    x ∈ ps ∧ v ∈ vs ∧ ∃ i : Nat, ps[i]? = some x ∧ vs[i]? = some v := by
  induction ps generalizing vs with
  | nil => cases vs <;> simp [portArg] at h
  | cons p ps ih =>
    cases vs with
    | nil => simp [portArg] at h
    | cons w vs =>
      simp only [portArg] at h
      by_cases hp : p = x
      · rw [if_pos hp, Option.some.injEq] at h
        subst hp; subst h
        exact ⟨List.mem_cons_self .., List.mem_cons_self .., 0, rfl, rfl⟩
      · rw [if_neg hp] at h
        obtain ⟨h1, h2, i, h3, h4⟩ := ih h
        exact ⟨List.mem_cons_of_mem _ h1, List.mem_cons_of_mem _ h2, i + 1, by simpa using h3, by simpa using h4⟩

theorem portArg_some {ps : List String} {vs : List VName} {x : String} (hl : ps.length = vs.length) (h : x ∈ ps) :
    ∃ v, portArg ps vs x = some v := by
  induction ps generalizing vs with
  | nil => simp at h
  | cons p ps ih =>
    cases vs with
    | nil => simp at hl
    | cons v vs =>
      simp only [portArg]
      by_cases hp : p = x
      · exact ⟨v, by rw [if_pos hp]⟩
      · rw [if_neg hp]
        rcases List.mem_cons.mp h with e | h
        · exact absurd e.symm hp
        · exact ih (by simpa using hl) h

theorem look_bindPorts {prev : Rules} {x : String} : ∀ (ps : List String) (vs : List VName) (r : Rules), ps.Nodup →
    (∀ v ∈ vs, relook prev v = v) →
    look (bindPorts prev r ps vs) x = match portArg ps vs x with | some v => v | none => look r x := by
  intro ps
  induction ps with
  | nil => intro vs r _ _; simp [bindPorts, portArg]
  | cons p ps ih =>
    intro vs r hn hf
    cases vs with
    | nil => simp [bindPorts, portArg]
    | cons v vs =>
      simp only [List.nodup_cons] at hn
      simp only [bindPorts]
      rw [ih vs _ hn.2 fun w hw => hf w (List.mem_cons_of_mem _ hw)]
      simp only [portArg]
      by_cases hp : p = x
      · rw [if_pos hp]
        subst hp
        rw [portArg_none hn.1]
        simp only [look, if_pos, hf v (List.mem_cons_self ..)]
      · rw [if_neg hp]
        cases portArg ps vs x with
        | some w => rfl
        | none => simp only [look, if_neg hp]

theorem portGiven_none {ps : List String} {as : List CArg} {x : String} (h : x ∉ ps) : portGiven ps as x = none := by
  induction ps generalizing as with
  | nil => cases as <;> rfl
  | cons p ps ih =>
    cases as with
    | nil => rfl
    | cons v vs =>
      simp only [List.mem_cons, not_or] at h
      simp only [portGiven]
      rw [if_neg fun e => h.1 e.symm, ih h.2]

/-- Arguments: names are fixed by the rules, and new temporaries are numbered from `t`. -/
theorem argNames_ok {V : List String} {root : String → String} {nt : Nat} {r : Rules} (h : RulesOk V root nt r) : ∀ (l : List CArg) (t : Nat),
    nt ≤ t → (∀ a ∈ l, ∀ y ∈ a.names, y ∈ V) →
    (argNames r t l).1.length = l.length ∧
    (∀ v ∈ (argNames r t l).1, relook r v = v ∧ (∀ y, v = .top y → y ∈ V) ∧ (∀ b y, v = .loc b y → y ∈ V) ∧
      ∀ k, v = .temp k → k < t + l.length) ∧
    (∀ p ∈ (argNames r t l).2, t ≤ p.1 ∧ ∀ y ∈ p.2.names, y ∈ V) ∧
    (∀ (i : Nat) (x : String), l[i]? = some (.id x) → (argNames r t l).1[i]? = some (look r x)) ∧
    (∀ (i : Nat) (e : AExp String), l[i]? = some (.expr e) → ∃ k, t ≤ k ∧ (argNames r t l).1[i]? = some (.temp k)) ∧
    (∀ (i j k : Nat), t ≤ k → (argNames r t l).1[i]? = some (.temp k) → (argNames r t l).1[j]? = some (.temp k) → i = j) := by
  intro l
  induction l with
  | nil => intro t _ _; simp [argNames]
  | cons a l ih =>
    intro t ht hV
    cases a with
    | id x =>
      have hx : x ∈ V := hV (.id x) (List.mem_cons_self ..) x (by simp [CArg.names])
      obtain ⟨h1, h2, h3, h4, h5, h6⟩ := ih t ht fun b hb => hV b (List.mem_cons_of_mem _ hb)
      simp only [argNames]
      have hno : ∀ k, t ≤ k → look r x ≠ .temp k := fun k hk e => by have := h.temps x hx k e; omega
      refine ⟨by simp [h1], ?_, h3, ?_, ?_, ?_⟩
      · intro v hv
        rcases List.mem_cons.mp hv with rfl | hv
        · refine ⟨h.fix x hx, h.tops x hx, h.locs x hx, fun k hk => ?_⟩
          have := h.temps x hx k hk
          simp only [List.length_cons]
          omega
        · obtain ⟨g1, g2, g2', g3⟩ := h2 v hv
          refine ⟨g1, g2, g2', fun k hk => ?_⟩
          have := g3 k hk
          simp only [List.length_cons]
          omega
      · intro i y hy
        cases i with
        | zero => simp only [List.getElem?_cons_zero, Option.some.injEq, CArg.id.injEq] at hy; subst hy; rfl
        | succ i => simpa using h4 i y (by simpa using hy)
      · intro i e he
        cases i with
        | zero => simp at he
        | succ i => simpa using h5 i e (by simpa using he)
      · intro i j k hk hi hj
        cases i with
        | zero => simp only [List.getElem?_cons_zero, Option.some.injEq] at hi; exact absurd hi (hno k hk)
        | succ i =>
          cases j with
          | zero => simp only [List.getElem?_cons_zero, Option.some.injEq] at hj; exact absurd hj (hno k hk)
          | succ j => rw [h6 i j k hk (by simpa using hi) (by simpa using hj)]
    | expr e =>
      obtain ⟨h1, h2, h3, h4, h5, h6⟩ := ih (t + 1) (by omega) fun b hb => hV b (List.mem_cons_of_mem _ hb)
      simp only [argNames]
      have hfirst : ∀ i : Nat, (argNames r (t + 1) l).1[i]? ≠ some (.temp t) := by
        intro i hi
        have hil : i < l.length := by rw [← h1]; exact (List.getElem?_eq_some_iff.mp hi).1
        cases hli : l[i] with
        | id x =>
          have := h4 i x (by rw [List.getElem?_eq_getElem hil, hli])
          rw [hi, Option.some.injEq] at this
          have hx : x ∈ V := hV (.id x) (List.mem_cons_of_mem _ (hli ▸ List.getElem_mem hil)) x (by simp [CArg.names])
          have := h.temps x hx t this.symm
          omega
        | expr e' =>
          obtain ⟨k, hk, hk'⟩ := h5 i e' (by rw [List.getElem?_eq_getElem hil, hli])
          rw [hi, Option.some.injEq, VName.temp.injEq] at hk'
          omega
      refine ⟨by simp [h1], ?_, ?_, ?_, ?_, ?_⟩
      · intro v hv
        rcases List.mem_cons.mp hv with rfl | hv
        · refine ⟨rfl, by simp, by simp, fun k hk => ?_⟩
          simp only [VName.temp.injEq] at hk
          simp only [List.length_cons]
          omega
        · obtain ⟨g1, g2, g2', g3⟩ := h2 v hv
          refine ⟨g1, g2, g2', fun k hk => ?_⟩
          have := g3 k hk
          simp only [List.length_cons]
          omega
      · intro p hp
        rcases List.mem_cons.mp hp with rfl | hp
        · exact ⟨Nat.le_refl _, fun y hy => hV (.expr e) (List.mem_cons_self ..) y hy⟩
        · obtain ⟨g1, g2⟩ := h3 p hp
          exact ⟨by omega, g2⟩
      · intro i y hy
        cases i with
        | zero => simp at hy
        | succ i => simpa using h4 i y (by simpa using hy)
      · intro i e' he
        cases i with
        | zero => exact ⟨t, Nat.le_refl _, rfl⟩
        | succ i =>
          obtain ⟨k, hk, hk'⟩ := h5 i e' (by simpa using he)
          exact ⟨k, by omega, by simpa using hk'⟩
      · intro i j k hk hi hj
        cases i with
        | zero =>
          simp only [List.getElem?_cons_zero, Option.some.injEq, VName.temp.injEq] at hi
          subst hi
          cases j with
          | zero => rfl
          | succ j => exact absurd (by simpa using hj) (hfirst j)
        | succ i =>
          cases j with
          | zero =>
            simp only [List.getElem?_cons_zero, Option.some.injEq, VName.temp.injEq] at hj
            subst hj
            exact absurd (by simpa using hi) (hfirst i)
          | succ j =>
            simp only [List.getElem?_cons_succ] at hi hj
            by_cases hkt : k = t
            · subst hkt; exact absurd hi (hfirst i)
            · rw [h6 i j k (by omega) hi hj]

/-- Same values except for some temporaries. -/
def Agrees (nt : Nat) (st st' : VStore) : Prop := ∀ v, (∀ k, v = .temp k → k < nt) → st v = st' v

/-- Temporaries of an instantiation: what the code computes is what is given. -/
theorem given_ok (I : Nat → Int → Int → Int) {V : List String} {root : String → String} {nt : Nat} {r : Rules} (h : RulesOk V root nt r)
    (id : Option Nat) (st : VStore) :
    ∀ (l : List CArg) (t : Nat), nt ≤ t → (∀ a ∈ l, ∀ y ∈ a.names, y ∈ V) →
    match setIds id (argNames r t l).2 with
    | none => given I (look r) id st t l = none
    | some tmps => ∃ ts, given I (look r) id st t l = some ((argNames r t l).1, ts) ∧
        runW I (tmps.reverse.map (CIns.write r)) st = some (withTemps st ts) ∧ (∀ p ∈ ts, nt ≤ p.1) ∧
        Agrees nt (withTemps st ts) st := by
  intro l
  induction l with
  | nil =>
    intro t _ _
    simp only [argNames, setIds, given]
    exact ⟨[], rfl, rfl, by simp, fun v _ => rfl⟩
  | cons a l ih =>
    intro t ht hV
    cases a with
    | id x =>
      have := ih t ht fun b hb => hV b (List.mem_cons_of_mem _ hb)
      simp only [argNames]
      cases hs : setIds id (argNames r t l).2 with
      | none =>
        rw [hs] at this
        simp only at this ⊢
        simp only [given, this]
      | some tmps =>
        rw [hs] at this
        simp only at this ⊢
        obtain ⟨ts, h1, h2, h3, h4⟩ := this
        exact ⟨ts, by simp only [given, h1], h2, h3, h4⟩
    | expr e =>
      have := ih (t + 1) (by omega) fun b hb => hV b (List.mem_cons_of_mem _ hb)
      simp only [argNames, setIds]
      cases he : e.setId id with
      | none => simp only [given, evalS_none he]
      | some e' =>
        cases hs : setIds id (argNames r (t + 1) l).2 with
        | none =>
          rw [hs] at this
          simp only at this ⊢
          simp only [given, this]
          cases evalS I (look r) id st e <;> rfl
        | some tmps =>
          rw [hs] at this
          simp only at this ⊢
          obtain ⟨ts, h1, h2, h3, h4⟩ := this
          obtain ⟨a, ha, _⟩ := evalS_some (I := I) (env := look r) (st := st) he
          have hw : evalS I (look r) id (withTemps st ts) e = evalS I (look r) id st e :=
            evalS_congr e fun x hx => h4 _ (h.temps x (hV (.expr e) (List.mem_cons_self ..) x hx))
          obtain ⟨a', ha', hw'⟩ := evalS_some (I := I) (env := look r) (st := withTemps st ts) he
          have : a' = a := by rw [hw, ha, Option.some.injEq] at ha'; exact ha'.symm
          subst this
          refine ⟨(t, a') :: ts, by simp only [given, ha, h1], ?_, ?_, ?_⟩
          · simp only [List.reverse_cons, List.map_append, List.map_cons, List.map_nil]
            rw [runW_append, h2]
            simp only [Option.bind_some, runW, CIns.write, hw', withTemps]
          · intro p hp
            rcases List.mem_cons.mp hp with rfl | hp
            · exact ht
            · exact h3 p hp
          · intro v hv
            simp only [withTemps, VStore.set]
            by_cases hvt : v = .temp t
            · have := hv t hvt
              omega
            · rw [if_neg hvt]; exact h4 v hv

theorem given_congr (I : Nat → Int → Int → Int) {env : String → VName} {id : Option Nat} {st st' : VStore} : ∀ (l : List CArg) (t : Nat),
    (∀ e, CArg.expr e ∈ l → ∀ y ∈ e.names, st (env y) = st' (env y)) → given I env id st t l = given I env id st' t l := by
  intro l
  induction l with
  | nil => intro t _; rfl
  | cons a l ih =>
    intro t h
    cases a with
    | id x => simp only [given]; rw [ih t fun e he => h e (List.mem_cons_of_mem _ he)]
    | expr e =>
      simp only [given]
      rw [ih (t + 1) fun e he => h e (List.mem_cons_of_mem _ he), evalS_congr e (h e (List.mem_cons_self ..))]

/-! ## The gathering -/

def CIns.names : CIns → List String
  | .asg x e => x :: e.names
  | .tmp _ e => e.names

theorem evalW_congr {I : Nat → Int → Int → Int} {st st' : VStore} (e : AExp VName) (h : ∀ x ∈ e.names, st x = st' x) :
    evalW I st e = evalW I st' e := by
  induction e with
  | num n => rfl
  | var x => simp only [evalW]; rw [h x (by simp [AExp.names])]
  | idx => rfl
  | op k a b iha ihb =>
    simp only [evalW]
    rw [iha fun x hx => h x (by simp [AExp.names, hx]), ihb fun x hx => h x (by simp [AExp.names, hx])]

theorem names_rename {A B : Type} (f : A → B) (e : AExp A) : (e.rename f).names = e.names.map f := by
  induction e with
  | num n => rfl
  | var x => rfl
  | idx => rfl
  | op k a b iha ihb => simp [AExp.rename, AExp.names, iha, ihb]

/-- Instructions that do not use new temporaries run the same after these are given values. -/
theorem runW_withTemps (I : Nat → Int → Int → Int) {nt : Nat} : ∀ (l : List (VName × AExp VName)) (ts : List (Nat × Int)) (st : VStore),
    (∀ p ∈ ts, nt ≤ p.1) → (∀ p ∈ l, (∀ k, p.1 = .temp k → k < nt) ∧ ∀ x ∈ p.2.names, ∀ k, x = .temp k → k < nt) →
    runW I l (withTemps st ts) = (runW I l st).map fun s => withTemps s ts := by
  intro l ts
  have hag : ∀ (st : VStore) (v : VName), (∀ p ∈ ts, nt ≤ p.1) → (∀ k, v = .temp k → k < nt) → withTemps st ts v = st v := by
    intro st v
    induction ts with
    | nil => intro _ _; rfl
    | cons p ts ih =>
      obtain ⟨k, a⟩ := p
      intro hts hv
      simp only [withTemps, VStore.set]
      rw [if_neg, ih (fun p hp => hts p (List.mem_cons_of_mem _ hp)) hv]
      intro e
      have h1 := hv k e
      have h2 := hts (k, a) (List.mem_cons_self ..)
      simp only at h2
      omega
  have hset : ∀ (st : VStore) (v : VName) (a : Int), (∀ p ∈ ts, nt ≤ p.1) → (∀ k, v = .temp k → k < nt) →
      (withTemps st ts).set v a = withTemps (st.set v a) ts := by
    intro st v a
    clear hag
    induction ts with
    | nil => intro _ _; rfl
    | cons p ts ih =>
      obtain ⟨k, b⟩ := p
      intro hts hv
      simp only [withTemps]
      rw [← ih (fun p hp => hts p (List.mem_cons_of_mem _ hp)) hv]
      funext w
      have hvk : v ≠ .temp k := by
        intro e
        have h1 := hv k e
        have h2 := hts (k, b) (List.mem_cons_self ..)
        simp only at h2
        omega
      simp only [VStore.set]
      by_cases h1 : w = v
      · rw [if_pos h1, if_neg (by rw [h1]; exact hvk), if_pos h1]
      · rw [if_neg h1]
        by_cases h2 : w = .temp k
        · rw [if_pos h2, if_pos h2]
        · rw [if_neg h2, if_neg h2, if_neg h1]
  induction l with
  | nil => intro st _ _; rfl
  | cons p l ih =>
    obtain ⟨v, e⟩ := p
    intro st hts hl
    obtain ⟨hv, he⟩ := hl (v, e) (List.mem_cons_self ..)
    simp only [runW]
    rw [evalW_congr e fun x hx => hag st x hts (he x hx)]
    cases evalW I st e with
    | none => rfl
    | some a =>
      simp only
      rw [hset st v a hts hv]
      exact ih _ hts fun p hp => hl p (List.mem_cons_of_mem _ hp)

/-- Variables that are not assigned keep their values. -/
theorem runW_frame (I : Nat → Int → Int → Int) {v : VName} : ∀ (l : List (VName × AExp VName)) (st st' : VStore),
    (∀ p ∈ l, p.1 ≠ v) → runW I l st = some st' → st' v = st v := by
  intro l
  induction l with
  | nil => intro st st' _ h; simp only [runW, Option.some.injEq] at h; rw [h]
  | cons p l ih =>
    obtain ⟨w, e⟩ := p
    intro st st' hl h
    simp only [runW] at h
    cases he : evalW I st e with
    | none => rw [he] at h; cases h
    | some a =>
      rw [he] at h
      have := ih _ st' (fun p hp => hl p (List.mem_cons_of_mem _ hp)) h
      rw [this]
      simp only [VStore.set]
      rw [if_neg fun e => hl (w, _) (List.mem_cons_self ..) e.symm]

/-- All instructions so far. -/
def GS.total (s : GS) : List (VName × AExp VName) := s.out ++ s.cur.map (CIns.write s.rules)

structure GSOk (V : List String) (root : String → String) (W : Option (List String)) (s : GS) : Prop where
  rules : RulesOk V root s.nt s.rules
  cur : ∀ i ∈ s.cur, ∃ x e, i = .asg x e ∧ x ∈ V ∧ (∀ y ∈ e.names, y ∈ V) ∧ ¬ NotIn W (root x)
  decls : ∀ x ∈ s.decls, x ∈ V

/-- The state of the meaning that goes with a state of the gathering. -/
def GS.ms (s : GS) (st : VStore) : MS := ⟨look s.rules, s.blk, s.nb, s.nt, st⟩

theorem newBlock_total (s : GS) (r : Rules) : (s.newBlock r).total = s.total := by
  simp [GS.total, GS.newBlock]

theorem newBlock_ok {V : List String} {root : String → String} {W : Option (List String)} {s : GS} {r : Rules} (h : RulesOk V root s.nt r) :
    GSOk V root W (s.newBlock r) :=
  ⟨h, by simp [GS.newBlock], by simp [GS.newBlock]⟩

theorem write_congr {r r' : Rules} {i : CIns} (h : ∀ x ∈ i.names, look r x = look r' x) : i.write r = i.write r' := by
  cases i with
  | asg x e =>
    simp only [CIns.write, Prod.mk.injEq]
    exact ⟨h x (List.mem_cons_self ..), rename_congr e fun y hy => h y (List.mem_cons_of_mem _ hy)⟩
  | tmp k e =>
    simp only [CIns.write, Prod.mk.injEq, true_and]
    exact rename_congr e h

/-- What gathering a piece of code does. -/
def Gathers (I : Nat → Int → Int → Int) (id : Option Nat) (V : List String) (root : String → String) (c : CCode) (s : GS) : Prop :=
  match gatherC id c s with
  | .error e => e ≠ .redeclared ∧ ∀ st, meaning I id c (s.ms st) = none
  | .ok s' => s.nt ≤ s'.nt ∧ (c.declared = [] → GSOk V root none s') ∧
      (∀ st0, ∃ st', meaning I id c (s.ms st0) = some (s'.ms st')) ∧
      ∀ st st0, runW I s.total st = some st0 → ∃ st', runW I s'.total st = some st' ∧ meaning I id c (s.ms st0) = some (s'.ms st')

theorem Gathers.ok {I : Nat → Int → Int → Int} {id : Option Nat} {V : List String} {root : String → String} {c : CCode} {s s' : GS}
    (h : Gathers I id V root c s)
    (hg : gatherC id c s = .ok s') : s.nt ≤ s'.nt ∧ (c.declared = [] → GSOk V root none s') ∧
      (∀ st0, ∃ st', meaning I id c (s.ms st0) = some (s'.ms st')) ∧
      ∀ st st0, runW I s.total st = some st0 → ∃ st', runW I s'.total st = some st' ∧ meaning I id c (s.ms st0) = some (s'.ms st') := by
  unfold Gathers at h; rw [hg] at h; exact h

theorem Gathers.error {I : Nat → Int → Int → Int} {id : Option Nat} {V : List String} {root : String → String} {c : CCode} {s : GS}
    {e : CircErr} (h : Gathers I id V root c s) (hg : gatherC id c s = .error e) :
    e ≠ .redeclared ∧ ∀ st, meaning I id c (s.ms st) = none := by
  unfold Gathers at h; rw [hg] at h; exact h

theorem GSOk.forget {V : List String} {root : String → String} {W : Option (List String)} {s : GS} (h : GSOk V root W s) :
    GSOk V root none s :=
  ⟨h.rules, fun i hi => by obtain ⟨x, e, h1, h2, h3, _⟩ := h.cur i hi; exact ⟨x, e, h1, h2, h3, id⟩, h.decls⟩

theorem portGiven_arg {r : Rules} {x : String} : ∀ (ps : List String) (l : List CArg) (t : Nat) (v : VName),
    portArg ps (argNames r t l).1 x = some v → ∃ (i : Nat) (a : CArg), portGiven ps l x = some a ∧ ps[i]? = some x ∧ l[i]? = some a ∧
      (argNames r t l).1[i]? = some v := by
  intro ps
  induction ps with
  | nil => intro l t v h; simp [portArg] at h
  | cons p ps ih =>
    intro l t v h
    cases l with
    | nil => simp [argNames, portArg] at h
    | cons a l =>
      have hsplit : ∃ w t', (argNames r t (a :: l)).1 = w :: (argNames r t' l).1 := by
        cases a with
        | id y => exact ⟨_, t, rfl⟩
        | expr e => exact ⟨_, t + 1, rfl⟩
      obtain ⟨w, t', hw⟩ := hsplit
      rw [hw] at h ⊢
      simp only [portArg, portGiven] at h ⊢
      by_cases hp : p = x
      · rw [if_pos hp] at h ⊢
        exact ⟨0, a, rfl, by simp [hp], rfl, by simpa using h⟩
      · rw [if_neg hp] at h ⊢
        obtain ⟨i, b, h1, h2, h3, h4⟩ := ih l t' v h
        exact ⟨i + 1, b, h1, by simpa using h2, by simpa using h3, by simpa using h4⟩

theorem portGiven_out {r : Rules} {x : String} : ∀ (ps oa : List String) (v : VName),
    portArg ps (oa.map (look r)) x = some v → ∃ y, portGiven ps (oa.map CArg.id) x = some (.id y) ∧ y ∈ oa ∧ v = look r y := by
  intro ps
  induction ps with
  | nil => intro oa v h; simp [portArg] at h
  | cons p ps ih =>
    intro oa v h
    cases oa with
    | nil => simp [portArg] at h
    | cons y oa =>
      simp only [List.map_cons, portArg, portGiven] at h ⊢
      by_cases hp : p = x
      · rw [if_pos hp, Option.some.injEq] at h
        rw [if_pos hp]
        exact ⟨y, rfl, List.mem_cons_self .., h.symm⟩
      · rw [if_neg hp] at h ⊢
        obtain ⟨z, h1, h2, h3⟩ := ih oa v h
        exact ⟨z, h1, List.mem_cons_of_mem _ h2, h3⟩

theorem portGiven_none' {x : String} : ∀ (ps : List String) (l : List CArg) (vs : List VName), vs.length = l.length →
    portArg ps vs x = none → portGiven ps l x = none := by
  intro ps
  induction ps with
  | nil => intro l vs _ _; cases l <;> rfl
  | cons p ps ih =>
    intro l vs hl h
    cases l with
    | nil => rfl
    | cons a l =>
      cases vs with
      | nil => simp at hl
      | cons v vs =>
        simp only [portArg, portGiven] at h ⊢
        by_cases hp : p = x
        · rw [if_pos hp] at h; cases h
        · rw [if_neg hp] at h ⊢
          exact ih l vs (by simpa using hl) h

theorem RulesOk.ports {V : List String} {root : String → String} {nt : Nat} {r : Rules} (h : RulesOk V root nt r) {ins outs : List String}
    {ia : List CArg} {oa : List String} (hi : ∀ p ∈ ins, p ∉ V) (ho : ∀ p ∈ outs, p ∉ V) (hni : ins.Nodup) (hno : outs.Nodup)
    (ha : ∀ a ∈ ia, ∀ y ∈ a.names, y ∈ V) (hoa : ∀ y ∈ oa, y ∈ V)
    (hio : ∀ (i j : Nat) (p : String), ins[i]? = some p → outs[j]? = some p → ∃ x, ia[i]? = some (.id x) ∧ oa[j]? = some x)
    (li : ins.length = ia.length) (lo : outs.length = oa.length) :
    RulesOk (ins ++ outs ++ V) (portRoot root ins ia outs oa) (nt + ia.length)
      (bindPorts r (bindPorts r r ins (argNames r nt ia).1) outs (oa.map (look r))) ∧
    look (bindPorts r (bindPorts r r ins (argNames r nt ia).1) outs (oa.map (look r))) =
      portEnv (look r) ins (argNames r nt ia).1 outs (oa.map (look r)) := by
  obtain ⟨a1, a2, _, a4, a5, a6⟩ := argNames_ok h ia nt (Nat.le_refl _) ha
  have hov : ∀ v ∈ oa.map (look r), relook r v = v ∧ (∀ y, v = .top y → y ∈ V) ∧ (∀ b y, v = .loc b y → y ∈ V) ∧
      ∀ k, v = .temp k → k < nt + ia.length := by
    intro v hv
    obtain ⟨x, hx, rfl⟩ := List.mem_map.mp hv
    exact ⟨h.fix x (hoa x hx), h.tops x (hoa x hx), h.locs x (hoa x hx), fun k hk => by have := h.temps x (hoa x hx) k hk; omega⟩
  have heq : look (bindPorts r (bindPorts r r ins (argNames r nt ia).1) outs (oa.map (look r))) =
      portEnv (look r) ins (argNames r nt ia).1 outs (oa.map (look r)) := by
    funext x
    rw [look_bindPorts outs _ _ hno fun v hv => (hov v hv).1, look_bindPorts ins _ _ hni fun v hv => (a2 v hv).1]
    unfold portEnv
    cases h1 : portArg ins (argNames r nt ia).1 x with
    | none => rfl
    | some v =>
      cases h2 : portArg outs (oa.map (look r)) x with
      | none => rfl
      | some w =>
        simp only
        obtain ⟨_, _, i, i1, i2⟩ := portArg_mem h1
        obtain ⟨_, _, j, j1, j2⟩ := portArg_mem h2
        obtain ⟨y, y1, y2⟩ := hio i j x i1 j1
        have e1 := a4 i y y1
        rw [i2, Option.some.injEq] at e1
        rw [List.getElem?_map, y2, Option.map_some, Option.some.injEq] at j2
        rw [e1, ← j2]
  have hV : ∀ x ∈ V, look (bindPorts r (bindPorts r r ins (argNames r nt ia).1) outs (oa.map (look r))) x = look r x := by
    intro x hx
    rw [heq]
    unfold portEnv
    rw [portArg_none fun hc => hi x hc hx, portArg_none fun hc => ho x hc hx]
  -- a name in scope is a name of the scope of the instantiation, or a port given an expression
  have hcase : ∀ x ∈ ins ++ outs ++ V,
      (∃ y ∈ V, look (bindPorts r (bindPorts r r ins (argNames r nt ia).1) outs (oa.map (look r))) x = look r y ∧
        portRoot root ins ia outs oa x = root y) ∨
      (∃ i k : Nat, ins[i]? = some x ∧ nt ≤ k ∧ (argNames r nt ia).1[i]? = some (.temp k) ∧
        look (bindPorts r (bindPorts r r ins (argNames r nt ia).1) outs (oa.map (look r))) x = .temp k ∧
        portRoot root ins ia outs oa x = x) := by
    intro x hx
    rw [heq]
    by_cases hxV : x ∈ V
    · left
      refine ⟨x, hxV, ?_, ?_⟩
      · rw [← heq, hV x hxV]
      · unfold portRoot
        rw [portGiven_none fun hc => hi x hc hxV, portGiven_none fun hc => ho x hc hxV]
    · unfold portEnv portRoot
      cases h1 : portArg ins (argNames r nt ia).1 x with
      | some v =>
        obtain ⟨i, a, g1, g2, g3, g4⟩ := portGiven_arg ins ia nt v h1
        rw [g1]
        cases a with
        | id y =>
          left
          have := a4 i y g3
          rw [g4, Option.some.injEq] at this
          exact ⟨y, ha _ (List.mem_of_getElem? g3) y (by simp [CArg.names]), this, rfl⟩
        | expr e =>
          right
          obtain ⟨k, k1, k2⟩ := a5 i e g3
          rw [g4, Option.some.injEq] at k2
          exact ⟨i, k, g2, k1, by rw [g4, k2], k2, rfl⟩
      | none =>
        rw [portGiven_none' ins ia _ a1 h1]
        cases h2 : portArg outs (oa.map (look r)) x with
        | some w =>
          obtain ⟨y, y1, y2, y3⟩ := portGiven_out outs oa w h2
          rw [y1]
          left
          exact ⟨y, hoa y y2, y3, rfl⟩
        | none =>
          exfalso
          rw [List.mem_append, List.mem_append] at hx
          rcases hx with (hx | hx) | hx
          · obtain ⟨v, hv⟩ := portArg_some (vs := (argNames r nt ia).1) (by rw [a1, li]) hx
            rw [h1] at hv; cases hv
          · obtain ⟨v, hv⟩ := portArg_some (vs := oa.map (look r)) (by rw [List.length_map, lo]) hx
            rw [h2] at hv; cases hv
          · exact hxV hx
  refine ⟨⟨?_, ?_, ?_, ?_, ?_⟩, heq⟩
  · intro x hx
    rcases hcase x hx with ⟨y, hy, e, _⟩ | ⟨i, k, _, _, _, e, _⟩
    · rw [e]
      have h1 := h.fix y hy
      cases hv : look r y with
      | top z =>
        rw [hv] at h1
        simp only [relook] at h1 ⊢
        rw [hV z (h.tops y hy z hv), h1]
      | loc b z => rfl
      | temp k => rfl
    · rw [e]; rfl
  · intro x hx z hz
    rcases hcase x hx with ⟨y, hy, e, _⟩ | ⟨i, k, _, _, _, e, _⟩
    · rw [e] at hz
      exact List.mem_append_right _ (h.tops y hy z hz)
    · rw [e] at hz; cases hz
  · intro x hx b z hz
    rcases hcase x hx with ⟨y, hy, e, _⟩ | ⟨i, k, _, _, _, e, _⟩
    · rw [e] at hz
      exact List.mem_append_right _ (h.locs y hy b z hz)
    · rw [e] at hz; cases hz
  · intro x hx k hk
    rcases hcase x hx with ⟨y, hy, e, _⟩ | ⟨i, k', _, _, g, e, _⟩
    · rw [e] at hk
      have := h.temps y hy k hk
      omega
    · rw [e, VName.temp.injEq] at hk
      subst hk
      exact (a2 _ (List.mem_of_getElem? g)).2.2.2 k' rfl
  · intro x hx y hy e
    rcases hcase x hx with ⟨x', hx', e1, r1⟩ | ⟨i, k, i1, k1, g1, e1, r1⟩
    · rcases hcase y hy with ⟨y', hy', e2, r2⟩ | ⟨j, k2, j1, k3, g2, e2, r2⟩
      · rw [r1, r2]
        exact h.roots x' hx' y' hy' (by rw [← e1, e, e2])
      · exfalso
        have := h.temps x' hx' k2 (by rw [← e1, e, e2])
        omega
    · rcases hcase y hy with ⟨y', hy', e2, r2⟩ | ⟨j, k2, j1, k3, g2, e2, r2⟩
      · exfalso
        have := h.temps y' hy' k (by rw [← e2, ← e, e1])
        omega
      · rw [e1, e2, VName.temp.injEq] at e
        subst e
        have := a6 i j k k1 g1 g2
        subst this
        rw [i1, Option.some.injEq] at j1
        rw [j1]

theorem notIn_add {W : Option (List String)} {r x : String} (h : NotIn (addW W r) x) : x ≠ r ∧ NotIn W x := by
  cases W with
  | none => exact absurd h id
  | some l => simpa [NotIn, addW] using h

theorem gathers_all (I : Nat → Int → Int → Int) : ∀ (c : CCode) (id : Option Nat) (V : List String) (root : String → String)
    (W : Option (List String)) (s : GS), Hygienic V root W c → GSOk V root W s → Gathers I id V root c s := by
  intro c
  induction c with
  | done =>
    intro id V root W s _ hs
    unfold Gathers
    simp only [gatherC]
    exact ⟨Nat.le_refl _, fun _ => hs.forget, fun st0 => ⟨st0, rfl⟩, fun st st0 h => ⟨st0, h, rfl⟩⟩
  | asg x e r ih =>
    intro id V root W s hh hs
    obtain ⟨hx, he, hr⟩ := hh
    unfold Gathers
    simp only [gatherC]
    cases hi : e.setId id with
    | none =>
      simp only
      refine ⟨by simp, fun st => ?_⟩
      simp only [meaning, GS.ms, evalS_none hi]
    | some e' =>
      simp only
      set s1 : GS := { s with cur := s.cur ++ [.asg x e'] } with hs1
      have hok : GSOk V root (addW W (root x)) s1 := by
        refine ⟨hs.rules, fun i hi' => ?_, hs.decls⟩
        rcases List.mem_append.mp hi' with hm | hm
        · obtain ⟨y, f, h1, h2, h3, h4⟩ := hs.cur i hm
          exact ⟨y, f, h1, h2, h3, fun hn => h4 (notIn_add hn).2⟩
        · rw [List.mem_singleton] at hm
          exact ⟨x, e', hm, hx, fun y hy => he y (setId_names hi y hy), fun hn => (notIn_add hn).1 rfl⟩
      have hms : ∀ st a, evalS I (look s.rules) id st e = some a →
          meaning I id (.asg x e r) (s.ms st) = meaning I id r (s1.ms (st.set (look s.rules x) a)) := by
        intro st a ha
        simp only [meaning, GS.ms, ha, hs1]
      have htot : s1.total = s.total ++ [(look s.rules x, e'.rename (look s.rules))] := by
        simp [GS.total, CIns.write, hs1]
      have key := ih id V root (addW W (root x)) s1 hr hok
      cases hg : gatherC id r s1 with
      | error err =>
        simp only
        obtain ⟨k1, k2⟩ := key.error hg
        refine ⟨k1, fun st => ?_⟩
        obtain ⟨a, ha, _⟩ := evalS_some (I := I) (env := look s.rules) (st := st) hi
        rw [hms st a ha, k2]
      | ok s' =>
        simp only
        obtain ⟨k1, k2, k4, k3⟩ := key.ok hg
        refine ⟨k1, k2, fun st0 => ?_, fun st st0 h0 => ?_⟩
        · obtain ⟨a, ha, _⟩ := evalS_some (I := I) (env := look s.rules) (st := st0) hi
          rw [hms st0 a ha]
          exact k4 _
        obtain ⟨a, ha, hw⟩ := evalS_some (I := I) (env := look s.rules) (st := st0) hi
        obtain ⟨st', q1, q2⟩ := k3 st (st0.set (look s.rules x) a) (by rw [htot, runW_append, h0, Option.bind_some]; simp only [runW, hw])
        exact ⟨st', q1, by rw [hms st0 a ha, q2]⟩
  | declare x e r ih =>
    intro id V root W s hh hs
    obtain ⟨hx, he, hr⟩ := hh
    unfold Gathers
    simp only [gatherC]
    rw [if_neg fun hc => hx (hs.decls x hc)]
    cases hi : e.setId id with
    | none =>
      simp only
      refine ⟨by simp, fun st => ?_⟩
      simp only [meaning, GS.ms, evalS_none hi]
    | some e' =>
      simp only
      set s1 : GS := { s with rules := (x, blockName s.blk x) :: s.rules, decls := x :: s.decls, cur := s.cur ++ [.asg x e'] } with hs1
      have hlook : ∀ y ∈ V, look ((x, blockName s.blk x) :: s.rules) y = look s.rules y := fun y hy => by
        simp only [look]
        rw [if_neg fun e => hx (by rw [e]; exact hy)]
      have hok : GSOk (x :: V) (fun y => if y = x then x else root y) (addW W x) s1 := by
        refine ⟨hs.rules.declare hx s.blk, fun i hi' => ?_, fun y hy => ?_⟩
        · rcases List.mem_append.mp hi' with hm | hm
          · obtain ⟨y, f, h1, h2, h3, h4⟩ := hs.cur i hm
            refine ⟨y, f, h1, List.mem_cons_of_mem _ h2, fun z hz => List.mem_cons_of_mem _ (h3 z hz), fun hn => ?_⟩
            have hyx : y ≠ x := fun e' => hx (e' ▸ h2)
            rw [if_neg hyx] at hn
            exact h4 (notIn_add hn).2
          · rw [List.mem_singleton] at hm
            refine ⟨x, e', hm, List.mem_cons_self .., fun y hy => List.mem_cons_of_mem _ (he y (setId_names hi y hy)), fun hn => ?_⟩
            rw [if_pos rfl] at hn
            exact (notIn_add hn).1 rfl
        · rcases List.mem_cons.mp hy with rfl | hy
          · exact List.mem_cons_self ..
          · exact List.mem_cons_of_mem _ (hs.decls y hy)
      have henv : (fun y => if x = y then blockName s.blk x else look s.rules y) = look s1.rules := by
        funext y
        simp only [hs1, look]
      have hms : ∀ st a, evalS I (look s.rules) id st e = some a →
          meaning I id (.declare x e r) (s.ms st) = meaning I id r (s1.ms (st.set (blockName s.blk x) a)) := by
        intro st a ha
        simp only [meaning, GS.ms, ha]
        rw [henv]
      have hren : e'.rename (look s1.rules) = e'.rename (look s.rules) :=
        rename_congr e' fun y hy => hlook y (he y (setId_names hi y hy))
      have e1 : s.cur.map (CIns.write s1.rules) = s.cur.map (CIns.write s.rules) :=
        List.map_congr_left fun i hi' => write_congr fun y hy => by
          obtain ⟨z, f, h1, h2, h3, _⟩ := hs.cur i hi'
          rw [h1] at hy
          rcases List.mem_cons.mp hy with rfl | hy
          · exact hlook _ h2
          · exact hlook y (h3 y hy)
      have e2 : CIns.write s1.rules (.asg x e') = (blockName s.blk x, e'.rename (look s.rules)) := by
        simp only [CIns.write, hren]
        simp only [hs1, look, if_true]
      have htot : s1.total = s.total ++ [(blockName s.blk x, e'.rename (look s.rules))] := by
        unfold GS.total
        rw [show s1.cur = s.cur ++ [.asg x e'] from rfl, List.map_append, e1, List.map_cons, e2, List.map_nil, ← List.append_assoc]
      have key := ih id (x :: V) _ (addW W x) s1 hr hok
      cases hg : gatherC id r s1 with
      | error err =>
        simp only
        obtain ⟨k1, k2⟩ := key.error hg
        refine ⟨k1, fun st => ?_⟩
        obtain ⟨a, ha, _⟩ := evalS_some (I := I) (env := look s.rules) (st := st) hi
        rw [hms st a ha, k2]
      | ok s' =>
        simp only
        obtain ⟨k1, k2, k4, k3⟩ := key.ok hg
        refine ⟨k1, by simp [CCode.declared], fun st0 => ?_, fun st st0 h0 => ?_⟩
        · obtain ⟨a, ha, _⟩ := evalS_some (I := I) (env := look s.rules) (st := st0) hi
          rw [hms st0 a ha]
          exact k4 _
        obtain ⟨a, ha, hw⟩ := evalS_some (I := I) (env := look s.rules) (st := st0) hi
        obtain ⟨st', q1, q2⟩ := k3 st (st0.set (blockName s.blk x) a) (by rw [htot, runW_append, h0, Option.bind_some]; simp only [runW, hw])
        exact ⟨st', q1, by rw [hms st0 a ha, q2]⟩
  | block body r ihb ihr =>
    intro id V root W s hh hs
    obtain ⟨hb, hr⟩ := hh
    unfold Gathers
    simp only [gatherC]
    have hm0 : ∀ st, meaning I id (.block body r) (s.ms st) =
        match meaning I id body ((s.newBlock s.rules).ms st) with
        | none => none
        | some s' => meaning I id r { s' with env := look s.rules, blk := some s'.nb, nb := s'.nb + 1 } := fun st => rfl
    have kb := ihb id V root (some []) (s.newBlock s.rules) hb (newBlock_ok hs.rules)
    cases hg : gatherC id body (s.newBlock s.rules) with
    | error err =>
      simp only
      obtain ⟨k1, k2⟩ := kb.error hg
      refine ⟨k1, fun st => ?_⟩
      rw [hm0, k2]
    | ok s1 =>
      simp only
      obtain ⟨b1, _, b3, b4⟩ := kb.ok hg
      have hnt : s.nt ≤ s1.nt := b1
      have kr := ihr id V root (some []) (s1.newBlock s.rules) hr (newBlock_ok (hs.rules.mono hnt))
      cases hg2 : gatherC id r (s1.newBlock s.rules) with
      | error err =>
        simp only
        obtain ⟨k1, k2⟩ := kr.error hg2
        refine ⟨k1, fun st => ?_⟩
        obtain ⟨st1, q1⟩ := b3 st
        rw [hm0, q1]
        exact k2 st1
      | ok s2 =>
        simp only
        obtain ⟨c1, c2, c3, c4⟩ := kr.ok hg2
        refine ⟨Nat.le_trans hnt c1, c2, fun st0 => ?_, fun st st0 h0 => ?_⟩
        · obtain ⟨st1, q1⟩ := b3 st0
          rw [hm0, q1]
          exact c3 st1
        · obtain ⟨st1, q1, q2⟩ := b4 st st0 (by rw [newBlock_total]; exact h0)
          obtain ⟨st2, q3, q4⟩ := c4 st st1 (by rw [newBlock_total]; exact q1)
          refine ⟨st2, q3, ?_⟩
          rw [hm0, q2]
          exact q4
  | inst ins outs ia oa body r ihb ihr =>
    intro id V root W s hh hs
    obtain ⟨hi, ho, hni, hno, ha, hoa, hio', hex', hb, hr⟩ := hh
    have hio : ∀ (i j : Nat) (p : String), ins[i]? = some p → outs[j]? = some p → ∃ x, ia[i]? = some (.id x) ∧ oa[j]? = some x := by
      intro i j p h1 h2
      obtain ⟨x, _, hx⟩ := hio' i (List.getElem?_eq_some_iff.mp h1).1 j (List.getElem?_eq_some_iff.mp h2).1 (by rw [h1, h2])
      exact ⟨x, hx⟩
    have hex : ∀ e, CArg.expr e ∈ ia → ∀ y ∈ e.names, NotIn W (root y) := fun e he y hy => hex' _ he y hy
    unfold Gathers
    simp only [gatherC]
    by_cases li : ins.length = ia.length
    · rw [if_neg (by simpa using li)]
      by_cases lo : outs.length = oa.length
      · rw [if_neg (by simpa using lo)]
        obtain ⟨hrules, heq⟩ := hs.rules.ports hi ho hni hno ha hoa hio li lo
        have hgiven := fun st => given_ok I hs.rules id st ia s.nt (Nat.le_refl _) ha
        set r1 := bindPorts s.rules (bindPorts s.rules s.rules ins (argNames s.rules s.nt ia).1) outs (oa.map (look s.rules)) with hr1
        cases hsi : setIds id (argNames s.rules s.nt ia).2 with
        | none =>
          simp only
          refine ⟨by simp, fun st => ?_⟩
          have hg := hgiven st
          rw [hsi] at hg
          simp only at hg
          rw [meaning, if_neg (by simp [li, lo])]
          simp only [GS.ms, hg]
        | some tmps =>
          simp only
          set s0 : GS := { s with nt := s.nt + ia.length, cur := tmps.reverse ++ s.cur } with hs0
          -- what the instantiation gives, and the state of the meaning in the body
          have hgv : ∀ st, ∃ ts, given I (look s.rules) id st s.nt ia = some ((argNames s.rules s.nt ia).1, ts) ∧
              runW I (tmps.reverse.map (CIns.write s.rules)) st = some (withTemps st ts) ∧ (∀ p ∈ ts, s.nt ≤ p.1) := by
            intro st
            have hg := hgiven st
            rw [hsi] at hg
            obtain ⟨ts, g1, g2, g3, _⟩ := hg
            exact ⟨ts, g1, g2, g3⟩
          have hm0 : ∀ st ts, given I (look s.rules) id st s.nt ia = some ((argNames s.rules s.nt ia).1, ts) →
              meaning I id (.inst ins outs ia oa body r) (s.ms st) =
              match meaning I id body ((s0.newBlock r1).ms (withTemps st ts)) with
              | none => none
              | some s' => meaning I id r { s' with env := look s.rules, blk := some s'.nb, nb := s'.nb + 1 } := by
            intro st ts hg
            rw [meaning, if_neg (by simp [li, lo])]
            simp only [GS.ms, hg, GS.newBlock]
            rw [heq]
            rfl
          have hcurT : ∀ p ∈ s.cur.map (CIns.write s.rules), (∀ k, p.1 = .temp k → k < s.nt) ∧
              ∀ x ∈ p.2.names, ∀ k, x = .temp k → k < s.nt := by
            intro p hp
            obtain ⟨i, hi', rfl⟩ := List.mem_map.mp hp
            obtain ⟨x, e, rfl, h2, h3, _⟩ := hs.cur i hi'
            refine ⟨fun k hk => hs.rules.temps x h2 k hk, fun y hy k hk => ?_⟩
            simp only [CIns.write, names_rename, List.mem_map] at hy
            obtain ⟨z, hz, rfl⟩ := hy
            exact hs.rules.temps z (h3 z hz) k hk
          -- the temporaries are computed before the instructions of the block, which do not assign what they read
          have hrun : ∀ st st0 ts, runW I s.total st = some st0 →
              given I (look s.rules) id st0 s.nt ia = some ((argNames s.rules s.nt ia).1, ts) →
              runW I s0.total st = some (withTemps st0 ts) := by
            intro st st0 ts h0 hg
            unfold GS.total at h0 ⊢
            rw [runW_append] at h0
            simp only [hs0]
            rw [List.map_append, runW_append]
            cases hm1 : runW I s.out st with
            | none => rw [hm1] at h0; cases h0
            | some st1 =>
              rw [hm1, Option.bind_some] at h0
              rw [Option.bind_some, runW_append]
              have hsame : given I (look s.rules) id st0 s.nt ia = given I (look s.rules) id st1 s.nt ia := by
                refine given_congr I ia s.nt fun e he y hy => ?_
                refine runW_frame I _ st1 st0 (fun p hp => ?_) h0
                obtain ⟨i, hi', rfl⟩ := List.mem_map.mp hp
                obtain ⟨x, e', rfl, h2, _, h4⟩ := hs.cur i hi'
                intro hc
                have := hs.rules.roots x h2 y (ha _ he y hy) hc
                rw [this] at h4
                exact h4 (hex e he y hy)
              obtain ⟨ts', g1, g2, g3⟩ := hgv st1
              rw [hsame, g1, Option.some.injEq, Prod.mk.injEq] at hg
              rw [g2, Option.bind_some, ← hg.2, runW_withTemps I _ _ _ g3 hcurT, h0]
              rfl
          have kb := ihb id _ _ (some []) (s0.newBlock r1) hb (newBlock_ok hrules)
          cases hg : gatherC id body (s0.newBlock r1) with
          | error err =>
            simp only
            obtain ⟨k1, k2⟩ := kb.error hg
            refine ⟨k1, fun st => ?_⟩
            obtain ⟨ts, g1, _⟩ := hgv st
            rw [hm0 st ts g1, k2]
          | ok s1 =>
            simp only
            obtain ⟨b1, _, b3, b4⟩ := kb.ok hg
            have hnt : s.nt ≤ s1.nt := by
              have : s.nt + ia.length ≤ s1.nt := b1
              omega
            have kr := ihr id V root (some []) (s1.newBlock s.rules) hr (newBlock_ok (hs.rules.mono hnt))
            cases hg2 : gatherC id r (s1.newBlock s.rules) with
            | error err =>
              simp only
              obtain ⟨k1, k2⟩ := kr.error hg2
              refine ⟨k1, fun st => ?_⟩
              obtain ⟨ts, g1, _⟩ := hgv st
              obtain ⟨st1, q1⟩ := b3 (withTemps st ts)
              rw [hm0 st ts g1, q1]
              exact k2 st1
            | ok s2 =>
              simp only
              obtain ⟨c1, c2, c3, c4⟩ := kr.ok hg2
              refine ⟨Nat.le_trans hnt c1, c2, fun st0 => ?_, fun st st0 h0 => ?_⟩
              · obtain ⟨ts, g1, _⟩ := hgv st0
                obtain ⟨st1, q1⟩ := b3 (withTemps st0 ts)
                rw [hm0 st0 ts g1, q1]
                exact c3 st1
              · obtain ⟨ts, g1, _⟩ := hgv st0
                obtain ⟨st1, q1, q2⟩ := b4 st (withTemps st0 ts) (by rw [newBlock_total]; exact hrun st st0 ts h0 g1)
                obtain ⟨st2, q3, q4⟩ := c4 st st1 (by rw [newBlock_total]; exact q1)
                refine ⟨st2, q3, ?_⟩
                rw [hm0 st0 ts g1, q2]
                exact q4
      · rw [if_pos (by simpa using lo)]
        refine ⟨by simp, fun st => ?_⟩
        rw [meaning, if_pos (Or.inr lo)]
    · rw [if_pos (by simpa using li)]
      refine ⟨by simp, fun st => ?_⟩
      rw [meaning, if_pos (Or.inl li)]
  | rep n body r ihb ihr =>
    intro id V root W s hh hs
    obtain ⟨hd, hb, hr⟩ := hh
    unfold Gathers
    cases id with
    | some i =>
      rw [gatherC, if_pos (by simp)]
      refine ⟨by simp, fun st => ?_⟩
      rw [meaning, if_pos (by simp)]
    | none =>
      cases n with
      | zero =>
        rw [gatherC, if_neg (by simp), if_pos rfl]
        refine ⟨by simp, fun st => ?_⟩
        rw [meaning, if_pos (by simp)]
      | succ n =>
        rw [gatherC, if_neg (by simp), if_neg (by simp)]
        have hcop : ∀ (m i : Nat) (s : GS), GSOk V root none s →
            match copies (fun j => gatherC (some j) body) i m s with
            | .error e => e ≠ .redeclared ∧ ∀ st, times (fun j => meaning I (some j) body) i m (s.ms st) = none
            | .ok s' => s.nt ≤ s'.nt ∧ GSOk V root none s' ∧
              (∀ st0, ∃ st', times (fun j => meaning I (some j) body) i m (s.ms st0) = some (s'.ms st')) ∧
              ∀ st st0, runW I s.total st = some st0 → ∃ st', runW I s'.total st = some st' ∧
                times (fun j => meaning I (some j) body) i m (s.ms st0) = some (s'.ms st') := by
          intro m
          induction m with
          | zero =>
            intro i s hs
            simp only [copies, times]
            exact ⟨Nat.le_refl _, hs, fun st0 => ⟨st0, rfl⟩, fun st st0 h => ⟨st0, h, rfl⟩⟩
          | succ m ihm =>
            intro i s hs
            simp only [copies]
            have kb := ihb (some i) V root none s hb hs
            cases hg : gatherC (some i) body s with
            | error err =>
              simp only
              obtain ⟨k1, k2⟩ := kb.error hg
              refine ⟨k1, fun st => ?_⟩
              simp only [times, k2]
            | ok s1 =>
              simp only
              obtain ⟨b1, b2, b3, b4⟩ := kb.ok hg
              have := ihm (i + 1) s1 (b2 hd)
              cases hg2 : copies (fun j => gatherC (some j) body) (i + 1) m s1 with
              | error err =>
                rw [hg2] at this
                simp only at this ⊢
                refine ⟨this.1, fun st => ?_⟩
                obtain ⟨st1, q1⟩ := b3 st
                simp only [times, q1]
                exact this.2 st1
              | ok s2 =>
                rw [hg2] at this
                simp only at this ⊢
                obtain ⟨c1, c2, c3, c4⟩ := this
                refine ⟨Nat.le_trans b1 c1, c2, fun st0 => ?_, fun st st0 h0 => ?_⟩
                · obtain ⟨st1, q1⟩ := b3 st0
                  simp only [times, q1]
                  exact c3 st1
                · obtain ⟨st1, q1, q2⟩ := b4 st st0 h0
                  obtain ⟨st2, q3, q4⟩ := c4 st st1 q1
                  refine ⟨st2, q3, ?_⟩
                  simp only [times, q2]
                  exact q4
        have hk := hcop (n + 1) 0 s hs.forget
        have hm0 : ∀ st, meaning I none (.rep (n + 1) body r) (s.ms st) =
            match times (fun j => meaning I (some j) body) 0 (n + 1) (s.ms st) with
            | none => none
            | some s' => meaning I none r s' := fun st => by rw [meaning, if_neg (by simp)]; rfl
        cases hg : copies (fun j => gatherC (some j) body) 0 (n + 1) s with
        | error err =>
          rw [hg] at hk
          simp only at hk ⊢
          refine ⟨hk.1, fun st => ?_⟩
          rw [hm0, hk.2]
        | ok s1 =>
          rw [hg] at hk
          simp only at hk ⊢
          obtain ⟨b1, b2, b3, b4⟩ := hk
          have kr := ihr none V root none s1 hr b2
          cases hg2 : gatherC none r s1 with
          | error err =>
            simp only
            obtain ⟨k1, k2⟩ := kr.error hg2
            refine ⟨k1, fun st => ?_⟩
            obtain ⟨st1, q1⟩ := b3 st
            rw [hm0, q1]
            exact k2 st1
          | ok s2 =>
            simp only
            obtain ⟨c1, c2, c3, c4⟩ := kr.ok hg2
            refine ⟨Nat.le_trans b1 c1, fun h => c2 (by simpa [CCode.declared, hd] using h), fun st0 => ?_, fun st st0 h0 => ?_⟩
            · obtain ⟨st1, q1⟩ := b3 st0
              rw [hm0, q1]
              exact c3 st1
            · obtain ⟨st1, q1, q2⟩ := b4 st st0 h0
              obtain ⟨st2, q3, q4⟩ := c4 st st1 q1
              refine ⟨st2, q3, ?_⟩
              rw [hm0, q2]
              exact q4

/-! ## Copies -/

theorem gatherC_append (id : Option Nat) (b : CCode) : ∀ (a : CCode) (s : GS),
    gatherC id (a.append b) s = match gatherC id a s with | .error e => .error e | .ok s' => gatherC id b s' := by
  intro a
  induction a with
  | done => intro s; rfl
  | asg x e r ih =>
    intro s
    simp only [CCode.append, gatherC]
    cases e.setId id with
    | none => rfl
    | some e' => exact ih _
  | declare x e r ih =>
    intro s
    simp only [CCode.append, gatherC]
    by_cases hx : x ∈ s.decls
    · rw [if_pos hx, if_pos hx]
    · rw [if_neg hx, if_neg hx]
      cases e.setId id with
      | none => rfl
      | some e' => exact ih _
  | block body r _ ih =>
    intro s
    simp only [CCode.append, gatherC]
    cases gatherC id body (s.newBlock s.rules) with
    | error e => rfl
    | ok s' => exact ih _
  | inst ins outs ia oa body r _ ih =>
    intro s
    simp only [CCode.append, gatherC]
    by_cases hi : ins.length ≠ ia.length
    · rw [if_pos hi, if_pos hi]
    rw [if_neg hi, if_neg hi]
    by_cases ho : outs.length ≠ oa.length
    · rw [if_pos ho, if_pos ho]
    rw [if_neg ho, if_neg ho]
    cases setIds id (argNames s.rules s.nt ia).2 with
    | none => rfl
    | some tmps =>
      simp only
      generalize (({ s with cur := tmps.reverse ++ s.cur, nt := s.nt + ia.length } : GS).newBlock
        (bindPorts s.rules (bindPorts s.rules s.rules ins (argNames s.rules s.nt ia).1) outs (oa.map (look s.rules)))) = t
      cases gatherC id body t with
      | error e => rfl
      | ok s' => exact ih _
  | rep n body r _ ih =>
    intro s
    simp only [CCode.append, gatherC]
    by_cases hid : id ≠ none
    · rw [if_pos hid, if_pos hid]
    rw [if_neg hid, if_neg hid]
    by_cases hn : n = 0
    · rw [if_pos hn, if_pos hn]
    rw [if_neg hn, if_neg hn]
    cases copies (fun i => gatherC (some i) body) 0 n s with
    | error e => rfl
    | ok s' => exact ih _

theorem setId_withId {A : Type} (i : Nat) (e : AExp A) : (e.withId i).setId none = e.setId (some i) := by
  induction e with
  | num n => rfl
  | var x => rfl
  | idx => rfl
  | op k a b iha ihb => simp only [AExp.withId, AExp.setId, iha, ihb]

theorem argNames_withId (r : Rules) (i : Nat) : ∀ (l : List CArg) (t : Nat),
    (argNames r t (l.map (CArg.withId i))).1 = (argNames r t l).1 ∧
    setIds none (argNames r t (l.map (CArg.withId i))).2 = setIds (some i) (argNames r t l).2 := by
  intro l
  induction l with
  | nil => intro t; exact ⟨rfl, rfl⟩
  | cons a l ih =>
    intro t
    cases a with
    | id x =>
      simp only [List.map_cons, CArg.withId, argNames]
      exact ⟨by rw [(ih t).1], (ih t).2⟩
    | expr e =>
      simp only [List.map_cons, CArg.withId, argNames, setIds]
      exact ⟨by rw [(ih (t + 1)).1], by rw [setId_withId, (ih (t + 1)).2]⟩

theorem gatherC_withId (i : Nat) : ∀ (c : CCode) (s : GS), c.NoRep → gatherC none (c.withId i) s = gatherC (some i) c s := by
  intro c
  induction c with
  | done => intro s _; rfl
  | asg x e r ih =>
    intro s h
    simp only [CCode.withId, gatherC, setId_withId]
    cases e.setId (some i) with
    | none => rfl
    | some e' => exact ih _ h
  | declare x e r ih =>
    intro s h
    simp only [CCode.withId, gatherC, setId_withId]
    by_cases hx : x ∈ s.decls
    · rw [if_pos hx, if_pos hx]
    · rw [if_neg hx, if_neg hx]
      cases e.setId (some i) with
      | none => rfl
      | some e' => exact ih _ h
  | block body r ihb ih =>
    intro s h
    simp only [CCode.withId, gatherC]
    rw [ihb _ h.1]
    cases gatherC (some i) body (s.newBlock s.rules) with
    | error e => rfl
    | ok s' => exact ih _ h.2
  | inst ins outs ia oa body r ihb ih =>
    intro s h
    simp only [CCode.withId, gatherC, List.length_map, (argNames_withId s.rules i ia s.nt).1, (argNames_withId s.rules i ia s.nt).2]
    by_cases hi : ins.length ≠ ia.length
    · rw [if_pos hi, if_pos hi]
    rw [if_neg hi, if_neg hi]
    by_cases ho : outs.length ≠ oa.length
    · rw [if_pos ho, if_pos ho]
    rw [if_neg ho, if_neg ho]
    cases setIds (some i) (argNames s.rules s.nt ia).2 with
    | none => rfl
    | some tmps =>
      simp only
      rw [ihb _ h.1]
      generalize (({ s with cur := tmps.reverse ++ s.cur, nt := s.nt + ia.length } : GS).newBlock
        (bindPorts s.rules (bindPorts s.rules s.rules ins (argNames s.rules s.nt ia).1) outs (oa.map (look s.rules)))) = t
      cases gatherC (some i) body t with
      | error e => rfl
      | ok s' => exact ih _ h.2
  | rep n body r _ _ => intro s h; exact absurd h id

theorem copies_unrolled {body : CCode} (h : body.NoRep) (r : CCode) : ∀ (n i : Nat) (s : GS),
    gatherC none (body.unrolled i n r) s =
      match copies (fun i => gatherC (some i) body) i n s with | .error e => .error e | .ok s' => gatherC none r s' := by
  intro n
  induction n with
  | zero => intro i s; rfl
  | succ n ih =>
    intro i s
    simp only [CCode.unrolled, copies]
    rw [gatherC_append, gatherC_withId i body s h]
    cases gatherC (some i) body s with
    | error e => rfl
    | ok s' => exact ih (i + 1) s'

/-! ## Uses of the index -/

theorem noId_of_setId {A : Type} {e e' : AExp A} (h : e.setId none = some e') : e.NoId := by
  induction e generalizing e' with
  | num n => trivial
  | var x => trivial
  | idx => simp [AExp.setId] at h
  | op k a b iha ihb =>
    simp only [AExp.setId] at h
    cases ha : a.setId none with
    | none => simp [ha] at h
    | some a' =>
      cases hb : b.setId none with
      | none => simp [ha, hb] at h
      | some b' => exact ⟨iha ha, ihb hb⟩

theorem noId_of_setIds {r : Rules} : ∀ (l : List CArg) (t : Nat) (l' : List CIns), setIds none (argNames r t l).2 = some l' →
    ∀ e, CArg.expr e ∈ l → e.NoId := by
  intro l
  induction l with
  | nil => intro t l' _ e he; simp at he
  | cons a l ih =>
    intro t l' h e he
    cases a with
    | id x =>
      rcases List.mem_cons.mp he with he | he
      · cases he
      · exact ih t l' h e he
    | expr e0 =>
      simp only [argNames, setIds] at h
      cases h0 : e0.setId none with
      | none => simp [h0] at h
      | some e0' =>
        cases h1 : setIds none (argNames r (t + 1) l).2 with
        | none => simp [h0, h1] at h
        | some l1 =>
          rcases List.mem_cons.mp he with he | he
          · cases he; exact noId_of_setId h0
          · exact ih (t + 1) l1 h1 e he

theorem repOk_of_gather : ∀ (c : CCode) (id : Option Nat) (s s' : GS), gatherC id c s = .ok s' → c.RepOk id.isSome := by
  intro c
  induction c with
  | done => intro id s s' _; trivial
  | asg x e r ih =>
    intro id s s' h
    simp only [gatherC] at h
    cases he : e.setId id with
    | none => rw [he] at h; cases h
    | some e' =>
      rw [he] at h
      refine ⟨?_, ih _ _ _ h⟩
      cases id with
      | none => exact Or.inr (noId_of_setId he)
      | some i => exact Or.inl rfl
  | declare x e r ih =>
    intro id s s' h
    simp only [gatherC] at h
    by_cases hx : x ∈ s.decls
    · rw [if_pos hx] at h; cases h
    · rw [if_neg hx] at h
      cases he : e.setId id with
      | none => rw [he] at h; cases h
      | some e' =>
        rw [he] at h
        refine ⟨?_, ih _ _ _ h⟩
        cases id with
        | none => exact Or.inr (noId_of_setId he)
        | some i => exact Or.inl rfl
  | block b r ihb ihr =>
    intro id s s' h
    simp only [gatherC] at h
    cases hb : gatherC id b (s.newBlock s.rules) with
    | error e => rw [hb] at h; cases h
    | ok s1 =>
      rw [hb] at h
      exact ⟨ihb _ _ _ hb, ihr _ _ _ h⟩
  | inst ins outs ia oa b r ihb ihr =>
    intro id s s' h
    rw [gatherC] at h
    by_cases h1 : ins.length ≠ ia.length
    · rw [if_pos h1] at h; cases h
    · rw [if_neg h1] at h
      by_cases h2 : outs.length ≠ oa.length
      · rw [if_pos h2] at h; cases h
      · rw [if_neg h2] at h
        cases ht : setIds id (argNames s.rules s.nt ia).2 with
        | none => rw [ht] at h; cases h
        | some tmps =>
          rw [ht] at h
          simp only at h
          split at h
          · cases h
          · rename_i s1 hb
            refine ⟨?_, ihb _ _ _ hb, ihr _ _ _ h⟩
            cases id with
            | none => exact Or.inr (noId_of_setIds ia _ _ ht)
            | some i => exact Or.inl rfl
  | rep n b r ihb ihr =>
    intro id s s' h
    rw [gatherC] at h
    cases id with
    | some i => rw [if_pos (by simp)] at h; cases h
    | none =>
      rw [if_neg (by simp)] at h
      cases n with
      | zero => rw [if_pos rfl] at h; cases h
      | succ n =>
        rw [if_neg (by simp)] at h
        simp only [copies] at h
        cases hb : gatherC (some 0) b s with
        | error e => rw [hb] at h; cases h
        | ok s1 =>
          rw [hb] at h
          simp only at h
          split at h
          · cases h
          · exact ⟨rfl, Nat.succ_pos n, ihb _ _ _ hb, ihr _ _ _ h⟩

/-! ## From the top block -/

theorem gsOk_top (V : List String) : GSOk V id (some []) ⟨[], none, [], [], 0, 0, []⟩ := by
  refine ⟨⟨fun x _ => rfl, fun x hx y h => ?_, fun x hx b y h => ?_, fun x hx k h => ?_, fun x hx y hy h => ?_⟩, by simp, by simp⟩
  · simp only [look, VName.top.injEq] at h; rw [← h]; exact hx
  · simp [look] at h
  · simp [look] at h
  · simpa [look] using h

end Silice
