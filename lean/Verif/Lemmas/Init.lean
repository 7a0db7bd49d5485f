import Verif.Spec.Init
import Verif.Prelude

set_option autoImplicit false

namespace Silice
variable {V R E : Type}

/-- What is kept of a declaration, for the proofs. -/
structure NfoOf (z : V) (force : Bool) (d : VarDecl V) (v : VarNfo V) : Prop where
  block : v.block = d.block
  noValue : v.noInit = true → ∀ i, d.value z i = none
  start : v.noInit = false → (v.atStartup = true ↔ d.OnConfig ∧ force = false)
  inB : v.inBlock = true ↔ v.noInit = false ∧ ¬ d.OnConfig
  config : d.OnConfig → v.noInit = false ∧ v.size = 0
  plain : v.size = 0 → v.noInit = false → ∃ w, varInitValue z v = some (some w) ∧ d.value z 0 = some w
  plainOnly : v.size = 0 → ∀ i, d.value z (i + 1) = none
  raw : v.noInit = false → v.atStartup = true → ∃ w r, v.init = w :: r ∧ d.value z 0 = some w
  defd : v.size = 0 → v.noInit = true → ∃ w, varInitValue z v = some w
  tab : v.size ≠ 0 → v.noInit = false → ∀ i, v.init[i]? = d.value z i
  full : v.size ≠ 0 → v.noInit = false → v.init.length = v.size
  entries : v.entries = d.entries

theorem nfoOf_gathered {z : V} {force : Bool} {d : VarDecl V} {v : VarNfo V} (h : gatherVar d = some v) (hs : d.SameValue z) (ht : d.FullTable) : NfoOf z force d (forceReset force v) := by
  obtain ⟨b, ini, sa⟩ := d
  obtain ⟨h1, h2, h3⟩ := ht
  cases ini with
  | set w =>
    simp only [gatherVar, VarNfo.insert, Option.some.injEq] at h
    subst h
    have hv : ∀ bs, sa = some bs → bs.head? = some w ∨ (bs = [] ∧ w = z) := fun bs hb => hs bs hb w (Or.inl rfl)
    cases force <;> refine ⟨rfl, ?_, ?_, ?_, ?_, ?_, ?_, ?_, ?_, ?_, ?_, ?_⟩ <;>
      simp [forceReset, VarDecl.value, VarDecl.OnConfig, varInitValue, VarNfo.entries, VarDecl.entries] <;>
      (rcases sa with _ | (_ | ⟨c, r⟩) <;> simp_all)
  | cstr w =>
    simp only [gatherVar, VarNfo.insert, Option.some.injEq] at h
    subst h
    have hv : ∀ bs, sa = some bs → bs.head? = some w ∨ (bs = [] ∧ w = z) := fun bs hb => hs bs hb w (Or.inr rfl)
    cases force <;> refine ⟨rfl, ?_, ?_, ?_, ?_, ?_, ?_, ?_, ?_, ?_, ?_, ?_⟩ <;>
      simp [forceReset, VarDecl.value, VarDecl.OnConfig, varInitValue, VarNfo.entries, VarDecl.entries] <;>
      (rcases sa with _ | (_ | ⟨c, r⟩) <;> simp_all)
  | setNone | cstrNone | expr =>
    simp only [gatherVar, VarNfo.insert, Option.some.injEq] at h
    subst h
    cases force <;> refine ⟨rfl, ?_, ?_, ?_, ?_, ?_, ?_, ?_, ?_, ?_, ?_, ?_⟩ <;>
      simp [forceReset, VarDecl.value, VarDecl.OnConfig, varInitValue, VarNfo.entries, VarDecl.entries] <;>
      (rcases sa with _ | (_ | ⟨c, r⟩) <;> simp_all)
  | absent => cases h
  | table n vs =>
    simp only [gatherVar, VarNfo.insert, Option.some.injEq] at h
    subst h
    obtain ⟨hn, hl, _⟩ := h1 n vs rfl
    cases force <;> refine ⟨rfl, ?_, ?_, ?_, ?_, ?_, ?_, ?_, ?_, ?_, ?_, ?_⟩ <;>
      simp [forceReset, VarDecl.value, VarDecl.OnConfig, varInitValue, VarNfo.entries, VarDecl.entries] <;> omega
  | tableNone n =>
    simp only [gatherVar, VarNfo.insert, Option.some.injEq] at h
    subst h
    obtain ⟨hn, _⟩ := h2 n rfl
    cases force <;> refine ⟨rfl, ?_, ?_, ?_, ?_, ?_, ?_, ?_, ?_, ?_, ?_, ?_⟩ <;>
      simp [forceReset, VarDecl.value, VarDecl.OnConfig, varInitValue, VarNfo.entries, VarDecl.entries] <;> omega
  | groupMember =>
    simp only [gatherVar, VarNfo.insert, Option.some.injEq] at h
    subst h
    have hne := h3 rfl
    cases force <;> refine ⟨rfl, ?_, ?_, ?_, ?_, ?_, ?_, ?_, ?_, ?_, ?_, ?_⟩ <;>
      simp [forceReset, VarDecl.value, VarDecl.OnConfig, varInitValue, VarNfo.entries, VarDecl.entries] <;>
      (rcases sa with _ | (_ | ⟨c, r⟩) <;> simp_all)

theorem gatherVars_spec {z : V} {force : Bool} : ∀ {ds : List (VarDecl V)} {vs : List (VarNfo V)}, gatherVars force ds = some vs → (∀ d ∈ ds, d.SameValue z ∧ d.FullTable) →
    vs.length = ds.length ∧ ∀ (x : Nat) (d : VarDecl V) (v : VarNfo V), ds[x]? = some d → vs[x]? = some v → NfoOf z force d v
  | [], vs, h, _ => by
    simp only [gatherVars, Option.some.injEq] at h
    subst h
    exact ⟨rfl, fun x d v h => by simp at h⟩
  | d :: ds, vs, h, hd => by
    simp only [gatherVars, Option.bind_eq_bind, Option.bind_eq_some_iff, Option.pure_def, Option.some.injEq] at h
    obtain ⟨v, h1, vs', h2, rfl⟩ := h
    have := gatherVars_spec h2 fun d' h' => hd d' (List.mem_cons_of_mem _ h')
    refine ⟨by simp [this.1], ?_⟩
    intro x d' v' hx hv
    cases x with
    | zero =>
      simp only [List.getElem?_cons_zero, Option.some.injEq] at hx hv
      subst hx hv
      exact nfoOf_gathered h1 (hd d List.mem_cons_self).1 (hd d List.mem_cons_self).2
    | succ x => exact this.2 x d' v' (by simpa using hx) (by simpa using hv)

theorem setEntries_other (x : Nat) : ∀ (vs : List V) (f : Nat → Nat → V) (i y j : Nat), y ≠ x → setEntries f x i vs y j = f y j
  | [], _, _, _, _, _ => rfl
  | v :: vs, f, i, y, j, h => by
    rw [setEntries, setEntries_other x vs _ _ _ _ h]
    simp [setEntry, h]

theorem setEntries_below (x : Nat) : ∀ (vs : List V) (f : Nat → Nat → V) (i y j : Nat), j < i → setEntries f x i vs y j = f y j
  | [], _, _, _, _, _ => rfl
  | v :: vs, f, i, y, j, h => by
    rw [setEntries, setEntries_below x vs _ _ _ _ (by omega)]
    simp only [setEntry]
    rw [if_neg (by omega)]

theorem setEntries_at (x : Nat) : ∀ (vs : List V) (f : Nat → Nat → V) (i k : Nat) (v : V), vs[k]? = some v → setEntries f x i vs x (i + k) = v
  | [], _, _, _, _, h => by simp at h
  | w :: vs, f, i, 0, v, h => by
    simp only [List.getElem?_cons_zero, Option.some.injEq] at h
    rw [setEntries, setEntries_below x vs _ _ _ _ (by omega)]
    simp [setEntry, h]
  | w :: vs, f, i, k + 1, v, h => by
    rw [setEntries, show i + (k + 1) = i + 1 + k by omega]
    exact setEntries_at x vs _ _ _ _ (by simpa using h)

theorem setEntries_above (x : Nat) : ∀ (vs : List V) (f : Nat → Nat → V) (i y k : Nat), vs.length ≤ k → setEntries f x i vs y (i + k) = f y (i + k)
  | [], _, _, _, _, _ => rfl
  | w :: vs, f, i, y, 0, h => by simp at h
  | w :: vs, f, i, y, k + 1, h => by
    rw [setEntries, show i + (k + 1) = i + 1 + k by omega, setEntries_above x vs _ _ _ _ (by simpa using h)]
    simp only [setEntry]
    rw [if_neg (by omega)]

theorem setEntries_zero (x : Nat) (vs : List V) (f : Nat → Nat → V) (i : Nat) : setEntries f x 0 vs x i = match vs[i]? with | some v => v | none => f x i := by
  cases h : vs[i]? with
  | some v => have := setEntries_at x vs f 0 i v h; simpa using this
  | none => have := setEntries_above x vs f 0 x i (by simpa using h); simpa using this

/-- The constants and registers as declared. -/
theorem constDecl_other {u : VarSet V} {z : V} {x : Nat} {v : VarNfo V} {f c : Nat → Nat → V} (h : constDecl u z x v f = some c) (y i : Nat) (hy : y ≠ x) : c y i = f y i := by
  unfold constDecl at h
  split at h
  · simp_all
  · split at h
    · split at h
      · split at h
        · simp only [Option.some.injEq] at h; subst h; simp [setEntry, hy]
        · cases h
      · simp only [Option.some.injEq] at h; subst h; simp [setEntry, hy]
    · split at h
      · simp only [Option.some.injEq] at h; subst h; exact setEntries_other x _ _ _ _ _ hy
      · simp_all

theorem constDecl_spec {u : VarSet V} {z : V} {force : Bool} {x : Nat} {d : VarDecl V} {v : VarNfo V} (hn : NfoOf z force d v) (f : Nat → Nat → V) :
    ∃ c, constDecl u z x v f = some c ∧ (u.kept x = .const → ∀ i w, d.value z i = some w → c x i = w) := by
  unfold constDecl
  split
  · exact ⟨_, rfl, fun h => absurd h (by assumption)⟩
  · split
    · rename_i hsz
      split
      · rename_i hi
        simp only [Bool.not_eq_true'] at hi
        obtain ⟨w, h1, h2⟩ := hn.plain hsz hi
        rw [h1]
        refine ⟨_, rfl, fun _ i w' hw => ?_⟩
        cases i with
        | zero => rw [h2] at hw; simp only [Option.some.injEq] at hw; simp [setEntry, hw]
        | succ i => rw [hn.plainOnly hsz] at hw; cases hw
      · rename_i hi
        refine ⟨_, rfl, fun _ i w' hw => ?_⟩
        rw [hn.noValue (by simpa using hi)] at hw; cases hw
    · rename_i hsz
      split
      · rename_i hi
        simp only [Bool.not_eq_true'] at hi
        refine ⟨_, rfl, fun _ i w' hw => ?_⟩
        rw [setEntries_zero, hn.tab hsz hi, hw]
      · rename_i hi
        refine ⟨_, rfl, fun _ i w' hw => ?_⟩
        rw [hn.noValue (by simpa using hi)] at hw; cases hw

theorem ffDecl_other {u : VarSet V} {x : Nat} {v : VarNfo V} {f : Nat → Nat → V} (y i : Nat) (hy : y ≠ x) : ffDecl u x v f y i = f y i := by
  unfold ffDecl
  split
  · rfl
  · split
    · cases v.atStartup <;> cases v.init <;> simp [setEntry, hy]
    · rfl

theorem ffDecl_spec {u : VarSet V} {z : V} {force : Bool} {x : Nat} {d : VarDecl V} {v : VarNfo V} (hn : NfoOf z force d v) (f : Nat → Nat → V) (hk : u.kept x = .ff) (hf : force = false) (hc : d.OnConfig)
    (i : Nat) (w : V) (hw : d.value z i = some w) : ffDecl u x v f x i = w := by
  obtain ⟨h1, h2⟩ := hn.config hc
  have h3 := (hn.start h1).mpr ⟨hc, hf⟩
  obtain ⟨w', r, h4, h5⟩ := hn.raw h1 h3
  unfold ffDecl
  rw [if_neg (by simp [hk]), if_pos h2, h3, h4]
  cases i with
  | zero => rw [h5] at hw; simp only [Option.some.injEq] at hw; simp [setEntry, hw]
  | succ i => rw [hn.plainOnly h2] at hw; cases hw

theorem declAll_spec {u : VarSet V} {z : V} {force : Bool} : ∀ (ds : List (VarDecl V)) (vs : List (VarNfo V)) (x : Nat) (s : VarSides V), vs.length = ds.length →
    (∀ (k : Nat) (d : VarDecl V) (v : VarNfo V), ds[k]? = some d → vs[k]? = some v → NfoOf z force d v) →
    ∃ s', declAll u z x vs s = some s' ∧ (∀ y, y < x → s'.c y = s.c y ∧ s'.q y = s.q y) ∧
      ∀ (k : Nat) (d : VarDecl V), ds[k]? = some d → ∀ i w, d.value z i = some w →
        (u.kept (x + k) = .const → s'.c (x + k) i = w) ∧ (u.kept (x + k) = .ff → force = false → d.OnConfig → s'.q (x + k) i = w)
  | [], vs, x, s, hl, _ => by
    cases vs with
    | nil => exact ⟨s, rfl, fun _ _ => ⟨rfl, rfl⟩, fun k d h => by simp at h⟩
    | cons v vs => simp at hl
  | d :: ds, [], x, s, hl, _ => by simp at hl
  | d :: ds, v :: vs, x, s, hl, hn => by
    have hn0 := hn 0 d v rfl rfl
    obtain ⟨c, hc, hcv⟩ := constDecl_spec (u := u) (x := x) hn0 s.c
    obtain ⟨s', h1, h2, h3⟩ := declAll_spec (u := u) (z := z) (force := force) ds vs (x + 1) { s with c := c, d := ffDecl u x v s.d, q := ffDecl u x v s.q } (by simpa using hl)
      fun k d' v' hd hv => hn (k + 1) d' v' (by simpa using hd) (by simpa using hv)
    refine ⟨s', by simp [declAll, hc, h1], ?_, ?_⟩
    · intro y hy
      obtain ⟨ha, hb⟩ := h2 y (by omega)
      rw [ha, hb]
      exact ⟨funext fun i => constDecl_other hc y i (by omega), funext fun i => ffDecl_other y i (by omega)⟩
    · intro k d' hd i w hw
      cases k with
      | zero =>
        simp only [List.getElem?_cons_zero, Option.some.injEq] at hd
        subst hd
        obtain ⟨ha, hb⟩ := h2 x (by omega)
        simp only [Nat.add_zero]
        rw [ha, hb]
        exact ⟨fun hk => hcv hk i w hw, fun hk hf hc' => ffDecl_spec hn0 _ hk hf hc' i w hw⟩
      | succ k =>
        rw [show x + (k + 1) = x + 1 + k by omega]
        exact h3 k d' (by simpa using hd) i w hw

/-- Sides other than those of variable `x` are the same. -/
def VarSides.SameBut (x : Nat) (s s' : VarSides V) : Prop := ∀ y, y ≠ x → s'.d y = s.d y ∧ s'.q y = s.q y ∧ s'.t y = s.t y ∧ s'.c y = s.c y

theorem varInit_spec {u : VarSet V} {z : V} {force : Bool} {x : Nat} {d : VarDecl V} {v : VarNfo V} (hn : NfoOf z force d v) (hb : v.inBlock = true) (s : VarSides V) :
    ∃ s', varInit u z x v s = some s' ∧ s.SameBut x s' ∧ s'.c = s.c ∧ s'.q = s.q ∧
      (u.writeOnly x = false → ∀ i, (u.kept x = .ff → s'.d x i = (match d.value z i with | some w => w | none => s.d x i)) ∧
        (u.kept x = .temp → s'.t x i = (match d.value z i with | some w => w | none => s.t x i))) := by
  obtain ⟨hi, hc⟩ := hn.inB.mp hb
  have hst : v.atStartup = false := by
    cases h : v.atStartup with
    | false => rfl
    | true => exact absurd ((hn.start hi).mp h).1 hc
  unfold varInit
  split
  · rename_i hk
    exact ⟨s, rfl, fun _ _ => ⟨rfl, rfl, rfl, rfl⟩, rfl, rfl, fun _ i => by simp [hk]⟩
  · rename_i hk
    split
    · rename_i hw
      exact ⟨s, rfl, fun _ _ => ⟨rfl, rfl, rfl, rfl⟩, rfl, rfl, fun h => by rw [hw] at h; cases h⟩
    · rw [hi, hst]
      simp only [Bool.false_eq_true, if_false]
      split
      · rename_i hsz
        obtain ⟨w, h1, h2⟩ := hn.plain hsz hi
        rw [h1]
        refine ⟨_, rfl, ?_, ?_, ?_, ?_⟩
        · intro y hy
          split
          · exact ⟨funext fun i => by simp [setEntry, hy], rfl, rfl, rfl⟩
          · exact ⟨rfl, rfl, funext fun i => by simp [setEntry, hy], rfl⟩
        · split <;> rfl
        · split <;> rfl
        · intro _ i
          refine ⟨fun hk' => ?_, fun hk' => ?_⟩
          · rw [if_pos hk']
            cases i with
            | zero => simp [setEntry, h2]
            | succ i => simp [setEntry, hn.plainOnly hsz]
          · rw [if_neg (by simp [hk'])]
            cases i with
            | zero => simp [setEntry, h2]
            | succ i => simp [setEntry, hn.plainOnly hsz]
      · rename_i hsz
        refine ⟨_, rfl, ?_, ?_, ?_, ?_⟩
        · intro y hy
          split
          · exact ⟨funext fun i => setEntries_other x _ _ _ _ _ hy, rfl, rfl, rfl⟩
          · exact ⟨rfl, rfl, funext fun i => setEntries_other x _ _ _ _ _ hy, rfl⟩
        · split <;> rfl
        · split <;> rfl
        · intro _ i
          refine ⟨fun hk' => ?_, fun hk' => ?_⟩
          · rw [if_pos hk']
            simp only [setEntries_zero, hn.tab hsz hi]
          · rw [if_neg (by simp [hk'])]
            simp only [setEntries_zero, hn.tab hsz hi]

/-- What is known of a variable while a cycle is carried out. -/
structure Knows (u : VarSet V) (z : V) (ds : List (VarDecl V)) (w : Nat → Nat → Prop) (σ : VarStore V) (s : VarSides V) (x : Nat) : Prop where
  ff : u.kept x = .ff → u.writeOnly x = false → ∀ i v, σ x i = some v → s.d x i = v
  temp : u.kept x = .temp → u.writeOnly x = false → ∀ i v, w x i → σ x i = some v → s.t x i = v
  const : u.kept x = .const → ∀ i v, σ x i = some v → s.c x i = v
  there : ∀ i v, σ x i = some v → ∃ d, ds[x]? = some d ∧ i < d.entries
  constVal : u.kept x = .const → ∀ d, ds[x]? = some d → ∀ i v, d.value z i = some v → s.c x i = v

theorem value_lt {z : V} {d : VarDecl V} (ht : d.FullTable) {i : Nat} {w : V} (h : d.value z i = some w) : i < d.entries := by
  obtain ⟨b, ini, sa⟩ := d
  cases ini with
  | table n vs =>
    have h1 := (ht.1 n vs rfl).2.1
    simp only [VarDecl.value] at h
    simp only [VarDecl.entries]
    have : i < vs.length := by
      by_contra hc
      rw [List.getElem?_eq_none (by omega)] at h
      cases h
    omega
  | _ => simp_all [VarDecl.value, VarDecl.entries]

theorem varInits_spec {u : VarSet V} {z : V} {force : Bool} {b : Nat} : ∀ (ds : List (VarDecl V)) (vs : List (VarNfo V)) (x : Nat) (s : VarSides V), vs.length = ds.length →
    (∀ (k : Nat) (d : VarDecl V) (v : VarNfo V), ds[k]? = some d → vs[k]? = some v → NfoOf z force d v) →
    ∃ s', varInits u z b x vs s = some s' ∧ s'.c = s.c ∧ s'.q = s.q ∧ (∀ y, y < x ∨ x + ds.length ≤ y → s'.d y = s.d y ∧ s'.t y = s.t y) ∧
      ∀ (k : Nat) (d : VarDecl V), ds[k]? = some d → u.writeOnly (x + k) = false → ∀ i,
        (u.kept (x + k) = .ff → s'.d (x + k) i = if d.block = b ∧ ¬ d.OnConfig then (match d.value z i with | some w => w | none => s.d (x + k) i) else s.d (x + k) i) ∧
        (u.kept (x + k) = .temp → s'.t (x + k) i = if d.block = b ∧ ¬ d.OnConfig then (match d.value z i with | some w => w | none => s.t (x + k) i) else s.t (x + k) i)
  | [], vs, x, s, hl, _ => by
    cases vs with
    | nil => exact ⟨s, rfl, rfl, rfl, fun _ _ => ⟨rfl, rfl⟩, fun k d h => by simp at h⟩
    | cons v vs => simp at hl
  | d :: ds, [], x, s, hl, _ => by simp at hl
  | d :: ds, v :: vs, x, s, hl, hn => by
    have hn0 := hn 0 d v rfl rfl
    have first : ∃ s1, (if (v.inBlock && v.block == b) = true then varInit u z x v s else some s) = some s1 ∧ s.SameBut x s1 ∧ s1.c = s.c ∧ s1.q = s.q ∧
        (u.writeOnly x = false → ∀ i,
          (u.kept x = .ff → s1.d x i = if d.block = b ∧ ¬ d.OnConfig then (match d.value z i with | some w => w | none => s.d x i) else s.d x i) ∧
          (u.kept x = .temp → s1.t x i = if d.block = b ∧ ¬ d.OnConfig then (match d.value z i with | some w => w | none => s.t x i) else s.t x i)) := by
      by_cases hb : (v.inBlock && v.block == b) = true
      · rw [if_pos hb]
        simp only [Bool.and_eq_true, beq_iff_eq] at hb
        obtain ⟨s1, h1, h2, h3, h4, h5⟩ := varInit_spec (u := u) (x := x) hn0 hb.1 s
        refine ⟨s1, h1, h2, h3, h4, fun hw i => ?_⟩
        have hc : d.block = b ∧ ¬ d.OnConfig := ⟨hn0.block ▸ hb.2, (hn0.inB.mp hb.1).2⟩
        rw [if_pos hc, if_pos hc]
        exact h5 hw i
      · rw [if_neg hb]
        refine ⟨s, rfl, fun _ _ => ⟨rfl, rfl, rfl, rfl⟩, rfl, rfl, fun hw i => ?_⟩
        by_cases hc : d.block = b ∧ ¬ d.OnConfig
        · rw [if_pos hc, if_pos hc]
          have hi : v.noInit = true := by
            cases h : v.noInit with
            | true => rfl
            | false =>
              exfalso
              apply hb
              simp [hn0.inB.mpr ⟨h, hc.2⟩, hn0.block, hc.1]
          rw [hn0.noValue hi]
          exact ⟨fun _ => rfl, fun _ => rfl⟩
        · rw [if_neg hc, if_neg hc]
          exact ⟨fun _ => rfl, fun _ => rfl⟩
    obtain ⟨s1, f1, f2, f3, f4, f5⟩ := first
    obtain ⟨s', h1, h2, h3, h4, h5⟩ := varInits_spec (u := u) (z := z) (force := force) (b := b) ds vs (x + 1) s1 (by simpa using hl)
      fun k d' v' hd hv => hn (k + 1) d' v' (by simpa using hd) (by simpa using hv)
    refine ⟨s', ?_, h2.trans f3, h3.trans f4, ?_, ?_⟩
    · rw [varInits]
      split
      · rename_i hb; rw [if_pos hb] at f1; rw [f1]; exact h1
      · rename_i hb; rw [if_neg hb] at f1; simp only [Option.some.injEq] at f1; rw [← f1] at h1; exact h1
    · intro y hy
      simp only [List.length_cons] at hy
      obtain ⟨ha, hb⟩ := h4 y (by omega)
      obtain ⟨ha', _, hb', _⟩ := f2 y (by omega)
      exact ⟨ha.trans ha', hb.trans hb'⟩
    · intro k d' hd hw i
      cases k with
      | zero =>
        simp only [List.getElem?_cons_zero, Option.some.injEq] at hd
        subst hd
        obtain ⟨ha, hb⟩ := h4 x (Or.inl (by omega))
        simp only [Nat.add_zero] at hw ⊢
        rw [ha, hb]
        exact f5 hw i
      | succ k =>
        obtain ⟨ha', _, hb', _⟩ := f2 (x + 1 + k) (by omega)
        rw [show x + (k + 1) = x + 1 + k by omega] at hw ⊢
        have := h5 k d' (by simpa using hd) hw i
        rw [ha', hb'] at this
        exact this

theorem given_eq {z : V} {ds : List (VarDecl V)} {p : VarDecl V → Bool} {σ : VarStore V} {x i : Nat} {v : V} (h : σ.given z ds p x i = some v) :
    (∃ d, ds[x]? = some d ∧ p d = true ∧ d.value z i = some v) ∨ (σ x i = some v ∧ ∀ d, ds[x]? = some d → p d = true → d.value z i = none) := by
  unfold VarStore.given at h
  split at h
  · rename_i hd
    exact Or.inr ⟨h, fun d hd' => by rw [hd] at hd'; cases hd'⟩
  · rename_i d hd
    split at h
    · rename_i hp
      split at h
      · rename_i w hw
        exact Or.inl ⟨d, hd, hp, hw.trans h⟩
      · rename_i hw
        refine Or.inr ⟨h, fun d' hd' _ => ?_⟩
        rw [hd] at hd'
        simp only [Option.some.injEq] at hd'
        rw [← hd']
        exact hw
    · rename_i hp
      refine Or.inr ⟨h, fun d' hd' hp' => ?_⟩
      rw [hd] at hd'
      simp only [Option.some.injEq] at hd'
      rw [← hd'] at hp'
      exact absurd hp' hp

/-- The module and the source are in step. -/
def InStep (u : VarSet V) (z : V) (ds : List (VarDecl V)) (w : Nat → Nat → Prop) (σ : VarStore V) (s : VarSides V) : Prop := ∀ x, Knows u z ds w σ s x

/-- Hypotheses on the variables. -/
structure VarsOk (u : VarSet V) (z : V) (force : Bool) (ds : List (VarDecl V)) : Prop where
  len : u.vars.length = ds.length
  nfo : ∀ (x : Nat) (d : VarDecl V) (v : VarNfo V), ds[x]? = some d → u.vars[x]? = some v → NfoOf z force d v
  tables : ∀ d ∈ ds, d.FullTable

theorem enterBlock_spec {u : VarSet V} {z : V} {force : Bool} {ds : List (VarDecl V)} (hu : VarsOk u z force ds) {w : Nat → Nat → Prop} {σ : VarStore V} {s : VarSides V} (hk : InStep u z ds w σ s) (b : Nat) :
    ∃ s', enterBlock u z b s = some s' ∧ InStep u z ds (fun y j => w y j ∨ ∃ d, ds[y]? = some d ∧ d.block = b ∧ b ≠ 0 ∧ ¬ d.OnConfig ∧ (d.value z j).isSome)
      (σ.given z ds fun d => decide (d.block = b ∧ b ≠ 0) && !decide d.OnConfig) s' := by
  unfold enterBlock
  by_cases hb : b = 0
  · rw [if_pos hb]
    refine ⟨s, rfl, fun x => ?_⟩
    have hg : ∀ i v, (σ.given z ds fun d => decide (d.block = b ∧ b ≠ 0) && !decide d.OnConfig) x i = some v → σ x i = some v := by
      intro i v h
      rcases given_eq h with ⟨d, _, hp, _⟩ | h
      · simp [hb] at hp
      · exact h.1
    exact ⟨fun h1 h2 i v h => (hk x).ff h1 h2 i v (hg i v h),
      fun h1 h2 i v hw h => (hk x).temp h1 h2 i v (hw.elim id fun ⟨_, _, _, h0, _⟩ => absurd hb h0) (hg i v h),
      fun h1 i v h => (hk x).const h1 i v (hg i v h), fun i v h => (hk x).there i v (hg i v h), (hk x).constVal⟩
  · rw [if_neg hb]
    obtain ⟨s', h1, h2, h3, h4, h5⟩ := varInits_spec (u := u) (z := z) (force := force) (b := b) ds u.vars 0 s hu.len hu.nfo
    refine ⟨s', h1, fun x => ?_⟩
    have K := hk x
    refine ⟨?_, ?_, ?_, ?_, ?_⟩
    · intro hkx hwx i v hv
      rcases given_eq hv with ⟨d, hd, hp, hval⟩ | ⟨hv, hno⟩
      · have := ((h5 x d hd (by simpa using hwx) i).1 (by simpa using hkx))
        simp only [ne_eq, Bool.and_eq_true, decide_eq_true_eq, Bool.not_eq_true', decide_eq_false_iff_not] at hp
        rw [if_pos ⟨hp.1.1, hp.2⟩, hval] at this
        simpa using this
      · obtain ⟨d, hd, _⟩ := K.there i v hv
        have := ((h5 x d hd (by simpa using hwx) i).1 (by simpa using hkx))
        simp only [Nat.zero_add] at this
        rw [this]
        split
        · rename_i hc
          rw [hno d hd (by simp [hc, hb])]
          exact K.ff hkx hwx i v hv
        · exact K.ff hkx hwx i v hv
    · intro hkx hwx i v hwi hv
      rcases given_eq hv with ⟨d, hd, hp, hval⟩ | ⟨hv, hno⟩
      · have := ((h5 x d hd (by simpa using hwx) i).2 (by simpa using hkx))
        simp only [ne_eq, Bool.and_eq_true, decide_eq_true_eq, Bool.not_eq_true', decide_eq_false_iff_not] at hp
        rw [if_pos ⟨hp.1.1, hp.2⟩, hval] at this
        simpa using this
      · have hwi' : w x i := by
          rcases hwi with h | ⟨d, hd, hdb, _, hdc, hs⟩
          · exact h
          · rw [hno d hd (by simp [hdb, hb, hdc])] at hs
            cases hs
        obtain ⟨d, hd, _⟩ := K.there i v hv
        have := ((h5 x d hd (by simpa using hwx) i).2 (by simpa using hkx))
        simp only [Nat.zero_add] at this
        rw [this]
        split
        · rename_i hc
          rw [hno d hd (by simp [hc, hb])]
          exact K.temp hkx hwx i v hwi' hv
        · exact K.temp hkx hwx i v hwi' hv
    · intro hkx i v hv
      rw [h2]
      rcases given_eq hv with ⟨d, hd, _, hval⟩ | ⟨hv, _⟩
      · exact K.constVal hkx d hd i v hval
      · exact K.const hkx i v hv
    · intro i v hv
      rcases given_eq hv with ⟨d, hd, _, hval⟩ | ⟨hv, _⟩
      · exact ⟨d, hd, value_lt (hu.tables d (List.mem_of_getElem? hd)) hval⟩
      · exact K.there i v hv
    · intro hkx d hd i v hval
      rw [h2]
      exact K.constVal hkx d hd i v hval

theorem runCycle_spec {u : VarSet V} {z : V} {force : Bool} {ds : List (VarDecl V)} (hu : VarsOk u z force ds) : ∀ (p : CycProg V R) {w : Nat → Nat → Prop} {σ σ' : VarStore V} {s : VarSides V} {r : R},
    p.Fits u z ds w → InStep u z ds w σ s → srcCycle z ds p σ = some (r, σ') → ∃ s' w', runCycle u z p s = some (r, s') ∧ InStep u z ds w' σ' s'
  | .done r', w, σ, σ', s, r, _, hk, h => by
    simp only [srcCycle, Option.some.injEq, Prod.mk.injEq] at h
    obtain ⟨rfl, rfl⟩ := h
    exact ⟨s, w, rfl, hk⟩
  | .read x i k, w, σ, σ', s, r, hf, hk, h => by
    simp only [srcCycle] at h
    split at h
    · cases h
    · rename_i v hv
      obtain ⟨h1, h2, h3⟩ := hf
      obtain ⟨s', w', h4, h5⟩ := runCycle_spec hu (k v) (h3 v) hk h
      refine ⟨s', w', ?_, h5⟩
      simp only [runCycle]
      cases hkx : u.kept x with
      | ff => simp only []; rw [(hk x).ff hkx h1 i v hv]; exact h4
      | temp => simp only []; rw [(hk x).temp hkx h1 i v (h2 hkx) hv]; exact h4
      | const => simp only []; rw [(hk x).const hkx i v hv]; exact h4
  | .write x i v k, w, σ, σ', s, r, hf, hk, h => by
    simp only [srcCycle] at h
    obtain ⟨h1, ⟨d, hd, hi⟩, h3⟩ := hf
    simp only [runCycle]
    cases hkx : u.kept x with
    | const => exact absurd hkx h1
    | ff =>
      refine runCycle_spec hu k h3 (s := { s with d := setEntry s.d x i v }) (fun y => ?_) h
      have K := hk y
      refine ⟨?_, ?_, ?_, ?_, K.constVal⟩
      · intro a1 a2 j v' hv
        simp only [setEntry]
        by_cases hc : y = x ∧ j = i
        · rw [if_pos hc]; rw [if_pos hc] at hv; exact Option.some.inj hv
        · rw [if_neg hc]; rw [if_neg hc] at hv; exact K.ff a1 a2 j v' hv
      · intro a1 a2 j v' hw hv
        have hc : ¬ (y = x ∧ j = i) := fun hc => by rw [hc.1, hkx] at a1; cases a1
        rw [if_neg hc] at hv
        exact K.temp a1 a2 j v' (hw.elim (absurd · hc) id) hv
      · intro a1 j v' hv
        have hc : ¬ (y = x ∧ j = i) := fun hc => by rw [hc.1, hkx] at a1; cases a1
        rw [if_neg hc] at hv
        exact K.const a1 j v' hv
      · intro j v' hv
        by_cases hc : y = x ∧ j = i
        · rw [hc.1, hc.2]; exact ⟨d, hd, hi⟩
        · rw [if_neg hc] at hv; exact K.there j v' hv
    | temp =>
      refine runCycle_spec hu k h3 (s := { s with t := setEntry s.t x i v }) (fun y => ?_) h
      have K := hk y
      refine ⟨?_, ?_, ?_, ?_, K.constVal⟩
      · intro a1 a2 j v' hv
        have hc : ¬ (y = x ∧ j = i) := fun hc => by rw [hc.1, hkx] at a1; cases a1
        rw [if_neg hc] at hv
        exact K.ff a1 a2 j v' hv
      · intro a1 a2 j v' hw hv
        simp only [setEntry]
        by_cases hc : y = x ∧ j = i
        · rw [if_pos hc]; rw [if_pos hc] at hv; exact Option.some.inj hv
        · rw [if_neg hc]; rw [if_neg hc] at hv; exact K.temp a1 a2 j v' (hw.elim (absurd · hc) id) hv
      · intro a1 j v' hv
        have hc : ¬ (y = x ∧ j = i) := fun hc => by rw [hc.1, hkx] at a1; cases a1
        rw [if_neg hc] at hv
        exact K.const a1 j v' hv
      · intro j v' hv
        by_cases hc : y = x ∧ j = i
        · rw [hc.1, hc.2]; exact ⟨d, hd, hi⟩
        · rw [if_neg hc] at hv; exact K.there j v' hv
  | .enter b k, w, σ, σ', s, r, hf, hk, h => by
    simp only [srcCycle] at h
    obtain ⟨s1, h1, h2⟩ := enterBlock_spec hu hk b
    obtain ⟨s', w', h3, h4⟩ := runCycle_spec hu k hf h2 h
    exact ⟨s', w', by simp [runCycle, h1, h3], h4⟩

/-- What a register takes at a clock edge. -/
theorem edgeVar_spec {u : VarSet V} {z : V} {force : Bool} {d : VarDecl V} {v : VarNfo V} (hn : NfoOf z force d v) (rst run : Bool) (f : Nat → Nat → V) (x : Nat) :
    ∃ g q, v.ff z = some g ∧ ffUpdate u.kind g rst run (entriesOf f x v.entries) = some q ∧
      ∀ i, i < d.entries → q[i]? = some (if starting u.kind rst run = true ∧ (force = true ∨ ¬ d.OnConfig) then (match d.value z i with | some w => w | none => f x i) else f x i) := by
  have hent : ∀ i, i < d.entries → (entriesOf f x v.entries)[i]? = some (f x i) := by
    intro i hi
    simp [entriesOf, hn.entries, hi]
  have hcond : ∀ g : FFVar V, g.atStartup = v.atStartup → g.noInit = v.noInit →
      (initCond u.kind g = none ∧ (v.atStartup = true ∨ v.noInit = true)) ∨ (v.atStartup = false ∧ v.noInit = false ∧ ∃ c, initCond u.kind g = some c ∧ c.holds rst run = starting u.kind rst run) := by
    intro g h1 h2
    unfold initCond
    rw [h1, h2]
    cases v.atStartup <;> cases v.noInit <;> simp
    simp only [AlgKind.notCallable, starting]
    generalize u.kind = a
    obtain ⟨_ | _, _ | _⟩ := a <;> simp [InitCond.holds]
  have hkeep : (v.atStartup = true ∨ v.noInit = true) → ∀ i, (if starting u.kind rst run = true ∧ (force = true ∨ ¬ d.OnConfig) then (match d.value z i with | some w => w | none => f x i) else f x i) = f x i := by
    intro h i
    split
    · rename_i hc
      cases hni : v.noInit with
      | true => rw [hn.noValue hni]
      | false =>
        have hs := h.resolve_right (by simp [hni])
        obtain ⟨h1, h2⟩ := (hn.start hni).mp hs
        exact absurd h1 (hc.2.resolve_left (by simp [h2]))
    · rfl
  have hpos : v.atStartup = false → v.noInit = false → (force = true ∨ ¬ d.OnConfig) := by
    intro h1 h2
    by_contra hc
    have : v.atStartup = true := (hn.start h2).mpr ⟨by tauto, by cases force <;> simp_all⟩
    rw [h1] at this; cases this
  unfold VarNfo.ff
  by_cases hsz : v.size = 0
  · rw [if_pos hsz]
    have hent0 : d.entries = 1 := by rw [← hn.entries]; simp [VarNfo.entries, hsz]
    cases hni : v.noInit with
    | true =>
      obtain ⟨w, hw⟩ := hn.defd hsz hni
      rw [hw]
      have hno : ∀ g : FFVar V, g.atStartup = v.atStartup → g.noInit = true → initCond u.kind g = none := by
        intro g h1 h2
        simp [initCond, h2]
      cases w with
      | none =>
        refine ⟨_, entriesOf f x v.entries, rfl, ?_, fun i hi => ?_⟩
        · unfold ffUpdate; rw [hno _ rfl rfl]
        · rw [hent i hi, hkeep (Or.inr hni)]
      | some w =>
        refine ⟨_, entriesOf f x v.entries, rfl, ?_, fun i hi => ?_⟩
        · unfold ffUpdate; rw [hno _ rfl rfl]
        · rw [hent i hi, hkeep (Or.inr hni)]
    | false =>
      obtain ⟨w, h1, h2⟩ := hn.plain hsz hni
      rw [h1]
      rcases hcond ⟨v.atStartup, v.noInit, 0, [w]⟩ rfl rfl with ⟨hc, hs⟩ | ⟨ha, _, c, hc, hh⟩
      · refine ⟨_, entriesOf f x v.entries, rfl, ?_, fun i hi => ?_⟩
        · rw [hni] at hc; unfold ffUpdate; rw [hc]
        · rw [hent i hi, hkeep hs]
      · refine ⟨_, if c.holds rst run then [w] else entriesOf f x v.entries, rfl, ?_, fun i hi => ?_⟩
        · rw [hni] at hc; unfold ffUpdate; rw [hc]; simp
        · rw [hh]
          by_cases hst : starting u.kind rst run = true
          · rw [if_pos hst, if_pos ⟨hst, hpos ha hni⟩]
            have : i = 0 := by omega
            subst this
            simp [h2]
          · rw [if_neg hst, if_neg (fun hc => hst hc.1)]
            exact hent i hi
  · rw [if_neg hsz]
    have hent1 : d.entries = v.size := by rw [← hn.entries]; simp [VarNfo.entries, hsz]
    rcases hcond ⟨v.atStartup, v.noInit, v.size, v.init⟩ rfl rfl with ⟨hc, hs⟩ | ⟨ha, hni, c, hc, hh⟩
    · refine ⟨_, entriesOf f x v.entries, rfl, ?_, fun i hi => ?_⟩
      · unfold ffUpdate; rw [hc]
      · rw [hent i hi, hkeep hs]
    · have hfull := hn.full hsz hni
      refine ⟨_, if c.holds rst run then v.init.take v.size else entriesOf f x v.entries, rfl, ?_, fun i hi => ?_⟩
      · unfold ffUpdate; rw [hc]; simp [hsz, hfull]
      · rw [hh]
        by_cases hst : starting u.kind rst run = true
        · rw [if_pos hst, if_pos ⟨hst, hpos ha hni⟩]
          have h3 := hn.tab hsz hni i
          rw [← h3, List.getElem?_take, if_pos (by omega)]
          have : i < v.init.length := by omega
          simp [this]
        · rw [if_neg hst, if_neg (fun hc => hst hc.1)]
          exact hent i hi

theorem edgeAll_spec {u : VarSet V} {z : V} {force rst run : Bool} : ∀ (ds : List (VarDecl V)) (vs : List (VarNfo V)) (x : Nat) (s : VarSides V), vs.length = ds.length →
    (∀ (k : Nat) (d : VarDecl V) (v : VarNfo V), ds[k]? = some d → vs[k]? = some v → NfoOf z force d v) →
    ∃ s', edgeAll u z rst run x vs s = some s' ∧ s'.c = s.c ∧ s'.d = s.d ∧ (∀ y, y < x → s'.q y = s.q y) ∧
      ∀ (k : Nat) (d : VarDecl V), ds[k]? = some d → u.kept (x + k) = .ff → ∀ i, i < d.entries → s'.q (x + k) i =
        if starting u.kind rst run = true ∧ (force = true ∨ ¬ d.OnConfig) then (match d.value z i with | some w => w | none => s.d (x + k) i) else s.d (x + k) i
  | [], vs, x, s, hl, _ => by
    cases vs with
    | nil => exact ⟨s, rfl, rfl, rfl, fun _ _ => rfl, fun k d h => by simp at h⟩
    | cons v vs => simp at hl
  | d :: ds, [], x, s, hl, _ => by simp at hl
  | d :: ds, v :: vs, x, s, hl, hn => by
    have hn0 := hn 0 d v rfl rfl
    have first : ∃ s1, (if u.kept x = .ff then do
          let f ← v.ff z
          let q ← ffUpdate u.kind f rst run (entriesOf s.d x v.entries)
          pure { s with q := setEntries s.q x 0 q }
        else some s) = some s1 ∧ s1.c = s.c ∧ s1.d = s.d ∧ (∀ y, y ≠ x → s1.q y = s.q y) ∧
        (u.kept x = .ff → ∀ i, i < d.entries → s1.q x i =
          if starting u.kind rst run = true ∧ (force = true ∨ ¬ d.OnConfig) then (match d.value z i with | some w => w | none => s.d x i) else s.d x i) := by
      by_cases hk : u.kept x = .ff
      · rw [if_pos hk]
        obtain ⟨g, q, h1, h2, h3⟩ := edgeVar_spec (u := u) hn0 rst run s.d x
        refine ⟨{ s with q := setEntries s.q x 0 q }, by simp [h1, h2], rfl, rfl, fun y hy => funext fun i => setEntries_other x _ _ _ _ _ hy, fun _ i hi => ?_⟩
        simp only [setEntries_zero]
        rw [h3 i hi]
      · rw [if_neg hk]
        exact ⟨s, rfl, rfl, rfl, fun _ _ => rfl, fun h => absurd h hk⟩
    obtain ⟨s1, f1, f2, f3, f4, f5⟩ := first
    obtain ⟨s', h1, h2, h3, h4, h5⟩ := edgeAll_spec (u := u) (z := z) (force := force) (rst := rst) (run := run) ds vs (x + 1) s1 (by simpa using hl)
      fun k d' v' hd hv => hn (k + 1) d' v' (by simpa using hd) (by simpa using hv)
    refine ⟨s', ?_, h2.trans f2, h3.trans f3, fun y hy => (h4 y (by omega)).trans (f4 y (by omega)), ?_⟩
    · rw [edgeAll]
      split
      · rename_i hb; rw [if_pos hb] at f1
        simp only [Option.bind_eq_bind, Option.bind_eq_some_iff, Option.pure_def, Option.some.injEq] at f1 ⊢
        obtain ⟨g, hg, q, hq, he⟩ := f1
        exact ⟨g, hg, q, hq, s1, he, h1⟩
      · rename_i hb; rw [if_neg hb] at f1; simp only [Option.some.injEq] at f1; rw [← f1] at h1; exact h1
    intro k d' hd hk i hi
    cases k with
    | zero =>
      simp only [List.getElem?_cons_zero, Option.some.injEq] at hd
      subst hd
      simp only [Nat.add_zero] at hk ⊢
      rw [h4 x (by omega)]
      exact f5 hk i hi
    | succ k =>
      rw [show x + (k + 1) = x + 1 + k by omega] at hk ⊢
      have := h5 k d' (by simpa using hd) hk i hi
      rw [f3] at this
      exact this

/-- Between cycles: what is known is in the registers or is constant. -/
structure KnownHeld (u : VarSet V) (z : V) (ds : List (VarDecl V)) (σ : VarStore V) (s : VarSides V) : Prop where
  ff : ∀ x, u.kept x = .ff → u.writeOnly x = false → ∀ i v, σ x i = some v → s.q x i = v
  const : ∀ x, u.kept x = .const → ∀ i v, σ x i = some v → s.c x i = v
  there : ∀ x i v, σ x i = some v → ∃ d, ds[x]? = some d ∧ i < d.entries
  constVal : ∀ x, u.kept x = .const → ∀ d, ds[x]? = some d → ∀ i v, d.value z i = some v → s.c x i = v

theorem unitCycle_spec {u : VarSet V} {z : V} {force : Bool} {ds : List (VarDecl V)} (hu : VarsOk u z force ds) {body : E → R → CycProg V R} {ctl : Bool → Bool → R → R} {i : CycIn E V} {r r' : R} {σ σ' : VarStore V}
    {s : VarSides V} (hf : (body i.ext r).Fits u z ds fun _ _ => False) (hh : KnownHeld u z ds σ s) (h : srcCycle z ds (body i.ext r) σ = some (r', σ')) :
    ∃ s', unitCycle u z body ctl i (r, s) = some (ctl i.rst i.run r', s') ∧ KnownHeld u z ds (srcEdge z ds force (starting u.kind i.rst i.run) σ') s' := by
  obtain ⟨s1, w', h1, h2⟩ := runCycle_spec hu (body i.ext r) (s := { s with d := s.q, t := i.junk }) hf
    (fun x => ⟨hh.ff x, fun _ _ _ _ h => h.elim, hh.const x, hh.there x, hh.constVal x⟩) h
  obtain ⟨s2, e1, e2, e3, e4, e5⟩ := edgeAll_spec (u := u) (z := z) (force := force) (rst := i.rst) (run := i.run) ds u.vars 0 s1 hu.len hu.nfo
  refine ⟨s2, by simp [unitCycle, h1, e1], ?_⟩
  refine ⟨?_, ?_, ?_, ?_⟩
  · intro x hk hw j v hv
    unfold srcEdge at hv
    by_cases hs : starting u.kind i.rst i.run = true
    · rw [if_pos hs] at hv
      rcases given_eq hv with ⟨d, hd, hp, hval⟩ | ⟨hv, hno⟩
      · have := e5 x d hd (by simpa using hk) j (value_lt (hu.tables d (List.mem_of_getElem? hd)) hval)
        simp only [Nat.zero_add] at this
        rw [this, if_pos ⟨hs, by simpa using hp⟩, hval]
      · obtain ⟨d, hd, hj⟩ := (h2 x).there j v hv
        have := e5 x d hd (by simpa using hk) j hj
        simp only [Nat.zero_add] at this
        rw [this]
        split
        · rename_i hc
          rw [hno d hd (by simpa using hc.2)]
          exact (h2 x).ff hk hw j v hv
        · exact (h2 x).ff hk hw j v hv
    · rw [if_neg hs] at hv
      obtain ⟨d, hd, hj⟩ := (h2 x).there j v hv
      have := e5 x d hd (by simpa using hk) j hj
      simp only [Nat.zero_add] at this
      rw [this, if_neg (fun hc => hs hc.1)]
      exact (h2 x).ff hk hw j v hv
  · intro x hk j v hv
    rw [e2]
    unfold srcEdge at hv
    split at hv
    · rcases given_eq hv with ⟨d, hd, _, hval⟩ | ⟨hv, _⟩
      · exact (h2 x).constVal hk d hd j v hval
      · exact (h2 x).const hk j v hv
    · exact (h2 x).const hk j v hv
  · intro x j v hv
    unfold srcEdge at hv
    split at hv
    · rcases given_eq hv with ⟨d, hd, _, hval⟩ | ⟨hv, _⟩
      · exact ⟨d, hd, value_lt (hu.tables d (List.mem_of_getElem? hd)) hval⟩
      · exact (h2 x).there j v hv
    · exact (h2 x).there j v hv
  · intro x hk d hd j v hval
    rw [e2]
    exact (h2 x).constVal hk d hd j v hval

theorem unitRun_spec {u : VarSet V} {z : V} {force : Bool} {ds : List (VarDecl V)} (hu : VarsOk u z force ds) {body : E → R → CycProg V R} {ctl : Bool → Bool → R → R}
    (hf : ∀ e r, (body e r).Fits u z ds fun _ _ => False) : ∀ (is : List (CycIn E V)) {r r' : R} {σ σ' : VarStore V} {s : VarSides V}, KnownHeld u z ds σ s →
    srcHistory z ds force u.kind body ctl is (r, σ) = some (r', σ') → ∃ s', unitRun u z body ctl is (r, s) = some (r', s') ∧ KnownHeld u z ds σ' s'
  | [], r, r', σ, σ', s, hh, h => by
    simp only [srcHistory, Option.some.injEq, Prod.mk.injEq] at h
    obtain ⟨rfl, rfl⟩ := h
    exact ⟨s, rfl, hh⟩
  | i :: is, r, r', σ, σ', s, hh, h => by
    simp only [srcHistory] at h
    split at h
    · cases h
    · rename_i r1 σ1 h1
      obtain ⟨s1, h2, h3⟩ := unitCycle_spec hu (ctl := ctl) (hf i.ext r) hh h1
      obtain ⟨s', h4, h5⟩ := unitRun_spec hu hf is h3 h
      exact ⟨s', by simp only [unitRun, h2, Option.bind_eq_bind, Option.bind_some, h4], h5⟩

theorem unitFrom_spec {u : VarSet V} {z : V} {force : Bool} {ds : List (VarDecl V)} (hu : VarsOk u z force ds) {body : E → R → CycProg V R} {ctl : Bool → Bool → R → R}
    (hf : ∀ e r, (body e r).Fits u z ds fun _ _ => False) (is : List (CycIn E V)) {r0 r' : R} {σ' : VarStore V} (any : VarSides V)
    (h : srcHistory z ds force u.kind body ctl is (r0, srcConfig z ds force) = some (r', σ')) : ∃ s', unitFrom u z body ctl r0 any is = some (r', s') ∧ KnownHeld u z ds σ' s' := by
  obtain ⟨s, h1, _, h3⟩ := declAll_spec (u := u) (z := z) (force := force) ds u.vars 0 any hu.len hu.nfo
  have hh : KnownHeld u z ds (srcConfig z ds force) s := by
    have hcfg : ∀ x i v, srcConfig z ds force x i = some v → ∃ d, ds[x]? = some d ∧ force = false ∧ d.OnConfig ∧ d.value z i = some v := by
      intro x i v hv
      rcases given_eq hv with ⟨d, hd, hp, hval⟩ | ⟨hv, _⟩
      · simp only [Bool.and_eq_true, Bool.not_eq_true', decide_eq_true_eq] at hp
        exact ⟨d, hd, hp.1, hp.2, hval⟩
      · cases hv
    refine ⟨?_, ?_, ?_, ?_⟩
    · intro x hk _ i v hv
      obtain ⟨d, hd, hfo, hc, hval⟩ := hcfg x i v hv
      have := (h3 x d hd i v hval).2 (by simpa using hk) hfo hc
      simpa using this
    · intro x hk i v hv
      obtain ⟨d, hd, hfo, hc, hval⟩ := hcfg x i v hv
      have := (h3 x d hd i v hval).1 (by simpa using hk)
      simpa using this
    · intro x i v hv
      obtain ⟨d, hd, hfo, hc, hval⟩ := hcfg x i v hv
      exact ⟨d, hd, value_lt (hu.tables d (List.mem_of_getElem? hd)) hval⟩
    · intro x hk d hd i v hval
      have := (h3 x d hd i v hval).1 (by simpa using hk)
      simpa using this
  obtain ⟨s', h4, h5⟩ := unitRun_spec hu hf is hh h
  exact ⟨s', by simp only [unitFrom, h1, Option.bind_eq_bind, Option.bind_some, h4], h5⟩

end Silice
