import Verif.Prelude
import Mathlib.Data.List.Nodup
import Verif.Spec.Select
import Verif.Lemmas.Bitfield

/-! Lemmas for C63. -/

set_option autoImplicit false

namespace Silice

theorem lookupS_mem {α : Type} {l : List (String × α)} {k : String} {a : α} (h : l.lookup k = some a) : (k, a) ∈ l := by
  induction l with
  | nil => cases h
  | cons p l ih =>
    obtain ⟨k', a'⟩ := p
    rw [List.lookup_cons] at h
    by_cases e : k = k'
    · subst e
      simp only [beq_self_eq_true, Option.some.injEq] at h
      subst h
      exact List.mem_cons_self
    · have : (k == k') = false := by simpa using e
      rw [this] at h
      exact List.mem_cons_of_mem _ (ih h)

theorem lookupS_isSome {α : Type} {l : List (String × α)} {k : String} : (l.lookup k).isSome = true ↔ k ∈ l.map Prod.fst := by
  induction l with
  | nil => simp
  | cons p l ih =>
    obtain ⟨k', a'⟩ := p
    rw [List.lookup_cons]
    by_cases e : k = k'
    · subst e; simp
    · have : (k == k') = false := by simpa using e
      rw [this]
      simp [e]

theorem lookupS_none {α : Type} {l : List (String × α)} {k : String} (h : k ∉ l.map Prod.fst) : l.lookup k = none := by
  cases hl : l.lookup k with
  | none => rfl
  | some a => exact absurd (lookupS_isSome.mp (by rw [hl]; rfl)) h

/-- All variables with where they come from. -/
def Declared.origins (D : Declared) : List (SVar × String × VarTy) :=
  D.vars.map (fun p => (.var p.1, p.1, p.2)) ++ D.groups.flatMap (fun g => g.2.map fun m => (.member g.1 m.1, g.1 ++ "_" ++ m.1, m.2)) ++
    D.insts.flatMap (fun i => (i.2.inputs.filter (fun p => p.1 ∉ i.2.bound)).map (fun p => (.input i.1 p.1, i.2.pre ++ "_" ++ p.1, p.2)) ++
      i.2.outputs.map fun p => (.output i.1 p.1, i.2.pre ++ "_" ++ p.1, p.2))

theorem origins_allVars (D : Declared) : D.origins.map Prod.snd = D.allVars := by
  simp only [Declared.origins, Declared.allVars, List.map_append, List.map_map, List.map_flatMap, Function.comp_def]
  simp

theorem origins_mem {D : Declared} {v : SVar} {t : VarTy} (h : D.ty v = some t) (hf : D.Free v) (ho : ∀ x, v ≠ .own x) : (v, D.name v, t) ∈ D.origins := by
  unfold Declared.origins
  cases v with
  | own x => exact absurd rfl (ho x)
  | var x =>
    refine List.mem_append_left _ (List.mem_append_left _ (List.mem_map.mpr ⟨(x, t), lookupS_mem h, rfl⟩))
  | member g m =>
    simp only [Declared.ty, Option.bind_eq_some_iff] at h
    obtain ⟨ms, h1, h2⟩ := h
    exact List.mem_append_left _ (List.mem_append_right _ (List.mem_flatMap.mpr ⟨(g, ms), lookupS_mem h1, List.mem_map.mpr ⟨(m, t), lookupS_mem h2, rfl⟩⟩))
  | input i m =>
    simp only [Declared.ty, Option.bind_eq_some_iff] at h
    obtain ⟨p, h1, h2⟩ := h
    refine List.mem_append_right _ (List.mem_flatMap.mpr ⟨(i, p), lookupS_mem h1, List.mem_append_left _ (List.mem_map.mpr ⟨(m, t), ?_, ?_⟩)⟩)
    · exact List.mem_filter.mpr ⟨lookupS_mem h2, by simpa using hf p h1⟩
    · simp only [Declared.name, h1]
  | output i m =>
    simp only [Declared.ty, Option.bind_eq_some_iff] at h
    obtain ⟨p, h1, h2⟩ := h
    refine List.mem_append_right _ (List.mem_flatMap.mpr ⟨(i, p), lookupS_mem h1, List.mem_append_right _ (List.mem_map.mpr ⟨(m, t), lookupS_mem h2, ?_⟩)⟩)
    simp only [Declared.name, h1]

theorem Distinct.nodup {D : Declared} (hd : Distinct D) : (D.origins.map fun e => e.2.1).Nodup := by
  have h := hd.names.of_append_left
  rw [← origins_allVars, List.map_map] at h
  exact h

theorem name_inj {D : Declared} (hd : Distinct D) {v v' : SVar} {t t' : VarTy} (h : D.ty v = some t) (h' : D.ty v' = some t') (hf : D.Free v)
    (hf' : D.Free v') (ho : ∀ x, v ≠ .own x) (ho' : ∀ x, v' ≠ .own x) (e : D.name v = D.name v') : v = v' := by
  have := List.inj_on_of_nodup_map hd.nodup (origins_mem h hf ho) (origins_mem h' hf' ho') e
  simp only [Prod.mk.injEq] at this
  exact this.1

theorem allVars_isSome {D : Declared} {v : SVar} {t : VarTy} (h : D.ty v = some t) (hf : D.Free v) (ho : ∀ x, v ≠ .own x) :
    (D.allVars.lookup (D.name v)).isSome = true ∧ D.name v ∈ D.allVars.map Prod.fst := by
  have hm : D.name v ∈ D.allVars.map Prod.fst := by
    rw [← origins_allVars, List.map_map]
    exact List.mem_map.mpr ⟨_, origins_mem h hf ho, rfl⟩
  exact ⟨lookupS_isSome.mpr hm, hm⟩

theorem ins_none {D : Declared} (hd : Distinct D) {v : SVar} {t : VarTy} (h : D.ty v = some t) (hf : D.Free v) (ho : ∀ x, v ≠ .own x) :
    D.ins.lookup (D.name v) = none := by
  refine lookupS_none fun hm => ?_
  exact (List.nodup_append.mp hd.names).2.2 _ (allVars_isSome h hf ho).2 _ hm rfl

theorem fieldAt_member {f : Bitfield} (hn : (f.map Prod.fst).Nodup) {m : String} {off w : Nat} (h : FieldAt f m off w) :
    bitfieldMember f m = some (w, off) := by
  obtain ⟨above, below, rfl, hs⟩ := h
  induction above with
  | nil =>
    rw [List.nil_append, bitfieldMember_cons]
    have : bitfieldMember below m = none := by
      rw [bitfieldMember_none]
      rw [List.nil_append, List.map_cons, List.nodup_cons] at hn
      exact hn.1
    rw [this]
    simp [bitfieldWidth_eq, hs]
  | cons a above ih =>
    obtain ⟨n, wn⟩ := a
    rw [List.cons_append, List.map_cons, List.nodup_cons] at hn
    rw [List.cons_append, bitfieldMember_cons, ih hn.2]
    rfl

/-! ### References -/

/-- The signal through which a variable is accessed. -/
def NetOf (D : Declared) (c : SelCtx) (rw : RW) (v : SVar) (n : Net) : Prop :=
  match rw with
  | .rd => n ∈ currentIn D c.held c.deps v ∧ (n = .d (D.name v) → D.name v ∈ c.deps)
  | .wr => (∃ x, v = .own x) ∨ v.Stored ∧ n ∈ currentIn D c.held c.deps v ∧ (c.held (D.name v) = .flipflop → n = .d (D.name v))

/-- The root of a reference to a variable. -/
def RootOf (D : Declared) (c : SelCtx) (rw : RW) (v : SVar) (r : Root) : Prop :=
  (∃ n, r = .net n ∧ NetOf D c rw v n) ∨ (r = .mac (D.name v) ∧ v.Stored ∧ c.held (D.name v) = .textMacro)

theorem rewriteName_stored {D : Declared} (hd : Distinct D) {c : SelCtx} {rw : RW} {v : SVar} {t : VarTy} (h : D.ty v = some t) (hf : D.Free v)
    (hs : v.Stored) : ∃ r, rewriteName D c rw (D.name v) = .ok r ∧ RootOf D c rw v r := by
  have ho : ∀ x, v ≠ .own x := by rintro x rfl; exact hs
  have h1 : (D.ins.lookup (D.name v)).isSome = false := by rw [ins_none hd h hf ho]; rfl
  have h2 : (D.allVars.lookup (D.name v)).isNone = false := by
    have := (allVars_isSome h hf ho).1
    rw [Option.isSome_iff_exists] at this
    obtain ⟨a, ha⟩ := this
    rw [ha]; rfl
  have hc : currentIn D c.held c.deps v = match c.held (D.name v) with
    | .flipflop => .d (D.name v) :: if D.name v ∈ c.deps then [] else [.q (D.name v)]
    | .temp => [.t (D.name v)]
    | .const => [.c (D.name v)]
    | .expr => [.w (D.name v)]
    | .bound w => [.o w]
    | .textMacro => [] := by
    cases v with
    | own x => exact absurd rfl (ho x)
    | output i m => exact hs.elim
    | var x => rfl
    | member g m => rfl
    | input i m => rfl
  have hk : ∀ n, n ∈ currentIn D c.held c.deps v → (c.held (D.name v) = .flipflop → n = .d (D.name v)) →
      (rw = .rd → n = .d (D.name v) → D.name v ∈ c.deps) → NetOf D c rw v n := by
    intro n hn hq hr
    cases rw with
    | rd => exact ⟨hn, hr rfl⟩
    | wr => exact .inr ⟨hs, hn, hq⟩
  unfold rewriteName
  rw [h1, h2]
  simp only [Bool.false_eq_true, if_false]
  cases hh : c.held (D.name v) with
  | flipflop =>
    rw [hh] at hc hk
    simp only at hc
    cases rw with
    | wr => exact ⟨_, rfl, .inl ⟨_, rfl, hk _ (by rw [hc]; exact List.mem_cons_self) (fun _ => rfl) (by simp)⟩⟩
    | rd =>
      simp only
      by_cases hm : D.name v ∈ c.deps
      · rw [if_pos hm]
        exact ⟨_, rfl, .inl ⟨_, rfl, hk _ (by rw [hc]; exact List.mem_cons_self) (fun _ => rfl) (fun _ _ => hm)⟩⟩
      · rw [if_neg hm] at hc ⊢
        refine ⟨_, rfl, .inl ⟨_, rfl, ?_⟩⟩
        refine ⟨?_, by simp⟩
        rw [hc]
        simp
  | temp => exact ⟨_, rfl, .inl ⟨_, rfl, hk _ (by rw [hc, hh]; exact List.mem_cons_self) (fun e => by rw [hh] at e; cases e) (by simp)⟩⟩
  | const => exact ⟨_, rfl, .inl ⟨_, rfl, hk _ (by rw [hc, hh]; exact List.mem_cons_self) (fun e => by rw [hh] at e; cases e) (by simp)⟩⟩
  | expr => exact ⟨_, rfl, .inl ⟨_, rfl, hk _ (by rw [hc, hh]; exact List.mem_cons_self) (fun e => by rw [hh] at e; cases e) (by simp)⟩⟩
  | bound w => exact ⟨_, rfl, .inl ⟨_, rfl, hk _ (by rw [hc, hh]; exact List.mem_cons_self) (fun e => by rw [hh] at e; cases e) (by simp)⟩⟩
  | textMacro => exact ⟨_, rfl, .inr ⟨rfl, hs, hh⟩⟩

theorem insts_groups {D : Declared} (hd : Distinct D) {b : String} {g : List (String × VarTy)} (h : D.groups.lookup b = some g) : D.insts.lookup b = none := by
  refine lookupS_none fun hm => ?_
  exact (List.nodup_append.mp hd.bases).2.2 _ hm _ (lookupS_isSome.mp (by rw [h]; rfl)) rfl

/-- A reference to what is accessed, followed by suffixes. -/
theorem writeBase_ok {D : Declared} (hd : Distinct D) {c : SelCtx} {rw : RW} {b : SBase} {v : SVar} {t : VarTy} (hb : StandsFor D b v) (ht : D.ty v = some t)
    {s : VSufs} {r : VRef} {t' : Option VarTy} (h : writeBase D c rw b s = .ok (r, t')) :
    ∃ root, r = .mk root s ∧ RootOf D c rw v root ∧ D.Free v := by
  cases hb with
  | @var x _ =>
    obtain ⟨r0, h1, h2⟩ := rewriteName_stored hd (c := c) (rw := rw) ht trivial trivial
    simp only [writeBase, show D.name (.var x) = x from rfl] at h h1
    rw [h1] at h
    simp only [Except.ok.injEq, Prod.mk.injEq] at h
    exact ⟨r0, h.1.symm, h2, trivial⟩
  | @own x hx =>
    have h1 : rewriteName D c rw x = .ok (.net (.i x)) := by
      unfold rewriteName
      rw [if_pos (show (List.lookup x D.ins).isSome = true from hx)]
    simp only [writeBase, h1, Except.ok.injEq, Prod.mk.injEq] at h
    refine ⟨_, h.1.symm, .inl ⟨_, rfl, ?_⟩, trivial⟩
    cases rw with
    | rd => exact ⟨List.mem_singleton.mpr rfl, by simp⟩
    | wr => exact .inl ⟨_, rfl⟩
  | @member g m hx =>
    have ht' := ht
    simp only [Declared.ty, Option.bind_eq_some_iff] at ht'
    obtain ⟨ms, h3, h4⟩ := ht'
    obtain ⟨r0, h1, h2⟩ := rewriteName_stored hd (c := c) (rw := rw) ht trivial trivial
    simp only [writeBase, ioTarget, insts_groups hd h3, h3, h4, Option.isNone_some, Bool.false_eq_true, if_false] at h
    rw [show g ++ "_" ++ m = D.name (.member g m) from rfl, h1] at h
    simp only [Except.ok.injEq, Prod.mk.injEq] at h
    exact ⟨r0, h.1.symm, h2, trivial⟩
  | @input i m hx =>
    have ht' := ht
    simp only [Declared.ty, Option.bind_eq_some_iff] at ht'
    obtain ⟨p, h3, h4⟩ := ht'
    simp only [writeBase, ioTarget, h3, h4, Option.isNone_some, Bool.false_and, Bool.and_false, Bool.false_eq_true, if_false] at h
    by_cases hm : m ∈ p.bound
    · rw [if_pos hm] at h
      cases h
    · have hf : D.Free (.input i m) := by
        intro p' hp'
        rw [h3, Option.some.injEq] at hp'
        subst hp'
        exact hm
      obtain ⟨r0, h1, h2⟩ := rewriteName_stored hd (c := c) (rw := rw) ht hf trivial
      rw [if_neg hm] at h
      have hn : D.name (.input i m) = p.pre ++ "_" ++ m := by simp only [Declared.name, h3]
      rw [hn] at h1
      simp only [h1, Except.ok.injEq, Prod.mk.injEq] at h
      exact ⟨r0, h.1.symm, h2, hf⟩
  | @output i m hx =>
    have ht' := ht
    simp only [Declared.ty, Option.bind_eq_some_iff] at ht'
    obtain ⟨p, h3, h4⟩ := ht'
    have hn : D.name (.output i m) = p.pre ++ "_" ++ m := by simp only [Declared.name, h3]
    simp only [writeBase, ioTarget, h3, h4, Option.isNone_some, Bool.and_false, Bool.false_eq_true, if_false] at h
    cases hin : p.inputs.lookup m with
    | some ti =>
      exfalso
      simp only [hin] at h
      by_cases hm : m ∈ p.bound
      · simp [hm] at h
      · have hti : D.ty (.input i m) = some ti := by simp only [Declared.ty, h3, Option.bind_some, hin]
        have hf : D.Free (.input i m) := by
          intro p' hp'
          rw [h3, Option.some.injEq] at hp'
          subst hp'
          exact hm
        have := name_inj hd hti ht hf trivial (by simp) (by simp) (by simp only [Declared.name, h3])
        cases this
    | none =>
      simp only [hin, Option.isNone_none, Bool.and_true] at h
      cases rw with
      | wr => simp at h
      | rd =>
        simp only [reduceCtorEq, decide_false, Bool.false_eq_true, if_false, Except.ok.injEq, Prod.mk.injEq] at h
        refine ⟨_, h.1.symm, .inl ⟨_, rfl, ?_⟩, trivial⟩
        simp [NetOf, currentIn, hn]

/-! ### Selections -/

/-- The value of an expression that may be absent. -/
def OptVal (M : Module) (s : NetMem) : Option VEx → Option Nat → Prop
  | none, none => True
  | some e, some v => e.val M s = some v
  | _, _ => False

/-- The values of the bounds of a part that may be absent. -/
def OptPart (M : Module) (s : NetMem) : Option (VEx × Nat) → Option (Nat × Nat) → Prop
  | none, none => True
  | some e, some v => e.1.val M s = some v.1 ∧ e.2 = v.2
  | _, _ => False

/-- The suffix for an entry, followed by others. -/
def entrySuf (i : Option VEx) (s : VSufs) : VSufs :=
  match i with
  | some e => .index e s
  | none => s

theorem writeAny_ok {D : Declared} (hd : Distinct D) {c : SelCtx} {rw : RW} {b : SBase} {v : SVar} {t : VarTy} (hb : StandsFor D b v) (ht : D.ty v = some t)
    {i : Option VEx} {s : VSufs} {r : VRef} (h : writeAny D c rw b i s = .ok r) :
    ∃ root, r = .mk root (entrySuf i s) ∧ RootOf D c rw v root ∧ D.Free v := by
  cases i with
  | none =>
    simp only [writeAny] at h
    cases hw : writeBase D c rw b s with
    | error e => rw [hw] at h; cases h
    | ok p =>
      rw [hw] at h
      simp only [Except.ok.injEq] at h
      obtain ⟨p1, p2⟩ := p
      subst h
      exact writeBase_ok hd hb ht hw
  | some e =>
    simp only [writeAny, writeEntry] at h
    cases hw : writeBase D c rw b (.index e s) with
    | error e => rw [hw] at h; cases h
    | ok p =>
      rw [hw] at h
      obtain ⟨p1, p2⟩ := p
      cases p2 with
      | none => cases h
      | some t2 =>
        simp only at h
        split at h
        · cases h
        · simp only [Except.ok.injEq] at h
          subst h
          exact writeBase_ok hd hb ht hw

/-- The bits selected within a word. -/
theorem entrySuf_bits {M : Module} {s : NetMem} {t : VarTy} {i : Option VEx} {iv : Option Nat} (hi : OptVal M s i iv) {k f n : Nat}
    (hk : t.size = 0 ∧ iv = none ∧ k = 0 ∨ iv = some k ∧ k < t.size) {sf : VSufs} (hs : sf.bits M s ⟨t.width, 0⟩ = some ⟨0, f, n⟩) :
    (entrySuf i sf).bits M s t = some ⟨k, f, n⟩ := by
  rcases hk with ⟨h0, rfl, rfl⟩ | ⟨rfl, hk⟩
  · cases i with
    | some e => exact hi.elim
    | none =>
      obtain ⟨w, sz⟩ := t
      simp only at h0
      subst h0
      exact hs
  · cases i with
    | none => exact hi.elim
    | some e =>
      simp only [OptVal] at hi
      have h0 : t.size ≠ 0 := by omega
      simp only [entrySuf, VSufs.bits, hi, h0, if_false, hk, if_true, hs, Option.map_some]

theorem range_bits {M : Module} {s : NetMem} {w : Nat} {f : VFirst} {v n : Nat} (hf : f.val M s = some v) (h : v + n ≤ w) :
    (VSufs.range f n .nil).bits M s ⟨w, 0⟩ = some ⟨0, v, n⟩ := by
  simp only [VSufs.bits, hf, true_and, h, if_true]

theorem Designated.entry {D : Declared} {t : VarTy} {iv : Option Nat} {fd : Option (String × String)} {pv : Option (Nat × Nat)} {b : Bits}
    (h : Designated D t iv fd pv b) : t.size = 0 ∧ iv = none ∧ b.entry = 0 ∨ iv = some b.entry ∧ b.entry < t.size := by
  induction h with
  | word h => exact h
  | field _ _ _ _ ih => exact ih
  | part _ _ _ ih => exact ih

theorem writeSel_ok {D : Declared} (hd : Distinct D) {c : SelCtx} {rw : RW} {b : SBase} {v : SVar} {t : VarTy} (hb : StandsFor D b v) (ht : D.ty v = some t)
    {M : Module} {s : NetMem} {i : Option VEx} {iv : Option Nat} (hi : OptVal M s i iv) {p : Option (VEx × Nat)} {pv : Option (Nat × Nat)}
    (hp : OptPart M s p pv) {fd : Option (String × String)} {bt : Bits} (hg : Designated D t iv fd pv bt) {r : VRef} (h : writeSel D c rw b i fd p = .ok r) :
    ∃ root sf, r = .mk root sf ∧ RootOf D c rw v root ∧ D.Free v ∧ sf.bits M s t = some bt ∧ (i = none → fd = none → p = none → sf = .nil) := by
  have hk := hg.entry
  have hw := hd.widths v t ht
  cases hg with
  | @word k hk' =>
    cases p with
    | some p => exact hp.elim
    | none =>
      simp only [writeSel] at h
      obtain ⟨root, h1, h2, h3⟩ := writeAny_ok hd hb ht h
      refine ⟨root, _, h1, h2, h3, entrySuf_bits hi hk ?_, ?_⟩
      · simp [VSufs.bits]
      · rintro rfl _ _; rfl
  | @field k off w bf f m h1 h2 h3 h4 =>
    cases p with
    | some p => exact hp.elim
    | none =>
      have hm := fieldAt_member (hd.fields _ (lookupS_mem h2)) h3
      simp only [writeSel, writeField, h2, hm] at h
      obtain ⟨root, h5, h6, h7⟩ := writeAny_ok hd hb ht h
      refine ⟨root, _, h5, h6, h7, entrySuf_bits hi hk (range_bits rfl h4), ?_⟩
      simp
  | part h1 h2 h3 =>
    cases p with
    | none => exact hp.elim
    | some p =>
      obtain ⟨e, n'⟩ := p
      obtain ⟨he, rfl⟩ := hp
      simp only at he
      cases h1 with
      | word hk' =>
        simp only [writeSel] at h
        obtain ⟨root, h5, h6, h7⟩ := writeAny_ok hd hb ht h
        refine ⟨root, _, h5, h6, h7, entrySuf_bits hi hk (range_bits (by rw [Nat.zero_add]; exact he) (by omega)), ?_⟩
        simp
      | field h8 h9 h10 h11 =>
        have hm := fieldAt_member (hd.fields _ (lookupS_mem h9)) h10
        simp only [writeSel, writeField, h9, hm] at h
        obtain ⟨root, h5, h6, h7⟩ := writeAny_ok hd hb ht h
        refine ⟨root, _, h5, h6, h7, entrySuf_bits hi hk (range_bits ?_ (by omega)), ?_⟩
        · simp only [VFirst.val, he, Option.map_some, Option.some.injEq]
          have : (2 : Nat) ^ 32 ≤ 2 ^ max 32 (M.width e) := Nat.pow_le_pow_right (by omega) (le_max_left _ _)
          rw [Nat.mod_eq_of_lt (by omega), Nat.add_comm]
        · simp

/-! ### Expressions and accesses -/

/-- What the written reference is. -/
def RefOf (D : Declared) (c : SelCtx) (M : Module) (s : NetMem) (rw : RW) (v : SVar) (t : VarTy) (b : Bits) (r : VRef) : Prop :=
  ∃ root sf, r = .mk root sf ∧ RootOf D c rw v root ∧ D.Free v ∧ sf.bits M s t = some b ∧ (c.held (D.name v) = .textMacro → v.Stored → sf = .nil)

theorem accessedVar_name {D : Declared} (hd : Distinct D) {b : SBase} {v : SVar} {t : VarTy} (hb : StandsFor D b v) (ht : D.ty v = some t)
    (i : SIdx) (fd : Option (String × String)) (p : SPart) : accessedVar D (.mk b i fd p) = D.name v := by
  cases hb with
  | var _ => rfl
  | own _ => rfl
  | member _ =>
    simp only [Declared.ty, Option.bind_eq_some_iff] at ht
    obtain ⟨ms, h3, h4⟩ := ht
    simp only [accessedVar, insts_groups hd h3, Declared.name]
  | input _ =>
    simp only [Declared.ty, Option.bind_eq_some_iff] at ht
    obtain ⟨ms, h3, h4⟩ := ht
    simp only [accessedVar, h3, Declared.name]
  | output _ =>
    simp only [Declared.ty, Option.bind_eq_some_iff] at ht
    obtain ⟨ms, h3, h4⟩ := ht
    simp only [accessedVar, h3, Declared.name]

theorem refOf_val {D : Declared} {c : SelCtx} {M : Module} {σ : SrcMem} {s : NetMem} {P : SVar → Prop} (hh : HoldsOn D c.held M c.deps σ s P) {v : SVar} {t : VarTy} {b : Bits}
    {r : VRef} (hP : P v) (ht : D.ty v = some t) (h : RefOf D c M s .rd v t b r) :
    (VEx.ref r).val M s = some (bitsVal (fun k => σ v b.entry (b.first + k)) b.num) := by
  obtain ⟨root, sf, rfl, hr, hf, hb, hm⟩ := h
  rcases hr with ⟨n, rfl, hn⟩ | ⟨rfl, hs, hm'⟩
  · have hty : M.ty n = some t := by
      refine hh.ty v t ht hf n ?_
      simp only [NetOf] at hn
      replace hn := hn.1
      cases v with
      | own x => exact hn
      | output i m => exact hn
      | _ =>
        simp only [currentIn, List.not_mem_nil, if_false] at hn ⊢
        revert hn
        split
        · intro hn
          split at hn
          · rw [List.mem_singleton.mp hn]; exact List.mem_cons_self
          · exact hn
        all_goals exact id
    simp only [VEx.val, hty, hb, Option.map_some]
    congr 1
    congr 1
    funext k
    exact hh.val v t hP ht hf n hn.1 hn.2 _ _
  · have e := hm hm' hs
    subst e
    simp only [VSufs.bits] at hb
    split at hb
    · simp only [Option.some.injEq] at hb
      subst hb
      simp only [VEx.val, Nat.zero_add]
      rw [hh.mac v t hP ht hf hs hm']
    · cases hb

mutual
theorem compEx_val {D : Declared} (hd : Distinct D) {c : SelCtx} {M : Module} {σ : SrcMem} {s : NetMem} {P : SVar → Prop} (hh : HoldsOn D c.held M c.deps σ s P) :
    ∀ (e : SEx) {e' : VEx} {v : Nat}, compEx D c e = .ok e' → e.MacroWhole D c.held → e.Within D P → SVal D σ e v → e'.val M s = some v
  | .num _, e', v, h, _, _, hv => by
    cases hv
    simp only [compEx, Except.ok.injEq] at h
    subst h
    rfl
  | .read a, e', v, h, hm, hW, hv => by
    cases hv with
    | @read _ x b hp =>
      simp only [compEx] at h
      cases ha : compAcc D c .rd a with
      | error er => rw [ha] at h; cases h
      | ok r =>
        rw [ha] at h
        simp only [Except.ok.injEq] at h
        subst h
        obtain ⟨bs, i, fd, p⟩ := a
        obtain ⟨t, ht, hr⟩ := compAcc_ref hd hh .rd (.mk bs i fd p) ha hm hW.2 hp
        have hP : P x := by
          cases hp with
          | mk h1 _ _ _ _ => exact hW.1 x h1
        exact refOf_val hh hP ht hr
  | .un f e, e', v, h, hm, hW, hv => by
    cases hv with
    | un hv =>
      simp only [compEx] at h
      cases he : compEx D c e with
      | error er => rw [he] at h; cases h
      | ok r =>
        rw [he] at h
        simp only [Except.ok.injEq] at h
        subst h
        simp only [VEx.val, compEx_val hd hh e he hm hW hv, Option.map_some]
  | .bin f e1 e2, e', v, h, hm, hW, hv => by
    cases hv with
    | bin hv1 hv2 =>
      simp only [compEx] at h
      cases he : compEx D c e1 with
      | error er => rw [he] at h; cases h
      | ok r =>
        rw [he] at h
        simp only at h
        cases he2 : compEx D c e2 with
        | error er => rw [he2] at h; cases h
        | ok r2 =>
          rw [he2] at h
          simp only [Except.ok.injEq] at h
          subst h
          simp only [VEx.val, compEx_val hd hh e1 he hm.1 hW.1 hv1, compEx_val hd hh e2 he2 hm.2 hW.2 hv2]
theorem compIdx_val {D : Declared} (hd : Distinct D) {c : SelCtx} {M : Module} {σ : SrcMem} {s : NetMem} {P : SVar → Prop} (hh : HoldsOn D c.held M c.deps σ s P) :
    ∀ (i : SIdx) {i' : Option VEx} {v : Option Nat}, compIdx D c i = .ok i' → i.MacroWhole D c.held → i.Within D P → SIdxVal D σ i v → OptVal M s i' v
  | .no, i', v, h, _, _, hv => by
    cases hv
    simp only [compIdx, Except.ok.injEq] at h
    subst h
    trivial
  | .at e, i', v, h, hm, hW, hv => by
    cases hv with
    | «at» hv =>
      simp only [compIdx] at h
      cases he : compEx D c e with
      | error er => rw [he] at h; cases h
      | ok r =>
        rw [he] at h
        simp only [Except.ok.injEq] at h
        subst h
        exact compEx_val hd hh e he hm hW hv
theorem compPart_val {D : Declared} (hd : Distinct D) {c : SelCtx} {M : Module} {σ : SrcMem} {s : NetMem} {P : SVar → Prop} (hh : HoldsOn D c.held M c.deps σ s P) :
    ∀ (p : SPart) {p' : Option (VEx × Nat)} {v : Option (Nat × Nat)}, compPart D c p = .ok p' → p.MacroWhole D c.held → p.Within D P → SPartVal D σ p v → OptPart M s p' v
  | .no, p', v, h, _, _, hv => by
    cases hv
    simp only [compPart, Except.ok.injEq] at h
    subst h
    trivial
  | .at e n, p', v, h, hm, hW, hv => by
    cases hv with
    | «at» hv =>
      simp only [compPart] at h
      cases he : compEx D c e with
      | error er => rw [he] at h; cases h
      | ok r =>
        rw [he] at h
        simp only [Except.ok.injEq] at h
        subst h
        exact ⟨compEx_val hd hh e he hm hW hv, rfl⟩
theorem compAcc_ref {D : Declared} (hd : Distinct D) {c : SelCtx} {M : Module} {σ : SrcMem} {s : NetMem} {P : SVar → Prop} (hh : HoldsOn D c.held M c.deps σ s P) (rw : RW) :
    ∀ (a : SAcc) {r : VRef} {v : SVar} {b : Bits}, compAcc D c rw a = .ok r → a.MacroWhole D c.held → a.IndicesWithin D P → SPlace D σ a v b →
      ∃ t, D.ty v = some t ∧ RefOf D c M s rw v t b r
  | .mk bs i fd p, r, v, b, h, hm, hW, hv => by
    cases hv with
    | @mk _ _ _ _ _ t iv pv _ h1 h2 h3 h4 h5 =>
      simp only [compAcc] at h
      cases hi : compIdx D c i with
      | error er => rw [hi] at h; cases h
      | ok i' =>
        rw [hi] at h
        simp only at h
        cases hp : compPart D c p with
        | error er => rw [hp] at h; cases h
        | ok p' =>
          rw [hp] at h
          simp only at h
          split at h
          · cases h
          · have hiv := compIdx_val hd hh i hi hm.1 hW.1 h3
            have hpv := compPart_val hd hh p hp hm.2.1 hW.2 h4
            obtain ⟨root, sf, e1, e2, e3, e4, e5⟩ := writeSel_ok hd h1 h2 hiv hpv h5 h
            refine ⟨t, h2, root, sf, e1, e2, e3, e4, fun hx _ => ?_⟩
            have := hm.2.2 (by rw [accessedVar_name hd h1 h2]; exact hx)
            obtain ⟨rfl, rfl, rfl⟩ := this
            refine e5 ?_ rfl ?_
            · simp only [compIdx, Except.ok.injEq] at hi; exact hi.symm
            · simp only [compPart, Except.ok.injEq] at hp; exact hp.symm
end

theorem Holds.on {D : Declared} {held : String → Held} {M : Module} {deps : List String} {σ : SrcMem} {s : NetMem} (hh : Holds D held M deps σ s)
    (P : SVar → Prop) : HoldsOn D held M deps σ s P :=
  ⟨hh.ty, fun v t _ ht hf n hn _ => hh.val v t ht hf n hn, fun v t _ => hh.mac v t⟩

mutual
theorem SEx.within_all {D : Declared} {P : SVar → Prop} (h : ∀ v, P v) : ∀ e : SEx, e.Within D P
  | .num _ => trivial
  | .read a => SAcc.within_all h a
  | .un _ e => SEx.within_all h e
  | .bin _ e e' => ⟨SEx.within_all h e, SEx.within_all h e'⟩
theorem SIdx.within_all {D : Declared} {P : SVar → Prop} (h : ∀ v, P v) : ∀ i : SIdx, i.Within D P
  | .no => trivial
  | .at e => SEx.within_all h e
theorem SPart.within_all {D : Declared} {P : SVar → Prop} (h : ∀ v, P v) : ∀ p : SPart, p.Within D P
  | .no => trivial
  | .at e _ => SEx.within_all h e
theorem SAcc.within_all {D : Declared} {P : SVar → Prop} (h : ∀ v, P v) : ∀ a : SAcc, a.Within D P
  | .mk _ i _ p => ⟨fun v _ => h v, SIdx.within_all h i, SPart.within_all h p⟩
end

theorem SAcc.indices_all {D : Declared} {P : SVar → Prop} (h : ∀ v, P v) : ∀ a : SAcc, a.IndicesWithin D P
  | .mk _ i _ p => ⟨SIdx.within_all h i, SPart.within_all h p⟩

/-! ### Acceptance -/

theorem lookupS_of_mem {α : Type} {l : List (String × α)} (hn : (l.map Prod.fst).Nodup) {k : String} {a : α} (h : (k, a) ∈ l) : l.lookup k = some a := by
  induction l with
  | nil => cases h
  | cons p l ih =>
    obtain ⟨k', a'⟩ := p
    rw [List.map_cons, List.nodup_cons] at hn
    rw [List.lookup_cons]
    rcases List.mem_cons.mp h with e | hl
    · cases e
      simp
    · have : k ≠ k' := by
        rintro rfl
        exact hn.1 (List.mem_map.mpr ⟨_, hl, rfl⟩)
      have : (k == k') = false := by simpa using this
      rw [this]
      exact ih hn.2 hl

theorem allVars_lookup {D : Declared} (hd : Distinct D) {v : SVar} {t : VarTy} (h : D.ty v = some t) (hf : D.Free v) (ho : ∀ x, v ≠ .own x) :
    D.allVars.lookup (D.name v) = some t := by
  refine lookupS_of_mem hd.names.of_append_left ?_
  rw [← origins_allVars]
  exact List.mem_map.mpr ⟨_, origins_mem h hf ho, rfl⟩

theorem own_lookup {D : Declared} (hd : Distinct D) {x : String} {t : VarTy} (h : D.ins.lookup x = some t) : D.allVars.lookup x = none := by
  refine lookupS_none fun hm => ?_
  exact (List.nodup_append.mp hd.names).2.2 _ hm _ (lookupS_isSome.mp (by rw [h]; rfl)) rfl

/-- The type found is the one declared. -/
theorem ioTarget_type {D : Declared} (hd : Distinct D) {rw : RW} {b m : String} {v : SVar} {t : VarTy} (hb : StandsFor D (.io b m) v) (ht : D.ty v = some t)
    (hf : D.Free v) (hw : rw = .wr → ∀ j m, v ≠ .output j m) : ∃ g, ioTarget D rw b m = .ok (g, some t) := by
  cases hb with
  | member _ =>
    have ht' := ht
    simp only [Declared.ty, Option.bind_eq_some_iff] at ht'
    obtain ⟨ms, h3, h4⟩ := ht'
    refine ⟨.inl (b ++ "_" ++ m), ?_⟩
    have : D.typeOf (b ++ "_" ++ m) = some t := by
      have := allVars_lookup hd ht trivial (by simp)
      simp only [Declared.name] at this
      simp only [Declared.typeOf, this]
    simp [ioTarget, insts_groups hd h3, h3, h4, this]
  | input _ =>
    have ht' := ht
    simp only [Declared.ty, Option.bind_eq_some_iff] at ht'
    obtain ⟨p, h3, h4⟩ := ht'
    exact ⟨.inl (p.pre ++ "_" ++ m), by simp only [ioTarget, h3, h4, Option.isNone_some, Bool.false_and, Bool.and_false, Bool.false_eq_true, if_false, hf p h3]⟩
  | output _ =>
    have ht' := ht
    simp only [Declared.ty, Option.bind_eq_some_iff] at ht'
    obtain ⟨p, h3, h4⟩ := ht'
    cases rw with
    | wr => exact absurd rfl (hw rfl b m)
    | rd =>
      cases hin : p.inputs.lookup m with
      | none =>
        refine ⟨.inr (p.pre ++ "_" ++ m), ?_⟩
        simp [ioTarget, h3, h4, hin]
      | some ti =>
        exfalso
        exact (List.nodup_append.mp (hd.ports _ (lookupS_mem h3))).2.2 _ (lookupS_isSome.mp (by rw [hin]; rfl)) _ (lookupS_isSome.mp (by rw [h4]; rfl)) rfl

theorem baseType_ok {D : Declared} (hd : Distinct D) {b : SBase} {v : SVar} {t : VarTy} (hb : StandsFor D b v) (ht : D.ty v = some t) (hf : D.Free v) :
    baseType D b = .ok t := by
  cases b with
  | id x =>
    have : D.typeOf x = some t := by
      cases hb with
      | var _ =>
        have := allVars_lookup hd ht trivial (by simp)
        simp only [Declared.name] at this
        simp only [Declared.typeOf, this]
      | own _ => simp only [Declared.typeOf, own_lookup hd ht]; exact ht
    simp only [baseType, this]
  | io b m =>
    obtain ⟨g, h⟩ := ioTarget_type hd (rw := .rd) hb ht hf (by simp)
    simp only [baseType, h]

/-- What makes sense is accepted: the base. -/
theorem writeBase_accepts {D : Declared} (hd : Distinct D) {c : SelCtx} {rw : RW} {b : SBase} {v : SVar} {t : VarTy} (hb : StandsFor D b v)
    (ht : D.ty v = some t) (hf : D.Free v) (hw : rw = .wr → ∀ j m, v ≠ .output j m) (s : VSufs) : ∃ r, writeBase D c rw b s = .ok (r, some t) := by
  cases hb with
  | @var x _ =>
    obtain ⟨r0, h1, h2⟩ := rewriteName_stored hd (c := c) (rw := rw) ht trivial trivial
    have h4 := allVars_lookup hd ht trivial (by simp)
    simp only [Declared.name] at h1 h4
    exact ⟨.mk r0 s, by simp only [writeBase, h1, Declared.typeOf, h4]⟩
  | @own x hx =>
    have h1 : rewriteName D c rw x = .ok (.net (.i x)) := by
      unfold rewriteName
      rw [if_pos (show (List.lookup x D.ins).isSome = true from hx)]
    exact ⟨.mk (.net (.i x)) s, by simp only [writeBase, h1, Declared.typeOf, own_lookup hd ht, show D.ins.lookup x = some t from ht]⟩
  | @member g m hx =>
    obtain ⟨r0, h1, h2⟩ := rewriteName_stored hd (c := c) (rw := rw) ht trivial trivial
    obtain ⟨k, hk⟩ := ioTarget_type hd (rw := rw) (.member hx) ht hf hw
    have ht' := ht
    simp only [Declared.ty, Option.bind_eq_some_iff] at ht'
    obtain ⟨ms, h3, h4⟩ := ht'
    have hk' := hk
    simp only [ioTarget, insts_groups hd h3, h3, h4, Option.isNone_some, Bool.false_eq_true, if_false, Except.ok.injEq, Prod.mk.injEq] at hk'
    obtain ⟨rfl, _⟩ := hk'
    simp only [Declared.name] at h1
    exact ⟨.mk r0 s, by simp only [writeBase, hk, h1]⟩
  | @input i m hx =>
    obtain ⟨r0, h1, h2⟩ := rewriteName_stored hd (c := c) (rw := rw) ht hf trivial
    obtain ⟨k, hk⟩ := ioTarget_type hd (rw := rw) (.input hx) ht hf hw
    have ht' := ht
    simp only [Declared.ty, Option.bind_eq_some_iff] at ht'
    obtain ⟨p, h3, h4⟩ := ht'
    have hk' := hk
    simp only [ioTarget, h3, h4, Option.isNone_some, Bool.false_and, Bool.and_false, Bool.false_eq_true, if_false, hf p h3, Except.ok.injEq, Prod.mk.injEq] at hk'
    obtain ⟨rfl, _⟩ := hk'
    simp only [Declared.name, h3] at h1
    exact ⟨.mk r0 s, by simp only [writeBase, hk, h1]⟩
  | @output i m hx =>
    obtain ⟨k, hk⟩ := ioTarget_type hd (rw := rw) (.output hx) ht hf hw
    cases k with
    | inr w => exact ⟨_, by simp only [writeBase, hk]; rfl⟩
    | inl x =>
      exfalso
      have ht' := ht
      simp only [Declared.ty, Option.bind_eq_some_iff] at ht'
      obtain ⟨p, h3, h4⟩ := ht'
      have hin : p.inputs.lookup m = none := by
        refine lookupS_none fun hm => ?_
        exact (List.nodup_append.mp (hd.ports _ (lookupS_mem h3))).2.2 _ hm _ (lookupS_isSome.mp (by rw [h4]; rfl)) rfl
      simp only [ioTarget, h3, h4, hin, Option.isNone_none, Option.isNone_some, Bool.and_false, Bool.false_eq_true, if_false] at hk
      split at hk <;> simp at hk

/-- What is accepted makes sense: the base. -/
theorem writeBase_sensible {D : Declared} {c : SelCtx} {rw : RW} {b : SBase}
    (hv : ∀ x, b = .id x → x ∈ D.allVars.map Prod.fst → x ∈ D.vars.map Prod.fst) {s : VSufs} {r : VRef} {t' : Option VarTy}
    (h : writeBase D c rw b s = .ok (r, t')) :
    ∃ v t, StandsFor D b v ∧ D.ty v = some t ∧ D.Free v ∧ (rw = .wr → ∀ j m, v ≠ .output j m) := by
  cases b with
  | id x =>
    simp only [writeBase] at h
    cases hr : rewriteName D c rw x with
    | error e => rw [hr] at h; cases h
    | ok r0 =>
      unfold rewriteName at hr
      by_cases h1 : (D.ins.lookup x).isSome = true
      · obtain ⟨t, ht⟩ := Option.isSome_iff_exists.mp h1
        exact ⟨.own x, t, .own h1, ht, trivial, by simp⟩
      · rw [if_neg h1] at hr
        by_cases h2 : (D.allVars.lookup x).isNone = true
        · rw [if_pos h2] at hr; cases hr
        · have hm : x ∈ D.allVars.map Prod.fst := lookupS_isSome.mp (by simpa [Option.isSome_iff_ne_none] using h2)
          have h3 := lookupS_isSome.mpr (hv x rfl hm)
          obtain ⟨t, ht⟩ := Option.isSome_iff_exists.mp h3
          exact ⟨.var x, t, .var h3, ht, trivial, by simp⟩
  | io b m =>
    simp only [writeBase] at h
    cases hk : ioTarget D rw b m with
    | error e => rw [hk] at h; cases h
    | ok k =>
      unfold ioTarget at hk
      cases h1 : D.insts.lookup b with
      | some i =>
        simp only [h1] at hk
        cases h2 : i.inputs.lookup m with
        | some t =>
          simp only [h2, Option.isNone_some, Bool.false_and, Bool.and_false, Bool.false_eq_true, if_false] at hk
          split at hk
          · cases hk
          · rename_i hm
            refine ⟨.input b m, t, .input ?_, ?_, ?_, by simp⟩
            · simp [Declared.ty, h1, h2]
            · simp [Declared.ty, h1, h2]
            · intro p hp
              rw [h1, Option.some.injEq] at hp
              subst hp
              exact hm
        | none =>
          simp only [h2, Option.isNone_none, Bool.true_and, Bool.and_true] at hk
          split at hk
          · cases hk
          · rename_i h3
            split at hk
            · cases hk
            · rename_i h4
              have h5 : (i.outputs.lookup m).isSome = true := by simpa [Option.isSome_iff_ne_none] using h3
              obtain ⟨t, ht⟩ := Option.isSome_iff_exists.mp h5
              refine ⟨.output b m, t, .output ?_, ?_, trivial, ?_⟩
              · simp [Declared.ty, h1, ht]
              · simp [Declared.ty, h1, ht]
              · rintro rfl
                simp at h4
      | none =>
        simp only [h1] at hk
        cases h2 : D.groups.lookup b with
        | none => simp only [h2] at hk; cases hk
        | some g =>
          simp only [h2] at hk
          split at hk
          · cases hk
          · rename_i h3
            have h5 : (g.lookup m).isSome = true := by simpa [Option.isSome_iff_ne_none] using h3
            obtain ⟨t, ht⟩ := Option.isSome_iff_exists.mp h5
            refine ⟨.member b m, t, .member ?_, ?_, trivial, by simp⟩
            · simp [Declared.ty, h2, ht]
            · simp [Declared.ty, h2, ht]

theorem writeAny_iff {D : Declared} (hd : Distinct D) {c : SelCtx} {rw : RW} {b : SBase}
    (hv : ∀ x, b = .id x → x ∈ D.allVars.map Prod.fst → x ∈ D.vars.map Prod.fst) (i : Option VEx) (s : VSufs) :
    (∃ r, writeAny D c rw b i s = .ok r) ↔
      ∃ v t, StandsFor D b v ∧ D.ty v = some t ∧ D.Free v ∧ (rw = .wr → ∀ j m, v ≠ .output j m) ∧ (i ≠ none → t.size ≠ 0) := by
  constructor
  · rintro ⟨r, h⟩
    cases i with
    | none =>
      simp only [writeAny] at h
      cases hw : writeBase D c rw b s with
      | error e => rw [hw] at h; cases h
      | ok p =>
        obtain ⟨v, t, h1, h2, h3, h4⟩ := writeBase_sensible hv (r := p.1) (t' := p.2) hw
        exact ⟨v, t, h1, h2, h3, h4, fun h => absurd rfl h⟩
    | some e =>
      simp only [writeAny, writeEntry] at h
      cases hw : writeBase D c rw b (.index e s) with
      | error e => rw [hw] at h; cases h
      | ok p =>
        obtain ⟨v, t, h1, h2, h3, h4⟩ := writeBase_sensible hv (r := p.1) (t' := p.2) hw
        refine ⟨v, t, h1, h2, h3, h4, fun _ => ?_⟩
        obtain ⟨r', hr'⟩ := writeBase_accepts hd (c := c) h1 h2 h3 h4 (.index e s)
        rw [hr'] at h
        simp only at h
        split at h
        · cases h
        · assumption
  · rintro ⟨v, t, h1, h2, h3, h4, h5⟩
    cases i with
    | none =>
      obtain ⟨r', hr'⟩ := writeBase_accepts hd (c := c) h1 h2 h3 h4 s
      exact ⟨r', by simp only [writeAny, hr']⟩
    | some e =>
      obtain ⟨r', hr'⟩ := writeBase_accepts hd (c := c) h1 h2 h3 h4 (.index e s)
      exact ⟨r', by simp only [writeAny, writeEntry, hr', h5 (by simp), if_false]⟩

theorem fieldAt_iff {f : Bitfield} (hn : (f.map Prod.fst).Nodup) {m : String} {off w : Nat} : bitfieldMember f m = some (w, off) ↔ FieldAt f m off w := by
  refine ⟨fun h => ?_, fieldAt_member hn⟩
  obtain ⟨above, below, rfl⟩ := List.append_of_mem (bitfieldMember_mem f m w off h)
  refine ⟨above, below, rfl, ?_⟩
  have := fieldAt_member hn (m := m) (off := (below.map Prod.snd).sum) (w := w) ⟨above, below, rfl, rfl⟩
  rw [h, Option.some.injEq, Prod.mk.injEq] at this
  exact this.2.symm

theorem checkSel_iff {D : Declared} (hd : Distinct D) {b : SBase} {v : SVar} {t : VarTy} (hb : StandsFor D b v) (ht : D.ty v = some t) (hf : D.Free v)
    (fd : Option (String × String)) (p : Option Nat) :
    checkSel D b fd p = .ok () ↔ (∀ f, fd = some f → FieldFits D t f) ∧ ∀ n, p = some n → 0 < n := by
  unfold checkSel
  rw [baseType_ok hd hb ht hf]
  cases fd with
  | none =>
    cases p with
    | none => simp
    | some n =>
      by_cases h0 : n = 0
      · subst h0; simp
      · simp [h0, Nat.pos_of_ne_zero h0]
  | some fd =>
    simp only [Option.some.injEq, forall_eq']
    cases h1 : D.fields.lookup fd.1 with
    | none => simp [FieldFits, h1]
    | some f =>
      have hn := hd.fields _ (lookupS_mem h1)
      simp only
      cases h2 : bitfieldMember f fd.2 with
      | none =>
        simp only [reduceCtorEq, false_iff]
        rintro ⟨⟨b', off, w, h3, h4, _⟩, _⟩
        rw [h1, Option.some.injEq] at h3
        subst h3
        rw [(fieldAt_iff hn).mpr h4] at h2
        cases h2
      | some wo =>
        obtain ⟨w, off⟩ := wo
        simp only
        by_cases h3 : w + off > t.width
        · rw [if_pos h3]
          simp only [reduceCtorEq, false_iff]
          rintro ⟨⟨b', off', w', h3', h4, h5⟩, _⟩
          rw [h1, Option.some.injEq] at h3'
          subst h3'
          rw [(fieldAt_iff hn).mpr h4, Option.some.injEq, Prod.mk.injEq] at h2
          omega
        · rw [if_neg h3]
          have hff : FieldFits D t fd := ⟨f, off, w, h1, (fieldAt_iff hn).mp h2, by omega⟩
          cases p with
          | none => simp [hff]
          | some n =>
            by_cases h0 : n = 0
            · subst h0; simp
            · simp [h0, Nat.pos_of_ne_zero h0, hff]

theorem writeSel_iff {D : Declared} (hd : Distinct D) {c : SelCtx} {rw : RW} {b : SBase}
    (hv : ∀ x, b = .id x → x ∈ D.allVars.map Prod.fst → x ∈ D.vars.map Prod.fst) (i : Option VEx) (fd : Option (String × String)) (p : Option (VEx × Nat)) :
    (checkSel D b fd (p.map Prod.snd) = .ok () ∧ ∃ r, writeSel D c rw b i fd p = .ok r) ↔
      ∃ v t, StandsFor D b v ∧ D.ty v = some t ∧ D.Free v ∧ (rw = .wr → ∀ j m, v ≠ .output j m) ∧ (i ≠ none → t.size ≠ 0) ∧
        (∀ e n, p = some (e, n) → 0 < n) ∧ ∀ f, fd = some f → FieldFits D t f := by
  have key : ∀ v t, StandsFor D b v → D.ty v = some t → D.Free v → (checkSel D b fd (p.map Prod.snd) = .ok () ↔
      (∀ e n, p = some (e, n) → 0 < n) ∧ ∀ f, fd = some f → FieldFits D t f) := by
    intro v t h1 h2 h3
    rw [checkSel_iff hd h1 h2 h3]
    refine ⟨fun h => ⟨fun e n hp => h.2 n (by rw [hp]; rfl), h.1⟩, fun h => ⟨h.2, fun n hp => ?_⟩⟩
    cases p with
    | none => cases hp
    | some p =>
      obtain ⟨e, n'⟩ := p
      simp only [Option.map_some, Option.some.injEq] at hp
      subst hp
      exact h.1 e _ rfl
  have hsel : ∀ v t, StandsFor D b v → D.ty v = some t → D.Free v → (∀ f, fd = some f → FieldFits D t f) →
      ∃ s, writeSel D c rw b i fd p = writeAny D c rw b i s := by
    intro v t h1 h2 h3 h4
    cases fd with
    | none =>
      cases p with
      | none => exact ⟨_, rfl⟩
      | some p => exact ⟨_, rfl⟩
    | some fd =>
      obtain ⟨bf, off, w, h5, h6, h7⟩ := h4 fd rfl
      have hm := (fieldAt_iff (hd.fields _ (lookupS_mem h5))).mpr h6
      cases p with
      | none => exact ⟨_, by simp only [writeSel, writeField, h5, hm]; rfl⟩
      | some p => exact ⟨_, by simp only [writeSel, writeField, h5, hm]; rfl⟩
  have hsome : ∀ r, writeSel D c rw b i fd p = .ok r → ∃ s r, writeAny D c rw b i s = .ok r := by
    intro r h
    cases fd with
    | none =>
      cases p with
      | none => exact ⟨_, _, h⟩
      | some p => exact ⟨_, _, h⟩
    | some fd =>
      have : ∀ q, writeField D c rw b i fd q = .ok r → ∃ s r, writeAny D c rw b i s = .ok r := by
        intro q hq
        unfold writeField at hq
        split at hq
        · cases hq
        · split at hq
          · cases hq
          · split at hq
            · exact ⟨_, _, hq⟩
            · exact ⟨_, _, hq⟩
      cases p with
      | none => exact this none h
      | some p => exact this (some p) h
  constructor
  · rintro ⟨hc, r, h⟩
    obtain ⟨s, r', h'⟩ := hsome r h
    obtain ⟨v, t, h1, h2, h3, h4, h5⟩ := (writeAny_iff hd hv i s).mp ⟨r', h'⟩
    exact ⟨v, t, h1, h2, h3, h4, h5, (key v t h1 h2 h3).mp hc⟩
  · rintro ⟨v, t, h1, h2, h3, h4, h5, h6, h7⟩
    refine ⟨(key v t h1 h2 h3).mpr ⟨h6, h7⟩, ?_⟩
    obtain ⟨s, hs⟩ := hsel v t h1 h2 h3 h7
    rw [hs]
    exact (writeAny_iff hd hv i s).mpr ⟨v, t, h1, h2, h3, h4, h5⟩

mutual
theorem compEx_iff {D : Declared} (hd : Distinct D) (c : SelCtx) : ∀ (e : SEx), Visible D e.ids → ((∃ r, compEx D c e = .ok r) ↔ e.Sensible D)
  | .num v, _ => by simp [compEx, SEx.Sensible]
  | .read a, hv => by
    have := compAcc_iff hd c .rd a hv
    simp only [SEx.Sensible]
    rw [← this]
    simp only [compEx]
    cases compAcc D c .rd a <;> simp
  | .un f e, hv => by
    have := compEx_iff hd c e hv
    simp only [SEx.Sensible]
    rw [← this]
    simp only [compEx]
    cases compEx D c e <;> simp
  | .bin f e e', hv => by
    have h1 := compEx_iff hd c e fun x hx => hv x (List.mem_append_left _ hx)
    have h2 := compEx_iff hd c e' fun x hx => hv x (List.mem_append_right _ hx)
    simp only [SEx.Sensible]
    rw [← h1, ← h2]
    simp only [compEx]
    cases compEx D c e <;> cases compEx D c e' <;> simp
theorem compAcc_iff {D : Declared} (hd : Distinct D) (c : SelCtx) (rw : RW) : ∀ (a : SAcc), Visible D a.ids → ((∃ r, compAcc D c rw a = .ok r) ↔ a.Sensible D rw)
  | .mk b i fd p, hv => by
    have hb : ∀ x, b = .id x → x ∈ D.allVars.map Prod.fst → x ∈ D.vars.map Prod.fst := by
      rintro x rfl
      exact hv x (List.mem_append_left _ (List.mem_append_left _ List.mem_cons_self))
    have hi : Visible D i.ids := fun x hx => hv x (List.mem_append_left _ (List.mem_append_right _ hx))
    have hp : Visible D p.ids := fun x hx => hv x (List.mem_append_right _ hx)
    have hi' : (∃ r, compIdx D c i = .ok r) ↔ ∀ e, i = .at e → e.Sensible D := by
      cases i with
      | no => simp [compIdx]
      | «at» e =>
        have := compEx_iff hd c e hi
        simp only [SIdx.at.injEq, forall_eq']
        rw [← this]
        simp only [compIdx]
        cases compEx D c e <;> simp
    have hp' : (∃ r, compPart D c p = .ok r) ↔ ∀ e n, p = .at e n → e.Sensible D := by
      cases p with
      | no => simp [compPart]
      | «at» e n =>
        have := compEx_iff hd c e hp
        simp only [SPart.at.injEq, and_imp, forall_apply_eq_imp_iff, forall_eq']
        rw [← this]
        simp only [compPart]
        cases compEx D c e <;> simp
    have hin : ∀ r, compIdx D c i = .ok r → (r ≠ none ↔ i ≠ .no) := by
      intro r hr
      cases i with
      | no => simp only [compIdx, Except.ok.injEq] at hr; subst hr; simp
      | «at» e =>
        simp only [compIdx] at hr
        split at hr
        · cases hr
        · simp only [Except.ok.injEq] at hr; subst hr; simp
    have hpn : ∀ r, compPart D c p = .ok r → ((∀ e n, r = some (e, n) → 0 < n) ↔ ∀ e n, p = .at e n → 0 < n) := by
      intro r hr
      cases p with
      | no => simp only [compPart, Except.ok.injEq] at hr; subst hr; simp
      | «at» e n =>
        simp only [compPart] at hr
        split at hr
        · cases hr
        · simp only [Except.ok.injEq] at hr; subst hr; simp
    simp only [SAcc.Sensible]
    constructor
    · rintro ⟨r, h⟩
      simp only [compAcc] at h
      split at h
      · cases h
      · rename_i i' hi1
        split at h
        · cases h
        · rename_i p' hp1
          split at h
          · cases h
          · rename_i u hc1
            obtain ⟨v, t, h1, h2, h3, h4, h5, h6, h7⟩ := (writeSel_iff hd hb i' fd p').mp ⟨hc1, r, h⟩
            refine ⟨v, t, h1, h2, h3, h4, ?_, ?_, h7⟩
            · have e1 := hi'.mp ⟨_, hi1⟩
              have e2 := hin _ hi1
              cases i with
              | no => trivial
              | «at» e => exact ⟨e1 e rfl, h5 (e2.mpr (by simp))⟩
            · have e1 := hp'.mp ⟨_, hp1⟩
              have e2 := (hpn _ hp1).mp h6
              cases p with
              | no => trivial
              | «at» e n => exact ⟨e1 e n rfl, e2 e n rfl⟩
    · rintro ⟨v, t, h1, h2, h3, h4, h5, h6, h7⟩
      obtain ⟨i', hi1⟩ := hi'.mpr (by rintro e rfl; exact h5.1)
      obtain ⟨p', hp1⟩ := hp'.mpr (by rintro e n rfl; exact h6.1)
      obtain ⟨hc, r, hr⟩ := (writeSel_iff hd (c := c) (rw := rw) hb i' fd p').mpr ⟨v, t, h1, h2, h3, h4, (by
          intro hne
          have := (hin _ hi1).mp hne
          cases i with
          | no => exact absurd rfl this
          | «at» e => exact h5.2), (hpn _ hp1).mpr (by rintro e n rfl; exact h6.2), h7⟩
      exact ⟨r, by simp only [compAcc, hi1, hp1, hc, hr]⟩
end

theorem currentIn_mono {D : Declared} {held : String → Held} {deps deps' : List String} (h : deps ⊆ deps') {v : SVar} {n : Net}
    (hn : n ∈ currentIn D held deps' v) : n ∈ currentIn D held deps v := by
  cases v with
  | own x => exact hn
  | output i m => exact hn
  | var x | member g m | input i m =>
    unfold currentIn at hn ⊢
    simp only at hn ⊢
    split at hn
    · simp only [List.mem_cons] at hn ⊢
      rcases hn with rfl | hn
      · exact .inl rfl
      · split at hn
        · cases hn
        · rename_i h1
          rw [if_neg fun h2 => h1 (h h2)]
          exact .inr hn
    all_goals exact hn

/-- The registers that hold a variable are not those of another one. -/
theorem currentIn_written {D : Declared} {held : String → Held} {deps : List String} {v : SVar} {n : Net} (hn : n ∈ currentIn D held deps v) {x : String}
    (h : n = .d x ∨ n = .t x) : v.Stored ∧ D.name v = x := by
  cases v with
  | own y =>
    simp only [currentIn, List.mem_singleton] at hn
    subst hn
    rcases h with h | h <;> cases h
  | output i m =>
    simp only [currentIn, List.mem_singleton] at hn
    subst hn
    rcases h with h | h <;> cases h
  | var y | member g m | input i m =>
    refine ⟨trivial, ?_⟩
    unfold currentIn at hn
    simp only at hn
    split at hn
    · simp only [List.mem_cons] at hn
      rcases hn with rfl | hn
      · rcases h with h | h <;> cases h
        rfl
      · split at hn
        · cases hn
        · rw [List.mem_singleton] at hn
          subst hn
          rcases h with h | h <;> cases h
    · rw [List.mem_singleton] at hn
      subst hn
      rcases h with h | h <;> cases h
      rfl
    all_goals
      first
      | (rw [List.mem_singleton] at hn
         subst hn
         rcases h with h | h <;> cases h)
      | cases hn

/-- The register in which a variable is written. -/
theorem currentIn_single {D : Declared} {held : String → Held} {deps : List String} {v : SVar} {n : Net} (hs : v.Stored)
    (hw : held (D.name v) = .flipflop ∨ held (D.name v) = .temp) (hn : n ∈ currentIn D held (D.name v :: deps) v) :
    n = if held (D.name v) = .flipflop then .d (D.name v) else .t (D.name v) := by
  cases v with
  | own x => exact hs.elim
  | output i m => exact hs.elim
  | var x | member g m | input i m =>
    unfold currentIn at hn
    rcases hw with h | h
    all_goals
      simp only [h] at hn
      simpa [h] using hn

/-- Storing a value through a reference to a variable held by a register changes the designated bits of the variable and nothing else. -/
theorem store_step {D : Declared} (hd : Distinct D) {c : SelCtx} {deps : List String} {M : Module} {σ : SrcMem} {s : NetMem}
    (hh : Holds D c.held M deps σ s) {x : SVar} {t : VarTy} {b : Bits} {r : VRef} {ve : VEx} {v : Nat} (ht : D.ty x = some t) (hs : ∀ y, x ≠ .own y)
    (hw : c.held (D.name x) = .flipflop ∨ c.held (D.name x) = .temp) (hr : RefOf D c M s .wr x t b r) (hval : ve.val M s = some v) :
    ∃ s', s.assign M r ve = some s' ∧ Holds D c.held M (D.name x :: deps) (σ.set x b v) s' ∧
      (∀ n, (∀ y, n ≠ .d y ∧ n ≠ .t y) → s' n = s n) ∧
      ∀ (P : SVar → Prop) (deps' : List String) (σ0 : SrcMem), (P x → c.held (D.name x) = .flipflop ∧ D.name x ∉ deps') → HoldsOn D c.held M deps' σ0 s P → HoldsOn D c.held M deps' σ0 s' P := by
  obtain ⟨root, sf, rfl, hroot, hf, hbits, hmac⟩ := hr
  obtain ⟨held, cdeps⟩ := c
  simp only at hw hh hroot ⊢
  rcases hroot with ⟨n, rfl, hn⟩ | ⟨rfl, _, hm'⟩
  swap
  · simp only at hm'
    rw [hm'] at hw
    rcases hw with hw | hw <;> cases hw
  simp only [NetOf] at hn
  rcases hn with ⟨y, rfl⟩ | ⟨hs, hn, hff⟩
  · exact absurd rfl (hs y)
  have hnn : n = if held (D.name x) = .flipflop then .d (D.name x) else .t (D.name x) := by
    rcases hw with h | h
    · rw [if_pos h]; exact hff h
    · have : n ∈ currentIn D held (D.name x :: cdeps) x := by
        cases x with
        | own x => exact hs.elim
        | output i m => exact hs.elim
        | var x | member g m | input i m =>
          unfold currentIn at hn ⊢
          simp only [h] at hn ⊢
          exact hn
      exact currentIn_single hs (.inr h) this
  have hty : M.ty n = some t := hh.ty x t ht hf n (currentIn_mono (List.nil_subset _) hn)
  have hdt : n = .d (D.name x) ∨ n = .t (D.name x) := by
    rw [hnn]
    split
    · exact .inl rfl
    · exact .inr rfl
  have hne : ∀ v' t', D.ty v' = some t' → D.Free v' → v' ≠ x → ∀ n' deps', n' ∈ currentIn D held deps' v' → n' ≠ n := by
    rintro v' t' ht' hf' hne n' deps' hn' rfl
    obtain ⟨hs', hnm⟩ := currentIn_written hn' hdt
    exact hne (name_inj hd ht' ht hf' hf (by rintro y rfl; exact hs') (by rintro y rfl; exact hs) hnm)
  refine ⟨s.set n b v, ?_, ⟨hh.ty, ?_, ?_⟩, ?_, ?_⟩
  · unfold NetMem.assign
    rcases hdt with rfl | rfl
    all_goals simp only [hty, hval, hbits, Option.map_some]
  · intro v' t' ht' hf' n' hn' k j
    have hold := hh.val v' t' ht' hf' n' (currentIn_mono (List.subset_cons_self _ _) hn') k j
    by_cases e : v' = x
    · subst e
      have : n' = n := (currentIn_single hs hw hn').trans hnn.symm
      subst this
      simp only [NetMem.set, SrcMem.set, true_and, hold]
    · have := hne v' t' ht' hf' e n' _ hn'
      simp only [NetMem.set, SrcMem.set, this, e, false_and, if_false, hold]
  · intro v' t' ht' hf' hs' hm'
    rw [hh.mac v' t' ht' hf' hs' hm']
    have : v' ≠ x := by
      rintro rfl
      rw [hm'] at hw
      rcases hw with hw | hw <;> cases hw
    simp only [SrcMem.set, this, false_and, if_false]
  · intro n' hn'
    have : n' ≠ n := by
      rintro rfl
      rcases hdt with h | h
      · exact (hn' _).1 h
      · exact (hn' _).2 h
    funext k j
    simp only [NetMem.set, this, false_and, if_false]
  · intro P deps' σ0 hPx h0
    refine ⟨h0.ty, fun v' t' hP ht' hf' n' hn' hq k j => ?_, h0.mac⟩
    have : n' ≠ n := by
      by_cases e : v' = x
      · subst e
        obtain ⟨hff', hnd⟩ := hPx hP
        rintro rfl
        rw [hnn, if_pos hff'] at hq
        exact hnd (hq rfl)
      · exact hne v' t' ht' hf' e n' _ hn'
    simp only [NetMem.set, this, false_and, if_false]
    exact h0.val v' t' hP ht' hf' n' hn' hq k j

/-- An assignment accepted by the compiler, on a variable held by a register, changes the designated bits of the variable and nothing else. -/
theorem asg_step {D : Declared} (hd : Distinct D) {held : String → Held} {deps : List String} {M : Module} {σ : SrcMem} {s : NetMem}
    (hh : Holds D held M deps σ s) {a : SAcc} {e : SEx} {r : VRef} {ve : VEx} (h : writeAsg D ⟨held, deps⟩ a e = .ok (r, ve))
    (hw : held (accessedVar D a) = .flipflop ∨ held (accessedVar D a) = .temp) (hm : e.MacroWhole D held) (hma : a.MacroWhole D held)
    {x : SVar} {b : Bits} {v : Nat} (hp : SPlace D σ a x b) (hv : SVal D σ e v) :
    ∃ s', s.assign M r ve = some s' ∧ Holds D held M (accessedVar D a :: deps) (σ.set x b v) s' ∧
      ∀ n, (∀ y, n ≠ .d y ∧ n ≠ .t y) → s' n = s n := by
  unfold writeAsg at h
  simp only at h
  split at h
  · cases h
  split at h
  · cases h
  rename_i hin
  split at h
  · cases h
  rename_i r' hr
  split at h
  · cases h
  rename_i ve' he
  simp only [Except.ok.injEq, Prod.mk.injEq] at h
  obtain ⟨rfl, rfl⟩ := h
  have hon : HoldsOn D held M deps σ s fun _ => True := hh.on _
  have hval := compEx_val hd (c := ⟨held, deps⟩) hon e he hm (SEx.within_all (fun _ => trivial) e) hv
  have hname : accessedVar D a = D.name x := by
    cases hp with
    | mk h1 h2 _ _ _ => exact accessedVar_name hd h1 h2 _ _ _
  obtain ⟨t, ht, href⟩ := compAcc_ref hd (c := ⟨held, deps⟩) hon .wr a hr hma (SAcc.indices_all (fun _ => trivial) a) hp
  rw [hname] at hw hin ⊢
  have ho : ∀ y, x ≠ .own y := by
    rintro y rfl
    exact hin (by rw [show D.name (.own y) = y from rfl, show D.ins.lookup y = some t from ht]; rfl)
  obtain ⟨s', e1, e2, e3, -⟩ := store_step hd (c := ⟨held, deps⟩) hh ht ho hw href hval
  exact ⟨s', e1, e2, e3⟩

theorem code_run {D : Declared} (hd : Distinct D) {held : String → Held} {M : Module} : ∀ (code : List (SAcc × SEx)) {deps : List String} {σ σ' : SrcMem} {s : NetMem}
    {vs : List (VRef × VEx)}, Holds D held M deps σ s → writeCode D held deps code = .ok vs →
    (∀ p ∈ code, (held (accessedVar D p.1) = .flipflop ∨ held (accessedVar D p.1) = .temp) ∧ p.1.MacroWhole D held ∧ p.2.MacroWhole D held) →
    AsgRun D σ code σ' →
    ∃ s', s.run M vs = some s' ∧ Holds D held M ((code.map fun p => accessedVar D p.1).reverse ++ deps) σ' s' ∧
      ∀ n, (∀ y, n ≠ .d y ∧ n ≠ .t y) → s' n = s n
  | [], deps, σ, σ', s, vs, hh, h, _, hr => by
    cases hr
    simp only [writeCode, Except.ok.injEq] at h
    subst h
    exact ⟨s, rfl, by simpa using hh, fun _ _ => rfl⟩
  | (a, e) :: rest, deps, σ, σ', s, vs, hh, h, hc, hr => by
    simp only [writeCode] at h
    split at h
    · cases h
    rename_i v hv
    split at h
    · cases h
    rename_i vs' hvs
    simp only [Except.ok.injEq] at h
    subst h
    obtain ⟨r, ve⟩ := v
    cases hr with
    | asg h1 h2 h3 =>
      obtain ⟨hw, hma, hm⟩ := hc _ List.mem_cons_self
      obtain ⟨s1, e1, hh1, hf1⟩ := asg_step hd hh hv hw hm hma h1 h2
      obtain ⟨s', e2, hh2, hf2⟩ := code_run hd rest hh1 hvs (fun p hp => hc p (List.mem_cons_of_mem _ hp)) h3
      refine ⟨s', ?_, ?_, fun n hn => (hf2 n hn).trans (hf1 n hn)⟩
      · simp only [NetMem.run, e1, e2]
      · simpa using hh2

end Silice
