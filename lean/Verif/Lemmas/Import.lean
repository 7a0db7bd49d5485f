import Verif.Spec.Import
import Mathlib.Data.List.Induction

set_option autoImplicit false

namespace Silice

theorem toLower_digit (c : Char) (k : Nat) (hk : k < 58) (h : c.toLower.toNat = k) : c.toNat = k := by
  unfold Char.toLower at h
  split at h
  · rename_i hu
    exfalso
    have : (65:Nat) ≤ c.val.toNat := by simpa [UInt32.le_iff_toNat_le] using hu.1
    have h2 : c.val.toNat ≤ 90 := by simpa [UInt32.le_iff_toNat_le] using hu.2
    have h3 : (c.val + ('a'.val - 'A'.val)).toNat = k := h
    rw [UInt32.toNat_add] at h3
    have h4 : ('a'.val - 'A'.val).toNat = 32 := by decide
    rw [h4, Nat.mod_eq_of_lt (by omega)] at h3
    omega
  · exact h

theorem digitIn_ten {c : Char} {d : Nat} (h : digitIn 10 c = some d) : c.toNat - '0'.toNat = d := by
  unfold digitIn at h
  obtain ⟨i, hi, h⟩ := Option.bind_eq_some_iff.1 h
  split at h
  · rename_i hlt
    injection h with h
    subst h
    obtain ⟨hl, hp, _⟩ := List.findIdx?_eq_some_iff_getElem.1 hi
    have e : ∀ j (hj : j < "0123456789abcdef".toList.length), j < 10 → ("0123456789abcdef".toList[j]).toNat = 48 + j := by decide +kernel
    have := toLower_digit c (48 + i) (by omega) (by rw [← e i hl hlt]; simp only [decide_eq_true_eq] at hp; rw [hp])
    rw [this]
    show 48 + i - 48 = i
    omega
  · cases h

theorem digitsValue_fold : ∀ (ds : List Char) (a n : Nat),
    ds.foldl (fun acc c => acc.bind fun a => (digitIn 10 c).map fun d => a * 10 + d) (some a) = some n →
    ds.foldl (fun n c => 10 * n + (c.toNat - '0'.toNat)) a = n
  | [], a, n, h => by simpa using h
  | c :: ds, a, n, h => by
    rw [List.foldl_cons] at h ⊢
    cases hc : digitIn 10 c with
    | none =>
      rw [hc] at h
      have hn : ∀ l : List Char, l.foldl (fun acc c => acc.bind fun a => (digitIn 10 c).map fun d => a * 10 + d) (none : Option Nat) = none := by
        intro l
        induction l with
        | nil => rfl
        | cons x l ih => rw [List.foldl_cons]; exact ih
      simp only [Option.map_none, Option.bind_some] at h
      rw [hn] at h
      cases h
    | some d =>
      rw [hc] at h
      have := digitsValue_fold ds (a * 10 + d) n h
      rw [digitIn_ten hc, Nat.mul_comm 10 a]
      exact this

theorem vAtoi_value {ds : List Char} {n : Nat} (h : digitsValue 10 ds = some n) : vAtoi ds = if n ≤ 2147483647 then some (n : Int) else none := by
  unfold vAtoi
  rw [digitsValue_fold ds 0 n h]
  rfl

/-- The width of a range. -/
theorem vWidth_value {f s : List Char} {a b : Nat} (hf : digitsValue 10 f = some a) (hs : digitsValue 10 s = some b) (w : Int) :
    vWidth (some (f, s)) = some w ↔ a ≤ 2147483647 ∧ b ≤ 2147483647 ∧ w = (a : Int) - b + 1 ∧ w ≤ 2147483647 := by
  unfold vWidth
  simp only [vAtoi_value hf, vAtoi_value hs]
  by_cases ha : a ≤ 2147483647
  · by_cases hb : b ≤ 2147483647
    · simp only [ha, hb, if_true, Option.bind_eq_bind, Option.bind_some, true_and]
      by_cases hw : (a : Int) - b + 1 ≤ (vIntMax : Int)
      · rw [if_pos hw]
        constructor
        · intro h; injection h with h; subst h; exact ⟨rfl, hw⟩
        · rintro ⟨rfl, _⟩; rfl
      · rw [if_neg hw]
        constructor
        · intro h; cases h
        · rintro ⟨rfl, h⟩; exact absurd h hw
    · simp [ha, hb]
  · simp [ha]

theorem lookup_vInsert {A : Type} (m : List (String × A)) (k : String) (v : A) (x : String) :
    (vInsert m k v).lookup x = (m.lookup x).or (if x = k then some v else none) := by
  unfold vInsert
  by_cases hx : x = k
  · subst hx
    cases h : m.lookup x with
    | none => simp [h, List.lookup_append, List.lookup]
    | some y => simp [h]
  · split
    · simp
    · have : (x == k) = false := by simpa using hx
      simp [List.lookup_append, List.lookup, this]

/-- What holds of a module while its ports are gathered. -/
structure VInv (m : VMod) : Prop where
  inp : ∀ x, m.inIdx.lookup x = m.ins.findIdx? (fun p => p.name == x)
  outp : ∀ x, m.outIdx.lookup x = m.outs.findIdx? (fun p => p.name == x)
  io : ∀ x, m.ioIdx.lookup x = m.ios.findIdx? (fun p => p.name == x)

theorem vIdx_step {idx : List (String × Nat)} {l : List VPort} (h : ∀ x, idx.lookup x = l.findIdx? (fun p => p.name == x)) (n : String) (w : Int) :
    ∀ x, (vInsert idx n l.length).lookup x = (l ++ [(⟨n, w⟩ : VPort)]).findIdx? (fun p => p.name == x) := by
  intro x
  rw [lookup_vInsert, h, List.findIdx?_append]
  congr 1
  by_cases hx : x = n
  · subst hx; simp [List.findIdx?_cons]
  · have : (n == x) = false := by simpa using fun e => hx e.symm
    simp [List.findIdx?_cons, this, hx]

theorem vAddPort_ok {m m' : VMod} {p : VPortSrc} (h : vAddPort m p = some m') : ∃ w, vWidth p.range = some w ∧
    (∀ d, m'.ports d = m.ports d ++ if p.dir = d then [⟨p.name, w⟩] else []) ∧ (VInv m → VInv m') ∧ m'.name = m.name ∧ m'.file = m.file ∧
    m'.params = m.params := by
  unfold vAddPort at h
  cases hw : vWidth p.range with
  | none => rw [hw] at h; cases h
  | some w =>
    rw [hw] at h
    simp only [Option.bind_eq_bind, Option.bind_some] at h
    refine ⟨w, rfl, ?_⟩
    cases hd : p.dir <;> rw [hd] at h <;> injection h with h <;> subst h
    · exact ⟨fun d => by cases d <;> simp [VMod.ports], fun i => ⟨vIdx_step i.inp _ _, i.outp, i.io⟩, rfl, rfl, rfl⟩
    · exact ⟨fun d => by cases d <;> simp [VMod.ports], fun i => ⟨i.inp, vIdx_step i.outp _ _, i.io⟩, rfl, rfl, rfl⟩
    · exact ⟨fun d => by cases d <;> simp [VMod.ports], fun i => ⟨i.inp, i.outp, vIdx_step i.io _ _⟩, rfl, rfl, rfl⟩

theorem vAddPorts_ok : ∀ (ps : List VPortSrc) (m m' : VMod), ps.foldlM vAddPort m = some m' →
    (∀ d, ∃ l, m'.ports d = m.ports d ++ l ∧
      List.Forall₂ (fun p v => v.name = p.name ∧ vWidth p.range = some v.width) (ps.filter fun p => p.dir = d) l) ∧
    (VInv m → VInv m') ∧ m'.name = m.name ∧ m'.file = m.file ∧ m'.params = m.params
  | [], m, m', h => by
    cases h
    exact ⟨fun d => ⟨[], by simp, .nil⟩, id, rfl, rfl, rfl⟩
  | p :: ps, m, m', h => by
    rw [List.foldlM_cons] at h
    obtain ⟨m1, h1, h2⟩ := Option.bind_eq_some_iff.1 h
    obtain ⟨w, hw, a1, a2, a3, a4, a5⟩ := vAddPort_ok h1
    obtain ⟨b1, b2, b3, b4, b5⟩ := vAddPorts_ok ps m1 m' h2
    refine ⟨fun d => ?_, b2 ∘ a2, b3.trans a3, b4.trans a4, b5.trans a5⟩
    obtain ⟨l, hl, hf⟩ := b1 d
    rw [a1 d] at hl
    by_cases hd : p.dir = d
    · refine ⟨⟨p.name, w⟩ :: l, by rw [hl]; simp [hd], ?_⟩
      rw [List.filter_cons_of_pos (by simpa using hd)]
      exact .cons ⟨rfl, hw⟩ hf
    · refine ⟨l, by rw [hl]; simp [hd], ?_⟩
      rw [List.filter_cons_of_neg (by simpa using hd)]
      exact hf

theorem vAddPorts_defined : ∀ (ps : List VPortSrc) (m : VMod), (∀ p ∈ ps, ∃ w, vWidth p.range = some w) → ∃ m', ps.foldlM vAddPort m = some m'
  | [], m, _ => ⟨m, rfl⟩
  | p :: ps, m, h => by
    obtain ⟨w, hw⟩ := h p (List.mem_cons_self ..)
    have : ∃ m1, vAddPort m p = some m1 := by
      unfold vAddPort
      rw [hw]
      cases p.dir <;> exact ⟨_, rfl⟩
    obtain ⟨m1, h1⟩ := this
    obtain ⟨m', h'⟩ := vAddPorts_defined ps m1 fun q hq => h q (List.mem_cons_of_mem _ hq)
    exact ⟨m', by rw [List.foldlM_cons, h1]; exact h'⟩

theorem vParams_some : ∀ (ps : List (Option (String × String))) (l : List (String × String)), vParams ps = some l ↔ ps = l.map some
  | [], l => by cases l <;> simp [vParams]
  | none :: ps, l => by cases l <;> simp [vParams]
  | some p :: ps, l => by
    cases l with
    | nil => simp [vParams]
    | cons a l =>
      simp only [vParams, Option.map_eq_some_iff, List.map_cons, List.cons.injEq, Option.some.injEq]
      constructor
      · rintro ⟨l', h, rfl, rfl⟩
        exact ⟨rfl, (vParams_some ps l').1 h⟩
      · rintro ⟨rfl, h⟩
        exact ⟨l, (vParams_some ps l).2 h, rfl, rfl⟩

theorem vGather_ok {file : String} {h : VModSrc} {m : VMod} (e : vGather file h = some m) :
    (∀ d, List.Forall₂ (fun p v => v.name = p.name ∧ vWidth p.range = some v.width) (h.along d) (m.ports d)) ∧
    VInv m ∧ m.name = h.name ∧ m.file = file ∧ h.params = m.params.map some := by
  unfold vGather at e
  obtain ⟨ps, hps, e⟩ := Option.bind_eq_some_iff.1 e
  obtain ⟨h1, h2, h3, h4, h5⟩ := vAddPorts_ok _ _ _ e
  refine ⟨fun d => ?_, h2 ⟨fun _ => rfl, fun _ => rfl, fun _ => rfl⟩, h3, h4, by rw [h5]; exact (vParams_some _ _).1 hps⟩
  obtain ⟨l, hl, hf⟩ := h1 d
  have : m.ports d = l := by rw [hl]; cases d <;> rfl
  rw [this]
  exact hf

/-! Parameters -/

theorem vGiven_append (given : List (String × String)) (g : String × String) (x : String) :
    vGiven (given ++ [g]) x = if x = g.1 then some g.2 else vGiven given x := by
  simp [vGiven, List.foldl_append]

theorem vGiven_iff (given : List (String × String)) (x : String) :
    (∀ v, vGiven given x = some v ↔ LastGiven given x v) ∧ (vGiven given x = none ↔ ∀ g ∈ given, g.1 ≠ x) := by
  induction given using List.reverseRecOn with
  | nil => simp [vGiven, LastGiven]
  | append_singleton l g ih =>
    rw [vGiven_append]
    by_cases hx : x = g.1
    · rw [if_pos hx]
      refine ⟨fun v => ⟨fun h => ?_, fun h => ?_⟩, ?_⟩
      · injection h with h
        exact ⟨l, [], by rw [hx, ← h], by simp⟩
      · obtain ⟨pre, post, he, hp⟩ := h
        rcases List.eq_nil_or_concat post with rfl | ⟨post', b, rfl⟩
        · have := List.append_inj_right' he rfl
          injection this with this
          rw [this]
        · have hb : g = b := by
            have h2 : l ++ [g] = (pre ++ (x, v) :: post') ++ [b] := by simpa using he
            simpa using List.append_inj_right' h2 rfl
          exact absurd (hb ▸ hx.symm) (hp b (by simp))
      · simp only [reduceCtorEq, false_iff]
        intro h
        exact h g (by simp) hx.symm
    · rw [if_neg hx]
      refine ⟨fun v => (ih.1 v).trans ⟨?_, ?_⟩, ih.2.trans ⟨?_, ?_⟩⟩
      · rintro ⟨pre, post, rfl, hp⟩
        refine ⟨pre, post ++ [g], by simp, fun b hb => ?_⟩
        rcases List.mem_append.1 hb with hb | hb
        · exact hp b hb
        · rw [List.mem_singleton.1 hb]; exact fun e => hx e.symm
      · rintro ⟨pre, post, he, hp⟩
        rcases List.eq_nil_or_concat post with rfl | ⟨post', b, rfl⟩
        · have := List.append_inj_right' he rfl
          injection this with this
          exact absurd (by rw [this]) hx
        · have h2 : l ++ [g] = (pre ++ (x, v) :: post') ++ [b] := by simpa using he
          refine ⟨pre, post', List.append_inj_left' h2 rfl, fun c hc => hp c (by simp [hc])⟩
      · intro h b hb
        rcases List.mem_append.1 hb with hb | hb
        · exact h b hb
        · rw [List.mem_singleton.1 hb]; exact fun e => hx e.symm
      · exact fun h b hb => h b (List.mem_append_left _ hb)

/-! Declarations at the top -/

section
variable {P : Type} {fs : TopFiles}

/-- What one declaration does. -/
theorem topDeclStep_ok {s s' : TopSt P} {d : TopDecl P} (h : topDeclStep fs s d = .ok s') :
    (∀ k, s'.table k = s.table k ++ (d.entry k).toList ∧ ∀ e, d.entry k = some e → (s.table k).lookup e.1 = none) ∧
    s'.bps = (d.bp fs).elim s.bps (fun b => vInsert s.bps b.1 b.2) ∧ s'.bpOrder = s.bpOrder ++ ((d.bp fs).map (·.1)).toList ∧
    s'.appends = s.appends ++ (d.appended fs).toList := by
  have key : ∀ (m x : List (String × P)) (n : String) (p : P), topNew m n p = .ok x → x = m ++ [(n, p)] ∧ m.lookup n = none := by
    intro m x n p h
    unfold topNew at h
    split at h
    · cases h
    · rename_i hn
      injection h with h
      exact ⟨h.symm, Option.not_isSome_iff_eq_none.1 hn⟩
  cases d with
  | unit n p => cases h; exact ⟨fun k => by cases k <;> simp [TopSt.table, TopDecl.entry], by simp [TopDecl.bp], by simp [TopDecl.bp], by simp [TopDecl.appended]⟩
  | riscv n p => cases h; exact ⟨fun k => by cases k <;> simp [TopSt.table, TopDecl.entry], by simp [TopDecl.bp], by simp [TopDecl.bp], by simp [TopDecl.appended]⟩
  | importv f =>
    rw [topDeclStep] at h
    split at h
    · cases h
    · cases hm : (fs.header (topFind fs f)).bind (vGather (topFind fs f)) with
      | none => rw [hm] at h; cases h
      | some m =>
        rw [hm] at h
        simp only at h
        split at h
        · cases h
        · cases h
          exact ⟨fun k => by cases k <;> simp [TopSt.table, TopDecl.entry], by simp [TopDecl.bp, hm], by simp [TopDecl.bp, hm], by simp [TopDecl.appended]⟩
  | appendv f =>
    rw [topDeclStep] at h
    split at h
    · cases h
    · cases h
      exact ⟨fun k => by cases k <;> simp [TopSt.table, TopDecl.entry], by simp [TopDecl.bp], by simp [TopDecl.bp], by simp [TopDecl.appended]⟩
  | sub n p =>
    rw [topDeclStep] at h
    cases hx : topNew s.subs n p with
    | error e => rw [hx] at h; cases h
    | ok x =>
      rw [hx] at h; cases h
      obtain ⟨rfl, hn⟩ := key _ _ _ _ hx
      exact ⟨fun k => by cases k <;> simp [TopSt.table, TopDecl.entry, hn, -List.lookup_eq_none_iff], by simp [TopDecl.bp], by simp [TopDecl.bp], by simp [TopDecl.appended]⟩
  | circuit n p =>
    rw [topDeclStep] at h
    cases hx : topNew s.circuits n p with
    | error e => rw [hx] at h; cases h
    | ok x =>
      rw [hx] at h; cases h
      obtain ⟨rfl, hn⟩ := key _ _ _ _ hx
      exact ⟨fun k => by cases k <;> simp [TopSt.table, TopDecl.entry, hn, -List.lookup_eq_none_iff], by simp [TopDecl.bp], by simp [TopDecl.bp], by simp [TopDecl.appended]⟩
  | group n p =>
    rw [topDeclStep] at h
    cases hx : topNew s.groups n p with
    | error e => rw [hx] at h; cases h
    | ok x =>
      rw [hx] at h; cases h
      obtain ⟨rfl, hn⟩ := key _ _ _ _ hx
      exact ⟨fun k => by cases k <;> simp [TopSt.table, TopDecl.entry, hn, -List.lookup_eq_none_iff], by simp [TopDecl.bp], by simp [TopDecl.bp], by simp [TopDecl.appended]⟩
  | intf n p =>
    rw [topDeclStep] at h
    cases hx : topNew s.intfs n p with
    | error e => rw [hx] at h; cases h
    | ok x =>
      rw [hx] at h; cases h
      obtain ⟨rfl, hn⟩ := key _ _ _ _ hx
      exact ⟨fun k => by cases k <;> simp [TopSt.table, TopDecl.entry, hn, -List.lookup_eq_none_iff], by simp [TopDecl.bp], by simp [TopDecl.bp], by simp [TopDecl.appended]⟩
  | bitfield n p =>
    rw [topDeclStep] at h
    cases hx : topNew s.bitfields n p with
    | error e => rw [hx] at h; cases h
    | ok x =>
      rw [hx] at h; cases h
      obtain ⟨rfl, hn⟩ := key _ _ _ _ hx
      exact ⟨fun k => by cases k <;> simp [TopSt.table, TopDecl.entry, hn, -List.lookup_eq_none_iff], by simp [TopDecl.bp], by simp [TopDecl.bp], by simp [TopDecl.appended]⟩

theorem lookup_none_names {A : Type} (m : List (String × A)) (x : String) : m.lookup x = none ↔ x ∉ m.map (·.1) := by
  induction m with
  | nil => simp
  | cons a m ih =>
    obtain ⟨k, v⟩ := a
    rw [List.lookup_cons]
    by_cases h : x = k
    · simp [h]
    · have : (x == k) = false := by simpa using h
      rw [this]
      simp [ih, h]

/-- What all declarations do. -/
theorem topGather_ok : ∀ (ds : List (TopDecl P)) (s s' : TopSt P), ds.foldlM (topDeclStep fs) s = .ok s' →
    (∀ k, s'.table k = s.table k ++ topDeclared ds k ∧ (((s.table k).map (·.1)).Nodup → ((s'.table k).map (·.1)).Nodup)) ∧
    (∀ x, s'.bps.lookup x = (s.bps.lookup x).or ((topBps fs ds).lookup x)) ∧ s'.bpOrder = s.bpOrder ++ (topBps fs ds).map (·.1) ∧
    s'.appends = s.appends ++ ds.filterMap (·.appended fs)
  | [], s, s', h => by
    cases h
    exact ⟨fun k => ⟨by simp [topDeclared], id⟩, by simp [topBps], by simp [topBps], by simp⟩
  | d :: ds, s, s', h => by
    rw [List.foldlM_cons] at h
    cases h1 : topDeclStep fs s d with
    | error e => rw [h1] at h; cases h
    | ok s1 =>
      rw [h1] at h
      obtain ⟨a1, a2, a3, a4⟩ := topDeclStep_ok h1
      obtain ⟨b1, b2, b3, b4⟩ := topGather_ok ds s1 s' h
      refine ⟨fun k => ⟨?_, fun hn => (b1 k).2 ?_⟩, fun x => ?_, ?_, ?_⟩
      · rw [(b1 k).1, (a1 k).1, topDeclared, topDeclared]
        cases hd : d.entry k with
        | none => rw [List.filterMap_cons_none (f := fun x : TopDecl P => x.entry k) hd]; simp
        | some e => rw [List.filterMap_cons_some (f := fun x : TopDecl P => x.entry k) hd]; simp
      · rw [(a1 k).1]
        cases hd : d.entry k with
        | none => simpa using hn
        | some e =>
          have := (lookup_none_names _ _).1 ((a1 k).2 e hd)
          rw [Option.toList_some, List.map_append, List.nodup_append]
          refine ⟨hn, by simp, ?_⟩
          intro a ha b hb
          simp only [List.map_cons, List.map_nil, List.mem_singleton] at hb
          rintro rfl
          exact this (hb ▸ ha)
      · rw [b2, a2, topBps, topBps]
        cases hd : d.bp fs with
        | none => rw [List.filterMap_cons_none (f := fun x : TopDecl P => x.bp fs) hd]; simp
        | some b =>
          rw [List.filterMap_cons_some (f := fun x : TopDecl P => x.bp fs) hd]
          simp only [Option.elim_some, lookup_vInsert, Option.or_assoc]
          congr 1
          obtain ⟨n, c⟩ := b
          rw [List.lookup_cons]
          by_cases hx : x = n
          · simp [hx]
          · have : (x == n) = false := by simpa using hx
            simp [hx, this]
      · rw [b3, a3, topBps, topBps]
        cases hd : d.bp fs with
        | none => rw [List.filterMap_cons_none (f := fun x : TopDecl P => x.bp fs) hd]; simp
        | some b => rw [List.filterMap_cons_some (f := fun x : TopDecl P => x.bp fs) hd]; simp
      · rw [b4, a4]
        cases hd : d.appended fs with
        | none => rw [List.filterMap_cons_none (f := fun x : TopDecl P => x.appended fs) hd]; simp
        | some b => rw [List.filterMap_cons_some (f := fun x : TopDecl P => x.appended fs) hd]; simp

/-- Declarations are accepted if names differ and the files are fine. -/
theorem topGather_total : ∀ (ds : List (TopDecl P)) (s : TopSt P),
    (∀ k, ((s.table k ++ topDeclared ds k).map (·.1)).Nodup) →
    (∀ d ∈ ds, (∀ f, d = .importv f → fs.there (topFind fs f) = true ∧ (∃ m, (fs.header (topFind fs f)).bind (vGather (topFind fs f)) = some m) ∧
        s.bps.lookup (topFind fs f) = none ∧ topFind fs f ∉ (topBps fs ds).map (·.1)) ∧
      ∀ f, d = .appendv f → fs.there (topFind fs f) = true) →
    ∃ s', ds.foldlM (topDeclStep fs) s = .ok s'
  | [], s, _, _ => ⟨s, rfl⟩
  | d :: ds, s, hn, hf => by
    have hnew : ∀ k e, d.entry k = some e → (s.table k).lookup e.1 = none := by
      intro k e he
      have := hn k
      rw [topDeclared, List.filterMap_cons_some (f := fun x : TopDecl P => x.entry k) he, List.map_append, List.nodup_append] at this
      rw [lookup_none_names]
      exact fun hm => this.2.2 _ hm _ (by simp) rfl
    have htn : ∀ (m : List (String × P)) n p, m.lookup n = none → topNew m n p = .ok (m ++ [(n, p)]) := by
      intro m n p h
      simp [topNew, h]
    have h1 : ∃ s1, topDeclStep fs s d = .ok s1 := by
      cases d with
      | unit n p => exact ⟨_, rfl⟩
      | riscv n p => exact ⟨_, rfl⟩
      | importv f =>
        obtain ⟨h1, ⟨m, hm⟩, h3, _⟩ := (hf _ (List.mem_cons_self ..)).1 f rfl
        rw [topDeclStep]
        simp [h1, hm, h3]
      | appendv f =>
        have h1 := (hf _ (List.mem_cons_self ..)).2 f rfl
        rw [topDeclStep]
        simp [h1]
      | sub n p => rw [topDeclStep, htn s.subs n p (hnew .sub (n, p) rfl)]; exact ⟨_, rfl⟩
      | circuit n p => rw [topDeclStep, htn s.circuits n p (hnew .circuit (n, p) rfl)]; exact ⟨_, rfl⟩
      | group n p => rw [topDeclStep, htn s.groups n p (hnew .group (n, p) rfl)]; exact ⟨_, rfl⟩
      | intf n p => rw [topDeclStep, htn s.intfs n p (hnew .intf (n, p) rfl)]; exact ⟨_, rfl⟩
      | bitfield n p => rw [topDeclStep, htn s.bitfields n p (hnew .bitfield (n, p) rfl)]; exact ⟨_, rfl⟩
    obtain ⟨s1, h1⟩ := h1
    obtain ⟨a1, a2, _, _⟩ := topDeclStep_ok h1
    have := topGather_total ds s1 (fun k => by
        have := hn k
        rw [(a1 k).1]
        rw [topDeclared] at this ⊢
        cases hd : d.entry k with
        | none => rw [List.filterMap_cons_none (f := fun x : TopDecl P => x.entry k) hd] at this; simpa using this
        | some e => rw [List.filterMap_cons_some (f := fun x : TopDecl P => x.entry k) hd] at this; simpa using this)
      (fun c hc => by
        obtain ⟨g1, g2⟩ := hf c (List.mem_cons_of_mem _ hc)
        refine ⟨fun f e => ?_, g2⟩
        obtain ⟨c1, c2, c3, c4⟩ := g1 f e
        refine ⟨c1, c2, ?_, ?_⟩
        · rw [a2]
          cases hd : d.bp fs with
          | none => simpa using c3
          | some b =>
            rw [topBps, List.filterMap_cons_some (f := fun x : TopDecl P => x.bp fs) hd] at c4
            simp only [List.map_cons, List.mem_cons, not_or] at c4
            simp [lookup_vInsert, c3, c4.1]
        · rw [topBps] at c4 ⊢
          cases hd : d.bp fs with
          | none => rw [List.filterMap_cons_none (f := fun x : TopDecl P => x.bp fs) hd] at c4; exact c4
          | some b =>
            rw [List.filterMap_cons_some (f := fun x : TopDecl P => x.bp fs) hd] at c4
            simp only [List.map_cons, List.mem_cons, not_or] at c4
            exact c4.2)
    obtain ⟨s', hs'⟩ := this
    exact ⟨s', by rw [List.foldlM_cons, h1]; exact hs'⟩

end

end Silice
