import Verif.Prelude
import Verif.Spec.Clocks
import Verif.Lemmas.BitBinding

/-! Lemmas on clocks and resets. -/

set_option autoImplicit false

namespace Silice

theorem lastOr_cons (d x : String) (l : List String) : lastOr d (x :: l) = lastOr x l := by
  cases l with
  | nil => rfl
  | cons y l => simp [lastOr, List.getLast?_cons]

theorem clockMod_eq (ms : List ClkMod) : ∀ d, clockMod d ms = lastOr d (ms.filterMap ClkMod.clockName) := by
  induction ms with
  | nil => intro d; rfl
  | cons m ms ih =>
    intro d
    cases m with
    | clock x => simp [clockMod, ClkMod.clockName, ih, lastOr_cons]
    | reset x => rw [List.filterMap_cons_none rfl, clockMod, ih]; simp
    | other => rw [List.filterMap_cons_none rfl, clockMod, ih]; simp

theorem resetMod_eq (ms : List ClkMod) : ∀ d, resetMod d ms = lastOr d (ms.filterMap ClkMod.resetName) := by
  induction ms with
  | nil => intro d; rfl
  | cons m ms ih =>
    intro d
    cases m with
    | reset x => simp [resetMod, ClkMod.resetName, ih, lastOr_cons]
    | clock x => rw [List.filterMap_cons_none rfl, resetMod, ih]; simp
    | other => rw [List.filterMap_cons_none rfl, resetMod, ih]; simp

theorem head_clock (h : ClkHead) : h.clock = h.srcClock := clockMod_eq _ _
theorem head_reset (h : ClkHead) : h.reset = h.srcReset := resetMod_eq _ _

theorem insts_requiresReset (is : ClkInsts) : is.requiresReset = true ↔ ∃ i ∈ is.toList, i.what.requiresReset = true := by
  match is with
  | .nil => simp [ClkInsts.requiresReset, ClkInsts.toList]
  | .cons n m w b rest =>
    simp [ClkInsts.requiresReset, ClkInsts.toList, insts_requiresReset rest]

theorem unit_requiresReset (u : ClkUnit) : u.requiresReset = true ↔
    u.head.fsm = true ∨ (∃ r ∈ u.head.regs, r.noInit = false) ∨ ∃ i ∈ u.insts.toList, i.what.requiresReset = true := by
  obtain ⟨h, is⟩ := u
  simp [ClkUnit.requiresReset, ClkUnit.head, ClkUnit.insts, insts_requiresReset, or_assoc]

mutual
theorem needs_of_unit (u : ClkUnit) (h : u.requiresReset = true) : u.NeedsReset := by
  match u with
  | .mk hd is =>
    simp only [ClkUnit.requiresReset, Bool.or_eq_true, List.any_eq_true] at h
    rcases h with (h | ⟨r, hr, hn⟩) | h
    · exact .fsm _ h
    · exact .reg _ r hr (by simpa using hn)
    · obtain ⟨i, hi, hw⟩ := needs_of_insts is h
      rcases hw with hw | ⟨v, hv, hn⟩
      · exact .riscv _ i hi hw
      · exact .unit _ v i hi hv hn
theorem needs_of_what (w : ClkWhat) (h : w.requiresReset = true) : w = .riscv ∨ ∃ v, w = .unit v ∧ v.NeedsReset := by
  match w with
  | .unit v => exact Or.inr ⟨v, rfl, needs_of_unit v (by simpa [ClkWhat.requiresReset] using h)⟩
  | .verilog => simp [ClkWhat.requiresReset] at h
  | .riscv => exact Or.inl rfl
theorem needs_of_insts (is : ClkInsts) (h : is.requiresReset = true) :
    ∃ i ∈ is.toList, i.what = .riscv ∨ ∃ v, i.what = .unit v ∧ v.NeedsReset := by
  match is with
  | .nil => simp [ClkInsts.requiresReset] at h
  | .cons n m w b rest =>
    simp only [ClkInsts.requiresReset, Bool.or_eq_true] at h
    rcases h with h | h
    · exact ⟨⟨n, m, w, b⟩, by simp [ClkInsts.toList], needs_of_what w h⟩
    · obtain ⟨i, hi, hw⟩ := needs_of_insts rest h
      exact ⟨i, by simp [ClkInsts.toList, hi], hw⟩
end

theorem requiresReset_iff (u : ClkUnit) : u.requiresReset = true ↔ u.NeedsReset := by
  refine ⟨needs_of_unit u, fun h => ?_⟩
  induction h with
  | fsm u h => exact (unit_requiresReset u).2 (Or.inl h)
  | reg u r hr hn => exact (unit_requiresReset u).2 (Or.inr (Or.inl ⟨r, hr, hn⟩))
  | riscv u i hi hw => exact (unit_requiresReset u).2 (Or.inr (Or.inr ⟨i, hi, by rw [hw]; rfl⟩))
  | unit u v i hi hw _ ih =>
    exact (unit_requiresReset u).2 (Or.inr (Or.inr ⟨i, hi, by rw [hw]; simpa [ClkWhat.requiresReset] using ih⟩))

/-- A list of bindings without whole ones is a list of parts. -/
theorem outs_parts (l : List OutBind) (h : ∀ t, OutBind.whole t ∉ l) : ∃ bs : List PartBinding, l = bs.map .part := by
  induction l with
  | nil => exact ⟨[], rfl⟩
  | cons o l ih =>
    obtain ⟨bs, hb⟩ := ih (fun t ht => h t (List.mem_cons_of_mem _ ht))
    cases o with
    | part b => exact ⟨b :: bs, by simp [hb]⟩
    | whole t => exact absurd (by simp) (h t)

theorem netValue_concat (h : ClkHead) (rp : Bool) (p : ClkPorts) (wire : List Char → Nat → Bool) (var : String → Bool)
    (l : List BitSrc) : h.netValue rp p wire var (.bound (.concat l)) = concatBit wire l 0 := by
  simp only [concatBit, ClkHead.netValue]
  rw [List.getLast?_eq_head?_reverse, ← List.head?_eq_getElem?]
  cases l.reverse.head? with
  | none => rfl
  | some s => cases s <;> rfl

/-- Lowest bit of a variable bound in parts. -/
theorem parts_bit0 (bs : List PartBinding) (hne : bs ≠ []) (hn : ∀ b ∈ bs, b.NameOk) (width : Nat) (hw : 0 < width)
    (text : List Char) (hrec : recordBinds none (bs.map .part) = some (some text)) (r : Rewritten)
    (hr : rewriteBinding text width = some r) (env : List Char → Nat → Bool) :
    ∃ l, r = .concat l ∧ concatBit env l 0 = some (match (bs.map OutBind.part).find? OutBind.bit0 with
      | some b => env b.wireName 0
      | none => false) := by
  have hdisj : ∀ i < width, ∀ j k : Nat, ∀ bj bk, bs[j]? = some bj → bs[k]? = some bk →
      bj.Covers i → bk.Covers i → j = k := by
    intro i hi j k bj bk hj hk cj ck
    by_contra hjk
    obtain ⟨t, ht, hnone⟩ := double_cover_error bs hn width i j k bj bk hi hjk hj hk cj ck
    rw [hrec] at ht
    obtain rfl : text = t := by simpa using ht
    rw [hr] at hnone
    cases hnone
  obtain ⟨t, l, ht, hl, _, hv⟩ := parts_read_per_bit bs hne hn width hdisj
  rw [hrec] at ht
  obtain rfl : text = t := by simpa using ht
  rw [hr] at hl
  obtain rfl : r = .concat l := by simpa using hl
  refine ⟨l, rfl, ?_⟩
  obtain ⟨h1, h2⟩ := hv env 0 hw
  cases hf : (bs.map OutBind.part).find? OutBind.bit0 with
  | none =>
    rw [List.find?_eq_none] at hf
    refine h2 ?_
    rintro ⟨b, hb, hc⟩
    have := hf (.part b) (List.mem_map_of_mem hb)
    unfold PartBinding.Covers at hc
    simp only [OutBind.bit0, Bool.and_eq_true, beq_iff_eq, bne_iff_ne, ne_eq, not_and, not_not] at this
    omega
  | some o =>
    have hm := List.mem_of_find?_eq_some hf
    have hb0 := List.find?_some hf
    obtain ⟨b, hb, rfl⟩ := List.mem_map.1 hm
    simp only [OutBind.bit0, Bool.and_eq_true, beq_iff_eq, bne_iff_ne, ne_eq] at hb0
    have := h1 b hb (by unfold PartBinding.Covers; omega)
    rw [hb0.1] at this
    simpa [OutBind.wireName] using this

/-- The bindings of a variable, in order. -/
abbrev ClkHead.outsOf (h : ClkHead) (x : String) : List OutBind := (h.outs.filter (fun o => o.1 == x)).map (·.2)

theorem mem_outsOf (h : ClkHead) (x : String) (o : OutBind) : o ∈ h.outsOf x ↔ (x, o) ∈ h.outs := by
  simp only [ClkHead.outsOf, List.mem_map, List.mem_filter, beq_iff_eq]
  constructor
  · rintro ⟨⟨y, o'⟩, ⟨h1, rfl⟩, rfl⟩; exact h1
  · intro hm; exact ⟨(x, o), ⟨hm, rfl⟩, rfl⟩

theorem outsOf_nil {h : ClkHead} (hb : h.BoundOk) {x : String} (hx : x = "clock" ∨ x = "reset") : h.outsOf x = [] := by
  rw [List.eq_nil_iff_forall_not_mem]
  intro o ho
  have := hb.names _ ((mem_outsOf h x o).1 ho)
  rcases hx with rfl | rfl
  · exact this.1 rfl
  · exact this.2 rfl

theorem wire_mem {h : ClkHead} {x : String} {t : List Char} (hm : OutBind.whole t ∈ h.outsOf x) :
    t ∈ h.outs.map (·.2.wireName) :=
  List.mem_map.2 ⟨(x, .whole t), (mem_outsOf h x _).1 hm, rfl⟩

theorem recordBinds_ne (l : List OutBind) : ∀ e : List Char, recordBinds (some e) l ≠ some none := by
  induction l with
  | nil => intro e; simp [recordBinds]
  | cons o l ih =>
    intro e
    cases o with
    | part b => simpa [recordBinds, recordBind] using ih _
    | whole t => simp [recordBinds, recordBind]

theorem recordBinds_none_iff (l : List OutBind) (h : recordBinds none l = some none) : l = [] := by
  cases l with
  | nil => rfl
  | cons o l =>
    cases o with
    | part b => exact absurd (by simpa [recordBinds, recordBind] using h) (recordBinds_ne l _)
    | whole t => exact absurd (by simpa [recordBinds, recordBind] using h) (recordBinds_ne l _)

/-- What a text carries is what the name stands for. -/
theorem rewrite_value {h : ClkHead} (hb : h.BoundOk) (rp : Bool) (p : ClkPorts) (g : Given)
    (wire : List Char → Nat → Bool) (var : String → Bool) (hc : p.clock = some g.clock)
    (hr : rp = true → p.reset = some g.reset) (x : String) (hx : x = "reset" → rp = true) (n : ClkNet)
    (hn : h.rewrite x = some n) : h.netValue rp p wire var n = some (srcSignal h g wire var x) := by
  unfold ClkHead.rewrite at hn
  split at hn
  · rename_i hpx
    obtain rfl : ClkNet.port x = n := by simpa using hn
    rcases hpx with rfl | rfl
    · simp [ClkHead.netValue, srcSignal, hx rfl, hr (hx rfl)]
    · simp [ClkHead.netValue, srcSignal, hc]
  · rename_i hpx
    have h1 : x ≠ "reset" := fun e => hpx (Or.inl e)
    have h2 : x ≠ "clock" := fun e => hpx (Or.inr e)
    simp only [srcSignal, h1, h2, if_false]
    split at hn
    · cases hn
    · rename_i he
      have hnil := recordBinds_none_iff _ he
      split at hn
      · cases hn
      · split at hn
        · obtain rfl : ClkNet.vio x = n := by simpa using hn
          simp [ClkHead.netValue, srcVar, hnil]
        · cases hn
    · rename_i w he
      split at hn
      · cases hn
      · rename_i width hw
        obtain ⟨r, hr', rfl⟩ := Option.map_eq_some_iff.1 hn
        have he' : recordBinds none (h.outsOf x) = some (some w) := he
        by_cases hwh : ∃ t, OutBind.whole t ∈ h.outsOf x
        · obtain ⟨t, ht⟩ := hwh
          have hone : h.outsOf x = [.whole t] := hb.once x t ht
          have hmem := wire_mem ht
          obtain ⟨ht0, hts⟩ := hb.whole _ ((mem_outsOf h x _).1 ht) t rfl
          rw [hone] at he'
          obtain rfl : t = w := by simpa [recordBinds, recordBind] using he'
          have hv : rewriteBinding t width = some (.verbatim t) := by
            cases t with
            | nil => exact absurd rfl ht0
            | cons c cs =>
              have : ¬ c = ';' := fun e => hts (by simp [e])
              simp [rewriteBinding, this]
          rw [hv] at hr'
          obtain rfl : Rewritten.verbatim t = r := by simpa using hr'
          simp only [ClkHead.netValue, hmem, if_true]
          simp only [srcVar]
          have hone' : (h.outs.filter (fun o => o.1 == x)).map (·.2) = [.whole t] := hone
          rw [hone']
          simp [OutBind.bit0, OutBind.wireName]
        · obtain ⟨bs, hbs⟩ := outs_parts (h.outsOf x) (fun t ht => hwh ⟨t, ht⟩)
          have hne : bs ≠ [] := by
            rintro rfl
            rw [hbs] at he'
            simp [recordBinds] at he'
          have hnames : ∀ b ∈ bs, b.NameOk := by
            intro b hbm
            have : OutBind.part b ∈ h.outsOf x := by rw [hbs]; exact List.mem_map_of_mem hbm
            exact hb.part _ ((mem_outsOf h x _).1 this) b rfl
          rw [hbs] at he'
          obtain ⟨l, rfl, hl⟩ := parts_bit0 bs hne hnames width (hb.width x width hw) w he' r hr' wire
          rw [netValue_concat, hl]
          simp only [srcVar]
          have hbs' : (h.outs.filter (fun o => o.1 == x)).map (·.2) = bs.map .part := hbs
          rw [hbs']
          cases bs with
          | nil => exact absurd rfl hne
          | cons b bs => rfl

/-- The same for the signals of the registers. -/
theorem own_value {h : ClkHead} (hb : h.BoundOk) (ho : h.OwnWhole) (rp : Bool) (p : ClkPorts) (g : Given)
    (wire : List Char → Nat → Bool) (var : String → Bool) (hc : p.clock = some g.clock)
    (hr : rp = true → p.reset = some g.reset) (dflt x : String) (hd : dflt = "clock" ∧ x = h.srcClock ∨
      dflt = "reset" ∧ x = h.srcReset) (hx : x = "reset" → rp = true) (n : ClkNet)
    (hn : h.own dflt x = some n) : h.netValue rp p wire var n = some (srcSignal h g wire var x) := by
  unfold ClkHead.own at hn
  split at hn
  · rename_i hxd
    obtain rfl : ClkNet.port dflt = n := by simpa using hn
    subst hxd
    rcases hd with ⟨rfl, _⟩ | ⟨rfl, _⟩
    · simp [ClkHead.netValue, srcSignal, hc]
    · simp [ClkHead.netValue, srcSignal, hx rfl, hr (hx rfl)]
  · rename_i hxd
    split at hn
    · rename_i w he
      obtain rfl : ClkNet.bound (.verbatim w) = n := by simpa using hn
      have he' : recordBinds none (h.outsOf x) = some (some w) := he
      have hx1 : x ≠ "clock" ∧ x ≠ "reset" := by
        constructor
        · intro e
          rw [outsOf_nil hb (Or.inl e)] at he'
          simp [recordBinds] at he'
        · intro e
          rw [outsOf_nil hb (Or.inr e)] at he'
          simp [recordBinds] at he'
      have hall : ∀ o ∈ h.outsOf x, ∃ t, o = .whole t := by
        intro o hm
        refine ho x ?_ _ ((mem_outsOf h x o).1 hm) rfl
        rcases hd with ⟨rfl, e⟩ | ⟨rfl, e⟩
        · exact Or.inl ⟨e, hx1.1⟩
        · exact Or.inr ⟨e, hx1.2⟩
      cases hl : h.outsOf x with
      | nil => rw [hl] at he'; simp [recordBinds] at he'
      | cons o l =>
        obtain ⟨t, rfl⟩ := hall o (by rw [hl]; simp)
        have ht : OutBind.whole t ∈ h.outsOf x := by rw [hl]; simp
        have hone : h.outsOf x = [.whole t] := hb.once x t ht
        have hmem := wire_mem ht
        rw [hone] at he'
        obtain rfl : t = w := by simpa [recordBinds, recordBind] using he'
        have hone' : (h.outs.filter (fun o => o.1 == x)).map (·.2) = [.whole t] := hone
        simp only [ClkHead.netValue, hmem, if_true, srcSignal, hx1.1, hx1.2, if_false, srcVar]
        rw [hone']
        simp [OutBind.bit0, OutBind.wireName]
    · cases hn

theorem inputs_value {h : ClkHead} (val : ClkNet → Option Bool) (sig : String → Bool) (bs : List (String × String))
    (hv : ∀ b ∈ bs, ∀ n, h.rewrite b.2 = some n → val n = some (sig b.2)) (l : List (String × ClkNet))
    (hl : h.inputs bs = some l) : l.map (fun b => (b.1, val b.2)) = bs.map (fun b => (b.1, some (sig b.2))) := by
  induction bs generalizing l with
  | nil =>
    obtain rfl : [] = l := by simpa [ClkHead.inputs] using hl
    rfl
  | cons b bs ih =>
    simp only [ClkHead.inputs, Option.bind_eq_bind, Option.pure_def, Option.bind_eq_some_iff, Option.some.injEq] at hl
    obtain ⟨n, hn, ns, hns, rfl⟩ := hl
    simp [ih (fun b hb => hv b (List.mem_cons_of_mem _ hb)) ns hns, hv b (by simp) n hn]

theorem writeIf_value {c : Bool} {f : Option ClkNet} {o : Option ClkNet} (val : ClkNet → Option Bool) (s : Bool)
    (ho : writeIf c f = some o) (hv : c = true → ∀ n, f = some n → val n = some s) :
    o.map val = if c then some (some s) else none := by
  unfold writeIf at ho
  cases c with
  | false => simp at ho; simp [← ho]
  | true =>
    simp only [if_true] at ho
    obtain ⟨n, hn, rfl⟩ := Option.map_eq_some_iff.1 ho
    simp [hv rfl n hn]

theorem mems_value {h : ClkHead} (val : ClkNet → Option Bool) (sig : String → Bool) (ms : List ClkMem)
    (hv : ∀ m ∈ ms, ∀ x ∈ m.srcClocks h, ∀ n, h.rewrite x = some n → val n = some (sig x))
    (l : List (String × List ClkNet)) (hl : h.allMems ms = some l) :
    l.map (fun m => (m.1, m.2.map val)) = ms.map (fun m => (m.name, (m.srcClocks h).map (fun x => some (sig x)))) := by
  induction ms generalizing l with
  | nil =>
    obtain rfl : [] = l := by simpa [ClkHead.allMems] using hl
    rfl
  | cons m ms ih =>
    simp only [ClkHead.allMems, Option.bind_eq_bind, Option.pure_def, Option.bind_eq_some_iff, Option.some.injEq] at hl
    obtain ⟨c, hc, ns, hns, rfl⟩ := hl
    have hm := hv m (by simp)
    rw [List.map_cons, List.map_cons, ih (fun b hb => hv b (List.mem_cons_of_mem _ hb)) ns hns]
    congr 2
    unfold ClkHead.memClocks at hc
    unfold ClkMem.srcClocks at hm ⊢
    split at hc
    · rename_i he
      rw [head_clock] at hc
      simp only [he, if_true] at hm ⊢
      split at hc
      · rename_i hd
        simp only [hd, if_true] at hm ⊢
        simp only [Option.bind_eq_bind, Option.pure_def, Option.bind_eq_some_iff, Option.some.injEq] at hc
        obtain ⟨a, ha, b, hb, rfl⟩ := hc
        simp [hm _ (by simp) a ha, hm _ (by simp) b hb]
      · rename_i hd
        simp only [hd] at hm ⊢
        simp only [Option.bind_eq_bind, Option.pure_def, Option.bind_eq_some_iff, Option.some.injEq] at hc
        obtain ⟨a, ha, rfl⟩ := hc
        simp only [Bool.false_eq_true, if_false, List.mem_singleton, forall_eq] at hm
        simp [hm a ha]
    · rename_i x y he
      simp only [he, reduceCtorEq, if_false] at hm ⊢
      split at hc
      · simp only [Option.bind_eq_bind, Option.pure_def, Option.bind_eq_some_iff, Option.some.injEq] at hc
        obtain ⟨a, ha, b, hb, rfl⟩ := hc
        simp [hm _ (by simp) a ha, hm _ (by simp) b hb]
      · cases hc
    · cases hc

/-- Conditions on one unit of a design. -/
structure ClkUnit.Fine (top : Bool) (u : ClkUnit) : Prop where
  text : (u.text top).isSome
  conn : ∀ i ∈ u.insts.toList, (u.head.connect i).isSome
  bound : u.head.BoundOk
  own : u.head.OwnWhole
  uses : u.UsesReset → u.NeedsReset ∨ top = true

/-- The ports of a module carry what the unit is given. -/
def PortsOk (top : Bool) (u : ClkUnit) (p : ClkPorts) (g : Given) : Prop :=
  p.clock = some g.clock ∧ ((u.requiresReset || top) = true → p.reset = some g.reset)

section
variable {top : Bool} {u : ClkUnit} {p : ClkPorts} {g : Given}

theorem ClkUnit.Fine.rp (hf : u.Fine top) (h : u.UsesReset) : (u.requiresReset || top) = true := by
  rcases hf.uses h with h | h
  · simp [(requiresReset_iff u).2 h]
  · simp [h]

theorem connect_value (hf : u.Fine top) (hp : PortsOk top u p g) (wire : List Char → Nat → Bool) (var : String → Bool)
    (i : ClkInst) (hi : i ∈ u.insts.toList) (c : ClkConn) (hc : u.head.connect i = some c) :
    let val := u.head.netValue (u.requiresReset || top) p wire var
    let sig := srcSignal u.head g wire var
    c.clock.map val = (if i.what.requiresClock then some (some (sig (i.srcClock u.head))) else none) ∧
    c.reset.map val = (if i.what.requiresReset then some (some (sig (i.srcReset u.head))) else none) ∧
    c.binds.map (fun b => (b.1, val b.2)) = i.binds.map (fun b => (b.1, some (sig b.2))) := by
  intro val sig
  unfold ClkHead.connect at hc
  simp only [Option.bind_eq_bind, Option.pure_def, Option.bind_eq_some_iff, Option.some.injEq] at hc
  obtain ⟨bs, hbs, r, hr, ck, hck, rfl⟩ := hc
  have key := fun x (hx : x = "reset" → (u.requiresReset || top) = true) n hn =>
    rewrite_value hf.bound (u.requiresReset || top) p g wire var hp.1 hp.2 x hx n hn
  refine ⟨?_, ?_, ?_⟩
  · refine writeIf_value val _ hck (fun hq n hn => ?_)
    rw [head_clock, clockMod_eq] at hn
    refine key _ (fun e => hf.rp (Or.inr (Or.inr ⟨i, hi, Or.inr ⟨hq, e⟩⟩))) n hn
  · refine writeIf_value val _ hr (fun hq n hn => ?_)
    rw [head_reset, resetMod_eq] at hn
    refine key _ (fun _ => ?_) n hn
    simp [(unit_requiresReset u).2 (Or.inr (Or.inr ⟨i, hi, hq⟩))]
  · refine inputs_value val sig i.binds (fun b hb n hn => ?_) bs hbs
    exact key _ (fun e => hf.rp (Or.inr (Or.inr ⟨i, hi, Or.inl ⟨b, hb, e⟩⟩))) n hn

theorem allInsts_value (hf : u.Fine top) (hp : PortsOk top u p g) (wire : List Char → Nat → Bool)
    (var : String → Bool) (is : List ClkInst) (hi : ∀ i ∈ is, i ∈ u.insts.toList) :
    let sig := srcSignal u.head g wire var
    u.head.allInsts (u.head.netValue (u.requiresReset || top) p wire var) is = some (is.map (fun i => ⟨i.name,
      if i.what.requiresClock then some (some (sig (i.srcClock u.head))) else none,
      if i.what.requiresReset then some (some (sig (i.srcReset u.head))) else none,
      i.binds.map (fun b => (b.1, some (sig b.2)))⟩)) := by
  intro sig
  induction is with
  | nil => rfl
  | cons i is ih =>
    obtain ⟨c, hc⟩ := Option.isSome_iff_exists.1 (hf.conn i (hi i (by simp)))
    obtain ⟨h1, h2, h3⟩ := connect_value hf hp wire var i (hi i (by simp)) c hc
    simp only [ClkHead.allInsts, hc, ih (fun j hj => hi j (List.mem_cons_of_mem _ hj)), Option.bind_eq_bind,
      Option.bind_some, Option.pure_def, List.map_cons, h1, h2, h3]
    rfl
end

theorem ports_value (w : ClkWorld) (path : List String) : ∀ (top : Bool) (pre : List String) (u v : ClkUnit)
    (p : ClkPorts) (g : Given), PortsOk top u p g →
    (∀ path' x, UnitAt u path' x → x.Fine (top && path'.isEmpty)) → UnitAt u path v →
    ∃ q g', hwPorts w top pre u p path = some (v, q) ∧ srcGiven w pre u g path = some (v, g') ∧
      PortsOk (top && path.isEmpty) v q g' := by
  induction path with
  | nil =>
    intro top pre u v p g hp _ hv
    cases hv
    exact ⟨p, g, rfl, rfl, by simpa using hp⟩
  | cons n path ih =>
    intro top pre u v p g hp hall hv
    cases hv with
    | there _ v' _ i _ hfind hw hrest =>
      have hf : u.Fine top := by simpa using hall [] u (.here u)
      have hi : i ∈ u.insts.toList := List.mem_of_find?_eq_some hfind
      obtain ⟨c, hc⟩ := Option.isSome_iff_exists.1 (hf.conn i hi)
      obtain ⟨h1, h2, _⟩ := connect_value hf hp (w.wire pre) (w.var pre) i hi c hc
      have hok : PortsOk false v'
          ⟨c.clock.bind (u.head.netValue (u.requiresReset || top) p (w.wire pre) (w.var pre)),
           c.reset.bind (u.head.netValue (u.requiresReset || top) p (w.wire pre) (w.var pre))⟩
          ⟨srcSignal u.head g (w.wire pre) (w.var pre) (i.srcClock u.head),
           srcSignal u.head g (w.wire pre) (w.var pre) (i.srcReset u.head)⟩ := by
        constructor
        · simp only [hw, ClkWhat.requiresClock, if_true] at h1
          obtain ⟨k, hk, hk'⟩ := Option.map_eq_some_iff.1 h1
          simp [hk, hk']
        · intro hr
          simp only [Bool.or_false] at hr
          simp only [hw, ClkWhat.requiresReset, hr, if_true] at h2
          obtain ⟨k, hk, hk'⟩ := Option.map_eq_some_iff.1 h2
          simp [hk, hk']
      obtain ⟨q, g', hq, hg, hpq⟩ := ih false (pre ++ [i.name]) v' v _ _ hok
        (fun path' x hx => by simpa using hall (i.name :: path') x (.there u v' x i path' hfind hw hx)) hrest
      refine ⟨q, g', ?_, ?_, by simpa using hpq⟩
      · simp only [hwPorts, hfind, hc, Option.bind_eq_bind, Option.bind_some, hw]
        exact hq
      · simp only [srcGiven, hfind, hw]
        exact hg

theorem view_value (w : ClkWorld) (top : ClkUnit) (g : Given) (path : List String) (v : ClkUnit)
    (hall : ∀ path' x, UnitAt top path' x → x.Fine path'.isEmpty) (hv : UnitAt top path v) :
    ∃ g', srcGiven w [] top g path = some (v, g') ∧
      hwView w top ⟨some g.clock, some g.reset⟩ path =
        some (srcView v (srcSignal v.head g' (w.wire path) (w.var path))) := by
  obtain ⟨q, g', hq, hg, hp⟩ := ports_value w path true [] top v ⟨some g.clock, some g.reset⟩ g
    ⟨rfl, fun _ => rfl⟩ (fun path' x hx => by simpa using hall path' x hx) hv
  simp only [Bool.true_and] at hp
  have hf := hall path v hv
  refine ⟨g', hg, ?_⟩
  obtain ⟨t, ht⟩ := Option.isSome_iff_exists.1 hf.text
  have ht' := ht
  unfold ClkUnit.text at ht'
  simp only [Option.bind_eq_bind, Option.pure_def, Option.bind_eq_some_iff, Option.some.injEq] at ht'
  obtain ⟨oc, hoc, c, hc, r, hr, ms, hms, rfl⟩ := ht'
  simp only [hwView, hq, ht, Option.bind_eq_bind, Option.bind_some, Option.pure_def]
  rw [allInsts_value hf hp (w.wire path) (w.var path) v.insts.toList (fun _ h => h)]
  rw [head_clock] at hoc hc
  rw [head_reset] at hr
  have hcne : v.head.srcClock = "reset" → (v.requiresReset || path.isEmpty) = true := by
    intro e
    exfalso
    rw [e] at hc
    unfold ClkHead.own at hc
    have he : v.head.entry "reset" = some none := by
      have := outsOf_nil hf.bound (x := "reset") (Or.inr rfl)
      unfold ClkHead.entry
      show recordBinds none (v.head.outsOf "reset") = _
      rw [this]; rfl
    simp [he] at hc
  have vc := own_value hf.bound hf.own (v.requiresReset || path.isEmpty) q g' (w.wire path) (w.var path) hp.1 hp.2
    "clock" v.head.srcClock (Or.inl ⟨rfl, rfl⟩) hcne c hc
  have vr := fun hx => own_value hf.bound hf.own (v.requiresReset || path.isEmpty) q g' (w.wire path) (w.var path) hp.1 hp.2
    "reset" v.head.srcReset (Or.inr ⟨rfl, rfl⟩) hx r hr
  have vo := rewrite_value hf.bound (v.requiresReset || path.isEmpty) q g' (w.wire path) (w.var path) hp.1 hp.2
    v.head.srcClock hcne oc hoc
  have vm := mems_value (v.head.netValue (v.requiresReset || path.isEmpty) q (w.wire path) (w.var path))
    (srcSignal v.head g' (w.wire path) (w.var path)) v.head.mems (by
      intro m hm x hx n hn
      refine rewrite_value hf.bound _ q g' (w.wire path) (w.var path) hp.1 hp.2 x ?_ n hn
      rintro rfl
      unfold ClkMem.srcClocks at hx
      split at hx
      · refine hcne ?_
        split at hx
        · simp at hx; exact hx.symm
        · simp at hx; exact hx.symm
      · exact hf.rp (Or.inr (Or.inl ⟨m, hm, hx⟩))) ms hms
  simp only [Option.bind_some, vo, vm, srcView, Option.some.injEq, ClkView.mk.injEq, true_and, and_true]
  refine ⟨?_, ?_, ?_⟩
  · rw [List.map_map]
    refine List.map_congr_left (fun x hx => ?_)
    simp only [Function.comp_apply, vc, Bool.or_comm x.atStartup]
    by_cases hn : (x.noInit || x.atStartup) = true
    · simp [hn]
    · simp only [hn, Bool.false_eq_true, if_false, Option.map_some]
      rw [vr (fun _ => ?_)]
      simp only [Bool.or_eq_true, not_or, Bool.not_eq_true] at hn
      simp [(unit_requiresReset v).2 (Or.inr (Or.inl ⟨x, hx, hn.1⟩))]
  · by_cases hfsm : v.head.fsm = true
    · simp only [hfsm, if_true, Option.map_some, vc]
      rw [vr (fun _ => by simp [(unit_requiresReset v).2 (Or.inl hfsm)])]
    · simp [hfsm]
  · by_cases hck : v.head.checks = true
    · simp only [hck, if_true, Option.map_some]
      rw [vr (fun e => hf.rp (Or.inl ⟨hck, e⟩))]
    · simp [hck]

end Silice
