import Verif.Prelude
import Verif.Model.Instantiation
/-! Property theorem C36. -/
set_option autoImplicit false
namespace Silice

theorem addToCtx_other {vios : List VIO} {var : String} {b : VIO} {l l' : Autos} (h : addToCtx vios var b l = some l')
    (k : String × PField) (hk : k.1 ≠ upper var) : l' k = l k := by
  obtain ⟨k1, k2⟩ := k
  simp only at hk
  unfold addToCtx at h
  split at h
  · simp at h
  · simp only at h
    split at h
    · simp at h
    · split at h
      · simp at h
      · simp only [Option.some.injEq] at h
        subst h
        simp [Autos.set, hk]

theorem paramLoop_other {host : List VIO} {inst : Instance} (vs : List VIO) : ∀ {l l' : Autos},
    paramLoop host inst vs l = some l' → ∀ k : String × PField,
    (∀ v ∈ vs, inCtx v.name inst.specs = false → k.1 ≠ upper v.name) → l' k = l k := by
  induction vs with
  | nil => intro l l' h k _; simp [paramLoop] at h; rw [h]
  | cons v vs ih =>
    intro l l' h k hk
    have hk' : ∀ v ∈ vs, inCtx v.name inst.specs = false → k.1 ≠ upper v.name := fun w hw => hk w (by simp [hw])
    unfold paramLoop at h
    split at h
    · exact ih h k hk'
    · rename_i hs
      split at h
      · exact ih h k hk'
      · split at h
        · simp at h
        · split at h
          · exact ih h k hk'
          · split at h
            · exact ih h k hk'
            · split at h
              · simp at h
              · rename_i l2 hl
                rw [ih h k hk', addToCtx_other hl k (hk v (by simp) (by simpa using hs))]

theorem fixedLoop_other {ports : List VIO} (vs : List VIO) : ∀ {l l' : Autos},
    fixedLoop ports vs l = some l' → ∀ k : String × PField,
    (∀ v ∈ vs, (v.type ≠ .param ∨ v.sameAs.isSome) → k.1 ≠ upper v.name) → l' k = l k := by
  induction vs with
  | nil => intro l l' h k _; simp [fixedLoop] at h; rw [h]
  | cons v vs ih =>
    intro l l' h k hk
    have hk' : ∀ v ∈ vs, (v.type ≠ .param ∨ v.sameAs.isSome) → k.1 ≠ upper v.name := fun w hw => hk w (by simp [hw])
    unfold fixedLoop at h
    split at h
    · rename_i hc
      split at h
      · simp at h
      · rename_i l2 hl
        rw [ih h k hk', addToCtx_other hl k (hk v (by simp) hc)]
    · exact ih h k hk'

theorem addToCtx_fixed {vios : List VIO} {var : String} {b : VIO} {l l' : Autos} (hb : b.type ≠ .param)
    (h : addToCtx vios var b l = some l') (f : PField) : l' (upper var, f) = b.type.field f := by
  unfold addToCtx at h
  cases hb' : b.type with
  | param => exact absurd hb' hb
  | fixed w i s =>
    simp only [varField, hb', VType.field] at h
    simp only [Option.some.injEq] at h
    subst h
    cases f <;> simp [Autos.set, VType.field]

theorem fixedLoop_fixed {ports : List VIO} (vs : List VIO) : ∀ {l l' : Autos}, fixedLoop ports vs l = some l' →
    (vs.map (fun v => upper v.name)).Nodup → ∀ v ∈ vs, v.type ≠ .param → ∀ f, l' (upper v.name, f) = v.type.field f := by
  induction vs with
  | nil => intro l l' _ _ v hv; simp at hv
  | cons w vs ih =>
    intro l l' h hnd v hv hf f
    simp only [List.map_cons, List.nodup_cons] at hnd
    unfold fixedLoop at h
    rcases List.mem_cons.mp hv with rfl | hv
    · rw [if_pos (Or.inl hf)] at h
      split at h
      · simp at h
      · rename_i l2 hl
        rw [fixedLoop_other vs h _ ?_, addToCtx_fixed hf hl]
        intro u hu _ e
        exact hnd.1 (List.mem_map.mpr ⟨u, hu, e.symm⟩)
    · split at h
      · split at h
        · simp at h
        · exact ih h hnd.2 v hv hf f
      · exact ih h hnd.2 v hv hf f

/-- No two ports of the unit share an upper-cased name. -/
def DistinctUpper (ports : List VIO) : Prop := (ports.map (fun v => upper v.name)).Nodup

theorem distinctUpper_inj {ports : List VIO} (h : DistinctUpper ports) {v w : VIO} (hv : v ∈ ports) (hw : w ∈ ports)
    (e : upper v.name = upper w.name) : v = w := by
  unfold DistinctUpper at h
  induction ports with
  | nil => simp at hv
  | cons p ports ih =>
    simp only [List.map_cons, List.nodup_cons] at h
    rcases List.mem_cons.mp hv with e1 | hv' <;> rcases List.mem_cons.mp hw with e2 | hw'
    · rw [e1, e2]
    · subst e1; exact absurd (List.mem_map.mpr ⟨w, hw', e.symm⟩) h.1
    · subst e2; exact absurd (List.mem_map.mpr ⟨v, hv', e⟩) h.1
    · exact ih h.2 hv' hw'

/-- C36. Ports with a fixed type always use their declared type. -/
theorem C36_fixed_ports_keep_their_type (host : List VIO) (inst : Instance) (ictx l : Autos)
    (h : makeCtx host inst ictx = some l) (hd : DistinctUpper inst.ports) (v : VIO) (hv : v ∈ inst.ports)
    (hf : v.type ≠ .param) (f : PField) : l (upper v.name, f) = v.type.field f := by
  unfold makeCtx at h
  simp only at h
  split at h
  · simp at h
  · exact fixedLoop_fixed _ h hd v hv hf f

/-- C36. An explicit specialisation of a parameterised port takes precedence over the binding and over the context
of the parent. -/
theorem C36_specialisation_wins (host : List VIO) (inst : Instance) (ictx l : Autos)
    (h : makeCtx host inst ictx = some l) (hd : DistinctUpper inst.ports) (v : VIO) (hv : v ∈ inst.ports)
    (hp : v.type = .param) (hs : v.sameAs = none) (hspec : inCtx v.name inst.specs = true) (f : PField) :
    l (upper v.name, f) = inst.specs (upper v.name, f) := by
  unfold makeCtx at h
  simp only at h
  split at h
  · simp at h
  · rename_i l1 hl1
    rw [fixedLoop_other _ h _ ?_, paramLoop_other _ hl1 _ ?_]
    · have : (inst.specs (upper v.name, f)).isSome = true := by
        simp only [inCtx, Bool.and_eq_true] at hspec
        cases f <;> tauto
      obtain ⟨x, hx⟩ := Option.isSome_iff_exists.mp this
      simp [hx]
    · intro w hw hns e
      have hw' := (List.mem_filter.mp hw).1
      have := distinctUpper_inj hd hv hw' e
      subst this
      rw [hspec] at hns; simp at hns
    · intro w hw hor e
      have := distinctUpper_inj hd hv hw e
      subst this
      rcases hor with h1 | h1
      · exact h1 hp
      · rw [hs] at h1; simp at h1

theorem paramLoop_bound {host : List VIO} {inst : Instance} (vs : List VIO) : ∀ {l l' : Autos},
    paramLoop host inst vs l = some l' → (vs.map (fun v => upper v.name)).Nodup → ∀ v ∈ vs,
    inCtx v.name inst.specs = false → v.sameAs = none → ∀ b, inst.bindings.find? (fun b => b.1 = v.name) = some b →
    ∀ bn, findVIO host b.2 = some bn → bn.tableSize = 0 → bn.type ≠ .param → ∀ f,
    l' (upper v.name, f) = bn.type.field f := by
  induction vs with
  | nil => intro l l' _ _ v hv; simp at hv
  | cons w vs ih =>
    intro l l' h hnd v hv hs hsa b hb bn hbn htb hty f
    simp only [List.map_cons, List.nodup_cons] at hnd
    unfold paramLoop at h
    rcases List.mem_cons.mp hv with rfl | hv
    · simp only [hs, Bool.false_eq_true, if_false, hsa, Option.isSome_none, hb, hbn, htb, ne_eq, not_true_eq_false] at h
      split at h
      · simp at h
      · rename_i l2 hl
        rw [paramLoop_other vs h _ ?_, addToCtx_fixed hty hl]
        intro u hu _ e
        exact hnd.1 (List.mem_map.mpr ⟨u, hu, e.symm⟩)
    · have hrec : ∀ {l2 : Autos}, paramLoop host inst vs l2 = some l' → l' (upper v.name, f) = bn.type.field f :=
        fun h2 => ih h2 hnd.2 v hv hs hsa b hb bn hbn htb hty f
      split at h
      · exact hrec h
      · split at h
        · exact hrec h
        · split at h
          · simp at h
          · split at h
            · exact hrec h
            · split at h
              · exact hrec h
              · split at h
                · simp at h
                · exact hrec h

theorem filter_distinct (ports : List VIO) (p : VIO → Bool) (hd : DistinctUpper ports) :
    ((ports.filter p).map (fun v => upper v.name)).Nodup := by
  unfold DistinctUpper at hd
  exact List.Pairwise.sublist (List.Sublist.map _ List.filter_sublist) hd

/-- C36, partial. A parameterised port which is not specialised takes width, sign and initial value of the variable it
is bound to, when that variable has a fixed type. Missing: bound variables which are themselves parameterised,
for which the claim is false (next theorem). -/
theorem C36_unspecialised_port_follows_binding_partial (host : List VIO) (inst : Instance) (ictx l : Autos)
    (h : makeCtx host inst ictx = some l) (hd : DistinctUpper inst.ports) (v : VIO) (hv : v ∈ inst.ports)
    (hp : v.type = .param) (hs : v.sameAs = none) (hspec : inCtx v.name inst.specs = false)
    (b : String × String) (hb : inst.bindings.find? (fun b => b.1 = v.name) = some b)
    (bn : VIO) (hbn : findVIO host b.2 = some bn) (htb : bn.tableSize = 0) (hty : bn.type ≠ .param) (f : PField) :
    l (upper v.name, f) = bn.type.field f := by
  unfold makeCtx at h
  simp only at h
  split at h
  · simp at h
  · rename_i l1 hl1
    rw [fixedLoop_other _ h _ ?_]
    · exact paramLoop_bound _ hl1 (filter_distinct _ _ hd) v (by simp [hv, hp]) hspec hs b hb bn hbn htb hty f
    · intro w hw hor e
      have := distinctUpper_inj hd hv hw e
      subst this
      rcases hor with h1 | h1
      · exact h1 hp
      · rw [hs] at h1; simp at h1

theorem addToCtx_same {vios : List VIO} {v b : VIO} {n : String} {l l' : Autos} (hp : v.type = .param)
    (hs : v.sameAs = some n) (hb : findVIO vios n = some b) (hne : upper v.name ≠ upper b.name)
    (hbl : b.type = .param → ∀ f, (l (upper b.name, f)).isSome)
    (h : addToCtx vios v.name v l = some l') (f : PField) :
    l' (upper v.name, f) = match b.type with | .param => l (upper b.name, f) | t => t.field f := by
  unfold addToCtx at h
  cases hb' : b.type with
  | fixed w i s =>
    simp only [varField, hp, hs, Option.getD_some, hb, hb', VType.field] at h
    simp only [Option.some.injEq] at h
    subst h
    cases f <;> simp [Autos.set, VType.field]
  | param =>
    have hbl := hbl hb'
    obtain ⟨w, hw⟩ := Option.isSome_iff_exists.mp (hbl .width)
    obtain ⟨i, hi⟩ := Option.isSome_iff_exists.mp (hbl .init)
    obtain ⟨s, hsg⟩ := Option.isSome_iff_exists.mp (hbl .signed)
    have hne' : ¬ upper b.name = upper v.name := fun e => hne e.symm
    simp only [varField, hp, hs, Option.getD_some, hb, hb', Autos.set, Prod.mk.injEq, hne', false_and, if_false, hw, hi, hsg,
      Option.some.injEq] at h
    subst h
    cases f <;> simp [Autos.set, hw, hi, hsg]

theorem fixedLoop_same {ports : List VIO} (vs : List VIO) : ∀ {l l' : Autos}, fixedLoop ports vs l = some l' →
    (vs.map (fun v => upper v.name)).Nodup → ∀ v ∈ vs, ∀ n b, v.type = .param → v.sameAs = some n → findVIO ports n = some b →
    b.sameAs = none → upper v.name ≠ upper b.name →
    (∀ u ∈ vs, (u.type ≠ .param ∨ u.sameAs.isSome) → upper u.name = upper b.name → u = b) →
    (b.type = .param → ∀ f, (l (upper b.name, f)).isSome) → ∀ f,
    l' (upper v.name, f) = match b.type with | .param => l (upper b.name, f) | t => t.field f := by
  induction vs with
  | nil => intro l l' _ _ v hv; simp at hv
  | cons w vs ih =>
    intro l l' h hnd v hv n b hp hs hb hbs hne hinj hbl f
    simp only [List.map_cons, List.nodup_cons] at hnd
    unfold fixedLoop at h
    rcases List.mem_cons.mp hv with rfl | hv
    · rw [if_pos (Or.inr (by simp [hs]))] at h
      split at h
      · simp at h
      · rename_i l2 hl
        rw [fixedLoop_other vs h _ ?_, addToCtx_same hp hs hb hne hbl hl]
        intro u hu _ e
        exact hnd.1 (List.mem_map.mpr ⟨u, hu, e.symm⟩)
    · split at h
      · rename_i hor
        split at h
        · simp at h
        · rename_i l2 hl
          by_cases hbp : b.type = .param
          · have hwb : upper b.name ≠ upper w.name := by
              intro e
              have := hinj w (by simp) hor e.symm
              subst this
              rcases hor with h1 | h1
              · exact h1 hbp
              · rw [hbs] at h1; simp at h1
            have hk : ∀ f, l2 (upper b.name, f) = l (upper b.name, f) := fun f => addToCtx_other hl _ hwb
            rw [ih h hnd.2 v hv n b hp hs hb hbs hne (fun u hu => hinj u (by simp [hu])) (fun hb f => by rw [hk]; exact hbl hb f) f, hbp]
            exact hk f
          · have := ih h hnd.2 v hv n b hp hs hb hbs hne (fun u hu => hinj u (by simp [hu])) (fun e => absurd e hbp) f
            rw [this]
            cases hbt : b.type with
            | param => exact absurd hbt hbp
            | fixed => rfl
      · exact ih h hnd.2 v hv n b hp hs hb hbs hne (fun u hu => hinj u (by simp [hu])) hbl f

/-- C36, C37. A parameterised port declared `sameas` another port of the unit gets the width, sign and initial value that this
other port has in the instance, whether these are fixed or determined by the instantiation. -/
theorem C36_sameas_port_follows_base (host : List VIO) (inst : Instance) (ictx l : Autos)
    (h : makeCtx host inst ictx = some l) (hd : DistinctUpper inst.ports) (v : VIO) (hv : v ∈ inst.ports)
    (hp : v.type = .param) (n : String) (hs : v.sameAs = some n) (b : VIO) (hb : findVIO inst.ports n = some b)
    (hbs : b.sameAs = none) (hbl : ∀ f, (l (upper b.name, f)).isSome) (f : PField) :
    l (upper v.name, f) = l (upper b.name, f) := by
  have hbm : b ∈ inst.ports := by
    unfold findVIO at hb
    exact List.mem_of_find?_eq_some hb
  have hne : upper v.name ≠ upper b.name := by
    intro e
    have := distinctUpper_inj hd hv hbm e
    subst this
    rw [hs] at hbs; simp at hbs
  have hl := h
  unfold makeCtx at h
  simp only at h
  split at h
  · simp at h
  · rename_i l1 hl1
    have hinj : ∀ u ∈ inst.ports, (u.type ≠ .param ∨ u.sameAs.isSome) → upper u.name = upper b.name → u = b :=
      fun u hu _ e => distinctUpper_inj hd hu hbm e
    cases hbt : b.type with
    | fixed w i s =>
      have h2 := fixedLoop_same _ h hd v hv n b hp hs hb hbs hne hinj (by rw [hbt]; intro e; cases e) f
      rw [h2, C36_fixed_ports_keep_their_type host inst ictx l hl hd b hbm (by rw [hbt]; exact nofun) f, hbt]
    | param =>
      have hk : ∀ f, l (upper b.name, f) = l1 (upper b.name, f) := by
        intro f
        refine fixedLoop_other _ h _ ?_
        intro w hw hor e
        have := distinctUpper_inj hd hw hbm e.symm
        subst this
        rcases hor with h1 | h1
        · exact h1 hbt
        · rw [hbs] at h1; simp at h1
      have h2 := fixedLoop_same _ h hd v hv n b hp hs hb hbs hne hinj (fun _ f => by rw [← hk]; exact hbl f) f
      rw [h2, hbt, hk]

/-- C36. A parameterised port which is neither specialised nor bound is an error. -/
theorem C36_unbound_unspecialised_rejected (host : List VIO) (inst : Instance) (ictx : Autos) (v : VIO)
    (hv : v ∈ inst.ports) (hp : v.type = .param) (hs : v.sameAs = none) (hspec : inCtx v.name inst.specs = false)
    (hb : inst.bindings.find? (fun b => b.1 = v.name) = none) : makeCtx host inst ictx = none := by
  have key : ∀ (vs : List VIO) (l : Autos), v ∈ vs → paramLoop host inst vs l = none := by
    intro vs
    induction vs with
    | nil => intro l hv; simp at hv
    | cons w vs ih =>
      intro l hv
      unfold paramLoop
      rcases List.mem_cons.mp hv with rfl | hv
      · simp [hspec, hs, hb]
      · split
        · exact ih _ hv
        · split
          · exact ih _ hv
          · split
            · rfl
            · split
              · exact ih _ hv
              · split
                · exact ih _ hv
                · split
                  · rfl
                  · exact ih _ hv
  unfold makeCtx
  have hm : v ∈ inst.ports.filter (fun v => decide (v.type = VType.param)) := List.mem_filter.mpr ⟨hv, by simp [hp]⟩
  simp only [key _ _ hm]

/-- The host has two parameterised inputs `a` (8 bits) and `b` (4 bits). -/
def swapHost : List VIO := [⟨"a", .param, none, 0⟩, ⟨"b", .param, none, 0⟩]
def swapCtx : Autos := fun k =>
  if k.1 = "A" then some (match k.2 with | .width => "8" | _ => "")
  else if k.1 = "B" then some (match k.2 with | .width => "4" | _ => "")
  else none
/-- The instanced unit has parameterised inputs of the same names, bound crosswise: `a <: b`, `b <: a`. -/
def swapInst : Instance := ⟨fun _ => none, [("a", "b"), ("b", "a")], swapHost⟩

/-- C36 (negation). The local context is updated while it is being read: with two same-named parameterised ports bound
crosswise, port `b` is bound to the 8 bits variable `a` of the host but is given 4 bits. -/
theorem C36_crossed_binding_wrong_width :
    varField swapHost swapCtx ⟨"a", .param, none, 0⟩ .width = some "8" ∧ DistinctUpper swapInst.ports ∧
    ∃ l, makeCtx swapHost swapInst swapCtx = some l ∧ l ("B", .width) = some "4" := by
  refine ⟨by decide +kernel, by unfold DistinctUpper; decide +kernel, ?_⟩
  have : (makeCtx swapHost swapInst swapCtx).isSome = true := by decide +kernel
  obtain ⟨l, hl⟩ := Option.isSome_iff_exists.mp this
  refine ⟨l, hl, ?_⟩
  have h2 : (makeCtx swapHost swapInst swapCtx).bind (fun l => l ("B", .width)) = some "4" := by decide +kernel
  rw [hl] at h2
  exact h2

/-- C36 (finding). Keys are upper-cased: ports that differ by case only share their parameters. -/
theorem C36_case_collision (l : Autos) (f : PField) : l (upper "Data", f) = l (upper "data", f) := by
  have : upper "Data" = upper "data" := by decide +kernel
  rw [this]

/-! Non-vacuity: a port of each kind -/
def okInst : Instance :=
  ⟨fun k => if k.1 = "S" then some "16" else none, [("p", "x")],
   [⟨"f", .fixed "3" "0" "", none, 0⟩, ⟨"s", .param, none, 0⟩, ⟨"p", .param, none, 0⟩]⟩
def okHost : List VIO := [⟨"x", .fixed "5" "1" "signed", none, 0⟩]
example : DistinctUpper okInst.ports ∧
    (makeCtx okHost okInst (fun _ => none)).map (fun l => (l ("F", .width), l ("S", .width), l ("P", .width), l ("P", .signed))) =
      some (some "3", some "16", some "5", some "signed") := by
  constructor
  · unfold DistinctUpper; decide +kernel
  · decide +kernel
def sameInst : Instance :=
  ⟨fun k => if k.1 = "S" then some "16" else none, [],
   [⟨"s", .param, none, 0⟩, ⟨"t", .param, some "s", 0⟩, ⟨"u", .param, some "f", 0⟩, ⟨"f", .fixed "3" "0" "", none, 0⟩]⟩
example : DistinctUpper sameInst.ports ∧
    (makeCtx [] sameInst (fun _ => none)).map (fun l => (l ("T", .width), l ("U", .width))) = some (some "16", some "3") := by
  constructor
  · unfold DistinctUpper; decide +kernel
  · decide +kernel

end Silice
