import Verif.Spec.Inout

set_option autoImplicit false

namespace Silice

theorem join_z (t : InoTri) : t.join .z = t := by cases t <;> rfl

theorem z_join (t : InoTri) : InoTri.join .z t = t := by cases t <;> rfl

theorem resolveAll_zl : ∀ {l l' : List InoTri}, (∀ t ∈ l, t = .z) → resolveAll (l ++ l') = resolveAll l'
  | [], _, _ => rfl
  | t :: l, l', h => by
    have ht : t = .z := h t List.mem_cons_self
    subst ht
    show InoTri.join .z (resolveAll (l ++ l')) = _
    rw [z_join]
    exact resolveAll_zl fun t ht => h t (List.mem_cons_of_mem _ ht)

theorem resolveAll_z {l : List InoTri} (h : ∀ t ∈ l, t = .z) : resolveAll l = .z := by
  have := resolveAll_zl (l' := []) h
  rwa [List.append_nil] at this

theorem resolveAll_zr : ∀ {l l' : List InoTri}, (∀ t ∈ l', t = .z) → resolveAll (l ++ l') = resolveAll l
  | [], l', h => by rw [List.nil_append, resolveAll_z h]; rfl
  | t :: l, l', h => by
    show t.join (resolveAll (l ++ l')) = t.join (resolveAll l)
    rw [resolveAll_zr h]

/-- Statements of one kind, one per bit. -/
theorem filter_range {f : Nat → InoStm} {m n : InoNet} (hb : ∀ k, (f k).bit = k) (hm : ∀ k, (f k).net = m) (w b : Nat) :
    ((List.range w).map f).filter (fun s => s.net = n ∧ s.bit = b) = if m = n ∧ b < w then [f b] else [] := by
  induction w with
  | zero => simp
  | succ w ih =>
    rw [List.range_succ, List.map_append, List.filter_append, ih]
    simp only [List.map_cons, List.map_nil, List.filter_cons, List.filter_nil, hb, hm]
    by_cases h1 : m = n
    · by_cases h2 : b < w
      · have : ¬ w = b := by omega
        simp [h1, h2, this, Nat.lt_succ_of_lt h2]
      · by_cases h3 : w = b
        · subst h3; simp [h1]
        · have : ¬ b < w + 1 := by omega
          simp [h1, h2, h3, this]
    · simp [h1]

/-- Statements of two kinds for each bit. -/
theorem filter_range2 {f g : Nat → InoStm} {m m' n : InoNet} (hb : ∀ k, (f k).bit = k) (hm : ∀ k, (f k).net = m) (hb' : ∀ k, (g k).bit = k) (hm' : ∀ k, (g k).net = m')
    (w b : Nat) :
    ((List.range w).flatMap fun k => [f k, g k]).filter (fun s => s.net = n ∧ s.bit = b) =
      if b < w then (if m = n then [f b] else []) ++ (if m' = n then [g b] else []) else [] := by
  induction w with
  | zero => simp
  | succ w ih =>
    rw [List.range_succ, List.flatMap_append, List.filter_append, ih]
    simp only [List.flatMap_cons, List.flatMap_nil, List.append_nil, List.filter_cons, List.filter_nil, hb, hm, hb', hm']
    by_cases h2 : b < w
    · have : ¬ w = b := by omega
      simp [h2, this, Nat.lt_succ_of_lt h2]
    · by_cases h3 : w = b
      · subst h3
        by_cases h1 : m = n <;> by_cases h1' : m' = n <;> simp [h1, h1']
      · have : ¬ b < w + 1 := by omega
        simp [h2, h3, this]

/-- The pin of an inout used in its unit. -/
theorem used_pin (d : InoDecl) (u : InoUse) (r : InoRegs) (ext : InoNet → Nat → InoTri) {b : Nat} (hb : b < d.width) :
    stmDrivers r ext (writeInoUsed false d u) .pin b = [inoDriven d u r b] := by
  unfold stmDrivers writeInoUsed
  simp only [Bool.false_eq_true, not_false_eq_true, if_true, if_false, List.filter_append]
  have hi : (List.filter (fun s : InoStm => decide (s.net = .pin ∧ s.bit = b))
      (if u.i = true then (List.range d.width).map fun b => ⟨.wireI, b, .net .pin b, true⟩ else [])) = [] := by
    split
    · rw [filter_range (m := .wireI) (fun _ => rfl) (fun _ => rfl)]; simp
    · rfl
  rw [hi, List.append_nil]
  split
  · rw [filter_range (m := .pin) (fun _ => rfl) (fun _ => rfl)]
    simp only [hb, and_self, if_true, List.map_cons, List.map_nil, List.cons.injEq, and_true]
    unfold inoDriven
    cases h1 : u.oenable <;> cases h2 : u.o <;> cases h3 : d.comb <;> cases h4 : r.oenableQ b <;> simp [InoEx.val, h4]
  · rename_i h
    rw [filter_range (m := .pin) (fun _ => rfl) (fun _ => rfl)]
    simp only [Bool.or_eq_true, not_or, Bool.not_eq_true] at h
    simp [hb, InoEx.val, inoDriven, h.2]

/-- The ports of a split inout used in its unit. -/
theorem used_split (d : InoDecl) (u : InoUse) (r : InoRegs) (ext : InoNet → Nat → InoTri) {b : Nat} (hb : b < d.width) (hu : u.o = true ∨ u.oenable = true) :
    stmDrivers r ext (writeInoUsed true d u) .oe b = [.v (u.oenable && r.oenableQ b)] ∧
    stmDrivers r ext (writeInoUsed true d u) .o b = [.v (u.o && (if d.comb then r.oD b else r.oQ b))] := by
  have hu' : (u.o || u.oenable) = true := by simpa using hu
  have hi : ∀ n : InoNet, n ≠ .wireI → (List.filter (fun s : InoStm => decide (s.net = n ∧ s.bit = b))
      (if u.i = true then (List.range d.width).map fun b => ⟨.wireI, b, .net .i b, true⟩ else [])) = [] := by
    intro n hn
    split
    · rw [filter_range (m := .wireI) (fun _ => rfl) (fun _ => rfl)]
      simp [hn.symm]
    · rfl
  unfold stmDrivers writeInoUsed
  simp only [not_true_eq_false, if_true, if_false, List.filter_append, hu']
  constructor
  · rw [hi _ (by simp), filter_range2 (m := .oe) (m' := .o) (fun _ => rfl) (fun _ => rfl) (fun _ => rfl) (fun _ => rfl)]
    cases h1 : u.oenable <;> simp [hb, InoEx.val]
  · rw [hi _ (by simp), filter_range2 (m := .oe) (m' := .o) (fun _ => rfl) (fun _ => rfl) (fun _ => rfl) (fun _ => rfl)]
    cases h1 : u.o <;> cases h2 : d.comb <;> simp [hb, InoEx.val]

/-- The wire of an inout used in its unit. -/
theorem used_wireI (split : Bool) (d : InoDecl) (u : InoUse) (r : InoRegs) (ext : InoNet → Nat → InoTri) {b : Nat} (hb : b < d.width) (hu : u.i = true) :
    stmDrivers r ext (writeInoUsed split d u) .wireI b = [ext (if split then .i else .pin) b] := by
  unfold stmDrivers writeInoUsed
  simp only [List.filter_append, hu, if_true]
  rw [filter_range (m := .wireI) (fun _ => rfl) (fun _ => rfl) (f := fun b => ⟨.wireI, b, .net (if split then .i else .pin) b, true⟩)]
  have h0 : ∀ l : List InoStm, (∀ s ∈ l, s.net ≠ .wireI) → l.filter (fun s => s.net = .wireI ∧ s.bit = b) = [] := by
    intro l hl
    rw [List.filter_eq_nil_iff]
    intro s hs
    simp [hl s hs]
  rw [h0 _ ?_]
  · simp [hb, InoEx.val]
  · intro s hs
    split at hs
    · split at hs
      · obtain ⟨k, _, rfl⟩ := List.mem_map.mp hs; simp
      · obtain ⟨k, _, hk⟩ := List.mem_flatMap.mp hs
        simp only [List.mem_cons, List.not_mem_nil, or_false] at hk
        rcases hk with rfl | rfl <;> simp
    · split at hs
      · obtain ⟨k, _, rfl⟩ := List.mem_map.mp hs; simp
      · obtain ⟨k, _, rfl⟩ := List.mem_map.mp hs; simp

theorem inoRecord_mem {bs : List (Option (Nat × Nat) × InoDir)} {b : Option (Nat × Nat) × InoDir} (h : b ∈ inoRecord bs) : b ∈ bs := by
  unfold inoRecord at h
  have key : ∀ (l acc : List (Option (Nat × Nat) × InoDir)),
      b ∈ l.foldl (fun acc b => if (acc.map Prod.fst).contains b.1 then acc else acc ++ [b]) acc → b ∈ acc ∨ b ∈ l := by
    intro l
    induction l with
    | nil => intro acc h; exact .inl h
    | cons a l ih =>
      intro acc h
      rw [List.foldl_cons] at h
      rcases ih _ h with h | h
      · split at h
        · exact .inl h
        · rcases List.mem_append.mp h with h | h
          · exact .inl h
          · rw [List.mem_singleton] at h
            exact .inr (by simp [h])
      · exact .inr (List.mem_cons_of_mem _ h)
  rcases key _ _ h with h | h
  · cases h
  · exact h

theorem dirs_noRight {w : Nat} : ∀ {bs : InoBinds}, bs.WF w → ∀ p ∈ bs.dirs, p.2 ≠ .right
  | .nil, _, p, hp => by cases hp
  | .bidir r t rest, h, p, hp => by
    simp only [InoBinds.WF] at h
    rcases List.mem_cons.mp hp with rfl | hp
    · simp
    · exact dirs_noRight h.2.2.2 p hp
  | .input r rest, h, p, hp => by
    simp only [InoBinds.WF] at h
    rcases List.mem_cons.mp hp with rfl | hp
    · simp
    · exact dirs_noRight h.2 p hp
  | .output r rest, h, _, _ => by simp only [InoBinds.WF] at h

/-- What is written for bindings leaves the pin alone. -/
theorem bound_pin {d : InoDecl} {bs : InoBinds} {w : Nat} (h : bs.WF w) (r : InoRegs) (ext : InoNet → Nat → InoTri) (b : Nat) :
    ∀ t ∈ stmDrivers r ext (writeInoAll false d bs.dirs) .pin b, t = .z := by
  intro t ht
  unfold stmDrivers writeInoAll at ht
  obtain ⟨s, hs, rfl⟩ := List.mem_map.mp ht
  obtain ⟨hs, _⟩ := List.mem_filter.mp hs
  obtain ⟨p, hp, hs⟩ := List.mem_flatMap.mp hs
  have hr := dirs_noRight h p (inoRecord_mem hp)
  obtain ⟨rg, dir⟩ := p
  cases dir with
  | right => exact absurd rfl hr
  | bidir => cases hs
  | left =>
    cases rg with
    | none => cases hs
    | some fn =>
      obtain ⟨f, n⟩ := fn
      simp only [writeInoBound, Bool.false_eq_true, not_false_eq_true, if_true] at hs
      obtain ⟨k, _, rfl⟩ := List.mem_map.mp hs
      rfl

/-- Bits outside of all ranges. -/
theorem binds_out {split : Bool} {w b : Nat} (hb : b < w) : ∀ {bs : InoBinds}, (∀ r, bs.Has r → ¬ InRange w r b) → ∀ n, bs.drivers split n b = []
  | .nil, _, n => rfl
  | .input r rest, h, n => by
    rw [InoBinds.drivers]
    exact binds_out (bs := rest) hb (fun r' hr' => h r' hr') n
  | .output r rest, h, n => by
    rw [InoBinds.drivers]
    exact binds_out (bs := rest) hb (fun r' hr' => h r' hr') n
  | .bidir r t rest, h, n => by
    rw [InoBinds.drivers, binds_out hb (fun r' hr' => h r' (.inr hr')) n, List.append_nil, List.flatMap_eq_nil_iff]
    have h1 := h r (.inl rfl)
    intro c _
    cases r with
    | none => exact absurd ⟨hb, fun _ _ h => by cases h⟩ h1
    | some fn =>
      obtain ⟨f, k⟩ := fn
      have : ¬ (f ≤ b ∧ b < f + k) := fun hh => h1 ⟨hb, fun f' n' e => by cases e; exact hh⟩
      simp [this]

theorem owners_in {w : Nat} : ∀ {bs : InoBinds} {b k b' : Nat} {path : List Nat} {d : InoDecl} {u : InoUse} {r : InoRegs}, InoOwners w bs b k path d u r b' →
    ∃ rg, bs.Has rg ∧ InRange w rg b
  | .nil, _, _, _, _, _, _, _, h => by cases h
  | .input _ rest, _, _, _, _, _, _, _, h => by
    cases h with
    | input h =>
      obtain ⟨rg', h1, h2⟩ := owners_in h
      exact ⟨rg', h1, h2⟩
  | .output _ rest, _, _, _, _, _, _, _, h => by
    cases h with
    | output h =>
      obtain ⟨rg', h1, h2⟩ := owners_in h
      exact ⟨rg', h1, h2⟩
  | .bidir rg t rest, _, _, _, _, _, _, _, h => by
    cases h with
    | here hr h => exact ⟨rg, .inl rfl, hr⟩
    | bidir h =>
      obtain ⟨rg', h1, h2⟩ := owners_in h
      exact ⟨rg', .inr h1, h2⟩

theorem child_bit {w : Nat} {rg : Option (Nat × Nat)} {t : InoTree} (hw : match rg with
        | none => t.decl.width = w
        | some (f, n) => t.decl.width = n ∧ f + n ≤ w) {b : Nat} (hr : InRange w rg b) : b - rangeFirst rg < t.decl.width ∧ rangeFirst rg ≤ b := by
  cases rg with
  | none => simp only at hw; rw [hw]; exact ⟨hr.1, Nat.zero_le _⟩
  | some fn =>
    obtain ⟨f, n⟩ := fn
    simp only at hw
    obtain ⟨h1, h2⟩ := hr.2 f n rfl
    simp only [rangeFirst]
    omega

/-- Drivers of a bit through a binding in range. -/
theorem bidir_in {split : Bool} {w b : Nat} {rg : Option (Nat × Nat)} {t : InoTree} {rest : InoBinds} (hr : InRange w rg b) (n : InoNet) :
    (InoBinds.bidir rg t rest).drivers split n b =
      ((inoConnects split).flatMap fun c => if c.2 = n then t.drivers split c.1 (b - rangeFirst rg) else []) ++ rest.drivers split n b := by
  rw [InoBinds.drivers]
  cases rg with
  | none => rfl
  | some fn =>
    obtain ⟨f, k⟩ := fn
    simp only [rangeFirst, if_pos (hr.2 f k rfl)]

theorem bidir_out {split : Bool} {w b : Nat} (hb : b < w) {rg : Option (Nat × Nat)} {t : InoTree} {rest : InoBinds} (hr : ¬ InRange w rg b) (n : InoNet) :
    (InoBinds.bidir rg t rest).drivers split n b = rest.drivers split n b := by
  rw [InoBinds.drivers]
  cases rg with
  | none => exact absurd ⟨hb, fun _ _ h => by cases h⟩ hr
  | some fn =>
    obtain ⟨f, k⟩ := fn
    have : ¬ (f ≤ b ∧ b < f + k) := fun hh => hr ⟨hb, fun f' n' e => by cases e; exact hh⟩
    simp [this]

mutual
/-- Standard inouts: the pin. -/
theorem tree_pin : ∀ (t : InoTree), t.WF → ∀ b, b < t.decl.width →
    (∀ path d u r b', InoOwner t b path d u r b' → resolveAll (t.drivers false .pin b) = inoDriven d u r b') ∧
    ((∀ path d u r b', ¬ InoOwner t b path d u r b') → ∀ y ∈ t.drivers false .pin b, y = .z)
  | .used d u r, _, b, hb => by
    rw [InoTree.drivers, used_pin d u r _ hb]
    refine ⟨?_, fun h => absurd (.used hb) (h [] d u r b)⟩
    intro path d' u' r' b' h
    cases h
    simp [resolveAll, join_z]
  | .bound d r bs, hw, b, hb => by
    simp only [InoTree.WF] at hw
    have hz := bound_pin (d := d) hw r (fun _ _ => .x) b
    have ih := binds_pin d.width bs hw b hb
    rw [InoTree.drivers]
    constructor
    · intro path d' u' r' b' h
      cases h with
      | bound h =>
        rw [resolveAll_zl hz]
        exact ih.1 _ _ _ _ _ _ h
    · intro h y hy
      rcases List.mem_append.mp hy with hy | hy
      · exact hz y hy
      · exact ih.2 (fun k path d' u' r' b' ho => h (k :: path) d' u' r' b' (.bound ho)) y hy
theorem binds_pin : ∀ (w : Nat) (bs : InoBinds), bs.WF w → ∀ b, b < w →
    (∀ k path d u r b', InoOwners w bs b k path d u r b' → resolveAll (bs.drivers false .pin b) = inoDriven d u r b') ∧
    ((∀ k path d u r b', ¬ InoOwners w bs b k path d u r b') → ∀ y ∈ bs.drivers false .pin b, y = .z)
  | w, .nil, _, b, _ => by
    constructor
    · intro _ _ _ _ _ _ h; cases h
    · intro _ y hy; rw [InoBinds.drivers] at hy; cases hy
  | w, .input rg rest, hw, b, hb => by
    simp only [InoBinds.WF] at hw
    have ih := binds_pin w rest hw.2 b hb
    rw [InoBinds.drivers]
    exact ⟨fun k path d u r b' h => by
      cases h with
      | input h => exact ih.1 _ _ _ _ _ _ h, fun h => ih.2 fun k path d u r b' ho => h (k + 1) path d u r b' (.input ho)⟩
  | w, .output rg rest, hw, b, hb => by simp only [InoBinds.WF] at hw
  | w, .bidir rg t rest, hw, b, hb => by
    simp only [InoBinds.WF] at hw
    obtain ⟨h1, h2, h3, h4⟩ := hw
    by_cases hr : InRange w rg b
    · have hout := binds_out (split := false) hb (h2 b hr) .pin
      have hno : ∀ k path d u r b', ¬ InoOwners w rest b k path d u r b' := by
        intro k path d u r b' ho
        obtain ⟨rg', g1, g2⟩ := owners_in ho
        exact h2 b hr rg' g1 g2
      have ih := tree_pin t h1 (b - rangeFirst rg) (child_bit h3 hr).1
      rw [bidir_in hr, hout, List.append_nil]
      simp only [inoConnects, Bool.false_eq_true, not_false_eq_true, if_true, List.flatMap_cons, List.flatMap_nil, List.append_nil]
      constructor
      · intro k path d u r b' h
        cases h with
        | here _ h => exact ih.1 _ _ _ _ _ h
        | bidir h => exact absurd h (hno _ _ _ _ _ _)
      · intro h
        exact ih.2 fun path d u r b' ho => h 0 path d u r b' (.here hr ho)
    · have ih := binds_pin w rest h4 b hb
      rw [bidir_out hb hr]
      constructor
      · intro k path d u r b' h
        cases h with
        | here hr' _ => exact absurd hr' hr
        | bidir h => exact ih.1 _ _ _ _ _ _ h
      · intro h
        exact ih.2 fun k path d u r b' ho => h (k + 1) path d u r b' (.bidir ho)
end

theorem noInput_all {d : InoDecl} {split : Bool} {w : Nat} {bs : InoBinds} (hw : bs.WF w) (hn : bs.NoInput) : writeInoAll split d bs.dirs = [] := by
  have key : ∀ {bs : InoBinds}, bs.WF w → bs.NoInput → ∀ p ∈ bs.dirs, p.2 = .bidir := by
    intro bs
    induction bs using InoBinds.rec (motive_1 := fun _ => True) with
    | used => trivial
    | bound => trivial
    | nil => intro _ _ p hp; cases hp
    | bidir rg t rest _ ih =>
      intro h1 h2 p hp
      simp only [InoBinds.WF] at h1
      simp only [InoBinds.NoInput] at h2
      rcases List.mem_cons.mp hp with rfl | hp
      · rfl
      · exact ih h1.2.2.2 h2.2 p hp
    | input rg rest ih =>
      intro _ h2
      simp only [InoBinds.NoInput] at h2
    | output rg rest ih =>
      intro h1
      simp only [InoBinds.WF] at h1
  unfold writeInoAll
  rw [List.flatMap_eq_nil_iff]
  intro p hp
  have := key hw hn p (inoRecord_mem hp)
  obtain ⟨rg, dir⟩ := p
  simp only at this
  subst this
  rfl

mutual
/-- Split inouts: the ports `_oe` and `_o`. -/
theorem tree_split : ∀ (t : InoTree), t.WF → t.NoInput → ∀ b, b < t.decl.width → ∀ path d u r b', InoOwner t b path d u r b' → (u.o = true ∨ u.oenable = true) →
    t.drivers true .oe b = [.v (u.oenable && r.oenableQ b')] ∧ t.drivers true .o b = [.v (u.o && (if d.comb then r.oD b' else r.oQ b'))]
  | .used d u r, _, _, b, hb, path, d', u', r', b', h, hu => by
    cases h
    rw [InoTree.drivers, InoTree.drivers]
    exact used_split d u r _ hb hu
  | .bound d r bs, hw, hn, b, hb, path, d', u', r', b', h, hu => by
    simp only [InoTree.WF] at hw
    simp only [InoTree.NoInput] at hn
    rw [InoTree.drivers, InoTree.drivers, noInput_all hw hn]
    cases h with
    | bound h => exact binds_split d.width bs hw hn b hb _ _ _ _ _ _ h hu
theorem binds_split : ∀ (w : Nat) (bs : InoBinds), bs.WF w → bs.NoInput → ∀ b, b < w → ∀ k path d u r b', InoOwners w bs b k path d u r b' → (u.o = true ∨ u.oenable = true) →
    bs.drivers true .oe b = [.v (u.oenable && r.oenableQ b')] ∧ bs.drivers true .o b = [.v (u.o && (if d.comb then r.oD b' else r.oQ b'))]
  | w, .nil, _, _, b, _, _, _, _, _, _, _, h, _ => by cases h
  | w, .input rg rest, _, hn, _, _, _, _, _, _, _, _, _, _ => by simp only [InoBinds.NoInput] at hn
  | w, .output rg rest, hw, _, _, _, _, _, _, _, _, _, _, _ => by simp only [InoBinds.WF] at hw
  | w, .bidir rg t rest, hw, hn, b, hb, k, path, d, u, r, b', h, hu => by
    simp only [InoBinds.WF] at hw
    simp only [InoBinds.NoInput] at hn
    obtain ⟨h1, h2, h3, h4⟩ := hw
    cases h with
    | here hr h =>
      have ih := tree_split t h1 hn.1 _ (child_bit h3 hr).1 _ _ _ _ _ h hu
      rw [bidir_in hr, bidir_in hr, binds_out hb (h2 b hr), binds_out hb (h2 b hr)]
      simpa [inoConnects] using ih
    | bidir h =>
      have hr : ¬ InRange w rg b := by
        intro hr
        obtain ⟨rg', g1, g2⟩ := owners_in h
        exact h2 b hr rg' g1 g2
      rw [bidir_out hb hr, bidir_out hb hr]
      exact binds_split w rest h4 hn.2 b hb _ _ _ _ _ _ h hu
end

theorem portOf_pin (rg : Option (Nat × Nat)) (ext : InoNet → Nat → InoTri) (b : Nat) : portOf false rg ext .pin b = ext .pin (rangeFirst rg + b) := by
  simp [portOf, inoConnects, resolveAll, join_z]

theorem portOf_i (rg : Option (Nat × Nat)) (ext : InoNet → Nat → InoTri) (b : Nat) : portOf true rg ext .i b = ext .i (rangeFirst rg + b) := by
  simp [portOf, inoConnects, resolveAll, join_z]

mutual
/-- The wire `x_i`. -/
theorem tree_wireI (split : Bool) : ∀ (t : InoTree), ∀ b path d u r b' (ext : InoNet → Nat → InoTri), InoOwner t b path d u r b' → u.i = true →
    t.wireI split path ext b' = [ext (if split then .i else .pin) b]
  | .used d u r, b, path, d', u', r', b', ext, h, hu => by
    cases h with
    | used hb => exact used_wireI split d u r ext hb hu
  | .bound d r bs, b, path, d', u', r', b', ext, h, hu => by
    cases h with
    | bound h => exact binds_wireI split d.width bs b _ _ _ _ _ _ ext h hu
theorem binds_wireI (split : Bool) : ∀ (w : Nat) (bs : InoBinds), ∀ b k path d u r b' (ext : InoNet → Nat → InoTri), InoOwners w bs b k path d u r b' → u.i = true →
    bs.wireI split k path ext b' = [ext (if split then .i else .pin) b]
  | w, .nil, b, k, path, d, u, r, b', ext, h, hu => by cases h
  | w, .input rg rest, b, k, path, d, u, r, b', ext, h, hu => by
    cases h with
    | input h =>
      simp only [InoBinds.wireI]
      exact binds_wireI split w rest _ _ _ _ _ _ _ ext h hu
  | w, .output rg rest, b, k, path, d, u, r, b', ext, h, hu => by
    cases h with
    | output h =>
      simp only [InoBinds.wireI]
      exact binds_wireI split w rest _ _ _ _ _ _ _ ext h hu
  | w, .bidir rg t rest, b, k, path, d, u, r, b', ext, h, hu => by
    cases h with
    | here hr h =>
      simp only [InoBinds.wireI]
      rw [tree_wireI split t _ _ _ _ _ _ _ h hu]
      have hle : rangeFirst rg ≤ b := by
        cases rg with
        | none => exact Nat.zero_le _
        | some fn => exact (hr.2 _ _ rfl).1
      cases split
      · simp [portOf_pin, Nat.add_sub_cancel' hle]
      · simp [portOf_i, Nat.add_sub_cancel' hle]
    | bidir h =>
      simp only [InoBinds.wireI]
      exact binds_wireI split w rest _ _ _ _ _ _ _ ext h hu
end

/-- Text of a connection. -/
theorem inoPortText_eq (split : Bool) (base access : List Char) (hb : '[' ∉ base) (ha : access = [] ∨ access.head? = some '[') :
    inoPortText split (base ++ access) = if ¬ split then [base ++ access] else [base ++ "_oe".toList ++ access, base ++ "_o".toList ++ access, base ++ "_i".toList ++ access] := by
  have h1 : ∀ c ∈ base, (decide (c ≠ '[')) = true := fun c hc => by
    have : c ≠ '[' := fun h => hb (h ▸ hc)
    simpa using this
  have h2 : access.takeWhile (· ≠ '[') = [] ∧ access.dropWhile (· ≠ '[') = access := by
    rcases ha with rfl | ha
    · simp
    · cases access with
      | nil => simp
      | cons c cs =>
        simp only [List.head?_cons, Option.some.injEq] at ha
        subst ha
        simp
  unfold inoPortText
  rw [List.takeWhile_append_of_pos h1, List.dropWhile_append_of_pos h1, h2.1, h2.2, List.append_nil]

end Silice
