import Verif.Lemmas.Init

/-!
C69: variables have the values given in their declarations.
-/

set_option autoImplicit false

namespace Silice
variable {V R E : Type}

/-- For every list of declarations, every way the variables are kept that fits the program, every program, every history of cycles, of resets and of starts, and whatever registers, temporaries and
constants hold where they are not initialised: when the source only reads variables whose value is known, the module does what the source does. Variables declared with `=` are known after a reset
cycle or one in which the unit is not started, and from the start of the block they are declared in; those declared with `(v)` from configuration on; both until they are assigned.
Missing: `sameas` variables with a value of their own, tables that are initialised in part. -/
theorem C69_values_partial {ds : List (VarDecl V)} {u : VarSet V} {z : V} {force : Bool} (hg : gatherVars force ds = some u.vars) (hs : ∀ d ∈ ds, d.SameValue z ∧ d.FullTable)
    {body : E → R → CycProg V R} {ctl : Bool → Bool → R → R} (hf : ∀ e r, (body e r).Fits u z ds fun _ _ => False) (is : List (CycIn E V)) (any : VarSides V) {r0 r' : R} {σ' : VarStore V}
    (h : srcHistory z ds force u.kind body ctl is (r0, srcConfig z ds force) = some (r', σ')) : ∃ s', unitFrom u z body ctl r0 any is = some (r', s') := by
  obtain ⟨h1, h2⟩ := gatherVars_spec (z := z) hg hs
  obtain ⟨s', h3, _⟩ := unitFrom_spec ⟨h1, h2, fun d hd => (hs d hd).2⟩ hf is any h
  exact ⟨s', h3⟩

/-- The registers of variables that are read hold the known values after each cycle. -/
theorem C69_registers_partial {ds : List (VarDecl V)} {u : VarSet V} {z : V} {force : Bool} (hg : gatherVars force ds = some u.vars) (hs : ∀ d ∈ ds, d.SameValue z ∧ d.FullTable)
    {body : E → R → CycProg V R} {ctl : Bool → Bool → R → R} (hf : ∀ e r, (body e r).Fits u z ds fun _ _ => False) (is : List (CycIn E V)) (any : VarSides V) {r0 r' : R} {σ' : VarStore V}
    (h : srcHistory z ds force u.kind body ctl is (r0, srcConfig z ds force) = some (r', σ')) :
    ∃ s', unitFrom u z body ctl r0 any is = some (r', s') ∧ ∀ x i v, u.writeOnly x = false → σ' x i = some v → (u.kept x = .ff → s'.q x i = v) ∧ (u.kept x = .const → s'.c x i = v) := by
  obtain ⟨h1, h2⟩ := gatherVars_spec (z := z) hg hs
  obtain ⟨s', h3, h4⟩ := unitFrom_spec ⟨h1, h2, fun d hd => (hs d hd).2⟩ hf is any h
  exact ⟨s', h3, fun x i v hw hv => ⟨fun hk => h4.ff x hk hw i v hv, fun hk => h4.const x hk i v hv⟩⟩

/-- Declarations without initialisation are refused, all others are accepted. -/
theorem C69_initializer_mandatory (force : Bool) : ∀ (ds : List (VarDecl V)), (∃ vs, gatherVars force ds = some vs) ↔ ∀ d ∈ ds, d.init ≠ .absent
  | [] => by simp [gatherVars]
  | d :: ds => by
    have ih := C69_initializer_mandatory force ds
    have hd : (∃ v, gatherVar d = some v) ↔ d.init ≠ .absent := by
      unfold gatherVar
      cases d.init <;> simp
    constructor
    · rintro ⟨vs, h⟩
      simp only [gatherVars, Option.bind_eq_bind, Option.bind_eq_some_iff, Option.pure_def, Option.some.injEq] at h
      obtain ⟨v, h1, vs', h2, _⟩ := h
      intro d' hd'
      rcases List.mem_cons.mp hd' with rfl | hd'
      · exact hd.mp ⟨v, h1⟩
      · exact ih.mp ⟨vs', h2⟩ d' hd'
    · intro h
      obtain ⟨v, h1⟩ := hd.mpr (h d List.mem_cons_self)
      obtain ⟨vs, h2⟩ := ih.mpr fun d' hd' => h d' (List.mem_cons_of_mem _ hd')
      exact ⟨forceReset force v :: vs, by simp [gatherVars, h1, h2]⟩

/-! A unit: `uint8 a = 5; uint8 b(7); uint8 c = 9;` outermost, then in the loop of the algorithm a block with `uint8 t = 3; uint8 k[2] = {1,2};`. In each cycle `t` is added to `a`, `b` is
increased, and entry 1 of `k` becomes the sum. Values are natural numbers; the result of a cycle is what was read. -/

def exInitDecls : List (VarDecl Nat) := [⟨0, .set 5, none⟩, ⟨0, .cstr 7, none⟩, ⟨0, .set 9, none⟩, ⟨1, .set 3, none⟩, ⟨1, .table 2 [1, 2], none⟩]

def exInitSet (force : Bool) : VarSet Nat :=
  { kind := ⟨false, false⟩
    vars := (gatherVars force exInitDecls).elim [] id
    kept := fun x => if x = 2 then .const else if x = 3 then .temp else .ff
    writeOnly := fun _ => false }

def exInitBody (_ : Unit) (_ : List Nat) : CycProg Nat (List Nat) :=
  .read 1 0 fun b => .write 1 0 (b + 1) <| .read 2 0 fun c => .enter 1 <| .read 3 0 fun t => .read 0 0 fun a => .write 0 0 (a + t) <|
    .read 4 1 fun k => .write 4 1 (a + t) <| .write 3 0 0 <| .done [a, b, c, t, k]

def exInitCyc (rst run : Bool) : CycIn Unit Nat := ⟨(), rst, run, fun _ _ => 77⟩

theorem exInit_given (force : Bool) : gatherVars force exInitDecls = some (exInitSet force).vars := by cases force <;> rfl

theorem exInit_ok : ∀ d ∈ exInitDecls, d.SameValue 0 ∧ d.FullTable := by
  intro d hd
  simp only [exInitDecls, List.mem_cons, List.not_mem_nil, or_false] at hd
  rcases hd with rfl | rfl | rfl | rfl | rfl <;> refine ⟨?_, ?_⟩ <;> simp [VarDecl.SameValue, VarDecl.FullTable]

theorem exInit_fits (force : Bool) (e : Unit) (r : List Nat) : (exInitBody e r).Fits (exInitSet force) 0 exInitDecls fun _ _ => False := by
  simp only [exInitBody, CycProg.Fits, exInitSet]
  refine ⟨trivial, by simp, fun b => ⟨by simp, ⟨_, rfl, by simp [VarDecl.entries]⟩, trivial, by simp, fun c => ⟨trivial, fun _ => ?_, fun t => ⟨trivial, by simp, fun a => ⟨by simp, ⟨_, rfl, by simp [VarDecl.entries]⟩,
    trivial, by simp, fun k => ⟨by simp, ⟨_, rfl, by simp [VarDecl.entries]⟩, by simp, ⟨_, rfl, by simp [VarDecl.entries]⟩, trivial⟩⟩⟩⟩⟩⟩
  exact Or.inr ⟨_, rfl, rfl, by decide, by simp [VarDecl.OnConfig], rfl⟩

/-- The hypotheses are met. The source: the first cycle reads `a` and is not known if it is not preceded by a reset, so a second unit that only reads in later cycles is used. -/
def exInitBody2 (_ : Unit) (r : List Nat) : CycProg Nat (List Nat) := if r = [] then .done [0] else exInitBody () r

theorem exInit_fits2 (force : Bool) (e : Unit) (r : List Nat) : (exInitBody2 e r).Fits (exInitSet force) 0 exInitDecls fun _ _ => False := by
  unfold exInitBody2
  split
  · trivial
  · exact exInit_fits force () r

/-- Reset, one cycle not started, then three cycles: `a` starts at 5, `b` at 7 and is changed while the unit is not started, `t` is 3 and `k[1]` is 2 each time. -/
theorem exInit_src : (srcHistory 0 exInitDecls false (exInitSet false).kind exInitBody2 (fun _ _ r => r) [exInitCyc true true, exInitCyc false false, exInitCyc false true, exInitCyc false true]
      ([], srcConfig 0 exInitDecls false)).map Prod.fst = some [8, 9, 9, 3, 2] := by decide +kernel

/-- The module does the same from any registers. -/
example (any : VarSides Nat) : ∃ s', unitFrom (exInitSet false) 0 exInitBody2 (fun _ _ r => r) [] any [exInitCyc true true, exInitCyc false false, exInitCyc false true, exInitCyc false true] =
    some ([8, 9, 9, 3, 2], s') := by
  obtain ⟨⟨r, σ⟩, h, rfl⟩ := Option.map_eq_some_iff.mp exInit_src
  exact C69_values_partial (exInit_given false) exInit_ok (exInit_fits2 false) _ any h

/-- With initialisation at reset forced, `b` is 7 again when the unit starts. -/
example : (srcHistory 0 exInitDecls true (exInitSet true).kind exInitBody2 (fun _ _ r => r) [exInitCyc true true, exInitCyc false false, exInitCyc false true, exInitCyc false true]
      ([], srcConfig 0 exInitDecls true)).map Prod.fst = some [8, 8, 9, 3, 2] := by decide +kernel

/-! A `sameas` variable with a value of its own. -/

/-- One variable, read in each cycle. -/
def exSameSet (k : VarKept) (ds : List (VarDecl Nat)) : VarSet Nat := { kind := ⟨false, false⟩, vars := (gatherVars false ds).elim [] id, kept := fun _ => k, writeOnly := fun _ => false }

def exReadY (_ : Unit) (r : List Nat) : CycProg Nat (List Nat) := if r = [] then .done [0] else .read 1 0 fun y => .done [y]

def exReadWriteY (_ : Unit) (r : List Nat) : CycProg Nat (List Nat) := if r = [] then .done [0] else .read 1 0 fun y => .write 1 0 (y + 1) (.done [y])

/-- `uint8 x = 7; sameas(x) y = 3;`: after reset `y` is 7. -/
theorem C69_counterexample_sameas (any : VarSides Nat) :
    let ds : List (VarDecl Nat) := [⟨0, .set 7, none⟩, ⟨0, .set 3, some [7]⟩]
    gatherVars false ds = some (exSameSet .ff ds).vars ∧
    (srcHistory 0 ds false ⟨false, false⟩ exReadWriteY (fun _ _ r => r) [exInitCyc true true, exInitCyc false true] ([], srcConfig 0 ds false)).map Prod.fst = some [3] ∧
    (unitFrom (exSameSet .ff ds) 0 exReadWriteY (fun _ _ r => r) [] any [exInitCyc true true, exInitCyc false true]).map Prod.fst = some [7] :=
  ⟨rfl, by decide +kernel, rfl⟩

/-- `input uint8 i`, then `sameas(i) y = 3;`: after reset `y` is 0. -/
theorem C69_counterexample_sameas_input (any : VarSides Nat) :
    let ds : List (VarDecl Nat) := [⟨0, .setNone, none⟩, ⟨0, .set 3, some []⟩]
    gatherVars false ds = some (exSameSet .ff ds).vars ∧
    (srcHistory 0 ds false ⟨false, false⟩ exReadWriteY (fun _ _ r => r) [exInitCyc true true, exInitCyc false true] ([], srcConfig 0 ds false)).map Prod.fst = some [3] ∧
    (unitFrom (exSameSet .ff ds) 0 exReadWriteY (fun _ _ r => r) [] any [exInitCyc true true, exInitCyc false true]).map Prod.fst = some [0] :=
  ⟨rfl, by decide +kernel, rfl⟩

/-- `uint8 x(7); sameas(x) y(3);` where `y` is only read: it is 7. If it is also assigned it is a register and starts at 3. -/
theorem C69_counterexample_sameas_const (any : VarSides Nat) :
    let ds : List (VarDecl Nat) := [⟨0, .cstr 7, none⟩, ⟨0, .cstr 3, some [7]⟩]
    gatherVars false ds = some (exSameSet .const ds).vars ∧
    (srcHistory 0 ds false ⟨false, false⟩ exReadY (fun _ _ r => r) [exInitCyc true true, exInitCyc false true] ([], srcConfig 0 ds false)).map Prod.fst = some [3] ∧
    (unitFrom (exSameSet .const ds) 0 exReadY (fun _ _ r => r) [] any [exInitCyc true true, exInitCyc false true]).map Prod.fst = some [7] ∧
    (unitFrom (exSameSet .ff ds) 0 exReadWriteY (fun _ _ r => r) [] any [exInitCyc true true, exInitCyc false true]).map Prod.fst = some [3] :=
  ⟨rfl, by decide +kernel, rfl, rfl⟩

end Silice
