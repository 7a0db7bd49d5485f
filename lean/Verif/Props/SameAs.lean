import Verif.Lemmas.SameAs

/-!
# C37: types given by `sameas`
-/

set_option autoImplicit false

namespace Silice

/-- C37, resolution: the loop gives `r` (for some number of turns) exactly when the chain from `x` ends at `r`.
Partial: the names met must not be captured by the rules of the block where the question is asked, see
`C37_counterexample_shadowing`. -/
theorem C37_resolution_partial {e : TypeEnv} {tr : String → String} (hu : e.Unique) (hp : e.PlainInouts)
    (hc : NoCapture tr e) {x r : String} (hx : tr x = x) :
    (∃ fuel, sameAsRoot tr e fuel x = some r) ↔ e.ChainEnd x r := by
  constructor
  · rintro ⟨f, h⟩
    exact sameAsRoot_sound hu hp hc f hx h
  · intro h
    obtain ⟨n, hn⟩ := sameAsRoot_chain hu hp hc hx h
    exact ⟨n, hn n (Nat.le_refl _)⟩

/-- C37, termination: without a cycle, the loop ends within as many turns as there are declarations, plus one. -/
theorem C37_terminates {e : TypeEnv} {tr : String → String} (hu : e.Unique) (hp : e.PlainInouts)
    (hc : NoCapture tr e) (ha : e.Acyclic) {x : String} (hx : tr x = x) :
    ∃ r, sameAsRoot tr e (e.decls.length + 1) x = some r ∧ e.ChainEnd x r := by
  obtain ⟨r, h⟩ := acyclic_fuel hu hp hc ha (e.decls.length + 1) [] x hx (by simp) (by simp) (by simp)
  exact ⟨r, h, sameAsRoot_sound hu hp hc _ hx h⟩

/-- C37, histories: whatever is declared and in whatever order, the loop ends, and in an accepted history what is recorded
for each name not a group is either that its type is its own, or the end of its chain in the source. Partial: no block
renames a name that is the final name of a declaration. -/
theorem C37_history_partial (fuel : Nat) (hf : 2 ≤ fuel) (ds : List TDecl) (hs : NoShadow ds) :
    declareTypes fuel ⟨[], []⟩ ds ≠ .error .loops ∧
    ∀ e, declareTypes fuel ⟨[], []⟩ ds = .ok e → ∀ d ∈ ds, d.name ∉ e.groups →
      (d.type = .direct ∧ (d.name, d.kind, none) ∈ e.decls) ∨
      ∃ r, (d.name, d.kind, some r) ∈ e.decls ∧ SrcEnd ds d.name r ∧
        ∃ d' ∈ ds, d'.name = r ∧ d'.type = .direct := by
  have hi : SameInv ⟨[], []⟩ := ⟨by simp [TypeEnv.Unique], by rintro x y ⟨k, hk⟩; simp at hk, by simp⟩
  refine ⟨declareTypes_ends hf ds hs ds (fun _ h => h) hi (by simp), fun e he d hd hg => ?_⟩
  obtain ⟨hv, hent⟩ := declareTypes_src hf ds hs ds (fun _ h => h) hi ⟨by simp, by simp⟩ (by simp) he
  rcases hent d hd with h | h | ⟨b, r, _, hm⟩
  · exact absurd h hg
  · exact Or.inl h
  · have hend := hv.refer _ _ _ hm
    refine Or.inr ⟨r, hm, hend, ?_⟩
    clear hm
    generalize d.name = x at hend
    induction hend with
    | here h => exact h
    | step _ _ ih => exact ih

/-- `uint8 x; sameas(x) y; sameas(y) z;` at the top, where names keep their name. -/
def exSame : List TDecl :=
  [⟨"x", .var, .direct, [("x", "x")]⟩,
   ⟨"y", .input, .sameas "x", [("x", "x"), ("y", "y")]⟩,
   ⟨"z", .output, .sameas "y", [("x", "x"), ("y", "y"), ("z", "z")]⟩]

/-- The hypothesis of `C37_history_partial` holds for it, it is accepted, and `z` gets the type of `x`. -/
example : NoShadow exSame := by
  unfold NoShadow exSame
  decide +kernel

example : declareTypes 2 ⟨[], []⟩ exSame =
    .ok ⟨[("z", .output, some "x"), ("y", .input, some "x"), ("x", .var, none)], []⟩ := by rfl

/-- A chain of two links, for `C37_resolution_partial` and `C37_terminates`. -/
def exChain : TypeEnv := ⟨[("c", .var, some "b"), ("b", .input, some "a"), ("a", .output, none)], []⟩

example : exChain.Unique ∧ sameAsRoot id exChain 4 "c" = some "a" :=
  ⟨by unfold TypeEnv.Unique exChain; decide +kernel, by rfl⟩

example : exChain.PlainInouts := by
  intro x y h
  simp [exChain] at h

example : exChain.ChainEnd "c" "a" :=
  .step (y := "b") ⟨.var, by simp [exChain]⟩ (.step (y := "a") ⟨.input, by simp [exChain]⟩ (.here (by
    rintro y ⟨k, h⟩
    simp [exChain] at h)))

/-- The references of `exChain` go down the alphabet, so there is no cycle. -/
example : exChain.Acyclic := by
  let rank : String → Nat := fun s => if s = "c" then 2 else if s = "b" then 1 else 0
  have hstep : ∀ x y, exChain.RefersTo x y → rank y < rank x := by
    rintro x y ⟨k, h⟩
    simp only [exChain, List.mem_cons, Prod.mk.injEq, Option.some.injEq, reduceCtorEq, and_false, List.not_mem_nil,
      or_false] at h
    rcases h with ⟨rfl, _, rfl⟩ | ⟨rfl, _, rfl⟩ <;> decide +kernel
  have htrans : ∀ x y, Relation.TransGen exChain.RefersTo x y → rank y < rank x := by
    intro x y h
    induction h with
    | single h => exact hstep _ _ h
    | tail _ h ih => exact Nat.lt_trans (hstep _ _ h) ih
  exact fun x h => Nat.lt_irrefl _ (htrans x x h)

/-- `uint8 x; sameas(x) y;` then, in a block, `uint16 x; sameas(y) z;`. The block is `b`, its variables are renamed. -/
def exShadow : List TDecl :=
  [⟨"x", .var, .direct, [("x", "x")]⟩,
   ⟨"y", .var, .sameas "x", [("x", "x"), ("y", "y")]⟩,
   ⟨"b_x", .var, .direct, [("x", "b_x"), ("y", "y")]⟩,
   ⟨"b_z", .var, .sameas "y", [("x", "b_x"), ("y", "y"), ("z", "b_z")]⟩]

/-- C37 is false when a block redeclares a name that a chain started outside goes through: the last variable should have
the type of the outer `x` (that is where its chain ends), and gets the type of the inner one. -/
theorem C37_counterexample_shadowing :
    SrcEnd exShadow "b_z" "x" ∧
    ∃ e, declareTypes 2 ⟨[], []⟩ exShadow = .ok e ∧ ("b_z", DeclKind.var, some "b_x") ∈ e.decls := by
  refine ⟨.step ⟨_, List.mem_cons_of_mem _ (List.mem_cons_of_mem _ (List.mem_cons_of_mem _ (List.mem_cons_self ..))),
    rfl, "y", rfl, rfl⟩ (.step ⟨_, List.mem_cons_of_mem _ (List.mem_cons_self ..), rfl, "x", rfl, rfl⟩
      (.here ⟨_, List.mem_cons_self .., rfl, rfl⟩)),
    ⟨[("b_z", .var, some "b_x"), ("b_x", .var, none), ("y", .var, some "x"), ("x", .var, none)], []⟩, rfl, by simp⟩

/-- The loop has no check of its own: on names that lead back to themselves it never ends. By `C37_history_partial` no
history of declarations gets there. -/
theorem C37_cycle_never_ends (fuel : Nat) :
    sameAsRoot id ⟨[("a", .var, some "b"), ("b", .var, some "a")], []⟩ fuel "a" = none ∧
    sameAsRoot id ⟨[("a", .var, some "b"), ("b", .var, some "a")], []⟩ fuel "b" = none := by
  induction fuel with
  | zero => exact ⟨rfl, rfl⟩
  | succ f ih =>
    constructor
    · have : sameAsRoot id ⟨[("a", .var, some "b"), ("b", .var, some "a")], []⟩ (f + 1) "a" =
        sameAsRoot id ⟨[("a", .var, some "b"), ("b", .var, some "a")], []⟩ f "b" := by rfl
      rw [this]; exact ih.2
    · have : sameAsRoot id ⟨[("a", .var, some "b"), ("b", .var, some "a")], []⟩ (f + 1) "b" =
        sameAsRoot id ⟨[("a", .var, some "b"), ("b", .var, some "a")], []⟩ f "a" := by rfl
      rw [this]; exact ih.1

end Silice
