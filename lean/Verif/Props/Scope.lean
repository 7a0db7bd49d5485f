import Verif.Lemmas.Scope

/-!
C68: an identifier denotes the declaration in scope.

An identifier denotes the last declaration of it that comes before, in the same block or in one around it; parameters of a subroutine are declared in it, and later stages of a pipeline see
what earlier ones declare. `scStmts` and `scUnit` say so for the source, `gAlgorithm` and `gUnit` are the compiler's gathering.

Partial: identifiers used before a declaration of them in the same sequence, variables of a subroutine named like its parameters, switches in the stages of pipelines and sources that
declare the names the compiler makes are excluded (see the counterexamples). Circuitries, repeat blocks, groups and forward declarations of subroutines are not in the model.
-/

set_option autoImplicit false

namespace Silice

theorem UseRes.resolves {st : ScState} (hw : WFS st) (hn : NamesApart st) {u : Nat × Nat × String} {d : Nat × Option Nat} (h : UseRes st u d) (k : Nat) : Resolves st k u d := by
  obtain ⟨h1, b, hb, h2⟩ := h
  refine ⟨h1, b, hb, ?_, ?_⟩
  · intro e he
    rw [he] at h2
    obtain ⟨v, a1, a2, a3, a4, _⟩ := h2
    exact ⟨v, a1, a2, a3, translate_fix hw hn hb a1 a3 a4 k⟩
  · intro he
    rw [he] at h2
    exact translate_none h2.1 h2.2 k

theorem UseRes.checked {st : ScState} (hw : WFS st) (hn : NamesApart st) {u : Nat × Nat × String} {d : Nat × Option Nat} (h : UseRes st u d) (k : Nat) : Checked st k u d := by
  obtain ⟨_, b, hb, h2⟩ := h
  refine ⟨?_, ?_⟩
  · intro e chk he
    rw [he] at h2
    obtain ⟨v, a1, _, a3, a4, a5⟩ := h2
    unfold useOk
    rw [hb]
    simp only [translate_fix hw hn hb a1 a3 a4 k, Bool.and_eq_true, decide_eq_true_eq, Bool.or_eq_true]
    exact ⟨List.mem_map_of_mem a1, .inr (inScope_of_sees hw a5 _ (getElem?_lt hb))⟩
  · intro chk he hnot
    rw [he] at h2
    unfold useOk
    rw [hb]
    simp only [translate_none h2.1 h2.2 k, Bool.and_eq_false_iff, decide_eq_false_iff_not]
    exact .inl hnot

/-- In an algorithm that is accepted every use of an identifier, in order, resolves to the variable of the declaration it denotes in the source, however often it is translated. -/
theorem C68_algorithm_partial {body : ScStmts} {st : ScState} (h : gAlgorithm body = .ok st) (ho : body.Orderly) (hn : NamesApart st) (k : Nat) :
    List.Forall₂ (Resolves st k) st.uses (scStmts [] body).1 := by
  obtain ⟨hw, hr⟩ := algorithm_out h ho hn
  exact hr.imp fun _ _ h => h.resolves hw hn k

/-- The same for the blocks of a unit: `always_before`, `always_after` and the algorithm see the declarations of the unit, not those of each other. -/
theorem C68_unit_partial {decls : List (Nat × String)} {before after body : ScStmts} {st : ScState} (h : gUnit decls before after body = .ok st) (h1 : before.Orderly)
    (h2 : after.Orderly) (h3 : body.Orderly) (hn : NamesApart st) (k : Nat) : List.Forall₂ (Resolves st k) st.uses (scUnit decls before after body) := by
  obtain ⟨hw, hr⟩ := unit_out h h1 h2 h3 hn
  exact hr.imp fun _ _ h => h.resolves hw hn k

theorem srcOk_init (L X : List String) (S : List (String × Nat × Bool × String)) : SrcOk L X S scInit :=
  ⟨fun b hb => by simp [scInit] at hb; rcases hb with rfl | rfl | rfl <;> simp, fun _ h => (by cases h)⟩

/-- The names the compiler makes are not declared in a source with plain names. -/
theorem C68_names_apart {body : ScStmts} {st : ScState} (h : gAlgorithm body = .ok st) (hp : body.Plain) : NamesApart st := by
  unfold gAlgorithm at h
  split at h
  · cases h
  · rename_i st1 c1 h1
    simp only [Except.ok.injEq] at h
    subst h
    exact (gStmts_src body h1 (fun _ h => h) (fun _ h => h) (fun _ h => h) (srcOk_init _ _ _)).apart hp

theorem C68_unit_names_apart {decls : List (Nat × String)} {before after body : ScStmts} {st : ScState} (h : gUnit decls before after body = .ok st)
    (hp : PlainNames (decls.map Prod.snd ++ before.declares ++ after.declares ++ body.declares) (before.labels ++ after.labels ++ body.labels)
      (before.params ++ after.params ++ body.params)) : NamesApart st := by
  unfold gUnit at h
  split at h
  · cases h
  · rename_i st0 g0
    split at h
    · cases h
    · rename_i st1 c1 g1
      split at h
      · cases h
      · rename_i st2 c2 g2
        split at h
        · cases h
        · rename_i st3 c3 g3
          simp only [Except.ok.injEq] at h
          subst h
          refine SrcOk.apart ?_ hp
          generalize hL : before.labels ++ after.labels ++ body.labels = L
          generalize hX : decls.map Prod.snd ++ before.declares ++ after.declares ++ body.declares = X
          generalize hS : before.params ++ after.params ++ body.params = S
          have q0 : SrcOk L X S st0 := by
            have key : ∀ (ds : List (Nat × String)) {s s' : ScState}, ds.foldlM (fun (st : ScState) d => st.addVar 0 d.1 d.2) s = .ok s' → ds.map Prod.snd ⊆ X → SrcOk L X S s → SrcOk L X S s' := by
              intro ds
              induction ds with
              | nil => intro s s' h _ hq; rw [List.foldlM_nil] at h; cases h; exact hq
              | cons d ds ih =>
                intro s s' h hs hq
                rw [List.foldlM_cons] at h
                cases h1 : s.addVar 0 d.1 d.2 with
                | error e => rw [h1] at h; cases h
                | ok s1 =>
                  rw [h1] at h
                  exact ih h (fun _ hx => hs (List.mem_cons_of_mem _ hx)) (hq.addVar h1 (hs List.mem_cons_self))
            exact key decls g0 (by rw [← hX]; intro x hx; simp [hx]) (srcOk_init _ _ _)
          have q1 := q0.inBlock (fun _ _ _ _ h => gStmts_src before h (by rw [← hL]; intro x hx; simp [hx]) (by rw [← hX]; intro x hx; simp [hx]) (by rw [← hS]; intro x hx; simp [hx])) g1
          have q2 := q1.inBlock (fun _ _ _ _ h => gStmts_src after h (by rw [← hL]; intro x hx; simp [hx]) (by rw [← hX]; intro x hx; simp [hx]) (by rw [← hS]; intro x hx; simp [hx])) g2
          have b1 : body.labels ⊆ L := by rw [← hL]; intro x hx; simp [hx]
          have b2 : body.declares ⊆ X := by rw [← hX]; intro x hx; simp [hx]
          have b3 : body.params ⊆ S := by rw [← hS]; intro x hx; simp [hx]
          refine SrcOk.inBlock (k := fun st c => gStmts { st with pre := true } c body) (fun s c s' c' h hq => ?_) g3 q2
          exact gStmts_src body h b1 b2 b3 (hq.congr rfl rfl)

/-- The claim with conditions on the source only. -/
theorem C68_source_partial {body : ScStmts} {st : ScState} (h : gAlgorithm body = .ok st) (ho : body.Orderly) (hp : body.Plain) (k : Nat) :
    List.Forall₂ (fun use den => Resolves st k use den ∧ Checked st k use den) st.uses (scStmts [] body).1 := by
  have hn := C68_names_apart h hp
  obtain ⟨hw, hr⟩ := algorithm_out h ho hn
  exact hr.imp fun _ _ h => ⟨h.resolves hw hn k, h.checked hw hn k⟩

/-- Uses of what is in scope pass the check of scopes, uses of what is declared nowhere around are refused. -/
theorem C68_checked_partial {body : ScStmts} {st : ScState} (h : gAlgorithm body = .ok st) (ho : body.Orderly) (hn : NamesApart st) (k : Nat) :
    List.Forall₂ (Checked st k) st.uses (scStmts [] body).1 := by
  obtain ⟨hw, hr⟩ := algorithm_out h ho hn
  exact hr.imp fun _ _ h => h.checked hw hn k

theorem C68_unit_checked_partial {decls : List (Nat × String)} {before after body : ScStmts} {st : ScState} (h : gUnit decls before after body = .ok st) (h1 : before.Orderly)
    (h2 : after.Orderly) (h3 : body.Orderly) (hn : NamesApart st) (k : Nat) : List.Forall₂ (Checked st k) st.uses (scUnit decls before after body) := by
  obtain ⟨hw, hr⟩ := unit_out h h1 h2 h3 hn
  exact hr.imp fun _ _ h => h.checked hw hn k

theorem varsKept_names : VarsKept fun vs => vs.Pairwise fun a b => a.name = b.name → ∃ f dir, a.name = paramVar f (a.id, dir, a.base) := by
  refine ⟨fun vs d x n hp hn => List.pairwise_cons.mpr ⟨?_, hp⟩, fun vs f p hp => List.pairwise_cons.mpr ⟨fun _ _ _ => ⟨f, p.2.1, rfl⟩, hp⟩⟩
  intro b hb he
  exact absurd (List.mem_map.mpr ⟨b, hb, he.symm⟩) hn

/-- Different declarations get variables with different names: of two variables with one name, the later has the name of a parameter. For every algorithm that is accepted. -/
theorem C68_names {body : ScStmts} {st : ScState} (h : gAlgorithm body = .ok st) :
    st.vars.Pairwise fun a b => a.name = b.name → ∃ f dir, a.name = paramVar f (a.id, dir, a.base) := by
  unfold gAlgorithm at h
  split at h
  · cases h
  · rename_i st1 c1 h1
    simp only [Except.ok.injEq] at h
    subst h
    exact gStmts_ind varsKept_names body h1 List.Pairwise.nil

/-- Sequence of statements from a list. -/
def scSeq : List ScStmt → ScStmts
  | [] => .nil
  | s :: r => .cons s (scSeq r)

/-- Cases from a list. -/
def scAll : List ScStmts → ScCases
  | [] => .nil
  | s :: r => .cons s (scAll r)

theorem addParams_free : ∀ (ps : List (Nat × Bool × String)) {st st' : ScState} {cur : Nat} {f : String} {io : List (String × String)}, st.addParams cur f ps = .ok (st', io) →
    ∀ p ∈ ps, p.2.2 ∉ st.vars.map ScVar.name
  | [], _, _, _, _, _, _, _, hp => by cases hp
  | q :: ps, st, st', cur, f, io, h, p, hp => by
    rw [ScState.addParams] at h
    split at h
    · cases h
    · rename_i hq
      split at h
      · cases h
      · split at h
        · cases h
        · rename_i st1 io1 h1
          rcases List.mem_cons.mp hp with rfl | hp
          · exact hq
          · have := addParams_free ps h1 p hp
            intro hm
            exact this (by simp only [List.map_cons, List.mem_cons]; exact Or.inr hm)

theorem gStmts_decls_sub (f : String) (ps : List (Nat × Bool × String)) (b : ScStmts) (rest : List ScStmt) (p : Nat × Bool × String) (hp : p ∈ ps) :
    ∀ (ds : List (Nat × String)) {st st' : ScState} {cur' : Nat} {blk : ScBlock}, st.blocks[0]? = some blk → blk.name = "_top" →
      (p.2.2 ∈ ds.map Prod.snd ∨ p.2.2 ∈ st.vars.map ScVar.name) →
      gStmts st 0 (scSeq (ds.map (fun d => ScStmt.decl d.1 d.2) ++ .sub f ps b :: rest)) ≠ .ok (st', cur')
  | [], st, st', cur', blk, hb, hn, hm => by
    intro h
    simp only [List.map_nil, List.not_mem_nil, false_or] at hm
    simp only [List.map_nil, List.nil_append, scSeq, gStmts, gStmt, hb] at h
    split at h
    · cases h
    · rename_i st1 c1 h1
      split at h1
      · cases h1
      · split at h1
        · cases h1
        · split at h1
          · cases h1
          · rename_i h2
            exact addParams_free ps h2 p hp hm
  | d :: ds, st, st', cur', blk, hb, hn, hm => by
    intro h
    simp only [List.map_cons, List.cons_append, scSeq, gStmts, gStmt, ScState.addVar, hb] at h
    split at h
    · cases h
    · rename_i st1 c1 h1
      split at h1
      · cases h1
      · rename_i st2 h2
        split at h2
        · cases h2
        · simp only [Except.ok.injEq] at h2
          simp only [Except.ok.injEq, Prod.mk.injEq] at h1
          obtain ⟨h1, hc⟩ := h1
          subst h1 hc h2
          have hlt : 0 < st.blocks.length := by
            by_contra hx
            rw [List.getElem?_eq_none (by omega)] at hb
            cases hb
          refine gStmts_decls_sub f ps b rest p hp ds (blk := { blk with
            rewrites := (d.2, scVIOName blk.name d.2) :: blk.rewrites, declared := scVIOName blk.name d.2 :: blk.declared }) ?_ hn ?_ h
          · simp [hlt]
          · rcases hm with hm | hm
            · rcases List.mem_cons.mp hm with hm | hm
              · exact Or.inr (by simp [hn, scVIOName, hm])
              · exact Or.inl hm
            · exact Or.inr (by simp only [List.map_cons, List.mem_cons]; exact Or.inr hm)

/-- A subroutine with a parameter named like a variable declared before it is refused. -/
theorem C68_parameter_like_variable (ds : List (Nat × String)) (f : String) (ps : List (Nat × Bool × String)) (b : ScStmts) (rest : List ScStmt) (p : Nat × Bool × String)
    (hp : p ∈ ps) (hd : p.2.2 ∈ ds.map Prod.snd) (st : ScState) : gAlgorithm (scSeq (ds.map (fun d => ScStmt.decl d.1 d.2) ++ .sub f ps b :: rest)) ≠ .ok st := by
  intro h
  unfold gAlgorithm at h
  split at h
  · cases h
  · rename_i st1 c1 h1
    exact gStmts_decls_sub f ps b rest p hp ds (blk := ⟨"_top", none, none, [], []⟩) rfl rfl (Or.inl hd) h1

example : gAlgorithm (scSeq [.decl 0 "x", .decl 1 "y", .sub "f" [(2, true, "z"), (3, false, "x")] .nil]) = .error .collision := by decide +kernel

/-- `uint8 x; x = ...; { x = ...; ++: uint8 x; x = ...; { x = ...; } } x = ...;` and a pipeline whose second stage uses what the first declares, after a subroutine with a parameter `y`. -/
def exScope : ScStmts := scSeq [
  .decl 0 "x",
  .sub "f" [(1, true, "y"), (2, false, "z")] (scSeq [.use 0 "y", .use 1 "z", .use 2 "x", .decl 3 "w", .use 3 "w"]),
  .use 4 "x",
  .block (scSeq [.use 5 "x", .step none, .decl 4 "x", .use 6 "x", .block (scSeq [.use 7 "x"])]),
  .use 8 "x",
  .ifElse (scSeq [.decl 5 "x", .use 9 "x"]) (scSeq [.use 10 "x"]),
  .switch (scAll [scSeq [.decl 6 "x", .use 11 "x"], scSeq [.use 12 "x"]]),
  .loop (scSeq [.decl 7 "v", .use 13 "v"]),
  .pipe (scAll [scSeq [.decl 8 "v", .use 14 "v"], scSeq [.use 15 "v", .decl 9 "x"], scSeq [.use 16 "x"]]),
  .use 17 "x", .use 18 "v"]

/-- What the uses denote. -/
example : (scStmts [] exScope).1 = [(0, some 1), (1, some 2), (2, some 0), (3, some 3), (4, some 0), (5, some 0), (6, some 4), (7, some 4), (8, some 0), (9, some 5), (10, some 0),
    (11, some 6), (12, some 0), (13, some 7), (14, some 8), (15, some 8), (16, some 9), (17, some 0), (18, none)] := by decide +kernel

/-- What an algorithm that is accepted becomes. -/
def scResult (body : ScStmts) : ScState := match gAlgorithm body with
  | .ok st => st
  | .error _ => scInit

/-- The example meets the hypotheses, and the last use is refused. -/
example : ∃ st, gAlgorithm exScope = .ok st ∧ exScope.Orderly ∧ NamesApart st ∧ st.uses.length = 19 ∧ (st.uses.map (useOk st (fun _ => true) 1)).count false = 1 := by
  refine ⟨scResult exScope, by decide +kernel, ?_, ?_, by decide +kernel, by decide +kernel⟩
  · simp [exScope, scSeq, scAll, ScStmts.Orderly, ScStmt.Orderly, ScCases.Orderly, ScCases.NoSwitch, ScStmts.noSwitch, ScStmts.declares, ScStmt.declares, runDecls]
  · unfold NamesApart; decide +kernel

/-- Its names are plain, although there is a label in the next one. -/
example : exScope.Plain ∧ (scSeq [.step (some "foo"), .decl 0 "y", .use 0 "y"]).Plain := by
  refine ⟨?_, ?_⟩ <;> (unfold ScStmts.Plain PlainNames; simp only [← List.mem_append]; decide +kernel)

example : ∃ st, gUnit [(0, "x"), (1, "y")] (scSeq [.use 0 "x", .decl 2 "y", .use 1 "y"]) (scSeq [.use 2 "y"]) (scSeq [.decl 3 "x", .use 3 "x", .use 4 "y"]) = .ok st ∧ NamesApart st ∧
    st.uses.length = 5 ∧ st.uses.all (useOk st (fun _ => true) 0) = true := by
  refine ⟨(match gUnit [(0, "x"), (1, "y")] (scSeq [.use 0 "x", .decl 2 "y", .use 1 "y"]) (scSeq [.use 2 "y"]) (scSeq [.decl 3 "x", .use 3 "x", .use 4 "y"]) with
    | .ok st => st
    | .error _ => scInit), by decide +kernel, ?_, by decide +kernel, by decide +kernel⟩
  unfold NamesApart; decide +kernel

/-- Names that uses resolve to. -/
def scNames (body : ScStmts) (k : Nat) : List (Nat × String) :=
  (scResult body).uses.map fun u => (u.2.1, match (scResult body).blocks[u.1]? with
    | some b => translateTimes b k u.2.2
    | none => "")

/-- Declarations and names. -/
def scVars (body : ScStmts) : List (Nat × String) := (scResult body).vars.map fun v => (v.id, v.name)

/-- `uint8 x = 0; { x = 1; uint8 x = 5; }`: the assignment, which comes before the declaration in the block, is to the variable of the block. The compiler accepts. -/
theorem C68_counterexample_use_before_declaration :
    let body := scSeq [.decl 0 "x", .block (scSeq [.use 0 "x", .decl 1 "x"])]
    gAlgorithm body = .ok (scResult body) ∧ (scResult body).uses.all (useOk (scResult body) (fun _ => true) 1) = true ∧ (scStmts [] body).1 = [(0, some 0)] ∧
      scVars body = [(1, "__block_1_x"), (0, "x")] ∧ scNames body 1 = [(0, "__block_1_x")] := by
  decide +kernel

/-- A subroutine with a parameter `y` that declares a variable `y`: uses after the declaration are still of the parameter, and the variable is never used. -/
theorem C68_counterexample_parameter_hides_local :
    let body := scSeq [.sub "f" [(0, true, "y")] (scSeq [.decl 1 "y", .use 0 "y"])]
    gAlgorithm body = .ok (scResult body) ∧ (scResult body).uses.all (useOk (scResult body) (fun _ => true) 1) = true ∧ (scStmts [] body).1 = [(0, some 1)] ∧
      scVars body = [(1, "__sub_f_y"), (0, "i_f_y")] ∧ scNames body 1 = [(0, "i_f_y")] := by
  decide +kernel

/-- A label `foo:` after which `y` is declared, then a block that declares `foo_y`: in the block, `y` when read is the variable `y`; when written it is translated again and is `foo_y`. -/
theorem C68_counterexample_translated_twice :
    let body := scSeq [.step (some "foo"), .decl 0 "y", .block (scSeq [.decl 1 "foo_y", .use 0 "y"])]
    gAlgorithm body = .ok (scResult body) ∧ (scResult body).uses.all (useOk (scResult body) (fun _ => true) 1) = true ∧ (scStmts [] body).1 = [(0, some 0)] ∧
      scVars body = [(1, "__block_1_foo_y"), (0, "foo_y")] ∧ scNames body 0 = [(0, "foo_y")] ∧ scNames body 1 = [(0, "__block_1_foo_y")] := by
  decide +kernel

/-- The name the compiler makes can be used in the source, also where it denotes nothing: after the label `foo:` the variable `y` is also `foo_y`. -/
theorem C68_counterexample_made_name_used :
    let body := scSeq [.step (some "foo"), .decl 0 "y", .use 0 "foo_y"]
    gAlgorithm body = .ok (scResult body) ∧ (scResult body).uses.all (useOk (scResult body) (fun _ => true) 1) = true ∧ (scStmts [] body).1 = [(0, none)] ∧ scVars body = [(0, "foo_y")] ∧ scNames body 1 = [(0, "foo_y")] := by
  decide +kernel

/-- Two declarations with different identifiers in different places are refused as a redeclaration: `c` after the label `a_b:` and `b_c` after the label `a:`. -/
theorem C68_counterexample_labels_collide : gAlgorithm (scSeq [.step (some "a_b"), .decl 0 "c", .step (some "a"), .decl 1 "b_c"]) = .error .collision := by decide +kernel

/-- A variable `i_f_y` of the algorithm and the parameter `y` of a subroutine `f` are one variable. -/
theorem C68_counterexample_parameter_variable :
    let body := scSeq [.decl 0 "i_f_y", .sub "f" [(1, true, "y")] (scSeq [.use 0 "y"]), .use 1 "i_f_y"]
    gAlgorithm body = .ok (scResult body) ∧ (scResult body).uses.all (useOk (scResult body) (fun _ => true) 1) = true ∧ (scStmts [] body).1 = [(0, some 1), (1, some 0)] ∧
      scVars body = [(1, "i_f_y"), (0, "i_f_y")] ∧ scNames body 0 = [(0, "i_f_y"), (1, "i_f_y")] := by
  decide +kernel

/-- A stage with a switch and a declaration after it: the next stage starts from inside the last case, and its use of the variable is refused as never declared. -/
theorem C68_counterexample_stage_after_switch :
    let body := scSeq [.decl 0 "x", .pipe (scAll [scSeq [.switch (scAll [scSeq [.use 0 "x"]]), .decl 1 "y"], scSeq [.use 1 "y"]])]
    gAlgorithm body = .ok (scResult body) ∧ (scResult body).uses.map (useOk (scResult body) (fun _ => false) 1) = [true, false] ∧ (scStmts [] body).1 = [(0, some 0), (1, some 1)] := by
  decide +kernel

/-- `{ foo: uint8 y = 0; } { foo_y = 1; }`: the variable, which the compiler calls `foo_y`, is used where it is not in scope. The block of the use has
no state number, so that the check of scopes passes over it; it would have refused the use. -/
theorem C68_counterexample_scope_unchecked :
    let body := scSeq [.block (scSeq [.step (some "foo"), .decl 0 "y"]), .block (scSeq [.use 0 "foo_y"])]
    gAlgorithm body = .ok (scResult body) ∧ (scResult body).uses.all (useOk (scResult body) (fun _ => false) 1) = true ∧
      (scResult body).uses.all (useOk (scResult body) (fun _ => true) 1) = false ∧ (scStmts [] body).1 = [(0, none)] := by
  decide +kernel

end Silice
