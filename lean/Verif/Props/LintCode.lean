import Verif.Lemmas.LintCode
import Verif.Props.Permission

/-!
# C78: doubtful expressions and assignments are reported

Mistakes and what Verilog makes of them are in Spec/LintCode.lean.
-/

set_option autoImplicit false

namespace Silice

/-- C78: the warnings given for an expression are those to be given for it and for all expressions in it. -/
theorem C78_expressions (e : Expr) (t : TypeNfo) (ws : List LintWarn) (h : lintExpr e = some (t, ws)) (w : LintWarn) :
    w ∈ ws ↔ ∃ s, SubOf s e ∧ Fault w s := lintExpr_mem w e t ws h

/-- C78: an expression is refused exactly when it has no type (C07: a concatenation of parts of unknown width). -/
theorem C78_refused (e : Expr) : lintExpr e = none ↔ typeNfo e = none := by
  rw [← lintExpr_type]
  cases lintExpr e <;> simp

/-- `(a < b) ? c : {d, e}` with `a`, `d` of type `int8`, the others `uint8`. -/
def exLint : Expr :=
  .tern (.bin .lt (.var ⟨.int, 8⟩ "a") (.var ⟨.uint, 8⟩ "b")) (.var ⟨.uint, 8⟩ "c") (.concat [.var ⟨.int, 8⟩ "d", .var ⟨.uint, 8⟩ "e"])

example : lintExpr exLint = some (⟨.uint, 16⟩, [.cmpSigns, .concatSigns, .ternWidths, .ternSigns]) := by decide +kernel

/-- C78: when no warning is given about signs, all comparisons in the expression are those of the numbers the operands stand for. -/
theorem C78_comparisons (e : Expr) (t : TypeNfo) (ws : List LintWarn) (h : lintExpr e = some (t, ws)) (hw : .cmpSigns ∉ ws)
    (op : BinOp) (a b : Expr) (hs : SubOf (.bin op a b) e) (hop : op.Compares) (ta tb : TypeNfo) (ha : typeNfo a = some ta) (hb : typeNfo b = some tb)
    (x y : Int) (hx : ta.Holds x) (hy : tb.Holds y) :
    verilogCmp op ta tb (bitsOf ta.width x) (bitsOf tb.width y) = opValue op x y := by
  have hbt : ta.bt = tb.bt := by
    by_contra hne
    exact hw ((lintExpr_mem _ e t ws h).mpr ⟨_, hs, .compare hop ha hb hne⟩)
  have h1 := readBits_bitsOf hx
  have h2 := readBits_bitsOf hy
  unfold verilogCmp
  have e1 : decide (ta.bt = .int ∧ tb.bt = .int) = decide (ta.bt = .int) := by rw [hbt]; simp
  have e2 : decide (ta.bt = .int) = decide (tb.bt = .int) := by rw [hbt]
  simp only [e1]
  rw [h1, e2, h2]

example : lintExpr (.bin .lt (.var ⟨.int, 8⟩ "a") (.var ⟨.int, 4⟩ "b")) = some (⟨.uint, 1⟩, []) ∧
    TypeNfo.Holds ⟨.int, 8⟩ (-100) ∧ TypeNfo.Holds ⟨.int, 4⟩ 7 ∧ BinOp.lt.Compares := by
  refine ⟨by decide +kernel, ?_, ?_, by simp [BinOp.Compares]⟩ <;> simp [TypeNfo.Holds]

/-- C78: the warning is needed: a comparison of a signed and an unsigned operand, of any widths, is wrong for some values. -/
theorem C78_comparison_warning_needed (v w : Nat) (hv : 0 < v) :
    TypeNfo.Holds ⟨.int, v⟩ (-1) ∧ TypeNfo.Holds ⟨.uint, w⟩ 0 ∧
      verilogCmp .lt ⟨.int, v⟩ ⟨.uint, w⟩ (bitsOf v (-1)) (bitsOf w 0) ≠ opValue .lt (-1) 0 := by
  have hp : (0:Int) < 2 ^ (v - 1) := by positivity
  have hq : (0:Int) < 2 ^ v := by positivity
  have hr : (0:Int) < 2 ^ w := by positivity
  refine ⟨by simp only [TypeNfo.Holds, Int.toNat_natCast]; omega, by simp only [TypeNfo.Holds, Int.toNat_natCast]; omega, ?_⟩
  have h1 : 0 ≤ (-1 : Int) % 2 ^ v := Int.emod_nonneg _ (by omega)
  simp [verilogCmp, readBits, bitsOf, opValue, b2i, h1]

/-! ### Assignments -/

/-- An assignment keeps its value if no warning is given about it. -/
def SilentAssignKeeps (trackers : List String) (x : String) (l : TypeNfo) (e : Expr) : Prop :=
  ∀ rv ws, typeNfo e = some rv → lintAssign trackers x (some l) false e = .ok ws → LintWarn.assignSigned ∉ ws → LintWarn.assignWidth ∉ ws →
    ∀ v, rv.Holds v → storedAs l v = v

/-- C78, partial: an assignment about which no warning is given keeps the value of the expression, if what is assigned is not narrower, and is wider
when it is signed and the expression is not. Missing: other widths, see `C78_counterexample_assignments`. -/
theorem C78_assignments_partial (trackers : List String) (x : String) (l : TypeNfo) (e : Expr) (rv : TypeNfo) (hrv : typeNfo e = some rv)
    (hw : rv.width ≤ l.width) (hs : rv.bt = .uint → l.bt = .int → rv.width < l.width) : SilentAssignKeeps trackers x l e := by
  intro rv' ws hrv' hl h1 h2 v hv
  rw [hrv] at hrv'
  cases hrv'
  refine readBits_bitsOf (Holds_wider hv hw ?_)
  unfold lintAssign at hl
  cases he : lintExpr e with
  | none => rw [he] at hl; cases hl
  | some r =>
    obtain ⟨rv2, ws2⟩ := r
    have := lint_type he
    rw [hrv] at this
    cases this
    rw [he] at hl
    simp only at hl
    by_cases hc : (!false && decide (x ∈ trackers)) = true
    · rw [if_pos hc] at hl; cases hl
    rw [if_neg hc] at hl
    cases hl
    have hd : ¬ (l.bt ≠ rv.bt ∧ rv.bt = .int) := fun hd => h1 (by rw [if_pos hd]; simp)
    obtain ⟨lb, lw⟩ := l
    obtain ⟨rb, rw'⟩ := rv
    simp only at hs hd ⊢
    cases lb <;> cases rb <;> simp_all

example : lintAssign ["t"] "x" (some ⟨.int, 9⟩) false (.var ⟨.uint, 8⟩ "y") = .ok [] ∧
    lintAssign ["t"] "x" (some ⟨.uint, 9⟩) false (.var ⟨.int, 8⟩ "y") = .ok [.assignSigned] ∧
    lintAssign ["t"] "t" (some ⟨.int, 9⟩) false (.var ⟨.uint, 8⟩ "y") = .error (.tracker "t") := ⟨rfl, rfl, rfl⟩

/-- C78 fails: the warning on widths is disabled, and there is none when an unsigned expression is assigned to a signed variable. `int8 x`
assigned `uint8 y` with value 200 holds -56, `uint8 x` assigned `uint9 y` with value 256 holds 0. -/
theorem C78_counterexample_assignments :
    (¬ SilentAssignKeeps [] "x" ⟨.int, 8⟩ (.var ⟨.uint, 8⟩ "y") ∧ storedAs ⟨.int, 8⟩ 200 = -56) ∧
    (¬ SilentAssignKeeps [] "x" ⟨.uint, 8⟩ (.var ⟨.uint, 9⟩ "y") ∧ storedAs ⟨.uint, 8⟩ 256 = 0) := by
  have e1 : storedAs ⟨.int, 8⟩ 200 = -56 := by decide +kernel
  have e2 : storedAs ⟨.uint, 8⟩ 256 = 0 := by decide +kernel
  refine ⟨⟨fun h => ?_, e1⟩, ⟨fun h => ?_, e2⟩⟩
  · have := h ⟨.uint, 8⟩ [] rfl rfl (by simp) (by simp) 200 (by simp [TypeNfo.Holds])
    rw [e1] at this; omega
  · have := h ⟨.uint, 9⟩ [] rfl rfl (by simp) (by simp) 256 (by simp [TypeNfo.Holds])
    rw [e2] at this; omega

/-- C78, partial: the same for what is given to inputs of calls, where the warning on widths is given. Missing: unsigned expressions of the same width
as a signed input. -/
theorem C78_inputs_partial (l : TypeNfo) (e : Expr) (rv : TypeNfo) (hrv : typeNfo e = some rv) (hs : rv.bt = .uint → l.bt = .int → rv.width ≠ l.width)
    (ws : List LintWarn) (h : lintInput ⟨some l.bt, l.width⟩ e = .ok ws) (h1 : .paramSigned ∉ ws) (h2 : .paramWidth ∉ ws) (v : Int)
    (hv : rv.Holds v) : storedAs l v = v := by
  unfold lintInput at h
  cases he : lintExpr e with
  | none => rw [he] at h; cases h
  | some r =>
    obtain ⟨rv2, ws2⟩ := r
    have := lint_type he
    rw [hrv] at this
    cases this
    rw [he] at h
    simp only [Except.ok.injEq] at h
    subst h
    simp only [List.mem_append, not_or] at h1 h2
    have hw : rv.width ≤ l.width := by
      by_contra hlt
      exact h2.2.2 (by rw [if_pos (by omega)]; simp)
    have hsgn : ¬ (some l.bt ≠ some rv.bt ∧ rv.bt = .int) := fun hc => h1.2.1 (by rw [if_pos hc]; simp)
    refine readBits_bitsOf (Holds_wider hv hw ?_)
    obtain ⟨lb, lw⟩ := l
    obtain ⟨rb, rw'⟩ := rv
    simp only at hs hw hsgn ⊢
    cases lb <;> cases rb <;> simp_all
    omega

/-- C78, partial: and for the outputs read when joining. -/
theorem C78_outputs_partial (l o : TypeNfo) (hs : o.bt = .uint → l.bt = .int → o.width ≠ l.width)
    (h : lintReadback ⟨some l.bt, l.width⟩ ⟨some o.bt, o.width⟩ = []) (v : Int) (hv : o.Holds v) : storedAs l v = v := by
  unfold lintReadback at h
  obtain ⟨h1, h2⟩ := List.append_eq_nil_iff.mp h
  have hw : o.width ≤ l.width := by
    by_contra hlt
    rw [if_pos (by simp only; omega)] at h2; cases h2
  have hsgn : ¬ (some l.bt ≠ some o.bt ∧ some o.bt = some .int) := fun hc => by rw [if_pos hc] at h1; cases h1
  refine readBits_bitsOf (Holds_wider hv hw ?_)
  obtain ⟨lb, lw⟩ := l
  obtain ⟨rb, rw'⟩ := o
  simp only at hs hw hsgn ⊢
  cases lb <;> cases rb <;> simp_all
  omega

example : lintInput ⟨some .int, 9⟩ (.var ⟨.uint, 8⟩ "y") = .ok [] ∧ lintInput ⟨some .int, 9⟩ (.var ⟨.uint, 10⟩ "y") = .ok [.paramWidth] ∧
    lintReadback ⟨some .uint, 9⟩ ⟨some .uint, 8⟩ = [] ∧ lintReadback ⟨some .uint, 9⟩ ⟨some .int, 12⟩ = [.outSigned, .outWidth] :=
  ⟨rfl, rfl, rfl, rfl⟩

/-! ### Trackers are not assigned -/

/-- When the program is accepted, neither the `x := e` of the unit nor anything that is carried out, in any cycle of any run, assigns a tracker. -/
def TrackersKept {B : Type} [DecidableEq B] (g : Cfg B) (ff : B → B) (num : Num B) (blk : B → PBlk) (h : LintHost) (L : LintText)
    (blocks : List B) (entries : List (Entry B)) : Prop :=
  ∀ ws, acceptUnit h num blk L blocks entries = .ok ws → ∀ x ∈ h.wires.map (·.1),
    (∀ n ∈ h.always, ¬ Assigns x n) ∧
    ∀ (σ : Type) (S : Sem B σ) (env : Nat → σ → σ) (h0 : HW σ) (n : Nat) (trs : List (List B)) (hw : HW σ),
      hwRun g num ff (callIdsFrom g 0 blocks) entries S env h0 n = some (trs, hw) → ∀ tr ∈ trs, ∀ b ∈ tr, ∀ i ∈ (blk b).ins, ¬ Assigns x (L.ins i)

/-- The error of the linter. -/
theorem lintUnit_error_right {B : Type} (h : LintHost) (num : Num B) (blk : B → PBlk) (L : LintText) (blocks : List B) (x : String)
    (e : lintUnit h num blk L blocks = .error (.tracker x)) :
    x ∈ h.wires.map (·.1) ∧ ((∃ n ∈ h.always, Assigns x n) ∨ ∃ b ∈ blocks, ∃ i ∈ (blk b).ins, Assigns x (L.ins i)) := by
  unfold lintUnit at e
  cases e1 : lintAll (lintNode h.trackers) h.always with
  | error y =>
    rw [e1] at e
    cases e
    obtain ⟨n, hn, h1⟩ := lintAll_error e1
    obtain ⟨h2, h3⟩ := lintNode_tracker h1
    exact ⟨h2, .inl ⟨n, hn, h3⟩⟩
  | ok w1 =>
    rw [e1] at e
    simp only at e
    cases e2 : lintAll (fun w => lintAssign h.trackers w.1 w.2.1 true w.2.2) h.wires with
    | error y =>
      rw [e2] at e
      cases e
      obtain ⟨n, hn, h1⟩ := lintAll_error e2
      obtain ⟨_, h2, _⟩ := lintAssign_tracker.mp h1
      cases h2
    | ok w2 =>
      rw [e2] at e
      simp only at e
      cases e3 : lintAll (lintBlock h.trackers num blk L) blocks with
      | ok w3 => rw [e3] at e; cases e
      | error y =>
        rw [e3] at e
        cases e
        obtain ⟨b, hb, h1⟩ := lintAll_error e3
        unfold lintBlock at h1
        split_ifs at h1 with hc
        obtain ⟨n, hn, h2⟩ := lintAll_error h1
        obtain ⟨h3, h4⟩ := lintNode_tracker h2
        refine ⟨h3, .inr ⟨b, hb, ?_⟩⟩
        rcases List.mem_append.mp hn with hn | hn
        · obtain ⟨i, hi, rfl⟩ := List.mem_map.mp hn
          exact ⟨i, hi, h4⟩
        · cases hcond : (blk b).act.cond with
          | none => rw [hcond] at hn; cases hn
          | some c =>
            rw [hcond, List.mem_singleton] at hn
            subst hn
            cases h4

/-- C78: the error is given only when an instruction does assign a tracker. -/
theorem C78_tracker_error_right {B : Type} (h : LintHost) (num : Num B) (blk : B → PBlk) (L : LintText) (blocks : List B) (entries : List (Entry B)) (x : String)
    (e : acceptUnit h num blk L blocks entries = .error (.tracker x)) :
    x ∈ h.wires.map (·.1) ∧ ((∃ n ∈ h.always, Assigns x n) ∨ ∃ b, (b ∈ blocks ∨ ∃ y ∈ entries, b ∈ y.code.bodies) ∧ ∃ i ∈ (blk b).ins, Assigns x (L.ins i)) := by
  unfold acceptUnit at e
  cases e1 : lintUnit h num blk L blocks with
  | error y =>
    rw [e1] at e
    cases e
    obtain ⟨h1, h2⟩ := lintUnit_error_right h num blk L blocks x e1
    refine ⟨h1, h2.imp id ?_⟩
    rintro ⟨b, hb, h3⟩
    exact ⟨b, .inl hb, h3⟩
  | ok w1 =>
    rw [e1] at e
    cases e2 : writeUnit h.trackers blk L entries with
    | ok w2 => simp only [e2] at e; cases e
    | error y =>
      simp only [e2] at e
      cases e
      obtain ⟨z, hz, h1⟩ := lintAll_error e2
      obtain ⟨b, hb, h2⟩ := lintAll_error h1
      obtain ⟨n, hn, h3⟩ := lintAll_error h2
      obtain ⟨h4, h5⟩ := writeNode_tracker h3
      obtain ⟨i, hi, rfl⟩ := List.mem_map.mp hn
      exact ⟨h4, .inr ⟨b, .inr ⟨z, hz, hb⟩, i, hi, h5⟩⟩

/-- Accepted instructions do not assign trackers, but for assignments to variables whose type is not known and for outputs read when joining. -/
theorem accepted_node {ts : List String} {n : LintIns} {ws : List LintWarn} (h : lintNode ts n = .ok ws) (hlv : ∀ y e, n ≠ .assign y none e)
    (hj : ∀ outs, n ≠ .join outs) : ∀ x ∈ ts, ¬ Assigns x n := by
  intro x hx ha
  cases ha with
  | @assign lv e =>
    cases lv with
    | none => exact hlv _ _ rfl
    | some l =>
      cases he : lintExpr e with
      | none => simp [lintNode, lintAssign, he] at h
      | some r =>
        have h2 : lintAssign ts x (some l) false e = .error (.tracker x) := lintAssign_tracker.mpr ⟨rfl, rfl, hx, rfl, by rw [he]; rfl⟩
        rw [lintNode, h2] at h; cases h
  | join _ => exact hj _ rfl

/-- C78, partial: nothing that is carried out in any cycle of any run of an accepted program assigns a tracker, except results of joins, and neither do
the `x := e` of the unit, except on trackers with a type given by another variable (`sameas`, `auto`). Missing: these two, see the counterexamples. -/
theorem C78_trackers_partial {B : Type} [DecidableEq B] (g : Cfg B) (ff : B → B) (num : Num B) (blk : B → PBlk) (h : LintHost) (L : LintText)
    (blocks : List B) (entries : List (Entry B)) (ws : List LintWarn) (ha : acceptUnit h num blk L blocks entries = .ok ws)
    (x : String) (hx : x ∈ h.wires.map (·.1)) :
    (∀ n ∈ h.always, (∀ y e, n ≠ .assign y none e) → (∀ outs, n ≠ .join outs) → ¬ Assigns x n) ∧
    ∀ (σ : Type) (S : Sem B σ) (env : Nat → σ → σ) (h0 : HW σ) (n : Nat) (trs : List (List B)) (hw : HW σ),
      hwRun g num ff (callIdsFrom g 0 blocks) entries S env h0 n = some (trs, hw) →
      ∀ tr ∈ trs, ∀ b ∈ tr, ∀ i ∈ (blk b).ins, (∀ outs, L.ins i ≠ .join outs) → ¬ Assigns x (L.ins i) := by
  obtain ⟨v1, v2, hl, hwr, _⟩ := acceptUnit_ok ha
  refine ⟨fun n hn hlv hj => ?_, fun σ S env h0 n trs hw hr tr htr b hb i hi hj => written_kept hr hwr tr htr b hb i hi hj x hx⟩
  unfold lintUnit at hl
  cases e1 : lintAll (lintNode h.trackers) h.always with
  | error y => rw [e1] at hl; cases hl
  | ok w1 =>
    obtain ⟨v, hv, _⟩ := lintAll_ok e1 n hn
    exact accepted_node hv hlv hj x hx

/-- When the linter reports `ws`, all that is to be reported on what is carried out in any cycle of any run is among them. -/
def WarnedEverywhere {B : Type} [DecidableEq B] (g : Cfg B) (ff : B → B) (num : Num B) (blk : B → PBlk) (h : LintHost) (L : LintText)
    (blocks : List B) (entries : List (Entry B)) : Prop :=
  ∀ ws, acceptUnit h num blk L blocks entries = .ok ws →
    ∀ (σ : Type) (S : Sem B σ) (env : Nat → σ → σ) (h0 : HW σ) (n : Nat) (trs : List (List B)) (hw : HW σ),
      hwRun g num ff (callIdsFrom g 0 blocks) entries S env h0 n = some (trs, hw) →
      ∀ tr ∈ trs, ∀ b ∈ tr, ∀ i ∈ (blk b).ins, ∀ (e s : Expr) (w : LintWarn), ExprOf e (L.ins i) → SubOf s e → Fault w s → w ∈ ws

/-- C78, partial: in an accepted program, warnings are given for all expressions, with those in them, of trackers, of the `x := e` of the unit, and in every
cycle of every run of what is carried out first, with the condition that ends it. Missing: what is carried out next in the same cycle. -/
theorem C78_warnings_partial (u : AlgUnit) (last : Nat) (st : PSt) (ff : Cfg (Fin (last + 1)) → Fin (last + 1) → Fin (last + 1))
    (hff : Skips ff) (hu : buildUnit u = some (last, st)) (hok : u.switchOk = true) (h : LintHost) (L : LintText) :
    ∃ g rs, generateStates (st.cfg last) 0 ff (last + 1) (List.finRange (last + 1)) = some (g, rs) ∧
      ∃ efuel fuel entries, emitStates g rs.num (ff g) efuel fuel = .ok entries ∧
        ∀ ws, lintUnit h rs.num (fun b => st.blk b.val) L (List.finRange (last + 1)) = .ok ws → ∀ (e s : Expr) (w : LintWarn), SubOf s e → Fault w s →
          (∀ x lv, (x, lv, e) ∈ h.wires → w ∈ ws) ∧ (∀ n ∈ h.always, ExprOf e n → w ∈ ws) ∧
          ∀ (σ : Type) (S : Sem (Fin (last + 1)) σ) (env : Nat → σ → σ) (h0 : HW σ) (n : Nat) (trs : List (List (Fin (last + 1)))) (hw : HW σ),
            hwRun g rs.num (ff g) (callIdsFrom g 0 (List.finRange (last + 1))) entries S env h0 n = some (trs, hw) →
            ∀ tr ∈ trs, ∀ b, tr.head? = some b →
              (∀ i ∈ (st.blk b.val).ins, ExprOf e (L.ins i) → w ∈ ws) ∧ ∀ c, TestOf c (st.blk b.val).act → e = L.test c → w ∈ ws := by
  obtain ⟨n0, l, lo, g, rs, h1, U, M, hff0, hff1, P, hlast, hid, ef, fu, es, he, m⟩ := unit_machine u last st ff hff hu hok
  refine ⟨g, rs, h1, ef, fu, es, he, fun ws hl e s w hse hf => ?_⟩
  unfold lintUnit at hl
  cases e1 : lintAll (lintNode h.trackers) h.always with
  | error y => rw [e1] at hl; cases hl
  | ok w1 =>
    rw [e1] at hl
    simp only at hl
    cases e2 : lintAll (fun w => lintAssign h.trackers w.1 w.2.1 true w.2.2) h.wires with
    | error y => rw [e2] at hl; cases hl
    | ok w2 =>
      rw [e2] at hl
      simp only at hl
      cases e3 : lintAll (lintBlock h.trackers rs.num (fun b => st.blk b.val) L) (List.finRange (last + 1)) with
      | error y => rw [e3] at hl; cases hl
      | ok w3 =>
        rw [e3] at hl
        cases hl
        refine ⟨fun x lv hm => ?_, fun n hn hen => ?_, fun σ S env h0 n trs hw hr tr htr b hb => ?_⟩
        · obtain ⟨v, hv, h2⟩ := lintAll_ok e2 _ hm
          refine List.mem_append_right _ (List.mem_append_left _ (h2 w ?_))
          simp only [lintAssign] at hv
          cases hle : lintExpr e with
          | none => rw [hle] at hv; cases hv
          | some r =>
            have hww := (lintExpr_mem w e _ _ hle).mpr ⟨s, hse, hf⟩
            rw [hle] at hv
            cases lv with
            | none => cases hv; exact hww
            | some l => simp only [Bool.not_true, Bool.false_and, Bool.false_eq_true, if_false] at hv; cases hv; exact List.mem_append_left _ hww
        · obtain ⟨v, hv, h2⟩ := lintAll_ok e1 n hn
          exact List.mem_append_left _ (h2 w (lintNode_warns hv hen hse hf))
        · have hs := hwRun_heads m _ S env h0 n trs hw hr tr htr b hb
          obtain ⟨v, hv, h2⟩ := lintAll_ok e3 b (List.mem_finRange b)
          unfold lintBlock at hv
          have hn' : ¬ (rs.num.sid b).isNone = true := by cases hx : rs.num.sid b <;> simp_all
          rw [if_neg hn'] at hv
          refine ⟨fun i hi hen => ?_, fun c hc hec => ?_⟩
          · obtain ⟨v', hv', h3⟩ := lintAll_ok hv (L.ins i) (List.mem_append_left _ (List.mem_map.mpr ⟨i, hi, rfl⟩))
            exact List.mem_append_right _ (List.mem_append_right _ (h2 w (h3 w (lintNode_warns hv' hen hse hf))))
          · obtain ⟨v', hv', h3⟩ := lintAll_ok hv (.expr (L.test c)) (List.mem_append_right _ (by rw [testOf_iff.mpr hc]; exact List.mem_singleton.mpr rfl))
            subst hec
            exact List.mem_append_right _ (List.mem_append_right _ (h2 w (h3 w (lintNode_warns hv' .expr hse hf))))

/-- A tracker `uint8 t <: a;`. -/
def exLintHost : LintHost := ⟨[], [("t", some ⟨.uint, 8⟩, .var ⟨.uint, 8⟩ "a")]⟩

/-- Instruction `j` is `n`. -/
def exLintText (j : PIns) (n : LintIns) : LintText := ⟨fun i => if i = j then n else .other [], fun _ => .var ⟨.uint, 1⟩ "c"⟩

/-- `t = 1;` -/
def exAssignT : LintIns := .assign "t" (some ⟨.uint, 8⟩) (.sized 8 1)

/-- `y = a < b;` with `int8 a` and `uint8 b`. -/
def exCompare : LintIns := .assign "y" (some ⟨.uint, 1⟩) (.bin .lt (.var ⟨.int, 8⟩ "a") (.var ⟨.uint, 8⟩ "b"))

/-- A comparison of different signs is to be reported there. -/
theorem exCompare_fault : ∃ e s, ExprOf e exCompare ∧ SubOf s e ∧ Fault .cmpSigns s :=
  ⟨_, _, .assign, .refl, .compare (t := ⟨.int, 8⟩) (u := ⟨.uint, 8⟩) (by simp [BinOp.Compares]) rfl rfl (by simp)⟩

/-- The result of the checks, if it is not an error. -/
def okOf (r : Except LintErr (List LintWarn)) : Option (List LintWarn) :=
  match r with
  | .ok ws => some ws
  | .error _ => none

/-- Whether it is the error on a tracker. -/
def errOf (r : Except LintErr (List LintWarn)) : Option LintErr :=
  match r with
  | .ok _ => none
  | .error e => some e

theorem okOf_eq {r : Except LintErr (List LintWarn)} {ws : List LintWarn} (h : okOf r = some ws) : r = .ok ws := by
  cases r with
  | error e => cases h
  | ok v => cases h; rfl

/-- C78 fails: `subroutine f(...) { if (c) { y = a < b; } }` called by the algorithm (the program of C76), `a` being signed and `b` not, is accepted
without any report: sides of conditionals are not linted. -/
theorem C78_counterexample_unchecked :
    acceptUnit exLintHost exPermNum exPermBlk (exLintText (.plain 7) exCompare) (List.finRange 10) exPermCode = .ok [] ∧
    ¬ WarnedEverywhere exPermCfg exPermFF exPermNum exPermBlk exLintHost (exLintText (.plain 7) exCompare) (List.finRange 10) exPermCode := by
  have hc : acceptUnit exLintHost exPermNum exPermBlk (exLintText (.plain 7) exCompare) (List.finRange 10) exPermCode = .ok [] :=
    okOf_eq (by decide +kernel)
  refine ⟨hc, fun h => ?_⟩
  have h6 : (hwRun exPermCfg exPermNum exPermFF (callIdsFrom exPermCfg 0 (List.finRange 10)) exPermCode exPermSem (fun _ s => s)
      ⟨1, 0, fun _ => 0, ()⟩ 2).map (fun r => r.1) = some [[0, 7], [1, 2, 4, 5, 6]] := by decide +kernel
  rw [Option.map_eq_some_iff] at h6
  obtain ⟨⟨trs, hw⟩, h7, h8⟩ := h6
  simp only at h8
  subst h8
  obtain ⟨e, s, h9, h10, h11⟩ := exCompare_fault
  have := h _ hc Unit exPermSem (fun _ s => s) ⟨1, 0, fun _ => 0, ()⟩ 2 _ hw h7 [1, 2, 4, 5, 6] (by decide) 4 (by decide) (.plain 7)
    (by decide +kernel) e s .cmpSigns h9 h10 h11
  cases this

/-- The assignment of a tracker at that place is an error. -/
example : errOf (acceptUnit exLintHost exPermNum exPermBlk (exLintText (.plain 7) exAssignT) (List.finRange 10) exPermCode) = some (.tracker "t") := by
  decide +kernel

/-- `instr7; ++: instr8; (...) <- inst;` in the algorithm block of a unit; `readback 3` stands for what the join stores. -/
def exFlat : AlgUnit where
  globals := []
  locals := []
  main := .instr 7 (.step (.instr 8 (.join 9 3 true .nil)))

/-- The text of its blocks. -/
def exFlatBlk (b : Fin 6) : PBlk :=
  match buildUnit exFlat with
  | some (_, st) => st.blk b.val
  | none => {}

/-- Its graph. -/
def exFlatCfg : Cfg (Fin 6) :=
  match buildUnit exFlat with
  | some (_, st) => st.cfg 5
  | none => ⟨fun _ => {}, 0, 0, fun _ => []⟩

/-- Skipping on that graph. -/
def exFlatFF (b : Fin 6) : Fin 6 := b

/-- Its numbers. -/
def exFlatNum : Num (Fin 6) :=
  match generateStates exFlatCfg 0 (fun _ => exFlatFF) 6 (List.finRange 6) with
  | some r => r.2.num
  | none => ⟨fun _ => none, fun _ => none⟩

/-- Its code. -/
def exFlatCode : List (Entry (Fin 6)) :=
  match emitStates exFlatCfg exFlatNum exFlatFF 40 80 with
  | .ok es => es
  | .error _ => []

/-- The instance is done. -/
def exFlatSem : Sem (Fin 6) Unit := ⟨fun _ s => s, fun _ _ => true, fun _ _ _ => false, fun _ _ => true⟩

/-- The blocks it carries out. -/
theorem flat_run : ∃ hw, hwRun exFlatCfg exFlatNum exFlatFF (callIdsFrom exFlatCfg 0 (List.finRange 6)) exFlatCode exFlatSem (fun _ s => s)
    ⟨1, 0, fun _ => 0, ()⟩ 4 = some ([[0, 1], [2], [3], [4, 5]], hw) := by
  have h6 : (hwRun exFlatCfg exFlatNum exFlatFF (callIdsFrom exFlatCfg 0 (List.finRange 6)) exFlatCode exFlatSem (fun _ s => s)
      ⟨1, 0, fun _ => 0, ()⟩ 4).map (fun r => r.1) = some [[0, 1], [2], [3], [4, 5]] := by decide +kernel
  rw [Option.map_eq_some_iff] at h6
  obtain ⟨⟨trs, hw⟩, h7, h8⟩ := h6
  simp only at h8
  subst h8
  exact ⟨hw, h7⟩

/-- That program is accepted unless a tracker is assigned, at its start or after the step. -/
example : (buildUnit exFlat).map (·.1) = some 5 ∧ exFlat.switchOk = true ∧
    errOf (acceptUnit exLintHost exFlatNum exFlatBlk (exLintText (.plain 7) exAssignT) (List.finRange 6) exFlatCode) = some (.tracker "t") ∧
    errOf (acceptUnit exLintHost exFlatNum exFlatBlk (exLintText (.plain 8) exAssignT) (List.finRange 6) exFlatCode) = some (.tracker "t") ∧
    okOf (acceptUnit exLintHost exFlatNum exFlatBlk (exLintText (.plain 8) (.assign "y" (some ⟨.uint, 8⟩) (.sized 8 1))) (List.finRange 6) exFlatCode) =
      some [] := by
  refine ⟨?_, ?_, ?_, ?_, ?_⟩ <;> decide +kernel

/-- Warnings on what is after the step, and on a tracker. -/
example : okOf (lintUnit ⟨[], [("t", some ⟨.uint, 8⟩, exLint)]⟩ exFlatNum exFlatBlk (exLintText (.plain 8) (.other [.bin .shr (.var ⟨.int, 8⟩ "a") (.number 1)]))
      (List.finRange 6)) = some [.cmpSigns, .concatSigns, .ternWidths, .ternSigns, .shiftSigned] := by decide +kernel

/-- C78 fails: the block of the algorithm of a unit is itself nested in the first state: `y = a < b;` at its start is not reported. -/
theorem C78_counterexample_start :
    (buildUnit exFlat).map (·.1) = some 5 ∧ IsFF exFlatCfg exFlatFF ∧
    acceptUnit exLintHost exFlatNum exFlatBlk (exLintText (.plain 7) exCompare) (List.finRange 6) exFlatCode = .ok [] ∧
    ¬ WarnedEverywhere exFlatCfg exFlatFF exFlatNum exFlatBlk exLintHost (exLintText (.plain 7) exCompare) (List.finRange 6) exFlatCode := by
  have ha : acceptUnit exLintHost exFlatNum exFlatBlk (exLintText (.plain 7) exCompare) (List.finRange 6) exFlatCode = .ok [] := okOf_eq (by decide +kernel)
  refine ⟨by decide +kernel, fun b => ⟨14, ?_⟩, ha, fun hk => ?_⟩
  · revert b; decide +kernel
  · obtain ⟨hw, h7⟩ := flat_run
    obtain ⟨e, s, h9, h10, h11⟩ := exCompare_fault
    have := hk _ ha Unit exFlatSem (fun _ s => s) ⟨1, 0, fun _ => 0, ()⟩ 4 _ hw h7 [0, 1] (by decide) 1 (by decide) (.plain 7) (by decide +kernel)
      e s .cmpSigns h9 h10 h11
    cases this

/-- C78 fails: with `sameas(a) t <: a;`, `t := 1;` is accepted (and not written): nothing is checked when the type of what is assigned is not resolved. -/
theorem C78_counterexample_sameas :
    let h : LintHost := ⟨[.assign "t" none (.sized 8 1)], [("t", none, .var ⟨.uint, 8⟩ "a")]⟩
    let L := exLintText (.plain 8) (.other [])
    acceptUnit h exFlatNum exFlatBlk L (List.finRange 6) exFlatCode = .ok [] ∧
    ¬ TrackersKept exFlatCfg exFlatFF exFlatNum exFlatBlk h L (List.finRange 6) exFlatCode := by
  intro h L
  have ha : acceptUnit h exFlatNum exFlatBlk L (List.finRange 6) exFlatCode = .ok [] := okOf_eq (by decide +kernel)
  exact ⟨ha, fun hk => (hk _ ha "t" (by decide)).1 _ (List.mem_singleton.mpr rfl) .assign⟩

/-- C78 fails: `(t) <- inst;` is accepted. -/
theorem C78_counterexample_join :
    let L := exLintText (.readback 3 true) (.join [("t", ⟨some .uint, 8⟩, ⟨some .uint, 8⟩)])
    acceptUnit exLintHost exFlatNum exFlatBlk L (List.finRange 6) exFlatCode = .ok [] ∧
    ¬ TrackersKept exFlatCfg exFlatFF exFlatNum exFlatBlk exLintHost L (List.finRange 6) exFlatCode := by
  intro L
  have ha : acceptUnit exLintHost exFlatNum exFlatBlk L (List.finRange 6) exFlatCode = .ok [] := okOf_eq (by decide +kernel)
  refine ⟨ha, fun hk => ?_⟩
  obtain ⟨hw, h7⟩ := flat_run
  exact (hk _ ha "t" (by decide)).2 Unit exFlatSem (fun _ s => s) ⟨1, 0, fun _ => 0, ()⟩ 4 _ hw h7 [4, 5] (by decide) 4 (by decide) (.readback 3 true)
    (by decide +kernel) (.join (List.mem_singleton.mpr rfl))

end Silice
