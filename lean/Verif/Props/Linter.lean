import Verif.Lemmas.Linter
/-! Property theorems C06, C07. -/
set_option autoImplicit false
namespace Silice

/-- C06. One operator: whatever the operand widths and values, the type given by the linter holds the exact
result of every operation listed in `exactOp`. -/
theorem C06_operator_width_sufficient (op : BinOp) (a b : TypeNfo) (x y : Int)
    (hop : exactOp op a.bt b.bt = true) (ha : a.Holds x) (hb : b.Holds y) (h1 : 0 < a.width) (h2 : 0 < b.width) :
    (applyOperator op a b).Holds (opValue op x y) :=
  operator_width_sufficient op a b x y hop ha hb h1 h2

/-- C06. Whole expressions: nesting exact operations at any depth never loses a bit of the exact value. -/
theorem C06_expression_width_sufficient (e : Expr) (bt : BT) (he : Exact e bt) (env : String → Int)
    (henv : EnvOk env e) : ∃ t, typeNfo e = some t ∧ t.bt = bt ∧ 0 < t.width ∧ t.Holds (evalExact env e) :=
  expression_width_sufficient e bt he env henv

/-- C06 (limits). Subtraction of unsigned values and additions of mixed signedness are typed unsigned and do not hold
negative results. -/
theorem C06_unsigned_sub_not_exact :
    ∃ (a b : TypeNfo) (x y : Int), a.Holds x ∧ b.Holds y ∧ a.bt = .uint ∧ b.bt = .uint ∧
      ¬ (applyOperator .sub a b).Holds (opValue .sub x y) :=
  ⟨⟨.uint, 4⟩, ⟨.uint, 4⟩, 0, 1, by simp [TypeNfo.Holds], by simp [TypeNfo.Holds], rfl, rfl,
    by simp [TypeNfo.Holds, applyOperator, opValue, baseTypeOf]⟩

theorem C06_mixed_add_not_exact :
    ∃ (a b : TypeNfo) (x y : Int), a.Holds x ∧ b.Holds y ∧ a.bt = .int ∧ b.bt = .uint ∧
      ¬ (applyOperator .add a b).Holds (opValue .add x y) :=
  ⟨⟨.int, 4⟩, ⟨.uint, 4⟩, -1, 0, by simp [TypeNfo.Holds], by simp [TypeNfo.Holds], rfl, rfl,
    by simp [TypeNfo.Holds, applyOperator, opValue, baseTypeOf]⟩

/-- C06 (limits). Negation keeps the width of a signed operand, which cannot hold the opposite of the least value. -/
theorem C06_negation_not_exact (w : Nat) (hw : 0 < w) :
    let t : TypeNfo := ⟨.int, w⟩
    t.Holds (-(2 ^ (w - 1))) ∧ ¬ (applyUnaryOperator .neg t).Holds (2 ^ (w - 1)) := by
  intro t
  have hp : (0:Int) < 2 ^ (w - 1) := by positivity
  constructor
  · simp only [TypeNfo.Holds, t, Int.toNat_natCast]; omega
  · simp only [TypeNfo.Holds, t, Int.toNat_natCast, applyUnaryOperator]; omega

/-- C06 (finding). A product with an unsized constant is typed one bit narrower than the variable. -/
theorem C06_product_with_unsized_constant_narrow (w : Int) (n : String) (k : Nat) :
    typeNfo (.bin .mul (.var ⟨.uint, w⟩ n) (.number k)) = some ⟨.uint, w - 1⟩ := by
  simp [typeNfo, applyOperator, baseTypeOf]; omega

/-- C06. Unary operators: the given type holds the complement of any operand, the opposite of any signed operand but the least
one, and the result of logical negation and of reductions. -/
theorem C06_unary_width_sufficient (u : TypeNfo) (x : Int) (hx : u.Holds x) (hw : 0 < u.width) :
    (u.bt = .uint → (applyUnaryOperator .bnot u).Holds (2 ^ u.width.toNat - 1 - x)) ∧
    (u.bt = .int → (applyUnaryOperator .bnot u).Holds (-1 - x)) ∧
    (u.bt = .int → x ≠ -(2 ^ (u.width.toNat - 1)) → (applyUnaryOperator .neg u).Holds (-x)) ∧
    (∀ op, op ≠ .neg → op ≠ .bnot → ∀ b : Bool, (applyUnaryOperator op u).Holds (b2i b)) := by
  obtain ⟨bt, w⟩ := u
  simp only at hw
  refine ⟨?_, ?_, ?_, ?_⟩
  · rintro rfl
    simp only [applyUnaryOperator, TypeNfo.Holds] at hx ⊢
    omega
  · rintro rfl
    simp only [applyUnaryOperator, TypeNfo.Holds] at hx ⊢
    omega
  · rintro rfl hne
    simp only [applyUnaryOperator, TypeNfo.Holds] at hx hne ⊢
    omega
  · intro op h1 h2 b
    have : applyUnaryOperator op ⟨bt, w⟩ = ⟨.uint, 1⟩ := by
      cases op <;> first | exact absurd rfl h1 | exact absurd rfl h2 | rfl
    rw [this]
    exact holds_bit b

/-- C07. Concatenation: the width is the sum of the widths of the parts, whatever they are; an undetermined part is
an error. -/
theorem C07_concat_width (es : List Expr) (ts : List TypeNfo) (hts : typeNfos es = some ts) (hne : es ≠ []) :
    ((∀ t ∈ ts, t.width ≠ -1) → ∃ t, typeNfo (.concat es) = some t ∧ t.width = (ts.map TypeNfo.width).sum) ∧
    ((∃ t ∈ ts, t.width = -1) → typeNfo (.concat es) = none) :=
  concat_width es ts hts hne

/-- C07. The list of part types is the list of the types of the parts, in order. -/
theorem C07_part_types (es : List Expr) (ts : List TypeNfo) :
    typeNfos es = some ts ↔ List.Forall₂ (fun e t => typeNfo e = some t) es ts :=
  part_types es ts

/-- C07, partial. Replication once. Missing: the claim for other counts, which is false (next theorem). -/
theorem C07_replication_once_partial (c : Expr) (t : TypeNfo) (h : typeNfo c = some t) (hw : t.width ≠ -1) :
    ∃ r, typeNfo (.repl 1 c) = some r ∧ r.width = 1 * t.width ∧ r.bt = t.bt := by
  refine ⟨⟨t.bt, 0 + t.width⟩, ?_, by simp, rfl⟩
  simp [typeNfo, h, concatTypes, hw]

/-- C07 (negation). `{N{c}}` is given the width of `c`, whatever the count: never `N` times it unless `N = 1` or `c`
has no bits. -/
theorem C07_replication_ignores_count (n : Nat) (c : Expr) (t : TypeNfo) (h : typeNfo c = some t) (hw : 0 < t.width) :
    ∃ r, typeNfo (.repl n c) = some r ∧ r.width = t.width ∧ (n ≠ 1 → r.width ≠ n * t.width) := by
  have hw' : t.width ≠ -1 := by omega
  refine ⟨⟨t.bt, 0 + t.width⟩, by simp [typeNfo, h, concatTypes, hw'], by simp, ?_⟩
  intro hn e
  simp only [Int.zero_add] at e
  have h1 : ((n:Int) - 1) * t.width = 0 := by linarith [Int.sub_mul (n:Int) 1 t.width]
  rcases Int.mul_eq_zero.mp h1 with h2 | h2 <;> omega

/-! Non-vacuity -/
example : Exact (.bin .add (.bin .mul (.var ⟨.uint, 8⟩ "a") (.sized 4 7)) (.var ⟨.uint, 8⟩ "b")) .uint ∧
    typeNfo (.bin .add (.bin .mul (.var ⟨.uint, 8⟩ "a") (.sized 4 7)) (.var ⟨.uint, 8⟩ "b")) = some ⟨.uint, 13⟩ ∧
    EnvOk (fun _ => 255) (.bin .add (.bin .mul (.var ⟨.uint, 8⟩ "a") (.sized 4 7)) (.var ⟨.uint, 8⟩ "b")) := by
  refine ⟨?_, by simp [typeNfo, applyOperator, baseTypeOf], ?_⟩
  · exact Exact.bin .add _ _ .uint .uint (Exact.bin .mul _ _ .uint .uint (Exact.var _ _ (by decide))
      (Exact.sized _ _ (by decide) (by decide)) rfl) (Exact.var ⟨.uint, 8⟩ _ (by decide)) rfl
  · exact .bin _ _ _ (.bin _ _ _ (.var _ _ (by simp [TypeNfo.Holds])) (.sized _ _))
      (.var _ _ (by simp [TypeNfo.Holds]))
example : exactOp .sub .int .int = true ∧ (⟨.int, 8⟩ : TypeNfo).Holds (-128) := by simp [exactOp, TypeNfo.Holds]
example : typeNfos [.var ⟨.uint, 8⟩ "a", .sized 4 7] = some [⟨.uint, 8⟩, ⟨.uint, 4⟩] := by simp [typeNfos, typeNfo]
example : typeNfo (.concat [.sized 4 7]) = some ⟨.uint, 4⟩ := by simp [typeNfos, typeNfo, concatTypes]
example : (⟨.int, 8⟩ : TypeNfo).Holds (-127) ∧ (⟨.uint, 8⟩ : TypeNfo).Holds 5 := by simp [TypeNfo.Holds]

end Silice
