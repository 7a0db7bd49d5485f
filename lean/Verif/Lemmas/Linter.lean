import Verif.Prelude
import Mathlib.Tactic.Positivity
import Verif.Spec.Linter
/-! Helper lemmas for `Verif.Props.Linter`. -/
set_option autoImplicit false
namespace Silice

theorem pow_mono (a b : Nat) (h : a ≤ b) : (2:Int) ^ a ≤ 2 ^ b := by
  have : 2 ^ a ≤ 2 ^ b := Nat.pow_le_pow_right (by omega : 0 < 2) h
  exact_mod_cast this

theorem holds_uint (w : Nat) (v : Int) : (⟨.uint, w⟩ : TypeNfo).Holds v ↔ 0 ≤ v ∧ v < 2 ^ w := by
  simp [TypeNfo.Holds]

theorem holds_int (w : Nat) (v : Int) :
    (⟨.int, (w + 1 : Nat)⟩ : TypeNfo).Holds v ↔ -(2 ^ w) ≤ v ∧ v < 2 ^ w := by
  simp only [TypeNfo.Holds, Int.toNat_natCast]
  constructor
  · rintro ⟨_, h⟩; simpa using h
  · intro h; exact ⟨by omega, by simpa using h⟩

theorem b2i_range (b : Bool) : 0 ≤ b2i b ∧ b2i b < 2 := by
  cases b <;> simp [b2i]

theorem holds_bit (b : Bool) : (⟨.uint, 1⟩ : TypeNfo).Holds (b2i b) := by
  have := b2i_range b
  simp [TypeNfo.Holds]; omega

theorem holds_bit_wide (w : Nat) (hw : 0 < w) (b : Bool) : (⟨.uint, w⟩ : TypeNfo).Holds (b2i b) := by
  have := b2i_range b
  rw [holds_uint]
  have : (2:Int) ^ 1 ≤ 2 ^ w := pow_mono 1 w hw
  omega

/-- Signed product bound. -/
theorem signed_mul (x y p q : Int) (hp : 1 ≤ p) (hq : 1 ≤ q) (hx1 : -p ≤ x) (hx2 : x < p) (hy1 : -q ≤ y) (hy2 : y < q) :
    -(2 * (p * q)) ≤ x * y ∧ x * y < 2 * (p * q) := by
  have hpq : 0 < p * q := by positivity
  have h1 : 0 ≤ (p - x) * (q - y) := mul_nonneg (by omega) (by omega)
  have h2 : 0 ≤ (p + x) * (q + y) := mul_nonneg (by omega) (by omega)
  have h3 : 0 ≤ (p - x) * (q + y) := mul_nonneg (by omega) (by omega)
  have h4 : 0 ≤ (p + x) * (q - y) := mul_nonneg (by omega) (by omega)
  constructor <;> nlinarith

theorem operator_width_sufficient (op : BinOp) (a b : TypeNfo) (x y : Int)
    (hop : exactOp op a.bt b.bt = true) (ha : a.Holds x) (hb : b.Holds y) (h1 : 0 < a.width) (h2 : 0 < b.width) :
    (applyOperator op a b).Holds (opValue op x y) := by
  obtain ⟨ta, wa⟩ := a
  obtain ⟨tb, wb⟩ := b
  simp only at *
  obtain ⟨m, rfl⟩ : ∃ m : Nat, wa = (m + 1 : Nat) := ⟨(wa - 1).toNat, by omega⟩
  obtain ⟨n, rfl⟩ : ∃ n : Nat, wb = (n + 1 : Nat) := ⟨(wb - 1).toNat, by omega⟩
  have hmax : max ((m + 1 : Nat) : Int) ((n + 1 : Nat) : Int) = ((max m n + 1 : Nat) : Int) := by omega
  have hmaxp : max ((m + 1 : Nat) : Int) ((n + 1 : Nat) : Int) + 1 = (((max m n + 1) + 1 : Nat) : Int) := by omega
  have hsum : ((m + 1 : Nat) : Int) + ((n + 1 : Nat) : Int) = (((m + n + 1) + 1 : Nat) : Int) := by omega
  have pm : (2:Int) ^ (m + 1) ≤ 2 ^ (max m n + 1) := pow_mono _ _ (by omega)
  have pn : (2:Int) ^ (n + 1) ≤ 2 ^ (max m n + 1) := pow_mono _ _ (by omega)
  have pm' : (2:Int) ^ m ≤ 2 ^ (max m n) := pow_mono _ _ (by omega)
  have pn' : (2:Int) ^ n ≤ 2 ^ (max m n) := pow_mono _ _ (by omega)
  have ps : (2:Int) ^ (max m n + 1) = 2 * 2 ^ (max m n) := by rw [pow_succ]; ring
  have ps' : (2:Int) ^ ((max m n + 1) + 1) = 2 * 2 ^ (max m n + 1) := by rw [pow_succ]; ring
  -- shared facts for unsigned bitwise operations
  have hbits : ∀ f : Nat → Nat → Nat, (∀ u v k, u < 2 ^ k → v < 2 ^ k → f u v < 2 ^ k) →
      (⟨.uint, (m + 1 : Nat)⟩ : TypeNfo).Holds x → (⟨.uint, (n + 1 : Nat)⟩ : TypeNfo).Holds y →
      (⟨.uint, (max m n + 1 : Nat)⟩ : TypeNfo).Holds ((f x.toNat y.toNat : Nat) : Int) := by
    intro f hf hx hy
    rw [holds_uint] at *
    refine ⟨by omega, ?_⟩
    have := hf x.toNat y.toNat (max m n + 1) (by
      have h : (x.toNat : Int) < ((2 ^ (max m n + 1) : Nat) : Int) := by push_cast; omega
      exact_mod_cast h) (by
      have h : (y.toNat : Int) < ((2 ^ (max m n + 1) : Nat) : Int) := by push_cast; omega
      exact_mod_cast h)
    exact_mod_cast this
  cases op <;> simp only [exactOp, decide_eq_true_eq, Bool.and_eq_true] at hop <;>
    try (exact absurd hop (by decide))
  case add =>
    subst hop
    simp only [applyOperator, opValue, hmaxp]
    cases ta
    · rw [holds_int] at ha hb
      simp only [baseTypeOf, reduceCtorEq, or_self, if_false]
      rw [holds_int]
      omega
    · rw [holds_uint] at ha hb
      simp only [baseTypeOf, true_or, if_true]
      rw [holds_uint]
      omega
  case sub =>
    obtain ⟨h3, h4⟩ := hop
    subst h3 h4
    simp only [applyOperator, opValue, hmaxp]
    rw [holds_int] at ha hb
    simp only [baseTypeOf, reduceCtorEq, or_self, if_false]
    rw [holds_int]
    omega
  case mul =>
    subst hop
    simp only [applyOperator, opValue, hsum]
    cases ta
    · rw [holds_int] at ha hb
      simp only [baseTypeOf, reduceCtorEq, or_self, if_false]
      rw [holds_int]
      have hp : (1:Int) ≤ 2 ^ m := pow_mono 0 m (by omega)
      have hq : (1:Int) ≤ 2 ^ n := pow_mono 0 n (by omega)
      have e : (2:Int) ^ (m + n + 1) = 2 * (2 ^ m * 2 ^ n) := by rw [pow_succ, pow_add]; ring
      rw [e]
      exact signed_mul x y _ _ hp hq ha.1 ha.2 hb.1 hb.2
    · rw [holds_uint] at ha hb
      simp only [baseTypeOf, true_or, if_true]
      rw [holds_uint]
      have e : (2:Int) ^ (m + n + 1 + 1) = 2 ^ (m + 1) * 2 ^ (n + 1) := by rw [← pow_add]; congr 1; omega
      rw [e]
      exact ⟨mul_nonneg ha.1 hb.1, mul_lt_mul'' ha.2 hb.2 ha.1 hb.1⟩
  case shr =>
    obtain ⟨h3, h4⟩ := hop
    subst h3 h4
    simp only [applyOperator, opValue]
    rw [holds_uint] at *
    have hp : (0:Int) < 2 ^ y.toNat := by positivity
    refine ⟨Int.ediv_nonneg ha.1 (by omega), ?_⟩
    have := Int.ediv_le_self (2 ^ y.toNat) ha.1
    omega
  case eq => exact holds_bit _
  case eq3 => exact holds_bit _
  case ne => exact holds_bit _
  case ne3 => exact holds_bit _
  case lt => exact holds_bit _
  case gt => exact holds_bit _
  case le => exact holds_bit _
  case ge => exact holds_bit _
  case band =>
    obtain ⟨h3, h4⟩ := hop
    subst h3 h4
    simp only [applyOperator, opValue, hmax, baseTypeOf, true_or, if_true]
    exact hbits (fun u v => u &&& v) (fun u v k hu _ => Nat.lt_of_le_of_lt Nat.and_le_left hu) ha hb
  case bor =>
    obtain ⟨h3, h4⟩ := hop
    subst h3 h4
    simp only [applyOperator, opValue, hmax, baseTypeOf, true_or, if_true]
    exact hbits (fun u v => u ||| v) (fun u v k hu hv => Nat.or_lt_two_pow hu hv) ha hb
  case bxor =>
    obtain ⟨h3, h4⟩ := hop
    subst h3 h4
    simp only [applyOperator, opValue, hmax, baseTypeOf, true_or, if_true]
    exact hbits (fun u v => u ^^^ v) (fun u v k hu hv => Nat.xor_lt_two_pow hu hv) ha hb
  case land =>
    obtain ⟨h3, h4⟩ := hop
    subst h3 h4
    simp only [applyOperator, opValue, hmax, baseTypeOf, true_or, if_true]
    exact holds_bit_wide _ (by omega) _
  case lor =>
    obtain ⟨h3, h4⟩ := hop
    subst h3 h4
    simp only [applyOperator, opValue, hmax, baseTypeOf, true_or, if_true]
    exact holds_bit_wide _ (by omega) _

theorem holds_widen (bt : BT) (w w' : Int) (v : Int) (hw : 0 < w) (hle : w ≤ w')
    (h : (⟨bt, w⟩ : TypeNfo).Holds v) : (⟨bt, w'⟩ : TypeNfo).Holds v := by
  cases bt
  · simp only [TypeNfo.Holds] at *
    have := pow_mono (w.toNat - 1) (w'.toNat - 1) (by omega)
    omega
  · simp only [TypeNfo.Holds] at *
    have := pow_mono w.toNat w'.toNat (by omega)
    omega

theorem expression_width_sufficient (e : Expr) (bt : BT) (he : Exact e bt) (env : String → Int)
    (henv : EnvOk env e) : ∃ t, typeNfo e = some t ∧ t.bt = bt ∧ 0 < t.width ∧ t.Holds (evalExact env e) := by
  induction he with
  | sized w v hw hv =>
    refine ⟨⟨.uint, w⟩, by simp [typeNfo], rfl, by simpa using hw, ?_⟩
    rw [holds_uint]
    simp only [evalExact]
    exact ⟨by omega, by exact_mod_cast hv⟩
  | var t n hw =>
    cases henv with
    | var _ _ h => exact ⟨t, by simp [typeNfo], rfl, hw, by simpa [evalExact] using h⟩
  | bin op a b ta tb _ _ hop iha ihb =>
    cases henv with
    | bin _ _ _ ea eb =>
      obtain ⟨t1, h1, h2, h3, h4⟩ := iha ea
      obtain ⟨t2, k1, k2, k3, k4⟩ := ihb eb
      subst h2 k2
      have hh := operator_width_sufficient op t1 t2 _ _ hop h4 k4 h3 k3
      refine ⟨applyOperator op t1 t2, by simp [typeNfo, h1, k1], ?_, ?_, by simpa [evalExact] using hh⟩
      · obtain ⟨b1, w1⟩ := t1
        obtain ⟨b2, w2⟩ := t2
        cases op <;> cases b1 <;> cases b2 <;> simp_all [applyOperator, baseTypeOf, exactOp]
      · cases op <;> simp only [applyOperator] <;> omega
  | lnot e t _ ih =>
    cases henv with
    | un _ _ ee =>
      obtain ⟨t1, h1, _, _, _⟩ := ih ee
      refine ⟨⟨.uint, 1⟩, by simp [typeNfo, h1, applyUnaryOperator], rfl, by decide, ?_⟩
      simp only [evalExact]
      exact holds_bit _
  | tern c a b tc t _ _ _ ihc iha ihb =>
    cases henv with
    | tern _ _ _ ec ea eb =>
      obtain ⟨t0, h0, _⟩ := ihc ec
      obtain ⟨⟨b1, w1⟩, h1, h2, h3, h4⟩ := iha ea
      obtain ⟨⟨b2, w2⟩, k1, k2, k3, k4⟩ := ihb eb
      simp only at h2 k2 h3 k3
      subst h2 k2
      refine ⟨⟨b2, max w1 w2⟩, ?_, rfl, by simp; omega, ?_⟩
      · simp only [typeNfo, h0, h1, k1]
        cases b2 <;> simp [baseTypeOf]
      · simp only [evalExact]
        split
        · exact holds_widen _ w1 _ _ h3 (by omega) h4
        · exact holds_widen _ w2 _ _ k3 (by omega) k4

theorem foldl_width (ts : List TypeNfo) : ∀ a : Int,
    ts.foldl (fun acc t => acc + t.width) a = a + (ts.map TypeNfo.width).sum := by
  induction ts with
  | nil => simp
  | cons t ts ih => intro a; simp [ih]; omega

theorem typeNfos_ne (es : List Expr) (ts : List TypeNfo) (h : typeNfos es = some ts) (hne : es ≠ []) : ts ≠ [] := by
  cases es with
  | nil => exact absurd rfl hne
  | cons e es =>
    simp only [typeNfos] at h
    split at h
    · simp at h; subst h; simp
    · simp at h

theorem concat_width (es : List Expr) (ts : List TypeNfo) (hts : typeNfos es = some ts) (hne : es ≠ []) :
    ((∀ t ∈ ts, t.width ≠ -1) → ∃ t, typeNfo (.concat es) = some t ∧ t.width = (ts.map TypeNfo.width).sum) ∧
    ((∃ t ∈ ts, t.width = -1) → typeNfo (.concat es) = none) := by
  have hne' := typeNfos_ne es ts hts hne
  cases ts with
  | nil => exact absurd rfl hne'
  | cons t0 ts =>
    simp only [typeNfo, hts, concatTypes]
    constructor
    · intro h
      have : ¬ ((t0 :: ts).any fun t => decide (t.width = -1)) = true := by
        simp only [List.any_eq_true, decide_eq_true_eq, not_exists, not_and]
        exact fun t ht => h t ht
      rw [if_neg this]
      exact ⟨_, rfl, by simp [foldl_width]⟩
    · rintro ⟨t, ht, hw⟩
      have : ((t0 :: ts).any fun t => decide (t.width = -1)) = true := by
        simp only [List.any_eq_true, decide_eq_true_eq]
        exact ⟨t, ht, hw⟩
      rw [if_pos this]

theorem part_types (es : List Expr) : ∀ ts : List TypeNfo,
    typeNfos es = some ts ↔ List.Forall₂ (fun e t => typeNfo e = some t) es ts := by
  induction es with
  | nil => intro ts; cases ts <;> simp [typeNfos]
  | cons e es ih =>
    intro ts
    simp only [typeNfos]
    cases ts with
    | nil => split <;> simp
    | cons t ts =>
      rw [List.forall₂_cons, ← ih ts]
      split
      · rename_i t1 ts1 h1 h2; rw [h1, h2]; simp
      · rename_i hno
        constructor
        · intro h; simp at h
        · rintro ⟨h1, h2⟩; exact absurd h2 (hno t ts h1)

end Silice
