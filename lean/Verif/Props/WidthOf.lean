import Verif.Spec.WidthOf
import Verif.Props.Instantiation
import Verif.Prelude

/-!
# C77: types and `widthof`

What Verilog texts denote is in Spec/WidthOf.lean.
-/

set_option autoImplicit false

namespace Silice

/-! ### Digits -/

theorem intText (n : Nat) : (toString (n : Int)).toList = Nat.toDigits 10 n := by
  show (Int.repr (n : Int)).toList = _
  simp [Int.repr, Nat.repr]

theorem digits_take {n : Nat} {c : Char} (hc : c.isDigit = false) (cs : List Char) :
    (Nat.toDigits 10 n ++ c :: cs).takeWhile Char.isDigit = Nat.toDigits 10 n ∧ (Nat.toDigits 10 n ++ c :: cs).dropWhile Char.isDigit = c :: cs := by
  have h : ∀ a ∈ Nat.toDigits 10 n, a.isDigit = true := fun a ha => Nat.isDigit_of_mem_toDigits (by decide) (by decide) ha
  constructor
  · rw [List.takeWhile_append_of_pos h, List.takeWhile_cons]; simp [hc]
  · rw [List.dropWhile_append_of_pos h, List.dropWhile_cons]; simp [hc]

theorem digits_all (n : Nat) : (Nat.toDigits 10 n).takeWhile Char.isDigit = Nat.toDigits 10 n ∧ (Nat.toDigits 10 n).dropWhile Char.isDigit = [] := by
  have h : ∀ a ∈ Nat.toDigits 10 n, a.isDigit = true := fun a ha => Nat.isDigit_of_mem_toDigits (by decide) (by decide) ha
  have h1 := List.takeWhile_append_of_pos (l₂ := []) h
  have h2 := List.dropWhile_append_of_pos (l₂ := []) h
  simp only [List.append_nil, List.takeWhile_nil, List.dropWhile_nil] at h1 h2
  exact ⟨h1, h2⟩

theorem readNat_digits (n : Nat) : readNat (Nat.toDigits 10 n) = some (n, []) := by
  unfold readNat
  rw [(digits_all n).1, (digits_all n).2, Nat.ofDigitChars_ten_toDigits]
  simp [Nat.toDigits_ne_nil]

theorem readNat_more (n : Nat) {c : Char} (hc : c.isDigit = false) (cs : List Char) :
    readNat (Nat.toDigits 10 n ++ c :: cs) = some (n, c :: cs) := by
  unfold readNat
  rw [(digits_take hc cs).1, (digits_take hc cs).2, Nat.ofDigitChars_ten_toDigits]
  simp [Nat.toDigits_ne_nil]

theorem digits_head (n : Nat) : ∃ c cs, Nat.toDigits 10 n = c :: cs ∧ c.isDigit = true := by
  cases h : Nat.toDigits 10 n with
  | nil => exact absurd h Nat.toDigits_ne_nil
  | cons c cs => exact ⟨c, cs, rfl, Nat.isDigit_of_mem_toDigits (b := 10) (n := n) (by decide) (by decide) (by rw [h]; exact List.mem_cons_self)⟩

theorem constVal_digits (n : Nat) : constVal (Nat.toDigits 10 n) = some (n : Int) := by
  obtain ⟨c, cs, h, hc⟩ := digits_head n
  have hr := readNat_digits n
  rw [h] at hr ⊢
  unfold constVal
  split
  · rename_i e
    cases e
    exact absurd hc (by decide)
  · rw [hr]

theorem constVal_less (n : Nat) : constVal (Nat.toDigits 10 n ++ ['-', '1']) = some (n - 1 : Int) := by
  obtain ⟨c, cs, h, hc⟩ := digits_head n
  have hr := readNat_more n (c := '-') (by decide) ['1']
  rw [h] at hr ⊢
  unfold constVal
  split
  · rename_i e
    cases e
    exact absurd hc (by decide)
  · rw [hr]
    have : readNat ['1'] = some (1, []) := by decide +kernel
    simp [this]

theorem digits_no {n : Nat} {a : Char} (ha : a.isDigit = false) : ∀ x ∈ Nat.toDigits 10 n, decide (x ≠ a) = true := by
  intro x hx
  rw [decide_eq_true_eq]
  rintro rfl
  rw [Nat.isDigit_of_mem_toDigits (by decide) (by decide) hx] at ha
  cases ha

/-- `[w-1:0]` computed. -/
theorem range_number {w : Nat} (hw : 1 ≤ w) : rangeBits ("[" ++ toString ((w : Int) - 1) ++ ":0]") = some w := by
  obtain ⟨n, rfl⟩ : ∃ n, w = n + 1 := ⟨w - 1, by omega⟩
  have e : ((n + 1 : Nat) : Int) - 1 = (n : Int) := by omega
  rw [e]
  unfold rangeBits
  have ht : ("[" ++ toString (n : Int) ++ ":0]").toList = '[' :: (Nat.toDigits 10 n ++ ':' :: ['0', ']']) := by
    simp only [String.toList_append, intText]
    rfl
  rw [ht]
  simp only
  rw [List.dropWhile_append_of_pos (digits_no (by decide)), List.takeWhile_append_of_pos (digits_no (by decide))]
  simp [constVal_digits]

/-- `[w-1:0]` left to Verilog. -/
theorem range_text {w : Nat} (hw : 1 ≤ w) : rangeBits ("[" ++ toString (w : Int) ++ "-1" ++ ":0]") = some w := by
  unfold rangeBits
  have ht : ("[" ++ toString (w : Int) ++ "-1" ++ ":0]").toList = '[' :: (Nat.toDigits 10 w ++ ['-', '1'] ++ ':' :: ['0', ']']) := by
    simp only [String.toList_append, intText]
    simp
  have hno : ∀ x ∈ Nat.toDigits 10 w ++ ['-', '1'], decide (x ≠ ':') = true := by
    intro x hx
    rcases List.mem_append.mp hx with hx | hx
    · exact digits_no (by decide) x hx
    · simp only [List.mem_cons, List.not_mem_nil, or_false] at hx
      rcases hx with rfl | rfl <;> decide
  rw [ht]
  simp only
  rw [List.dropWhile_append_of_pos hno, List.takeWhile_append_of_pos hno]
  simp only [List.dropWhile_cons, List.takeWhile_cons]
  simp [constVal_less]
  omega

theorem paren_number (w : Nat) : parenVal ("(" ++ toString (w : Int) ++ ")") = some (w : Int) := by
  unfold parenVal
  have ht : ("(" ++ toString (w : Int) ++ ")").toList = '(' :: (Nat.toDigits 10 w ++ [')']) := by
    simp only [String.toList_append, intText]
    rfl
  rw [ht]
  simp only
  rw [List.dropWhile_append_of_pos (digits_no (by decide)), List.takeWhile_append_of_pos (digits_no (by decide))]
  simp [constVal_digits]

theorem vAtoi_digits {w : Nat} (hw : w ≤ vIntMax) : vAtoi (Nat.toDigits 10 w) = some (w : Int) := by
  have h := @Nat.ofDigitChars_ten_toDigits w
  rw [Nat.ofDigitChars_eq_foldl] at h
  unfold vAtoi
  simp only
  rw [h, if_pos hw]

/-! ### Types -/

/-- C77: a type is read as written: `int` or `uint`, then the number of bits. -/
theorem C77_types (ds : List Char) (hne : ds ≠ []) (hd : ∀ c ∈ ds, c.isDigit = true) (hmax : Nat.ofDigitChars 10 ds 0 ≤ vIntMax) :
    splitType ("int".toList ++ ds) = some (true, (Nat.ofDigitChars 10 ds 0 : Int)) ∧
      splitType ("uint".toList ++ ds) = some (false, (Nat.ofDigitChars 10 ds 0 : Int)) := by
  obtain ⟨d, ds', rfl⟩ : ∃ d ds', ds = d :: ds' := by cases ds with | nil => exact absurd rfl hne | cons d ds' => exact ⟨d, ds', rfl⟩
  have hda : d.isAlpha = false := by
    have := hd d List.mem_cons_self
    simp only [Char.isDigit, Bool.and_eq_true, decide_eq_true_eq, Char.isAlpha, Char.isUpper, Char.isLower, Bool.or_eq_false_iff, Bool.and_eq_false_iff,
      decide_eq_false_iff_not, UInt32.le_iff_toNat_le, ge_iff_le] at this ⊢
    simp at this ⊢
    omega
  have htake : (d :: ds').takeWhile Char.isDigit = d :: ds' := by
    have h1 := List.takeWhile_append_of_pos (l₂ := []) hd
    simpa only [List.append_nil, List.takeWhile_nil] using h1
  have hat : vAtoi (d :: ds') = some (Nat.ofDigitChars 10 (d :: ds') 0 : Int) := by
    unfold vAtoi
    simp only
    rw [← Nat.ofDigitChars_eq_foldl, if_pos hmax]
  have key : ∀ b : List Char, b ≠ [] → (∀ c ∈ b, c.isAlpha = true) → typeSearch (b ++ d :: ds') = some (b, d :: ds') := by
    intro b hb ha
    have h1 : (b ++ d :: ds').takeWhile Char.isAlpha = b := by
      rw [List.takeWhile_append_of_pos ha, List.takeWhile_cons]; simp [hda]
    have h2 : (b ++ d :: ds').dropWhile Char.isAlpha = d :: ds' := by
      rw [List.dropWhile_append_of_pos ha, List.dropWhile_cons]; simp [hda]
    cases b with
    | nil => exact absurd rfl hb
    | cons c cs =>
      rw [List.cons_append] at h1 h2 ⊢
      unfold typeSearch
      simp only
      rw [h1, h2, htake]
      simp
  constructor
  · unfold splitType
    rw [key _ (by decide) (by decide)]
    simp only [if_true, hat, Option.map_some]
  · unfold splitType
    rw [key _ (by decide) (by decide)]
    simp only [hat, Option.map_some]
    rw [if_neg (by decide), if_pos trivial]

example : ("12".toList ≠ [] ∧ ∀ c ∈ "12".toList, c.isDigit = true) ∧ Nat.ofDigitChars 10 "12".toList 0 = 12 := by decide +kernel

/-- The sign and range texts of a declaration. -/
theorem declared_text {s : Bool} {r : String} {n : Nat} (h : rangeBits r = some n) : declared (signText s ++ " " ++ r) = some (s, n) := by
  cases s with
  | false =>
    have : (signText false ++ " " ++ r).toList = ' ' :: r.toList := by simp [signText]
    unfold declared
    rw [this]
    simp [h]
  | true =>
    have : (signText true ++ " " ++ r).toList = 's' :: 'i' :: 'g' :: 'n' :: 'e' :: 'd' :: ' ' :: r.toList := by
      simp [signText]
    unfold declared
    rw [this]
    simp [h]

/-- C77: a variable declared with `n` bits is a Verilog signal of `n` bits, with its sign, and `widthof` of it in expressions is `n`, in any
context. Missing: `n = 0`, see `C77_counterexample_zero`. -/
theorem C77_variables_partial (vars : List TVar) (autos : Autos) (tr : String → String) (x : String) (v : TVar) (s : Bool) (n : Nat) (i : String)
    (hf : vars.find? (fun b => b.name = tr x) = some v) (ht : v.type = .fixed s n i) (hn : 1 ≤ n) :
    (verilogType vars autos v).bind declared = some (s, n) ∧ (widthOfExpr vars autos tr x).bind parenVal = some (n : Int) := by
  constructor
  · have h1 : varField (vars.map TVar.toVIO) autos v.toVIO .signed = some (signText s) := by
      simp [varField, TVar.toVIO, ht, VType.field]
    have h2 : varBitRange vars autos v = some ("[" ++ toString ((n : Int) - 1) ++ ":0]") := by simp [varBitRange, ht]
    unfold verilogType
    rw [h1]
    simp only [h2, Option.map_some, Option.bind_some]
    exact declared_text (range_number hn)
  · have h1 : varField (vars.map TVar.toVIO) autos v.toVIO .width = some (toString (n : Int)) := by
      simp [varField, TVar.toVIO, ht, VType.field]
    unfold widthOfExpr resolveWidthOf
    rw [hf]
    simp only [h1, Option.map_some, Option.bind_some]
    exact paren_number n

/-- What the context of a unit says of a port (upper-cased names): `n` bits, sign `s`. -/
def CtxSays (autos : Autos) (x : String) (s : Bool) (n : Nat) : Prop :=
  autos (upper x, .width) = some (toString (n : Int)) ∧ autos (upper x, .signed) = some (signText s)

/-- C77: the preprocessor gives what the context says. -/
theorem lua_knows {autos : Autos} {x : String} {s : Bool} {n : Nat} (h : CtxSays autos x s n) (hn : n ≤ vIntMax) :
    luaWidthOf autos x = some (n : Int) ∧ luaSigned autos x = some s := by
  obtain ⟨h1, h2⟩ := h
  constructor
  · unfold luaWidthOf
    rw [h1]
    simp only
    rw [intText, (digits_all n).1, vAtoi_digits hn]
  · unfold luaSigned
    rw [h2]
    cases s <;> decide +kernel

/-- An `auto` variable has the bits its context says. -/
theorem auto_knows {vars : List TVar} {autos : Autos} {tr : String → String} {x : String} {v : TVar} {s : Bool} {n : Nat}
    (hf : vars.find? (fun b => b.name = tr x) = some v) (ht : v.type = .param) (hs : v.sameAs = none) (hn : 1 ≤ n) (hk : CtxSays autos v.name s n) :
    (verilogType vars autos v).bind declared = some (s, n) ∧ (widthOfExpr vars autos tr x).bind parenVal = some (n : Int) := by
  have hname : v.name = tr x := by simpa using List.find?_some hf
  have hf' : vars.find? (fun b => b.name = v.name) = some v := by rw [hname]; exact hf
  have hf2 : findVIO (vars.map TVar.toVIO) v.name = some v.toVIO := by
    unfold findVIO
    rw [List.find?_map]
    have : (fun w : VIO => decide (w.name = v.name)) ∘ TVar.toVIO = fun b => decide (b.name = v.name) := rfl
    rw [this, hf']
    rfl
  have hvf : ∀ f t, autos (upper v.name, f) = some t → varField (vars.map TVar.toVIO) autos v.toVIO f = some t := by
    intro f t h
    have e1 : v.toVIO.type = .param := by simp [TVar.toVIO, ht]
    have e2 : v.toVIO.sameAs.getD v.toVIO.name = v.name := by simp [TVar.toVIO, hs]
    have e3 : v.toVIO.name = v.name := rfl
    unfold varField
    rw [e1, e2, hf2]
    simp only [e1, e3, h]
  constructor
  · unfold verilogType
    rw [hvf _ _ hk.2]
    have : varBitRange vars autos v = some ("[" ++ toString (n : Int) ++ "-1" ++ ":0]") := by
      unfold varBitRange
      rw [ht]
      simp only [hs, Option.getD_none, hf', ht, hk.1]
    simp only [this, Option.map_some, Option.bind_some]
    exact declared_text (range_text hn)
  · unfold widthOfExpr resolveWidthOf
    rw [hf]
    simp only [hvf _ _ hk.1, Option.map_some, Option.bind_some]
    exact paren_number n

/-- C77: a variable declared with `sameas(y)` has the bits and the sign of `y`, be it declared with `n` bits or an `auto` port the context says
has `n` bits, and so has `widthof`. -/
theorem C77_sameas_partial (vars : List TVar) (autos : Autos) (tr : String → String) (x y : String) (v b : TVar) (s : Bool) (n : Nat)
    (hf : vars.find? (fun b => b.name = tr x) = some v) (ht : v.type = .param) (hs : v.sameAs = some y)
    (hb : vars.find? (fun b => b.name = y) = some b) (hn : 1 ≤ n)
    (hbt : (∃ i, b.type = .fixed s n i) ∨ (b.type = .param ∧ CtxSays autos b.name s n)) :
    (verilogType vars autos v).bind declared = some (s, n) ∧ (widthOfExpr vars autos tr x).bind parenVal = some (n : Int) := by
  have hf2 : findVIO (vars.map TVar.toVIO) y = some b.toVIO := by
    unfold findVIO
    rw [List.find?_map]
    have : (fun w : VIO => decide (w.name = y)) ∘ TVar.toVIO = fun b => decide (b.name = y) := rfl
    rw [this, hb]
    rfl
  have e1 : v.toVIO.type = .param := by simp [TVar.toVIO, ht]
  have e2 : v.toVIO.sameAs.getD v.toVIO.name = y := by simp [TVar.toVIO, hs]
  have hvf : varField (vars.map TVar.toVIO) autos v.toVIO .signed = some (signText s) ∧
      varField (vars.map TVar.toVIO) autos v.toVIO .width = some (toString (n : Int)) := by
    rcases hbt with ⟨i, hbt⟩ | ⟨hbt, hk⟩
    · have e4 : b.toVIO.type = .fixed (toString (n : Int)) i (signText s) := by simp [TVar.toVIO, hbt]
      constructor <;> (unfold varField; rw [e1, e2, hf2]; simp only [e4, VType.field])
    · have e4 : b.toVIO.type = .param := by simp [TVar.toVIO, hbt]
      have e3 : b.toVIO.name = b.name := rfl
      constructor <;> (unfold varField; rw [e1, e2, hf2]; simp only [e4, e3, hk.1, hk.2])
  constructor
  · unfold verilogType
    rw [hvf.1]
    have : ∃ r, varBitRange vars autos v = some r ∧ rangeBits r = some n := by
      unfold varBitRange
      rw [ht]
      simp only [hs, Option.getD_some, hb]
      rcases hbt with ⟨i, hbt⟩ | ⟨hbt, hk⟩
      · rw [hbt]; exact ⟨_, rfl, range_number hn⟩
      · rw [hbt]; simp only [hk.1]; exact ⟨_, rfl, range_text hn⟩
    obtain ⟨r, h1, h2⟩ := this
    simp only [h1, Option.map_some, Option.bind_some]
    exact declared_text h2
  · unfold widthOfExpr resolveWidthOf
    rw [hf]
    simp only [hvf.2, Option.map_some, Option.bind_some]
    exact paren_number n

example : ∃ v b : TVar, [⟨"y", .fixed true 4 "0", none⟩, ⟨"x", .param, some "y"⟩].find? (fun b : TVar => b.name = id "x") = some v ∧
    v.type = .param ∧ v.sameAs = some "y" ∧
    [⟨"y", .fixed true 4 "0", none⟩, ⟨"x", .param, some "y"⟩].find? (fun b : TVar => b.name = "y") = some b ∧ b.type = .fixed true 4 "0" :=
  ⟨⟨"x", .param, some "y"⟩, ⟨"y", .fixed true 4 "0", none⟩, by decide +kernel⟩

/-- C77: inside a unit, a port declared with `n` bits is a signal of `n` bits with its sign, `widthof` is `n` in expressions and in the
preprocessor, and `signed` is its sign. `ports` are the ports of the unit, no two of which differ by case only (C36). -/
theorem C77_ports_partial (host : List VIO) (specs : Autos) (bindings : List (String × String)) (ports : List TVar) (ictx l : Autos)
    (h : makeCtx host ⟨specs, bindings, ports.map TVar.toVIO⟩ ictx = some l) (hd : DistinctUpper (ports.map TVar.toVIO)) (v : TVar)
    (hf : ports.find? (fun b => b.name = v.name) = some v) (s : Bool) (n : Nat) (i : String) (ht : v.type = .fixed s n i) (hn : 1 ≤ n)
    (hmax : n ≤ vIntMax) :
    (verilogType ports l v).bind declared = some (s, n) ∧ (widthOfExpr ports l id v.name).bind parenVal = some (n : Int) ∧
      luaWidthOf l v.name = some (n : Int) ∧ luaSigned l v.name = some s := by
  obtain ⟨h1, h2⟩ := C77_variables_partial ports l id v.name v s n i hf ht hn
  have hm : v.toVIO ∈ ports.map TVar.toVIO := List.mem_map.mpr ⟨v, List.mem_of_find?_eq_some hf, rfl⟩
  have hnp : v.toVIO.type ≠ .param := by simp [TVar.toVIO, ht]
  have hk := C36_fixed_ports_keep_their_type host ⟨specs, bindings, ports.map TVar.toVIO⟩ ictx l h hd v.toVIO hm hnp
  have hw := hk .width
  have hs := hk .signed
  have e3 : v.toVIO.name = v.name := rfl
  rw [e3] at hw hs
  exact ⟨h1, h2, lua_knows ⟨by rw [hw]; simp [TVar.toVIO, ht, VType.field], by rw [hs]; simp [TVar.toVIO, ht, VType.field]⟩ hmax⟩

/-- C77: inside a unit, an `auto` port bound to a variable of `n` bits is a signal of `n` bits with the same sign, and `widthof` is `n` in
expressions and in the preprocessor. -/
theorem C77_auto_ports_partial (host : List VIO) (specs : Autos) (bindings : List (String × String)) (ports : List TVar) (ictx l : Autos)
    (h : makeCtx host ⟨specs, bindings, ports.map TVar.toVIO⟩ ictx = some l) (hd : DistinctUpper (ports.map TVar.toVIO)) (v : TVar)
    (hf : ports.find? (fun b => b.name = v.name) = some v) (ht : v.type = .param) (hsame : v.sameAs = none) (hspec : inCtx v.name specs = false)
    (b : String × String) (hb : bindings.find? (fun b => b.1 = v.name) = some b) (bv : TVar) (hbv : findVIO host b.2 = some bv.toVIO)
    (s : Bool) (n : Nat) (i : String) (hbt : bv.type = .fixed s n i) (hn : 1 ≤ n) (hmax : n ≤ vIntMax) :
    (verilogType ports l v).bind declared = some (s, n) ∧ (widthOfExpr ports l id v.name).bind parenVal = some (n : Int) ∧
      luaWidthOf l v.name = some (n : Int) ∧ luaSigned l v.name = some s := by
  have hm : v.toVIO ∈ ports.map TVar.toVIO := List.mem_map.mpr ⟨v, List.mem_of_find?_eq_some hf, rfl⟩
  have hk := C36_unspecialised_port_follows_binding_partial host ⟨specs, bindings, ports.map TVar.toVIO⟩ ictx l h hd v.toVIO hm
    (by simp [TVar.toVIO, ht]) hsame hspec b hb bv.toVIO hbv rfl (by simp [TVar.toVIO, hbt])
  have hw := hk .width
  have hs := hk .signed
  have e3 : v.toVIO.name = v.name := rfl
  rw [e3] at hw hs
  have K : CtxSays l v.name s n := ⟨by rw [hw]; simp [TVar.toVIO, hbt, VType.field], by rw [hs]; simp [TVar.toVIO, hbt, VType.field]⟩
  obtain ⟨h1, h2⟩ := auto_knows (tr := id) hf ht hsame hn K
  exact ⟨h1, h2, lua_knows K hmax⟩

/-- `unit u(input auto p, input uint3 f)`, with `p <: x` where `int5 x`. -/
def exWidthPorts : List TVar := [⟨"p", .param, none⟩, ⟨"f", .fixed false 3 "0", none⟩]

/-- What is around. -/
def exWidthHost : List TVar := [⟨"x", .fixed true 5 "0", none⟩]

example : DistinctUpper (exWidthPorts.map TVar.toVIO) ∧ inCtx "p" (fun _ => none) = false ∧ findVIO (exWidthHost.map TVar.toVIO) "x" =
      some (TVar.toVIO ⟨"x", .fixed true 5 "0", none⟩) ∧
    (makeCtx (exWidthHost.map TVar.toVIO) ⟨fun _ => none, [("p", "x")], exWidthPorts.map TVar.toVIO⟩ (fun _ => none)).map (fun l =>
      (verilogType exWidthPorts l ⟨"p", .param, none⟩, widthOfExpr exWidthPorts l id "p", luaWidthOf l "p", luaSigned l "p",
        verilogType exWidthPorts l ⟨"f", .fixed false 3 "0", none⟩)) =
      some (some "signed [5-1:0]", some "(5)", some 5, some true, some " [2:0]") := by
  refine ⟨?_, ?_, ?_, ?_⟩
  · unfold DistinctUpper; decide +kernel
  all_goals decide +kernel

/-- C77 fails for types without bits: `uint0 a` declares a signal of two bits, and `widthof(a)` is 0. -/
theorem C77_counterexample_zero (vars : List TVar) (autos : Autos) (i : String) :
    splitType "uint0".toList = some (false, 0) ∧ (verilogType vars autos ⟨"a", .fixed false 0 i, none⟩).bind declared = some (false, 2) ∧
      (widthOfExpr (⟨"a", .fixed false 0 i, none⟩ :: vars) autos id "a").bind parenVal = some 0 := by
  refine ⟨by decide +kernel, ?_, ?_⟩
  · have h1 : varField (vars.map TVar.toVIO) autos (TVar.toVIO ⟨"a", .fixed false 0 i, none⟩) .signed = some "" := rfl
    unfold verilogType
    rw [h1]
    have h2 : varBitRange vars autos ⟨"a", .fixed false 0 i, none⟩ = some ("[" ++ toString ((0 : Int) - 1) ++ ":0]") := rfl
    simp only [h2, Option.map_some, Option.bind_some]
    decide +kernel
  · have h1 : resolveWidthOf (⟨"a", .fixed false 0 i, none⟩ :: vars) autos "a" = some "0" := by
      simp [resolveWidthOf, varField, TVar.toVIO, VType.field]
      decide +kernel
    unfold widthOfExpr
    simp only [id, h1, Option.map_some, Option.bind_some]
    decide +kernel

/-! ### `widthof` in constants -/

/-- C77: where constants are expected (initial values, widths of part selects), `widthof` is right for names that are not translated and types
that are not `auto`. Missing: the others, see below. -/
theorem C77_constants_partial (vars : List TVar) (x : String) (v : TVar) (s : Bool) (n : Nat) (i : String)
    (hf : vars.find? (fun b => b.name = x) = some v) (ht : v.type = .fixed s n i) :
    (widthOfConst vars x).bind (fun t => constVal t.toList) = some (n : Int) := by
  have h1 : varField (vars.map TVar.toVIO) (fun _ => none) v.toVIO .width = some (toString (n : Int)) := by
    simp [varField, TVar.toVIO, ht, VType.field]
  unfold widthOfConst resolveWidthOf
  rw [hf]
  simp only [h1, Option.bind_some]
  rw [intText, constVal_digits]

/-- `uint8 x; { uint3 x; ... }`, the block being `b`. -/
def exWidthShadow : List TVar := [⟨"x", .fixed false 8 "0", none⟩, ⟨"b_x", .fixed false 3 "0", none⟩]

example : exWidthShadow.find? (fun b => b.name = "x") = some ⟨"x", .fixed false 8 "0", none⟩ := by decide +kernel

/-- C77 fails for constants in a block that redeclares a name: in the block, `widthof(x)` is 3 in an expression and 8 in a constant. -/
theorem C77_counterexample_constant_outer (autos : Autos) :
    (widthOfExpr exWidthShadow autos (fun y => if y = "x" then "b_x" else y) "x").bind parenVal = some 3 ∧
      (widthOfConst exWidthShadow "x").bind (fun t => constVal t.toList) = some 8 := by
  refine ⟨?_, by decide +kernel⟩
  have h1 : resolveWidthOf exWidthShadow autos "b_x" = some "3" := by
    simp [resolveWidthOf, exWidthShadow, varField, TVar.toVIO, VType.field]
    decide +kernel
  unfold widthOfExpr
  simp only [if_true, h1, Option.map_some, Option.bind_some]
  decide +kernel

/-- C77 fails for constants on `auto` ports: what is written is a name that is declared nowhere. -/
theorem C77_counterexample_constant_auto : widthOfConst exWidthPorts "p" = some "P_WIDTH" := by decide +kernel

end Silice
