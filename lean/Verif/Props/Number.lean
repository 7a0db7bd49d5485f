import Verif.Lemmas.Number
/-! Property theorem C08. -/
set_option autoImplicit false
namespace Silice

/-- C08. A sized literal of the source is written to Verilog with the same sign, width, base and digits. -/
theorem C08_literal_preserved (s : List Char) (neg : Bool) (w : Nat) (b : Char) (v : List Char)
    (h : IsLiteral [] s neg w b v) :
    ∃ out, rewriteNumber s = some out ∧ IsLiteral ['\''] out neg w b v :=
  literal_preserved [] (Or.inl rfl) s neg w b v h

/-- C08. The emitted text has only one reading, so it stands for the same bits as the source text. -/
theorem C08_reading_unique (sep : List Char) (hsep : sep = [] ∨ sep = ['\'']) (s : List Char)
    (neg neg' : Bool) (w w' : Nat) (b b' : Char) (v v' : List Char)
    (h : IsLiteral sep s neg w b v) (h' : IsLiteral sep s neg' w' b' v') :
    neg = neg' ∧ w = w' ∧ b = b' ∧ v = v' ∧ literalBits neg w b v = literalBits neg' w' b' v' := by
  obtain ⟨h1, h2, h3, h4⟩ := reading_unique sep hsep s neg neg' w w' b b' v v' h h'
  subst h1 h2 h3 h4
  exact ⟨rfl, rfl, rfl, rfl, rfl⟩

/-- C08. Rewriting an emitted literal again (constants are stored in Verilog form and rewritten when used) changes
nothing. -/
theorem C08_rewrite_idempotent (s : List Char) (neg : Bool) (w : Nat) (b : Char) (v : List Char)
    (h : IsLiteral [] s neg w b v) (out : List Char) (ho : rewriteNumber s = some out) :
    rewriteNumber out = some out :=
  rewrite_idempotent s neg w b v h out ho

/-- C08. `isNumber` accepts exactly the sized literals (either form) whose digits belong to their base and the
unsized integers. -/
theorem C08_isNumber_sized_iff (s : List Char) :
    isNumber s = (true, true) ↔ ∃ sep neg w b v, (sep = [] ∨ sep = ['\'']) ∧ IsLiteral sep s neg w b v ∧
      v.all (digitOfBase b) = true :=
  isNumber_sized_iff s

/-- C08. In decimal and binary, an accepted literal without `x` or `z` denotes a number. -/
theorem C08_accepted_digits_have_value (b : Char) (v : List Char) (hb : b = 'b' ∨ b = 'd' ∨ b = 'h')
    (h : v.all (digitOfBase b) = true) (hx : 'x' ∉ v ∧ 'z' ∉ v) : ∃ n, digitsValue (baseOf b) v = some n :=
  accepted_digits_have_value b v hb h hx

/-- C08 (finding). The emission path does not call `isNumber`: a literal whose digits do not belong to its base is
passed on unchanged to Verilog. -/
theorem C08_bad_digit_not_rejected :
    ∃ s out, isNumber s = (false, true) ∧ rewriteNumber s = some out ∧ out = "8'd3b".toList :=
  ⟨"8d3b".toList, "8'd3b".toList, by decide +kernel, by decide +kernel, rfl⟩

/-- C08. A constant inlined in place of a variable: a sized literal is written unchanged between parentheses. -/
theorem C08_inlined_sized_constant (vw : Nat) (sep s : List Char) (hsep : sep = [] ∨ sep = ['\'']) (neg : Bool) (w : Nat)
    (b : Char) (v : List Char) (h : IsLiteral sep s neg w b v) (hd : v.all (digitOfBase b) = true) :
    ∃ out, vioAsDefine vw s = some ('(' :: out ++ [')']) ∧ IsLiteral ['\''] out neg w b v :=
  inlined_sized_constant vw sep s hsep neg w b v h hd

/-- C08. A constant inlined in place of a variable: a positive integer becomes a decimal literal of the same value
and wide enough for it. -/
theorem C08_inlined_positive_constant (vw n : Nat) (hn : 0 < n) :
    ∃ out w, vioAsDefine vw (natToDec n) = some ('(' :: out ++ [')']) ∧
      IsLiteral ['\''] out false w 'd' (natToDec n) ∧ literalBits false w 'd' (natToDec n) = some n :=
  inlined_positive_constant vw n hn

/-! Non-vacuity -/
example : IsLiteral [] "-08hfF".toList true 8 'h' "fF".toList :=
  ⟨"08".toList, by decide, by
    intro c hc; simp at hc; rcases hc with rfl | rfl
    · exact ⟨0, by decide, by decide⟩
    · exact ⟨8, by decide, by decide⟩, by decide +kernel, by decide, by decide, by decide, by decide⟩
example : rewriteNumber "-08hfF".toList = some "-8'hfF".toList := by decide +kernel
example : literalBits true 8 'h' "fF".toList = some 1 := by decide +kernel
example : isNumber "4'b10xz".toList = (true, true) := by decide +kernel

end Silice
