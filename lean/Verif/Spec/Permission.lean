import Verif.Model.Permission

/-! What a subroutine may access, and the calls in its text. -/

set_option autoImplicit false

namespace Silice

/-- Variable `x` is `y`, or a member of the group `y`. -/
def PartOf (h : SubHost) (x y : String) : Prop := x = y ∨ ∃ ms m, h.groups y = some ms ∧ m ∈ ms ∧ x = y ++ "_" ++ m

/-- What a subroutine may read: what it was given, its own variables and parameters, the outputs of what it may call. -/
inductive MayRead (h : SubHost) (d : SubDecl) (x : String) : Prop where
  | reads {y : String} : .reads y ∈ d.params → PartOf h x y → MayRead h d x
  | readwrites {y : String} : .readwrites y ∈ d.params → PartOf h x y → MayRead h d x
  | own : x ∈ d.vars → MayRead h d x
  | input {y : String} : .input y ∈ d.params → x = "i_" ++ d.name ++ "_" ++ y → MayRead h d x
  | output {y : String} : .output y ∈ d.params → x = "o_" ++ d.name ++ "_" ++ y → MayRead h d x
  | call {f : String} {ins outs : List String} : .calls f ∈ d.params → h.callee f = some (ins, outs) → x ∈ outs → MayRead h d x

/-- What a subroutine may write. -/
inductive MayWrite (h : SubHost) (d : SubDecl) (x : String) : Prop where
  | writes {y : String} : .writes y ∈ d.params → PartOf h x y → MayWrite h d x
  | readwrites {y : String} : .readwrites y ∈ d.params → PartOf h x y → MayWrite h d x
  | own : x ∈ d.vars → MayWrite h d x
  | output {y : String} : .output y ∈ d.params → x = "o_" ++ d.name ++ "_" ++ y → MayWrite h d x
  | call {f : String} {ins outs : List String} : .calls f ∈ d.params → h.callee f = some (ins, outs) → x ∈ ins → MayWrite h d x

/-- Condition `c` is tested at the end of a block: it is that of a conditional, a switch or a loop. -/
inductive TestOf (c : Nat) : Act Nat → Prop where
  | ifElse {i t e f a : Nat} {p q : Bool} : TestOf c (.ifElse c i p t e q f a)
  | switch {cs : List (Option Nat × Nat)} {a : Nat} : TestOf c (.switch c cs a)
  | loop {i a : Nat} : TestOf c (.loop c i a)

/-- The instructions and the condition of a block access only what subroutine `d` may. -/
def Respects (h : SubHost) (d : SubDecl) (A : AccessOf) (b : PBlk) : Prop :=
  (∀ i ∈ b.ins, (∀ x ∈ A.reads i, MayRead h d x) ∧ (∀ x ∈ A.writes i, MayWrite h d x)) ∧
    ∀ c, TestOf c b.act → ∀ x ∈ A.test c, MayRead h d x

/-- Subroutine `s` is called in the text. -/
inductive CallsIn (s : Nat) : Prg → Prop where
  | here {g t : Nat} {o : Bool} {k : Prg} : CallsIn s (.call s g t o k)
  | instr {i : Nat} {k : Prg} : CallsIn s k → CallsIn s (.instr i k)
  | step {k : Prg} : CallsIn s k → CallsIn s (.step k)
  | block {b k : Prg} : CallsIn s b → CallsIn s (.block b k)
  | afterBlock {b k : Prg} : CallsIn s k → CallsIn s (.block b k)
  | ifThen {c : Nat} {t k : Prg} : CallsIn s t → CallsIn s (.ifThen c t k)
  | afterIfThen {c : Nat} {t k : Prg} : CallsIn s k → CallsIn s (.ifThen c t k)
  | then_ {c : Nat} {t e k : Prg} : CallsIn s t → CallsIn s (.ifElse c t e k)
  | else_ {c : Nat} {t e k : Prg} : CallsIn s e → CallsIn s (.ifElse c t e k)
  | afterIf {c : Nat} {t e k : Prg} : CallsIn s k → CallsIn s (.ifElse c t e k)
  | loop {c : Nat} {b k : Prg} : CallsIn s b → CallsIn s (.loop c b k)
  | afterLoop {c : Nat} {b k : Prg} : CallsIn s k → CallsIn s (.loop c b k)
  | brk {k : Prg} : CallsIn s k → CallsIn s (.brk k)
  | case {c : Nat} {cs : List (Option Nat × Prg)} {k : Prg} {v : Option Nat} {p : Prg} : (v, p) ∈ cs → CallsIn s p → CallsIn s (.switch c cs k)
  | afterSwitch {c : Nat} {cs : List (Option Nat × Prg)} {k : Prg} : CallsIn s k → CallsIn s (.switch c cs k)
  | afterCall {s' g t : Nat} {o : Bool} {k : Prg} : CallsIn s k → CallsIn s (.call s' g t o k)
  | join {i t : Nat} {o : Bool} {k : Prg} : CallsIn s k → CallsIn s (.join i t o k)
  | ret {k : Prg} : CallsIn s k → CallsIn s (.ret k)

end Silice
