import Verif.Model.Select

/-!
What accesses mean in a source, and what the code written for them means in Verilog.

Source: a variable (declared, member of a group, port of an instance) is a table of words, or a single word. An access designates consecutive bits of a
word: of the whole word, of the member of a bit field (members are packed, the first declared is the highest), of a part of `n` bits from bit `f` of
those. Reading gives these bits as a number, the first bit being the lowest; an assignment changes these bits and no others. Bits that do not exist
have no meaning (`none`).
-/

set_option autoImplicit false

namespace Silice

/-- The number made of `n` bits. -/
def bitsVal (f : Nat → Bool) : Nat → Nat
  | 0 => 0
  | n + 1 => bitsVal f n + (if f n then 2 ^ n else 0)

/-! ### Source -/

/-- Variables of a source. -/
inductive SVar where
  | var (x : String)
  | own (x : String)
  | member (g m : String)
  | input (i m : String)
  | output (i m : String)
deriving Repr, DecidableEq

/-- Declared types. -/
def Declared.ty (D : Declared) : SVar → Option VarTy
  | .var x => D.vars.lookup x
  | .own x => D.ins.lookup x
  | .member g m => (D.groups.lookup g).bind fun ms => ms.lookup m
  | .input i m => (D.insts.lookup i).bind fun p => p.inputs.lookup m
  | .output i m => (D.insts.lookup i).bind fun p => p.outputs.lookup m

/-- What `x` and `x.m` stand for. -/
inductive StandsFor (D : Declared) : SBase → SVar → Prop where
  | var {x : String} : (D.ty (.var x)).isSome → StandsFor D (.id x) (.var x)
  | own {x : String} : (D.ty (.own x)).isSome → StandsFor D (.id x) (.own x)
  | member {g m : String} : (D.ty (.member g m)).isSome → StandsFor D (.io g m) (.member g m)
  | input {i m : String} : (D.ty (.input i m)).isSome → StandsFor D (.io i m) (.input i m)
  | output {i m : String} : (D.ty (.output i m)).isSome → StandsFor D (.io i m) (.output i m)

/-- Values of the bits of all variables: entry, bit. -/
abbrev SrcMem := SVar → Nat → Nat → Bool

/-- Consecutive bits of a word. -/
structure Bits where
  entry : Nat
  first : Nat
  num : Nat
deriving Repr, DecidableEq

/-- The member `m` of a bit field starts above the members declared after it. -/
def FieldAt (f : Bitfield) (m : String) (off w : Nat) : Prop :=
  ∃ above below, f = above ++ (m, w) :: below ∧ (below.map Prod.snd).sum = off

/-- The bits designated in a variable of type `t`: entry `i`, member `fd`, part `p` (given as numbers). -/
inductive Designated (D : Declared) (t : VarTy) : Option Nat → Option (String × String) → Option (Nat × Nat) → Bits → Prop where
  | word {i : Option Nat} {k : Nat} : (t.size = 0 ∧ i = none ∧ k = 0 ∨ i = some k ∧ k < t.size) → Designated D t i none none ⟨k, 0, t.width⟩
  | field {i : Option Nat} {k off w : Nat} {b : Bitfield} {f m : String} :
      Designated D t i none none ⟨k, 0, t.width⟩ → D.fields.lookup f = some b → FieldAt b m off w → off + w ≤ t.width →
      Designated D t i (some (f, m)) none ⟨k, off, w⟩
  | part {i : Option Nat} {fd : Option (String × String)} {k off w f n : Nat} :
      Designated D t i fd none ⟨k, off, w⟩ → 0 < n → f + n ≤ w → Designated D t i fd (some (f, n)) ⟨k, off + f, n⟩

mutual
/-- Value of an expression. -/
inductive SVal (D : Declared) (σ : SrcMem) : SEx → Nat → Prop where
  | num {v : Nat} : SVal D σ (.num v) v
  | read {a : SAcc} {x : SVar} {b : Bits} : SPlace D σ a x b → SVal D σ (.read a) (bitsVal (fun k => σ x b.entry (b.first + k)) b.num)
  | un {f : Nat → Nat} {e : SEx} {v : Nat} : SVal D σ e v → SVal D σ (.un f e) (f v)
  | bin {f : Nat → Nat → Nat} {e e' : SEx} {v v' : Nat} : SVal D σ e v → SVal D σ e' v' → SVal D σ (.bin f e e') (f v v')
/-- Value of an index. -/
inductive SIdxVal (D : Declared) (σ : SrcMem) : SIdx → Option Nat → Prop where
  | no : SIdxVal D σ .no none
  | at {e : SEx} {v : Nat} : SVal D σ e v → SIdxVal D σ (.at e) (some v)
/-- Value of the bounds of a part. -/
inductive SPartVal (D : Declared) (σ : SrcMem) : SPart → Option (Nat × Nat) → Prop where
  | no : SPartVal D σ .no none
  | at {e : SEx} {v n : Nat} : SVal D σ e v → SPartVal D σ (.at e n) (some (v, n))
/-- The bits an access designates. -/
inductive SPlace (D : Declared) (σ : SrcMem) : SAcc → SVar → Bits → Prop where
  | mk {b : SBase} {i : SIdx} {fd : Option (String × String)} {p : SPart} {x : SVar} {t : VarTy} {iv : Option Nat} {pv : Option (Nat × Nat)} {r : Bits} :
      StandsFor D b x → D.ty x = some t → SIdxVal D σ i iv → SPartVal D σ p pv → Designated D t iv fd pv r → SPlace D σ (.mk b i fd p) x r
end

/-- Change of the bits of a place. -/
def SrcMem.set (σ : SrcMem) (x : SVar) (b : Bits) (v : Nat) : SrcMem := fun y k j =>
  if y = x ∧ k = b.entry ∧ b.first ≤ j ∧ j < b.first + b.num then v.testBit (j - b.first) else σ y k j

/-- Assignments one after the other. -/
inductive AsgRun (D : Declared) : SrcMem → List (SAcc × SEx) → SrcMem → Prop where
  | nil {σ : SrcMem} : AsgRun D σ [] σ
  | asg {σ σ' : SrcMem} {a : SAcc} {e : SEx} {rest : List (SAcc × SEx)} {x : SVar} {b : Bits} {v : Nat} :
      SPlace D σ a x b → SVal D σ e v → AsgRun D (σ.set x b v) rest σ' → AsgRun D σ ((a, e) :: rest) σ'

/-! ### Verilog -/

/-- Values of the signals and registers of a module: entry, bit. -/
abbrev NetMem := Net → Nat → Nat → Bool

/-- Types of the signals, value of macros, width of expressions. -/
structure Module where
  ty : Net → Option VarTy
  mac : String → Nat
  width : VEx → Nat

mutual
/-- Value of an expression. `none`: not Verilog, or unknown (`x`) bits. -/
def VEx.val (M : Module) (s : NetMem) : VEx → Option Nat
  | .num v => some v
  | .ref r =>
    match r with
    | .mk (.mac x) .nil => some (M.mac x)
    | .mk (.mac _) _ => none
    | .mk (.net n) sf =>
      match M.ty n with
      | none => none
      | some t => (sf.bits M s t).map fun b => bitsVal (fun k => s n b.entry (b.first + k)) b.num
  | .un f e => (e.val M s).map f
  | .bin f e e' =>
    match e.val M s, e'.val M s with
    | some v, some v' => some (f v v')
    | _, _ => none
/-- First bit of a range. A sum is computed on the width of its largest operand, numbers have 32 bits. -/
def VFirst.val (M : Module) (s : NetMem) : VFirst → Option Nat
  | .ex e => e.val M s
  | .num k => some k
  | .plus e k => (e.val M s).map fun v => (v + k) % 2 ^ max 32 (M.width e)
/-- The bits selected in a signal of type `t`: an entry has to be given for a table, then at most one selection of bits. -/
def VSufs.bits (M : Module) (s : NetMem) (t : VarTy) : VSufs → Option Bits
  | .nil => if t.size = 0 then some ⟨0, 0, t.width⟩ else none
  | .range f n rest =>
    match rest, f.val M s with
    | .nil, some v => if t.size = 0 ∧ v + n ≤ t.width then some ⟨0, v, n⟩ else none
    | _, _ => none
  | .index e rest =>
    match e.val M s with
    | none => none
    | some v =>
      if t.size = 0 then
        match rest with
        | .nil => if v < t.width then some ⟨0, v, 1⟩ else none
        | _ => none
      else if v < t.size then (rest.bits M s ⟨t.width, 0⟩).map fun b => ⟨v, b.first, b.num⟩
      else none
end

/-- Change of bits of a signal. -/
def NetMem.set (s : NetMem) (n : Net) (b : Bits) (v : Nat) : NetMem := fun m k j =>
  if m = n ∧ k = b.entry ∧ b.first ≤ j ∧ j < b.first + b.num then v.testBit (j - b.first) else s m k j

/-- Blocking assignment. Only registers can be assigned. -/
def NetMem.assign (M : Module) (s : NetMem) (r : VRef) (e : VEx) : Option NetMem :=
  match r with
  | .mk (.mac _) _ => none
  | .mk (.net n) sf =>
    match n with
    | .d _ | .t _ =>
      match M.ty n, e.val M s with
      | some t, some v => (sf.bits M s t).map fun b => s.set n b v
      | _, _ => none
    | _ => none

/-- Blocking assignments one after the other. -/
def NetMem.run (M : Module) : NetMem → List (VRef × VEx) → Option NetMem
  | s, [] => some s
  | s, (r, e) :: rest =>
    match s.assign M r e with
    | none => none
    | some s' => s'.run M rest

/-! ### How the module holds the variables of the source -/

/-- Name of a variable in the compiler. -/
def Declared.name (D : Declared) : SVar → String
  | .var x => x
  | .own x => x
  | .member g m => g ++ "_" ++ m
  | .input i m => match D.insts.lookup i with
    | some p => p.pre ++ "_" ++ m
    | none => ""
  | .output i m => match D.insts.lookup i with
    | some p => p.pre ++ "_" ++ m
    | none => ""

/-- The signals where the current value of a variable is found, when `deps` are the variables written so far. -/
def currentIn (D : Declared) (held : String → Held) (deps : List String) : SVar → List Net
  | .own x => [.i x]
  | .output i m => [.o (D.name (.output i m))]
  | v =>
    match held (D.name v) with
    | .flipflop => .d (D.name v) :: if D.name v ∈ deps then [] else [.q (D.name v)]
    | .temp => [.t (D.name v)]
    | .const => [.c (D.name v)]
    | .expr => [.w (D.name v)]
    | .bound w => [.o w]
    | .textMacro => []

/-- Inputs of instances given through a binding are not variables of the algorithm. -/
def Declared.Free (D : Declared) : SVar → Prop
  | .input i m => ∀ p, D.insts.lookup i = some p → m ∉ p.bound
  | _ => True

/-- Variables held by signals of the algorithm under their own name. -/
def SVar.Stored : SVar → Prop
  | .var _ | .member _ _ | .input _ _ => True
  | _ => False

/-- Signals hold the values of variables, macros stand for the values of theirs. -/
structure Holds (D : Declared) (held : String → Held) (M : Module) (deps : List String) (σ : SrcMem) (s : NetMem) : Prop where
  ty : ∀ v t, D.ty v = some t → D.Free v → ∀ n ∈ currentIn D held [] v, M.ty n = some t
  val : ∀ v t, D.ty v = some t → D.Free v → ∀ n ∈ currentIn D held deps v, ∀ k j, s n k j = σ v k j
  mac : ∀ v t, D.ty v = some t → D.Free v → v.Stored → held (D.name v) = .textMacro →
    M.mac (D.name v) = bitsVal (fun j => σ v 0 j) t.width

/-- The same for some variables only, as far as they are read: registers are read on their `Q` side unless they were written before. -/
structure HoldsOn (D : Declared) (held : String → Held) (M : Module) (deps : List String) (σ : SrcMem) (s : NetMem) (P : SVar → Prop) : Prop where
  ty : ∀ v t, D.ty v = some t → D.Free v → ∀ n ∈ currentIn D held [] v, M.ty n = some t
  val : ∀ v t, P v → D.ty v = some t → D.Free v → ∀ n ∈ currentIn D held deps v, (n = .d (D.name v) → D.name v ∈ deps) →
    ∀ k j, s n k j = σ v k j
  mac : ∀ v t, P v → D.ty v = some t → D.Free v → v.Stored → held (D.name v) = .textMacro →
    M.mac (D.name v) = bitsVal (fun j => σ v 0 j) t.width

mutual
/-- An expression reads variables that satisfy `P` only. -/
def SEx.Within (D : Declared) (P : SVar → Prop) : SEx → Prop
  | .num _ => True
  | .read a => a.Within D P
  | .un _ e => e.Within D P
  | .bin _ e e' => e.Within D P ∧ e'.Within D P
/-- Reads of an index. -/
def SIdx.Within (D : Declared) (P : SVar → Prop) : SIdx → Prop
  | .no => True
  | .at e => e.Within D P
/-- Reads of a part. -/
def SPart.Within (D : Declared) (P : SVar → Prop) : SPart → Prop
  | .no => True
  | .at e _ => e.Within D P
/-- Reads of an access: what it designates, and its indices. -/
def SAcc.Within (D : Declared) (P : SVar → Prop) : SAcc → Prop
  | .mk b i _ p => (∀ v, StandsFor D b v → P v) ∧ i.Within D P ∧ p.Within D P
end

/-- Reads made to find the place an access designates. -/
def SAcc.IndicesWithin (D : Declared) (P : SVar → Prop) : SAcc → Prop
  | .mk _ i _ p => i.Within D P ∧ p.Within D P

/-- Declared names are distinct: each variable has its own name in the compiler, a name of a variable is not that of an input, a name is not that of an
instance and of a group, ports and members are declared once (C13, C60 and their counterexamples). -/
structure Distinct (D : Declared) : Prop where
  names : (D.allVars.map Prod.fst ++ D.ins.map Prod.fst).Nodup
  bases : (D.insts.map Prod.fst ++ D.groups.map Prod.fst).Nodup
  ports : ∀ i ∈ D.insts, (i.2.inputs.map Prod.fst ++ i.2.outputs.map Prod.fst).Nodup
  fields : ∀ f ∈ D.fields, (f.2.map Prod.fst).Nodup
  widths : ∀ v t, D.ty v = some t → t.width < 2 ^ 32

mutual
/-- Macros are read whole. -/
def SEx.MacroWhole (D : Declared) (held : String → Held) : SEx → Prop
  | .num _ => True
  | .read a => a.MacroWhole D held
  | .un _ e => e.MacroWhole D held
  | .bin _ e e' => e.MacroWhole D held ∧ e'.MacroWhole D held
/-- Macros are read whole. -/
def SIdx.MacroWhole (D : Declared) (held : String → Held) : SIdx → Prop
  | .no => True
  | .at e => e.MacroWhole D held
/-- Macros are read whole. -/
def SPart.MacroWhole (D : Declared) (held : String → Held) : SPart → Prop
  | .no => True
  | .at e _ => e.MacroWhole D held
/-- An access to a variable that became a macro is an access to the whole of it. -/
def SAcc.MacroWhole (D : Declared) (held : String → Held) : SAcc → Prop
  | .mk b i fd p => i.MacroWhole D held ∧ p.MacroWhole D held ∧
      (held (accessedVar D (.mk b i fd p)) = .textMacro → i = .no ∧ fd = none ∧ p = .no)
end

/-! ### Accesses that make sense -/

/-- The member exists and lies within the word. -/
def FieldFits (D : Declared) (t : VarTy) (fd : String × String) : Prop :=
  ∃ b off w, D.fields.lookup fd.1 = some b ∧ FieldAt b fd.2 off w ∧ off + w ≤ t.width

mutual
/-- All accesses of an expression make sense. -/
def SEx.Sensible (D : Declared) : SEx → Prop
  | .num _ => True
  | .read a => a.Sensible D .rd
  | .un _ e => e.Sensible D
  | .bin _ e e' => e.Sensible D ∧ e'.Sensible D
/-- An index is given to tables only. -/
def SIdx.Sensible (D : Declared) (t : VarTy) : SIdx → Prop
  | .no => True
  | .at e => e.Sensible D ∧ t.size ≠ 0
/-- A part has at least one bit. -/
def SPart.Sensible (D : Declared) : SPart → Prop
  | .no => True
  | .at e n => e.Sensible D ∧ 0 < n
/-- What is accessed exists; outputs of instances are not assigned, inputs of instances given by a binding are not accessed. -/
def SAcc.Sensible (D : Declared) (rw : RW) : SAcc → Prop
  | .mk b i fd p => ∃ v t, StandsFor D b v ∧ D.ty v = some t ∧ D.Free v ∧ (rw = .wr → ∀ j m, v ≠ .output j m) ∧ i.Sensible D t ∧ p.Sensible D ∧
      ∀ f, fd = some f → FieldFits D t f
end

mutual
/-- Identifiers that occur in an expression. -/
def SEx.ids : SEx → List String
  | .num _ => []
  | .read a => a.ids
  | .un _ e => e.ids
  | .bin _ e e' => e.ids ++ e'.ids
/-- Identifiers of an index. -/
def SIdx.ids : SIdx → List String
  | .no => []
  | .at e => e.ids
/-- Identifiers of a part. -/
def SPart.ids : SPart → List String
  | .no => []
  | .at e _ => e.ids
/-- Identifiers that occur in an access, without the names before a dot. -/
def SAcc.ids : SAcc → List String
  | .mk b i _ p => (match b with
      | .id x => [x]
      | .io _ _ => []) ++ i.ids ++ p.ids
end

/-- Identifiers are not names that the compiler makes for members of groups and ports of instances. -/
def Visible (D : Declared) (ids : List String) : Prop := ∀ x ∈ ids, x ∈ D.allVars.map Prod.fst → x ∈ D.vars.map Prod.fst

end Silice
