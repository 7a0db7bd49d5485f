import Verif.Model.Deps

/-!
# Assignments delayed by a cycle

Models `x ::= e`: the variable inserted for it (`gatherAlwaysAssigned` and `delayedName`, /repo/src/Algorithm.cpp:3253-3281), what it is said to access
(`determineVIOAccess`, 5475-5500), and its text (`writeBlock`, 8525-8560), together with the `x := e` it is mixed with.

All variables are flip-flops here (Model/Usage has those that become temporaries; the inserted variable never does, as it does not enter `ff_usage`:
its text does not go through `rewriteIdentifier`). Values are abstract. Not modelled: assignments to parts (`x[..] ::= e` follows a null pointer, 8547),
trackers (C78), resets.
-/

set_option autoImplicit false

namespace Silice

/-- The name of the variable inserted for `x ::= e`, from the position of the statement. /repo/src/Algorithm.cpp:3253-3257. -/
def delayedName (line col : Nat) : String := "delayed_" ++ toString line ++ "_" ++ toString col

/-- `x := e` and `x ::= e`, with the names read by `e` and its value; for the second its position in the source. -/
inductive AlwAsg (V : Type) where
  | now (x : String) (reads : List String) (fn : List V → V)
  | delayed (line col : Nat) (x : String) (reads : List String) (fn : List V → V)

variable {V : Type}

/-- Names read and written, /repo/src/Algorithm.cpp:5475-5500. -/
def AlwAsg.access : AlwAsg V → List String × List String
  | .now x reads _ => (reads, [x])
  | .delayed line col x reads _ => (delayedName line col :: reads, [x, delayedName line col])

/-- Right hand sides in the text: the `_d_` signal of a variable, or an expression; a name in an expression is followed by whether its `_d_` signal is
read, rather than `_q_`. -/
inductive DRhs (V : Type) where
  | copy (y : String)
  | expr (args : List (String × Bool)) (fn : List V → V)

/-- A blocking assignment to the `_d_` signal of `lhs`. -/
structure DTxt (V : Type) where
  lhs : String
  rhs : DRhs V

/-- Names of an expression: `_d_` for those with dependencies, written before in the cycle. `rewriteIdentifier`, /repo/src/Algorithm.cpp:1655-1664. -/
def sidesOf (keys reads : List String) : List (String × Bool) := reads.map fun r => (r, decide (r ∈ keys))

/-- The text of a statement, `keys` being the variables written before. That of `x ::= e` is made of the text of `x = e`, cut at the sign `=`.
/repo/src/Algorithm.cpp:8525-8560. -/
def AlwAsg.text (keys : List String) : AlwAsg V → List (DTxt V)
  | .now x reads fn => [⟨x, .expr (sidesOf keys reads) fn⟩]
  | .delayed line col x reads fn => [⟨x, .copy (delayedName line col)⟩, ⟨delayedName line col, .expr (sidesOf keys reads) fn⟩]

/-- Verilog: a blocking assignment, given the registers `q` and the signals `d`. -/
def DTxt.exec (q d : String → V) (t : DTxt V) : String → V :=
  Function.update d t.lhs (match t.rhs with
    | .copy y => d y
    | .expr args fn => fn (args.map fun a => if a.2 then d a.1 else q a.1))

/-- A statement carried out: names written so far and signals. /repo/src/Algorithm.cpp:8498-8770 (`updateAndCheckDependencies` at the end). -/
def alwStep (q : String → V) (s : List String × (String → V)) (a : AlwAsg V) : List String × (String → V) :=
  (addNew s.1 a.access.2, (a.text s.1).foldl (DTxt.exec q) s.2)

/-- Signals after the first `k` statements; they start as the registers (`_d_x = _q_x`, /repo/src/Algorithm.cpp:8140-8150). -/
def alwSignals (as : List (AlwAsg V)) (q : String → V) (k : Nat) : String → V := ((as.take k).foldl (alwStep q) ([], q)).2

/-- Registers at the start of each cycle: the statements, then the rest of the code of the cycle, then the clock edge. -/
def alwRegs (as : List (AlwAsg V)) (rest : Nat → (String → V) → String → V) (q0 : String → V) : Nat → String → V
  | 0 => q0
  | t + 1 => rest t (alwSignals as (alwRegs as rest q0 t) as.length)

/-- Signals in cycle `t`, before statement `k`. -/
def alwSees (as : List (AlwAsg V)) (rest : Nat → (String → V) → String → V) (q0 : String → V) (t k : Nat) : String → V :=
  alwSignals as (alwRegs as rest q0 t) k

/-- The check on dependencies. /repo/src/Algorithm.cpp:4741-4840. -/
def alwCheck (fuel : Nat) (as : List (AlwAsg V)) : Option (Except String Deps) := Deps.instrs fuel Deps.empty (as.map AlwAsg.access)

/-- How the text of `x = e` is cut: what is before the character that precedes the first `=`, and what follows that sign (an index before the
start, or no sign, is undefined). /repo/src/Algorithm.cpp:8550-8552. -/
def cutAssign (s : List Char) : Option (List Char × List Char) :=
  if '=' ∈ s ∧ s.head? ≠ some '=' then some ((s.takeWhile (· ≠ '=')).dropLast, (s.dropWhile (· ≠ '=')).tail) else none

end Silice
