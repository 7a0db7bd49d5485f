import Verif.Model.Gather

/-!
# Always blocks

Models how `x := e`, `always`, `always_before` and `always_after` of a unit are gathered and checked (/repo/src/Algorithm.cpp:3959-3999, 4119,
`gatherAlwaysAssigned` 3261-3280) and how their code is written (8252-8300, 10534-10545, with `writeStatelessBlockGraph` 8788-9199).

`m_AlwaysPre` and `m_AlwaysPost` are blocks that belong to no state machine; here each is block 0 of a graph of its own. Not modelled: the default
values given to temporaries between `always_before` and the states (8270-8300), which no source statement can observe unless it reads a
variable that it does not write before (Model/Usage: `junk`); `return` and `goto` (they use the state machine of the block, and there is none).
-/

set_option autoImplicit false

namespace Silice

/-- Block 0 with the assignments `x := e` (`asg`), in the order in which they are found. `tops` are the entries of the subroutines that could be
called. /repo/src/Algorithm.cpp:3261-3280, 3964-3966, 4119. -/
def alwaysStart (tops asg : List Nat) : PSt :=
  asg.foldl (fun st i => st.push 0 (.plain i)) (({ tops } : PSt).add 0)

/-- The `x := e` of a unit and one of its always blocks, if there is one; gives the last block too. `none`: an error is reported ("can only be a
one-cycle block", or one of those of `build`). /repo/src/Algorithm.cpp:3964-3999, `gatherBlock` 1934-1947. -/
def buildAlways (tops asg : List Nat) (p : Option Prg) : Option (Nat × PSt) :=
  match p with
  | none => some (0, alwaysStart tops asg)
  | some p => (bracket (build p none) 0 (alwaysStart tops asg)).bind fun r => if r.2.isStateless 0 then some r else none

/-- The always blocks of an algorithm in the older syntax: all those that are found are gathered from the same block, and there is no
check. /repo/src/Algorithm.cpp:4055-4095. -/
def buildAlwaysLegacy (tops asg : List Nat) : List Prg → Option (Nat × PSt)
  | [] => some (0, alwaysStart tops asg)
  | p :: ps => ps.foldl (fun r p => r.bind fun r => bracket (build p none) 0 r.2) (bracket (build p none) 0 (alwaysStart tops asg))

/-- At the end of code that belongs to no state machine no index is assigned. /repo/src/Algorithm.cpp:9163-9171. -/
def Code.noHalt {B : Type} : Code B → Code B
  | .seq x y => .seq x.noHalt y.noHalt
  | .ite c x y => .ite c x.noHalt y.noHalt
  | .wend c x b => .wend c x.noHalt b
  | .case c es => .case c (entries es)
  | .halt => .skip
  | c => c
where
  /-- in the cases of a switch -/
  entries : List (Option Nat × Code B) → List (Option Nat × Code B)
    | [] => []
    | (v, x) :: es => (v, x.noHalt) :: entries es

/-- The code written for an always block. Its blocks have no numbers: states are numbered from the first block of the algorithm only.
/repo/src/Algorithm.cpp:8268, 10540. -/
def alwaysCode (st : PSt) (last fuel : Nat) : Option (Code (Fin (last + 1))) :=
  (emitFrom (st.cfg last) ⟨fun _ => none, fun _ => none⟩ fuel none (Fin.ofNat (last + 1) 0)).map Code.noHalt

end Silice
