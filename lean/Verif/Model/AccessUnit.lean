import Verif.Model.Access
import Verif.Model.Whole

/-!
# The blocks of an algorithm as `determineAccess` walks them

/repo/src/Algorithm.cpp:5863-5912 follows `getChildren` from each state, /repo/src/Algorithm.h:411-521, and stops at states.
-/

set_option autoImplicit false

namespace Silice

/-- The blocks of a graph, with the names read and written by the instructions of each. -/
def accGraph {B : Type} (acc : B → List (List String × List String)) (g : Cfg B) (b : B) : ABlock B :=
  ⟨acc b, (g.blk b).isState, g.children b⟩

/-- Names read by the test at the end of a block. Models `getAllBlockInstructions`, /repo/src/Algorithm.cpp:5812-5824. -/
def testAcc {V B : Type} (D : DataOf V) : Act B → List (List String × List String)
  | .ifElse c _ _ _ _ _ _ _ => [(D.testReads c, [])]
  | .loop c _ _ => [(D.testReads c, [])]
  | .switch c _ _ => [(D.labelReads c, [])]
  | _ => []

/-- Names read and written by the instructions of a block, the test at its end included. An assignment of a part of a variable counts as
an assignment (`asgAccess`). Models `getAllBlockInstructions` and `determineAccess`, /repo/src/Algorithm.cpp:5769-5824. -/
def blockAcc {V B : Type} (D : DataOf V) (is : List PIns) (act : Act B) : List (List String × List String) :=
  (is.flatMap D.ins).map (fun i => (i.reads, i.writes ++ i.parts ++ i.fields)) ++ testAcc D act

end Silice
