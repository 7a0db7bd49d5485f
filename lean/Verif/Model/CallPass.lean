import Verif.Model.Select

/-!
# Parameters of calls and receivers of results

Models what is written for calls and joins (`writeAlgorithmCall`, `writeAlgorithmReadback`, `writeSubroutineCall`, `writeSubroutineReadback`,
/repo/src/Algorithm.cpp:7119-7340), once arguments are matched with parameters (C14). The start of the callee, the wait and the jumps are C22 and C50.
-/

set_option autoImplicit false

namespace Silice

/-- What a parameter was matched with: an expression, or the member of a group that was given as a whole (3773-3786). -/
inductive GArg where
  | ex (e : SEx)
  | member (g m : String)

/-- What a result was matched with: an identifier, the member of a group given as a whole, an access, any other expression (`what` of `t_call_param`, 3720-3745). -/
inductive Recv where
  | name (x : String)
  | member (g m : String)
  | acc (a : SAcc)
  | other

/-- Errors reported on calls and joins. -/
inductive CallErr where
  | notAlgorithm
  | clockDomain
  | notCallable
  | stateless
  | fromPipeline
  | count
  | boundInput
  | boundReceiver
  | badReceiver
  | sel (e : SelErr)
deriving Repr, DecidableEq

/-- What is asked about the instance: is it an algorithm, on the same clock, callable (`isNotCallable`), without states (`hasNoFSM`). -/
structure CalleeIs where
  algorithm : Bool
  sameClock : Bool
  callable : Bool
  stateless : Bool

/-- The value given to a parameter, /repo/src/Algorithm.cpp:7155-7159, 7273-7277: `what` is an identifier, or the expression is rewritten. -/
def argEx (D : Declared) (c : SelCtx) : GArg → Except SelErr VEx
  | .ex e => compEx D c e
  | .member g m =>
    match rewriteName D c .rd (g ++ "_" ++ m) with
    | .error e => .error e
    | .ok r => .ok (.ref (.mk r .nil))

/-- One assignment per parameter, in order, /repo/src/Algorithm.cpp:7147-7162, 7268-7280. The variables known as written are those before the call,
for all of them. Lists of different lengths: `parseCallParams`, 3814-3871. -/
def writeParams (D : Declared) (c : SelCtx) : List String → List GArg → Except CallErr (List (VRef × VEx))
  | [], [] => .ok []
  | x :: xs, a :: as =>
    match rewriteName D c .wr x with
    | .error e => .error (.sel e)
    | .ok r =>
      match argEx D c a with
      | .error e => .error (.sel e)
      | .ok v =>
        match writeParams D c xs as with
        | .error e => .error e
        | .ok vs => .ok ((.mk r .nil, v) :: vs)
  | _, _ => .error .count

/-- `writeAlgorithmCall`, /repo/src/Algorithm.cpp:7119-7167. No parameter: the inputs are left as they are. -/
def writeAlgCall (D : Declared) (c : SelCtx) (k : CalleeIs) (p : InstPorts) (args : List GArg) : Except CallErr (List (VRef × VEx)) :=
  if ¬ k.algorithm then .error .notAlgorithm
  else if ¬ k.sameClock then .error .clockDomain
  else if ¬ k.callable then .error .notCallable
  else if args.isEmpty then .ok []
  else if args.length ≠ p.inputs.length then .error .count
  else if p.inputs.any (fun q => q.1 ∈ p.bound) then .error .boundInput
  else writeParams D c (p.inputs.map fun q => p.pre ++ "_" ++ q.1) args

/-- `writeSubroutineCall`, /repo/src/Algorithm.cpp:7258-7281: `ins` are the variables of the inputs (`io2var`). -/
def writeSubCall (D : Declared) (c : SelCtx) (inPipe : Bool) (ins : List String) (args : List GArg) : Except CallErr (List (VRef × VEx)) :=
  if inPipe then .error .fromPipeline
  else if args.length ≠ ins.length then .error .count
  else writeParams D c ins args

/-- A variable bound to the output of an instance (`m_VIOBoundToBlueprintOutputs`). -/
def isBoundVar (held : String → Held) (x : String) : Bool :=
  match held x with
  | .bound _ => true
  | _ => false

/-- Where a result is stored, /repo/src/Algorithm.cpp:7204-7229, 7296-7319. No variable is known as written. `chk`: variables bound to outputs are refused,
which is done for algorithms only, and only for identifiers. -/
def recvRef (D : Declared) (held : String → Held) (chk : Bool) : Recv → Except CallErr VRef
  | .name x =>
    if chk && isBoundVar held x then .error .boundReceiver
    else match rewriteName D ⟨held, []⟩ .wr x with
      | .error e => .error (.sel e)
      | .ok r => .ok (.mk r .nil)
  | .member g m =>
    if chk && isBoundVar held (g ++ "_" ++ m) then .error .boundReceiver
    else match rewriteName D ⟨held, []⟩ .wr (g ++ "_" ++ m) with
      | .error e => .error (.sel e)
      | .ok r => .ok (.mk r .nil)
  | .acc a =>
    match compAcc D ⟨held, []⟩ .wr a with
    | .error e => .error (.sel e)
    | .ok r => .ok r
  | .other => .error .badReceiver

/-- One assignment per result, in order, for receivers that are not macros. `rv` gives the value of a result. -/
def writeResults (D : Declared) (held : String → Held) (chk : Bool) (rv : String → Except SelErr VEx) : List String → List Recv → Except CallErr (List (VRef × VEx))
  | [], [] => .ok []
  | o :: os, r :: rs =>
    match recvRef D held chk r with
    | .error e => .error e
    | .ok l =>
      match rv o with
      | .error e => .error (.sel e)
      | .ok v =>
        match writeResults D held chk rv os rs with
        | .error e => .error e
        | .ok vs => .ok ((l, v) :: vs)
  | _, _ => .error .count

/-- `writeAlgorithmReadback`, /repo/src/Algorithm.cpp:7171-7254: results are the wires of the outputs. -/
def writeAlgJoin (D : Declared) (held : String → Held) (k : CalleeIs) (p : InstPorts) (rs : List Recv) : Except CallErr (List (VRef × VEx)) :=
  if ¬ k.algorithm then .error .notAlgorithm
  else if ¬ k.sameClock then .error .clockDomain
  else if k.stateless then .error .stateless
  else if rs.isEmpty then .ok []
  else if rs.length ≠ p.outputs.length then .error .count
  else writeResults D held true (fun o => .ok (.ref (.mk (.net (.o (p.pre ++ "_" ++ o))) .nil))) (p.outputs.map Prod.fst) rs

/-- `writeSubroutineReadback`, /repo/src/Algorithm.cpp:7284-7340: results are variables, read on the side `FF_Q`. -/
def writeSubJoin (D : Declared) (held : String → Held) (outs : List String) (rs : List Recv) : Except CallErr (List (VRef × VEx)) :=
  if rs.length ≠ outs.length then .error .count
  else writeResults D held false (fun o =>
    match rewriteName D ⟨held, []⟩ .rd o with
    | .error e => .error e
    | .ok r => .ok (.ref (.mk r .nil))) outs rs

end Silice
