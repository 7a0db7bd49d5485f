import Verif.Model.Text
/-
Variables driven by (parts of) instance outputs: recording of the bindings, rewriting of reads, range checks.
-/
set_option autoImplicit false
namespace Silice

/-- A recorded part binding: wire of the instance output, first bit, number of bits
(`pair<string, v2i>`, /repo/src/Algorithm.cpp:1431). -/
structure PartBinding where
  wire : List Char
  first : Nat
  num : Nat
deriving Repr, DecidableEq

/-- `splitBinding`, /repo/src/Algorithm.cpp:1431-1442. `none` is the exception of `stoi` on a malformed text. -/
def splitBinding (s : List Char) : Option PartBinding :=
  let r1 := getlineC ',' s
  let r2 := getlineC ',' (r1.2.getD [])
  let r3 := getlineC ',' (r2.2.getD [])
  match stoiDec r2.1, stoiDec r3.1 with
  | some o, some w => some ⟨r1.1, o, w⟩
  | _, _ => none

/-- Loop of `splitBitBindings`, /repo/src/Algorithm.cpp:1449-1452, on the extracted strings. -/
def splitEach : List (List Char) → Option (List PartBinding)
  | [] => some []
  | s :: rest =>
    if s.isEmpty then splitEach rest
    else match splitBinding s, splitEach rest with
      | some b, some bs => some (b :: bs)
      | _, _ => none

/-- `splitBitBindings`, /repo/src/Algorithm.cpp:1445-1453. -/
def splitBitBindings (s : List Char) : Option (List PartBinding) := splitEach (getlines ';' s)

/-- A binding of an instance output to a variable, as recorded by `determineBlueprintBoundVIO` (direction
`e_Right`), /repo/src/Algorithm.cpp:6303-6317. -/
inductive OutBind where
  | part (b : PartBinding)
  | whole (wire : List Char)
deriving Repr, DecidableEq

/-- Text appended for a part binding, /repo/src/Algorithm.cpp:6308. -/
def encodePart (b : PartBinding) : List Char :=
  ';' :: (b.wire ++ ',' :: (natToDec b.first ++ ',' :: natToDec b.num))

/-- Recording one binding in the entry of the variable in `m_VIOBoundToBlueprintOutputs`
(`none`: no entry yet), /repo/src/Algorithm.cpp:6306-6317. The outer `none` is the error
"already bound as the output of another instance". -/
def recordBind (entry : Option (List Char)) : OutBind → Option (Option (List Char))
  | .part b => some (some (entry.getD [] ++ encodePart b))
  | .whole w => match entry with
    | some _ => none
    | none => some (some w)

/-- All the bindings of one variable, in the order the instances are visited. -/
def recordBinds : Option (List Char) → List OutBind → Option (Option (List Char))
  | e, [] => some e
  | e, b :: bs => match recordBind e b with
    | none => none
    | some e' => recordBinds e' bs

/-- Source of one bit of the rewritten variable. -/
inductive BitSrc where
  | zero
  | wire (name : List Char) (bit : Nat)
deriving Repr, DecidableEq

/-- Loop looking for the range covering `bit`, /repo/src/Algorithm.cpp:1474-1486. The accumulator is
`(which.first, which_bit)`; `none` is the error "bound to multiple outputs". As in the code, "not found yet" is
an empty wire name. -/
def coverLoop (bit : Nat) : List PartBinding → List Char × Nat → Option (List Char × Nat)
  | [], acc => some acc
  | r :: rest, acc =>
    if r.first ≤ bit ∧ bit + 1 ≤ r.first + r.num then
      if acc.1.isEmpty then coverLoop bit rest (r.wire, bit - r.first) else none
    else coverLoop bit rest acc

/-- Source of one bit, /repo/src/Algorithm.cpp:1472-1492. -/
def bitSource (bs : List PartBinding) (bit : Nat) : Option BitSrc :=
  match coverLoop bit bs ([], 0) with
  | none => none
  | some w => if w.1.isEmpty then some .zero else some (.wire w.1 w.2)

/-- Loop over the bits, /repo/src/Algorithm.cpp:1471-1493: `concat` is built by prepending, so the result is most
significant bit first. -/
def bitsLoop (bs : List PartBinding) : Nat → Nat → List BitSrc → Option (List BitSrc)
  | 0, _, concat => some concat
  | n + 1, bit, concat =>
    match bitSource bs bit with
    | none => none
    | some s => bitsLoop bs n (bit + 1) (s :: concat)

/-- Result of rewriting a read of a bound variable. -/
inductive Rewritten where
  | concat (msbFirst : List BitSrc)
  | verbatim (text : List Char)
deriving Repr, DecidableEq

/-- `Algorithm::rewriteBinding`, /repo/src/Algorithm.cpp:1455-1498, for a variable of `width` bits whose entry in
`m_VIOBoundToBlueprintOutputs` is `w`. `none`: the compilation stops (assertion on an empty text, malformed
text, or a bit bound to several outputs). -/
def rewriteBinding (w : List Char) (width : Nat) : Option Rewritten :=
  match w with
  | [] => none
  | c :: _ =>
    if c = ';' then
      match splitBitBindings w with
      | none => none
      | some bs => (bitsLoop bs width 0 []).map .concat
    else some (.verbatim w)

/-- Checks on one part binding, /repo/src/Algorithm.cpp:6262-6297. `portWidth = none` when the width of the port
is not known (parameterised). -/
def partAccepted (portWidth : Option Nat) (varWidth first num : Nat) : Bool :=
  (match portWidth with
   | none => true
   | some pw => decide (¬ num > pw) && decide (¬ num < pw))
  && decide (¬ first + num > varWidth)

/-! Inouts -/

/-- An inout binding: range (`(-1,-1)` when the whole inout is bound), bind point, and whether it is an
input binding (`e_Left`/`e_LeftQ`). -/
structure InoutBind where
  first : Int
  num : Int
  point : String
  isLeft : Bool
deriving Repr, DecidableEq

/-- Lexicographic order on ranges (`std::map<v2i,...>`, /repo/src/Algorithm.h:221). -/
def rangeLt (a b : InoutBind) : Bool := a.first < b.first || (a.first == b.first && a.num < b.num)

/-- `std::map::insert`: sorted insertion; an element with the same key is left in place and the new one is
dropped, /repo/src/Algorithm.cpp:6323, 6354, 6361. -/
def insertRange (x : InoutBind) : List InoutBind → List InoutBind
  | [] => [x]
  | y :: ys =>
    if rangeLt x y then x :: y :: ys
    else if rangeLt y x then y :: insertRange x ys
    else y :: ys

/-- All inout bindings of one inout. -/
def insertRanges (l : List InoutBind) : List InoutBind := l.foldl (fun m x => insertRange x m) []

/-- Loop verifying the ranges of one inout, /repo/src/Algorithm.cpp:6369-6380. `some b`: error, first overlapping
bit `b`; `none`: accepted. -/
def verifyLoop : Int → List InoutBind → Option Int
  | _, [] => none
  | prev, x :: xs =>
    if x.isLeft then verifyLoop prev xs
    else if x.first = prev then some prev
    else verifyLoop (prev + x.num) xs

/-- Verification of one inout, /repo/src/Algorithm.cpp:6367-6381. -/
def verifyInout (binds : List InoutBind) : Option Int :=
  let m := insertRanges binds
  if m.length < 2 then none else verifyLoop (-1) m

end Silice
