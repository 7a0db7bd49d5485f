import Verif.Model.Text
import Verif.Model.Arith
/-
Number literals: /repo/src/TypesAndConsts.cpp and their users in /repo/src/Algorithm.cpp. Text is `List Char`.
-/
set_option autoImplicit false
namespace Silice

/-- `[bdh]` -/
def isBaseC (c : Char) : Bool := c = 'b' || c = 'd' || c = 'h'

/-- `[[:digit:]a-fA-Fxz]` -/
def isValueC (c : Char) : Bool :=
  isDigitC c || (97 ≤ c.toNat && c.toNat ≤ 102) || (65 ≤ c.toNat && c.toNat ≤ 70) || c = 'x' || c = 'z'

/-- What the capture groups of the literal expression hold. -/
structure NumMatch where
  neg : Bool
  width : List Char
  base : Char
  value : List Char
deriving Repr, DecidableEq

/-- Match of `(-?)([[:digit:]]+)'?([bdh])([[:digit:]a-fA-Fxz]+)` at the start of the text; the second component is the
text left after the match. Greedy matching never has to backtrack here: the character after the digits is a
quote or a base letter, neither of which is a digit. -/
def matchNumberAt (s : List Char) : Option (NumMatch × List Char) :=
  let neg := s.head? == some '-'
  let s1 := if neg then s.tail else s
  let w := s1.takeWhile isDigitC
  let s2 := s1.dropWhile isDigitC
  let s3 := if s2.head? == some '\'' then s2.tail else s2
  match s3 with
  | [] => none
  | b :: s4 =>
    if w = [] then none
    else if !isBaseC b then none
    else
      let v := s4.takeWhile isValueC
      if v = [] then none else some (⟨neg, w, b, v⟩, s4.dropWhile isValueC)

/-- `std::regex_search` with the expression above: leftmost match (`splitNumber`,
/repo/src/TypesAndConsts.cpp:51-61, whose `sl_assert(ok)` fails when this is `none`). -/
def searchNumber : List Char → Option NumMatch
  | [] => none
  | c :: cs =>
    match matchNumberAt (c :: cs) with
    | some (m, _) => some m
    | none => searchNumber cs

/-- `splitNumber`, /repo/src/TypesAndConsts.cpp:51-61: sign, width (`atoi`), base, digits.
Simplification: `atoi` does not overflow. -/
def splitNumber (s : List Char) : Option (Bool × Nat × Char × List Char) :=
  (searchNumber s).map (fun m => (m.neg, decAcc 0 m.width, m.base, m.value))

/-- `Algorithm::rewriteNumber`, /repo/src/Algorithm.cpp:419-427. -/
def rewriteNumber (s : List Char) : Option (List Char) :=
  (splitNumber s).map fun (neg, w, b, v) => (if neg then ['-'] else []) ++ natToDec w ++ ['\''] ++ [b] ++ v

/-- Per-base digit classes of `isNumber`, /repo/src/TypesAndConsts.cpp:87-89. -/
def digitOfBase (b : Char) (c : Char) : Bool :=
  if b = 'b' then c = '0' || c = '1' || c = 'x' || c = 'z'
  else if b = 'd' then isDigitC c || c = 'x' || c = 'z'
  else if b = 'h' then isValueC c
  else false

/-- `isNumber`, /repo/src/TypesAndConsts.cpp:82-105: `(is a number, _sized)`. -/
def isNumber (s : List Char) : Bool × Bool :=
  match matchNumberAt s with
  | some (m, []) => (m.value.all (digitOfBase m.base), true)
  | _ =>
    let s1 := if s.head? == some '-' then s.tail else s
    (s1 ≠ [] && s1.all isDigitC, false)

/-- `Algorithm::vioAsDefine`, /repo/src/Algorithm.cpp:1509-1535, for a variable of given width and an initial value
text. -/
def vioAsDefine (varWidth : Nat) (value : List Char) : Option (List Char) :=
  let cast := natToDec varWidth ++ ['\'', '('] ++ value ++ [')']
  let def? :=
    match isNumber value with
    | (true, true) => rewriteNumber value
    | (true, false) =>
      if value.head? == some '-' then some cast           -- atoi ≤ 0
      else
        let i := decAcc 0 value
        if i = 0 then some cast
        else some (natToDec (1 + justHigherPow2 i).toNat ++ ['\'', 'd'] ++ value)
    | (false, _) => some cast
  def?.map (fun d => '(' :: d ++ [')'])

end Silice
