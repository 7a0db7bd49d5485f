/-
Matching of call arguments with parameters: /repo/src/Algorithm.cpp:3692-3871.
Names are lists of characters.
-/
set_option autoImplicit false
namespace Silice

/-- `t_call_param`: an argument is a group (base name and members) or something else (identified by a number, standing
for the expression). -/
inductive Arg where
  | plain (e : Nat)
  | group (base : List Char) (members : List (List Char))
deriving Repr, DecidableEq

/-- What a parameter is matched with: the argument itself or the identifier of a group member. -/
inductive Matched where
  | plain (e : Nat)
  | member (id : List Char)
deriving Repr, DecidableEq

/-- `memberPostfix`, /repo/src/Algorithm.cpp:3694-3702 (`rfind('_')`). -/
def memberPostfix (s : List Char) : List Char :=
  if '_' ∈ s then (s.reverse.takeWhile (fun c => c ≠ '_')).reverse else []

/-- Loop of `matchCallParams`, /repo/src/Algorithm.cpp:3765-3797. The indices `g` and `i` are the suffixes of both
lists. Returns the arguments from `g` on at loop exit and the matches. -/
def matchLoop : List Arg → List (List Char) → List Matched → Option (List Arg × List Matched)
  | gs, [], acc => some (gs, acc)
  | [], _ :: _, _ => none
  | .group b ms :: gs, p :: ps, acc =>
    if memberPostfix p ∈ ms then matchLoop (.group b ms :: gs) ps (acc ++ [.member (b ++ '_' :: memberPostfix p)])
    else matchLoop gs (p :: ps) acc
  | .plain e :: gs, _ :: ps, acc => matchLoop gs ps (acc ++ [.plain e])
termination_by gs ps => gs.length + ps.length

/-- `matchCallParams`, /repo/src/Algorithm.cpp:3752-3808; `none` is `return false`. -/
def matchCallParams (given : List Arg) (expected : List (List Char)) : Option (List Matched) :=
  if given = [] ∧ expected = [] then some []
  else if given = [] ∨ expected = [] then none
  else
    match matchLoop given expected [] with
    | none => none
    | some ([], m) => some m
    | some ([.group _ _], m) => some m
    | some _ => none

end Silice
