/-
Tracking of Lua branches: class `LuaCodePath`, /repo/src/LuaPreProcessor.cpp:1061-1107.
-/
set_option autoImplicit false
namespace Silice

/-- Words of a Lua line that matter, /repo/src/LuaPreProcessor.cpp:1081-1101. -/
inductive Kw where
  | opn     -- if, for, while, function
  | fin     -- end
  | els     -- else, elseif
  | other
deriving Repr, DecidableEq

def kwOf (w : String) : Kw :=
  if w = "if" ∨ w = "for" ∨ w = "while" ∨ w = "function" then .opn
  else if w = "end" then .fin
  else if w = "else" ∨ w = "elseif" then .els
  else .other

/-- One word. The stack `m_IfSide` has its back first; `none` is the error "directives are unbalanced". -/
def lcpStep (st : List Bool) : Kw → Option (List Bool)
  | .opn =>
    match st with
    | [] => some [true]
    | b :: bs => some (b :: b :: bs)
  | .fin =>
    match st with
    | [] => none
    | _ :: bs => some bs
  | .els =>
    match st with
    | [] => none
    | _ :: bs => some (false :: bs)
  | .other => some st

def lcpRun (st : List Bool) : List Kw → Option (List Bool)
  | [] => some st
  | k :: ks =>
    match lcpStep st k with
    | none => none
    | some st' => lcpRun st' ks

/-- `update` on one line, given as its words (cut at spaces, tabs and quotes; strings removed): stops at the word `--`. -/
def lcpLine (st : List Bool) (words : List String) : Option (List Bool) :=
  lcpRun st ((words.takeWhile (fun w => w ≠ "--")).map kwOf)

/-- `update` on several lines. -/
def lcpLines (st : List Bool) : List (List String) → Option (List Bool)
  | [] => some st
  | l :: ls =>
    match lcpLine st l with
    | none => none
    | some st' => lcpLines st' ls

/-- `consider`, /repo/src/LuaPreProcessor.cpp:1105. -/
def consider (st : List Bool) : Bool :=
  match st with
  | [] => true
  | b :: _ => b

end Silice
