/-
Table initialisers: `readInitList` (/repo/src/Algorithm.cpp:804-877) and the places that use its result.
Values are kept abstract (`α`, the text of one value); `zero` is the text "0".
-/
set_option autoImplicit false
namespace Silice

/-- Padding directive of an initialiser list, /repo/antlr/silice.g4:200. -/
inductive Pad (α : Type) where
  | none
  | value (v : α)
  | uninitialized

/-- What follows `=` in a table declaration, /repo/antlr/silice.g4:202,215. Values of a list may come from a file
(`gatherInitListFromFile`), they are given as the list read. -/
inductive TableInit (α : Type) where
  | list (vs : List α) (pad : Pad α)
  | string (chars : List α)
  | uninitialized
  | missing

inductive TableErr where
  | badSize | cannotDeduceSize | noInitializer | tooFew | tooMany
deriving Repr, DecidableEq

/-- The part of `t_var_nfo` / `t_mem_nfo` set by the function. -/
structure TableNfo (α : Type) where
  size : Nat
  init : List α
  doNotInit : Bool

/-- `values_str.resize(n, v)` for `values_str.size() ≤ n`. -/
def resizeWith {α : Type} (n : Nat) (v : α) (vs : List α) : List α := vs ++ List.replicate (n - vs.length) v

/-- Values held by the initialiser before sizing, /repo/src/Algorithm.cpp:809-824. -/
def initValues {α : Type} (zero : α) : TableInit α → List α
  | .list vs _ => vs
  | .string cs => cs ++ [zero]
  | .uninitialized => []
  | .missing => []

/-- `gatherTableNfo` and `readInitList`, /repo/src/Algorithm.cpp:723-743 and 804-877. `declared` is the number between
brackets, absent for an automatic size. -/
def readInitList {α : Type} (zero : α) (declared : Option Nat) (init : TableInit α) : Except TableErr (TableNfo α) :=
  if declared = some 0 then .error .badSize
  else
    let size := declared.getD 0   -- `table_size = 0` is the marker for autosize
    let vs := initValues zero init
    match init with
    | .missing => if size = 0 then .error .cannotDeduceSize else .error .noInitializer
    | .uninitialized => if size = 0 then .error .cannotDeduceSize else .ok ⟨size, [], true⟩
    | _ =>
      if size = 0 then .ok ⟨vs.length, vs, false⟩
      else if vs.length = size then .ok ⟨size, vs, false⟩
      else if vs.length < size then
        match init with
        | .string _ => .ok ⟨size, vs, false⟩
        | .list _ (.value v) => .ok ⟨size, resizeWith size v vs, false⟩
        | .list _ .uninitialized => .ok ⟨size, vs, false⟩
        | _ => .error .tooFew
      else .error .tooMany

/-- Values assigned at startup to the entries of a memory or table: loop over `init_values`
(/repo/src/Algorithm.cpp:9491-9493 for memories, 9414-9416 for variables, 7768-7770 for constants): entry `i` gets
`init[i]`; `none` is an entry left without value. -/
def startupEntry {α : Type} (t : TableNfo α) (i : Nat) : Option α := if t.doNotInit then none else t.init[i]?

/-- Reset values of a table of flip-flops, /repo/src/Algorithm.cpp:7977-7985: `init_values[i]` is read for every
`i < table_size` whenever there is a reset; `none` is the read past the end of the vector (undefined
behaviour). Not executed for `do_not_initialize` (its `init_cond` is empty). -/
def resetValues {α : Type} (t : TableNfo α) : Option (List α) :=
  if t.doNotInit then some [] else (List.range t.size).mapM (fun i => t.init[i]?)

end Silice
