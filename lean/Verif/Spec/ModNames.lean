import Verif.Model.ModNames

/-!
Conditions on the names of a design.
-/

set_option autoImplicit false

namespace Silice

/-- The name does not contain `_M`. -/
def NoM (s : String) : Prop := ∀ a b : List Char, s.toList ≠ a ++ '_' :: 'M' :: b

/-- A unit without memories and instances. -/
def UNode.Leaf (n : UNode) : Prop := n.mems = [] ∧ n.insts = .nil

/-- In one unit: memories have different names, instances too; an instance is not named `mem_` followed by the name of a memory; the name of an
instance, with more than a single module below, is not the start, up to an underscore, of the name of another instance or of `mem_` and the name of a memory. -/
structure UNode.Apart (n : UNode) : Prop where
  mems : n.mems.Nodup
  insts : (n.insts.list.map Prod.fst).Nodup
  mixed : ∀ m ∈ n.mems, ∀ i ∈ n.insts.list.map Prod.fst, i ≠ "mem_" ++ m
  starts : ∀ p ∈ n.insts.list, ¬ p.2.Leaf → ∀ r, (∀ q ∈ n.insts.list, q.1 ≠ p.1 ++ "_" ++ r) ∧ ∀ m ∈ n.mems, "mem_" ++ m ≠ p.1 ++ "_" ++ r

/-- `n` is the unit itself or one instantiated below it. -/
inductive UNode.Below : UNode → UNode → Prop where
  | self (n : UNode) : UNode.Below n n
  | step {n m : UNode} {i : String} {c : UNode} : (i, c) ∈ n.insts.list → UNode.Below c m → UNode.Below n m

/-- Conditions on the names of a whole design: no name of a unit contains `_M`, and no memory of the top unit starts with `M` or contains `_M`. -/
structure UNode.Named (top : UNode) : Prop where
  apart : ∀ n, UNode.Below top n → n.Apart
  units : ∀ n, UNode.Below top n → NoM n.unit
  mems : ∀ m ∈ top.mems, NoM ("_" ++ m)

end Silice
