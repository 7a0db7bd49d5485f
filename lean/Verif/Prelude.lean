import Mathlib.Tactic.ByContra
import Mathlib.Tactic.SplitIfs
import Mathlib.Tactic.Push
import Mathlib.Tactic.Use
import Mathlib.Tactic.Cases
import Mathlib.Tactic.Set
import Mathlib.Tactic.Tauto
import Mathlib.Tactic.Ring
import Mathlib.Tactic.Linarith
import Mathlib.Logic.Relation
/-! Tactics and basic lemmas used throughout the proofs (no definitions of our own). -/
