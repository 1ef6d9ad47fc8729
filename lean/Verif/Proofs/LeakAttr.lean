import Mathlib.Tactic.Attr.Register

/-
Simp sets for the leakage model.
-/

/-- simp set used to forget the observations of the leakage model -/
register_simp_attr er

/-- simp set that unfolds what it means that two values look the same to the observer -/
register_simp_attr lw
