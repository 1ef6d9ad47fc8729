import Mathlib.Data.Nat.Log
import Mathlib.Data.Nat.Bits
import Mathlib.Tactic.Ring
import Mathlib.Tactic.Linarith
import Mathlib.Tactic.Positivity

/-
Specification of the binary trees used by Picnic3.

The nodes of a binary tree of depth D are numbered in heap order from 1: the root is 1, the children of node x are 2x and
2x + 1, and the leaves are 2^D, 2^D + 1, ....  (The code numbers from 0, so its node i is node i + 1 here.)
-/

namespace Spec.Tree

/-- `x` lies on the path from some node in `S` at depth D to the root. -/
def Up (D : ℕ) (S : ℕ → Prop) (x : ℕ) : Prop := ∃ y k, S y ∧ k ≤ D ∧ y / 2 ^ k = x

/-- The leaves of a tree with `n` leaves. -/
def Leaf (D n : ℕ) (y : ℕ) : Prop := 2 ^ D ≤ y ∧ y < 2 ^ D + n

/-- `x` is a node of the tree with `n` leaves: an ancestor (or equal) of a leaf. -/
def Node (D n : ℕ) (x : ℕ) : Prop := Up D (Leaf D n) x

/-- The leaves with the (0-based) numbers in the list `l`. -/
def Picked (D : ℕ) (l : List ℕ) (y : ℕ) : Prop := ∃ h ∈ l, y = 2 ^ D + h

/-- The leaves whose numbers are not in the list `l`. -/
def Present (D n : ℕ) (l : List ℕ) (y : ℕ) : Prop := Leaf D n y ∧ ¬ Picked D l y

end Spec.Tree
