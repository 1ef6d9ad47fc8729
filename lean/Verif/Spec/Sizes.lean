import Mathlib.Data.Set.Card
import Verif.Spec.Forger

/-
C74: the lengths of signatures for all challenges, and the sizes published in the specification.  It does not refer to the model.
-/

namespace Spec.Sizes

open Spec.Tree Spec.Challenge

/-- Picnic specification version 3.0 (/repo/spec/spec-v3.0.pdf), table 3: maximal and average length of a signature in bytes; the average is not given for the
parameter sets whose signatures have a fixed length.  (For parameter set 10 the table has 320161 in place of 32061.) -/
def published : ℕ → Option (ℕ × Option ℕ)
  | 1 => some (34032, some 32838)
  | 2 => some (53961, none)
  | 3 => some (76772, some 74134)
  | 4 => some (121845, none)
  | 5 => some (132856, some 128176)
  | 6 => some (209506, none)
  | 7 => some (13802, some 12359)
  | 8 => some (29750, some 27173)
  | 9 => some (54732, some 46282)
  | 10 => some (32061, some 30809)
  | 11 => some (71179, some 68493)
  | 12 => some (126286, some 121616)
  | _ => none

/-- `avg / 10` is the average of `f`, all elements of `V` having the same probability, rounded down to tenths. -/
def Average {V : Type} [Fintype V] (f : V → ℕ) (avg : ℕ) : Prop :=
  avg * Fintype.card V ≤ 10 * ∑ e, f e ∧ 10 * ∑ e, f e < (avg + 1) * Fintype.card V

/-- The average of `f` deviates from `avg` by at most one percent of `avg`. -/
def Close {V : Type} [Fintype V] (f : V → ℕ) (avg : ℕ) : Prop :=
  99 * avg * Fintype.card V ≤ 100 * ∑ e, f e ∧ 100 * ∑ e, f e ≤ 101 * avg * Fintype.card V

/-! ### ZKB++ -/

/-- Number of repetitions with challenge 0. -/
def zeroCount {T : ℕ} (e : Fin T → Fin 3) : ℕ := (Finset.univ.filter fun t => e t = 0).card

/-- Length of a signature for challenge `e`, if the maximal length is `max` and `blk` bytes are missing for every 0. -/
def sizeZkb (max blk : ℕ) {T : ℕ} (e : Fin T → Fin 3) : ℕ := max - blk * zeroCount e

/-! ### Picnic3 -/

/-- The leaves of the opened repetitions in a tree of depth `D`. -/
def OpenLeaf (D : ℕ) {T : ℕ} (e : Fin T → Option (Fin 16)) (y : ℕ) : Prop := ∃ t : Fin T, (e t).isSome ∧ y = 2 ^ D + t

/-- The number of nodes without an opened repetition below them whose parent has one. -/
noncomputable def cut (D : ℕ) {T : ℕ} (e : Fin T → Option (Fin 16)) : ℕ :=
  {x | 2 ≤ x ∧ Node D T x ∧ ¬ Up D (OpenLeaf D e) x ∧ Up D (OpenLeaf D e) (x / 2)}.ncard

/-- The number of opened repetitions in which the last party is the unopened one. -/
def lasts {T : ℕ} (e : Fin T → Option (Fin 16)) : ℕ := (Finset.univ.filter fun t => e t = some 15).card

variable (I : Picnic3.Inst)

/-- The length of a signature with challenge `e`: digest and salt; a seed and a digest for each of the nodes; and for each opened repetition four seeds, correction
bits (unless the last party is the unopened one), masked key, messages and commitment. -/
noncomputable def size (e : I.Vector) : ℕ :=
  I.digest + 32 + cut I.depth e.1 * (I.seed + I.digest) + I.u * (4 * I.seed + I.blk + I.gate + I.digest) + (I.u - lasts e.1) * I.gate

end Spec.Sizes
