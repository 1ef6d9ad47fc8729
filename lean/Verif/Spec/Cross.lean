import Verif.Spec.Picnic1

/-
Signatures with one key under several parameter sets: how the secret key is computed from what is public.  It does not refer
to the model.
-/

namespace Spec.Picnic1

open Finset

/-- The challenge `e` opens party `j`. -/
def opens (e j : ℕ) : Prop := j = e ∨ j = (e + 1) % 3

instance (e j : ℕ) : Decidable (opens e j) := inferInstanceAs (Decidable (_ ∨ _))

variable (I : Inst)

/-- The key share of party `j` of repetition `t`, if the opening `o` for challenge `e` contains it. -/
def Inst.shareOf (salt : Bytes) (t e : ℕ) (o : Opening) (j : ℕ) : Bytes :=
  if j = 2 then o.key else I.keyShare (if j = e then o.seed0 else o.seed1) salt t j

/-- The key from two openings for the challenges `e` and `e'` of the same repetition. -/
def Inst.recover (salt : Bytes) (t e : ℕ) (o : Opening) (e' : ℕ) (o' : Opening) : Bytes :=
  ofBits I.blk (∑ j ∈ range 3, toBits (if opens e j then I.shareOf salt t e o j else I.shareOf salt t e' o' j))

/-- The key from an opening of repetition 0 for challenge 1, and the salt of a Picnic3 signature. -/
def Inst.recover3 (salt : Bytes) (o : Opening) (salt3 : Bytes) : Bytes :=
  ofBits I.blk (toBits (I.keyShare (salt3.take I.seed) salt 0 0) + toBits (I.shareOf salt 0 1 o 1) + toBits (I.shareOf salt 0 1 o 2))

end Spec.Picnic1
