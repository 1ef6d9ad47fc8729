import Verif.Spec.Picnic1
import Verif.Spec.Picnic3
import Verif.Spec.Grain
import Verif.Spec.Sponge

/-
The standardised instances of Picnic, pinned down without reference to the library: the numbers of the parameter set, SHAKE of FIPS 202, and LowMC with the
constants of the generator.
-/

namespace Spec

open Spec.Keccak Spec.Grain

/-- The Picnic1 instance of the standard: the numbers of the parameter set, SHAKE of FIPS 202, the LowMC instance of the generator
(blocks are continued with zeros). -/
structure Standard1 (p : ℕ) (I : Picnic1.Inst) : Prop where
  is : I.Is p
  hash : ∀ m n, toBits (I.hash m n) = (if I.X.n = 128 ∨ I.X.n = 129 then shake128 else shake256) (toBits m) (8 * n)
  lowmc : ∀ b g, IsRegister b → IsKept b g → Generated I.X g
  pad : ∀ t < I.X.r, ∀ i ≥ I.X.n, I.X.RC t i = 0

/-- The Picnic3 instance of the standard, see `Standard1`. -/
structure Standard3 (p : ℕ) (I : Picnic3.Inst) : Prop where
  is : I.Is p
  hash : ∀ m n, toBits (I.hash m n) = (if I.X.n = 128 ∨ I.X.n = 129 then shake128 else shake256) (toBits m) (8 * n)
  lowmc : ∀ b g, IsRegister b → IsKept b g → Generated I.X g
  pad : ∀ t < I.X.r, ∀ i ≥ I.X.n, I.X.RC t i = 0

/-- The block length, number of S-boxes and of rounds of LowMC in a parameter set. -/
def lowmcSizes (p : ℕ) : Option (ℕ × ℕ × ℕ) :=
  match Picnic1.table p, Picnic3.table p with
  | some (n, m, r, _), _ => some (n, m, r)
  | none, some (n, m, r, _) => some (n, m, r)
  | none, none => none

/-- The LowMC instance of the standard. -/
structure StandardLowMC (p : ℕ) (X : LowMC) : Prop where
  sizes : lowmcSizes p = some (X.n, X.m, X.r)
  made : ∀ b g, IsRegister b → IsKept b g → Generated X g
  pad : ∀ t < X.r, ∀ i ≥ X.n, X.RC t i = 0

end Spec
