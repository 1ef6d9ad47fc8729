import Verif.Spec.Rom
import Verif.Spec.Soundness

/-
C64: Picnic3 with a random oracle in place of SHAKE, and forgers.  It does not refer to the model.
-/

namespace Spec.Rom

variable {N M : ℕ} (I : Picnic3.Inst) (O : Oracle N M)

/-- Picnic3 with the oracle for the hash function. -/
def over : Picnic3.Inst := { I with xof := fun m i => (hash O m (i + 1)).getD i 0 }

/-- The first key matrix and the matrices of the linear layers of LowMC are invertible. -/
def Regular : Prop :=
  (∀ x y : Bits, (∀ i < I.X.n, mulVec I.X.n (I.X.K 0) x i = mulVec I.X.n (I.X.K 0) y i) → ∀ i < I.X.n, x i = y i) ∧
  ∀ r < I.X.r, ∀ x y : Bits, (∀ i < I.X.n, mulVec I.X.n (I.X.L r) x i = mulVec I.X.n (I.X.L r) y i) → ∀ i < I.X.n, x i = y i

/-- SHAKE (or whatever the hash function of `I` is) as a table. -/
def hashTable (N M : ℕ) : Oracle N M := fun x i => Picnic1.toBits (I.hash x.1 M) i

/-- The procedure makes a message and a valid signature on it. -/
def Forges3 (ct pt : Bytes) (A : Adv N M (Bytes × Bytes)) : Prop := (over I O).IsValid ct pt (A.run O).1 (A.run O).2

/-- The strings that a procedure asks for. -/
def Questions {α : Type} (A : Adv N M α) : Set Bytes := {x | ∃ y ∈ A.asked O, y.1 = x}

/-- No two of the strings have the same digest. -/
def Apart (L : Set Bytes) : Prop := ∀ x ∈ L, ∀ y ∈ L, hash O x I.digest = hash O y I.digest → x = y

/-- The strings reveal a secret key: among them are those for the commitments of the 16 parties of a repetition whose preprocessing is correct, and a string
for messages; the masked key in the latter plus the mask of the key in the former maps the plaintext to the ciphertext. -/
def Reveal3 (ct pt : Bytes) (L : Set Bytes) : Prop := ∃ salt digests, salt.length = 32 ∧ (over I O).Reveals ct pt salt digests L

end Spec.Rom
