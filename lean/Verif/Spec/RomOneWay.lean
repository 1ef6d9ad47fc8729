import Verif.Spec.RomStrong
import Verif.Spec.RomForge3

/-
C67: guessing a secret key with the help of a procedure that makes signatures.  It does not refer to the model.
-/

namespace Spec.Rom

open Spec.Picnic1

variable {N M : ℕ} (I : Inst)

/-- The strings that the procedure has asked for, that the simulator has written into, and that are hashed when the signature that the procedure makes is
verified. -/
def Course.strings (ct pt : Bytes) (c : Course N M (Bytes × Bytes)) : Set Bytes :=
  c.asked ∪ c.written ∪ {x | ∃ ms r, c.result = some (ms, r) ∧ x ∈ Checked I c.oracle ct pt r.1 r.2}

/-- Guesses at the key: what one of the strings begins with, and the sum of the key shares in three of them. -/
def guesses (L : Set Bytes) : Set Bytes :=
  {k | ∃ y ∈ L, k = y.take I.blk} ∪ {k | ∃ x ∈ L, ∃ y ∈ L, ∃ z ∈ L, k = ofBits I.blk (shareIn I x + shareIn I y + shareIn I z)}

/-- The elements of a finite set, one after the other. -/
noncomputable def nth (S : Set Bytes) (i : ℕ) : Bytes :=
  open Classical in if h : S.Finite then h.toFinset.toList.getD i [] else []

/-- The inverter.  It is given a public key.  It lets the procedure play with simulated signatures and answers guess number `i`.  `ω` is the oracle and the
answers that the simulator has chosen; the secret key is not used. -/
noncomputable def invert {k : ℕ} (A : (ct pt : Bytes) → Player N M (Bytes × Bytes)) (ct pt : Bytes) (ω : Oracle N M × (Fin k → Answers I M)) (i : ℕ) : Bytes :=
  nth (guesses I (((A ct pt).sim I ct pt ω.1 ω.2).strings I ct pt)) i

/-! ### Picnic3 -/

open Spec.Picnic3 (Round commitString comString msgString)

/-- Guesses at the key for Picnic3: the masked key in a string for messages plus the mask of the key, where the commitments of the 16 parties are strings in `L`
and the preprocessing is correct. -/
def guesses3 (J : Picnic3.Inst) (O : Oracle N M) (L : Set Bytes) : Set Bytes :=
  {g | ∃ salt t, salt.length = 32 ∧ t < J.T ∧ ∃ (v w : Round) (κ : Bits), (over J O).Prepared salt t v κ ∧ comString v ∈ L ∧
    (∀ j < 16, (v.seed j).length = J.seed ∧ v.com j = (over J O).commit salt t v j ∧ commitString salt t v j ∈ L) ∧ msgString w ∈ L ∧ w.key.length = J.blk ∧
    g = ofBits J.blk (trunc J.X.n (toBits w.key + κ))}

/-- The inverter for Picnic3.  It lets the procedure run and answers guess number `i`. -/
noncomputable def invert3 (J : Picnic3.Inst) (A : (ct pt : Bytes) → Adv N M (Bytes × Bytes)) (ct pt : Bytes) (O : Oracle N M) (i : ℕ) : Bytes :=
  nth (guesses3 J O (Questions O (A ct pt))) i

end Spec.Rom
