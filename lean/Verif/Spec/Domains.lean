import Verif.Spec.Picnic3

/-
C59: the strings that are hashed by the two signature schemes, with the purpose for which they are hashed.  It does not refer to the model.
-/

namespace Spec

namespace Picnic1

open Spec.Challenge

variable (I : Inst)

/-- What is hashed in ZKB++, apart from the derivation of the seeds from the key: purpose and data. -/
inductive Use (T : ℕ)
  /-- a seed, on the way to a tape -/
  | tapeSeed (seed : Bytes)
  /-- for the random bytes of a party: the digest of its seed, salt, repetition, party, length of the result -/
  | tape (d salt : Bytes) (t j len : ℕ)
  /-- a seed, on the way to a commitment -/
  | comSeed (seed : Bytes)
  /-- for the commitment to a view: the digest of the seed, key share, gate bits, output share -/
  | com (d key gates out : Bytes)
  /-- a seed, on the way to a value of G -/
  | gSeed (seed : Bytes)
  /-- for a value of G: the digest of the seed, key share of the third party, gate bits -/
  | g (d : Bytes) (key : Option Bytes) (gates : Bytes)
  /-- for the challenge: output shares, commitments, values of G, public key, salt, message -/
  | challenge (outs coms : Fin T → Fin 3 → Bytes) (gs : Option (Fin T → Fin 3 → Bytes)) (ct pt salt msg : Bytes)
  /-- the next digest of the chain from which the challenge is read -/
  | next (d : Bytes)

/-- The values of all parties of all repetitions. -/
def join {T : ℕ} (x : Fin T → Fin 3 → Bytes) : Bytes := (List.finRange T).flatMap fun t => x t 0 ++ x t 1 ++ x t 2

/-- The string that is hashed. -/
def Use.text {T : ℕ} : Use T → Bytes
  | tapeSeed s => [2] ++ s
  | tape d salt t j len => d ++ salt ++ int16 t ++ int16 j ++ int16 len
  | comSeed s => [4] ++ s
  | com d key gates out => [0] ++ d ++ key ++ gates ++ out
  | gSeed s => [5] ++ s
  | g d key gates => d ++ key.getD [] ++ gates ++ int16 (I.gLen (if key.isSome then 2 else 0))
  | challenge outs coms gs ct pt salt msg => [1] ++ join outs ++ join coms ++ (gs.map join).getD [] ++ ct ++ pt ++ salt ++ msg
  | next d => [1] ++ d

/-- The data have the right lengths. -/
def Use.WF : Use I.T → Prop
  | tapeSeed s | comSeed s | gSeed s => s.length = I.seed
  | tape d salt t j len => d.length = I.digest ∧ salt.length = 32 ∧ t < 2 ^ 16 ∧ j < 2 ^ 16 ∧ len < 2 ^ 16
  | com d key gates out => d.length = I.digest ∧ key.length = I.blk ∧ gates.length = I.gate ∧ out.length = I.blk
  | g d key gates => I.unruh = true ∧ d.length = I.digest ∧ (∀ k ∈ key, k.length = I.blk) ∧ gates.length = I.gate
  | challenge outs coms gs ct pt salt _ => (∀ t j, (outs t j).length = I.blk) ∧ (∀ t j, (coms t j).length = I.digest) ∧ gs.isSome = I.unruh ∧
      (∀ G ∈ gs, ∀ t j, (G t j).length = I.gLen j) ∧ ct.length = I.blk ∧ pt.length = I.blk ∧ salt.length = 32
  | next d => d.length = I.digest

/-- The string from which seeds and salt are derived. -/
def Inst.secretString (sk ct pt msg : Bytes) : Bytes := sk ++ msg ++ ct ++ pt ++ int16 I.X.n

end Picnic1

namespace Picnic3

open Spec.Challenge Spec.Picnic1

variable (I : Inst)

/-- What is hashed in Picnic3, apart from the derivation of salt and root seed from the key: purpose and data. -/
inductive Use (T : ℕ)
  /-- for the children of a node of a seed tree -/
  | node (seed salt : Bytes) (rep x : ℕ)
  /-- for the random tape of a party -/
  | tape (seed salt : Bytes) (t j : ℕ)
  /-- for the commitment to a seed, with the correction bits of the last party -/
  | commit (seed : Bytes) (aux : Option Bytes) (salt : Bytes) (t j : ℕ)
  /-- for the digest of the commitments of a repetition -/
  | coms (c : Fin 16 → Bytes)
  /-- for the digest of the messages of a repetition, with the masked key -/
  | msgs (key : Bytes) (m : Fin 16 → Bytes)
  /-- for an inner node of the Merkle tree, with one or two children -/
  | merkle (left : Bytes) (right : Option Bytes) (salt : Bytes) (x : ℕ)
  /-- for the challenge -/
  | challenge (d : Fin T → Bytes) (root salt ct pt msg : Bytes)
  /-- the next digest of the chain from which the challenge is read -/
  | next (d : Bytes)

/-- The string that is hashed. -/
def Use.text {T : ℕ} : Use T → Bytes
  | node s salt rep x => [1] ++ s ++ salt ++ int16 rep ++ int16 x
  | tape s salt t j => s ++ salt ++ int16 t ++ int16 j
  | commit s aux salt t j => s ++ aux.getD [] ++ salt ++ int16 t ++ int16 j
  | coms c => (List.finRange 16).flatMap c
  | msgs key m => key ++ (List.finRange 16).flatMap m
  | merkle l r salt x => [3] ++ l ++ r.getD [] ++ salt ++ int16 x
  | challenge d root salt ct pt msg => (List.finRange T).flatMap d ++ root ++ salt ++ ct ++ pt ++ msg
  | next d => [1] ++ d

/-- The data have the right lengths. -/
def Use.WF : Use I.T → Prop
  | node s salt rep x => s.length = I.seed ∧ salt.length = 32 ∧ rep < 2 ^ 16 ∧ x < 2 ^ 16
  | tape s salt t j => s.length = I.seed ∧ salt.length = 32 ∧ t < 2 ^ 16 ∧ j < 2 ^ 16
  | commit s aux salt t j => s.length = I.seed ∧ (∀ a ∈ aux, a.length = I.gate) ∧ salt.length = 32 ∧ t < 2 ^ 16 ∧ j < 2 ^ 16
  | coms c => ∀ j, (c j).length = I.digest
  | msgs key m => key.length = I.blk ∧ ∀ j, (m j).length = I.gate
  | merkle l r salt x => l.length = I.digest ∧ (∀ a ∈ r, a.length = I.digest) ∧ salt.length = 32 ∧ x < 2 ^ 16
  | challenge d root salt ct pt _ => (∀ t, (d t).length = I.digest) ∧ root.length = I.digest ∧ salt.length = 32 ∧ ct.length = I.blk ∧ pt.length = I.blk
  | next d => d.length = I.digest

end Picnic3

end Spec
