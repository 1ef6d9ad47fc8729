import Verif.Spec.Picnic3

/-
Vocabulary for the soundness of Picnic3: transcripts of the interactive protocol and collisions among the strings that are
hashed in them.  It does not refer to the model.
-/

namespace Spec.Picnic3

open Spec.Picnic1

/-- What the verifier knows at the end: seeds, digests of the Merkle tree, repetitions, and its challenge. -/
structure Transcript where
  s : ℕ → Bytes
  h : ℕ → Bytes
  v : ℕ → Round
  C : List ℕ
  Q : List ℕ

variable (I : Inst)

/-- The transcript passes the checks; the challenge is in range. -/
def Inst.Accepts (ct pt salt : Bytes) (τ : Transcript) : Prop :=
  I.Checks ct pt salt τ.s τ.h τ.v τ.C τ.Q ∧ ∀ t ∈ τ.C, t < I.T ∧ hid τ.C τ.Q t < 16

/-- `τ` is the transcript of a signature. -/
def Inst.TranscriptOf (ct pt msg sig salt : Bytes) (τ : Transcript) : Prop :=
  salt.length = 32 ∧ I.Checks ct pt salt τ.s τ.h τ.v τ.C τ.Q ∧
  I.Challenge (I.challengeDigest τ.v τ.h ct pt salt msg) τ.C τ.Q ∧
  sig = I.encode (I.challengeDigest τ.v τ.h ct pt salt msg) salt τ.C τ.Q τ.s τ.h τ.v

/-- The prover has sent the same root of the Merkle tree, and the same digest of commitments for repetition `t`. -/
def Inst.SameFirst (t : ℕ) (τ τ' : Transcript) : Prop := τ.h 1 = τ'.h 1 ∧ I.comDigest (τ.v t) = I.comDigest (τ'.v t)

/-- Party `j` of repetition `t` is opened. -/
def Transcript.Opens (τ : Transcript) (t j : ℕ) : Prop := t ∈ τ.C → j ≠ hid τ.C τ.Q t

/-! The strings that are hashed for the commitment of a party, for the digest of the commitments, for the digest of the
messages and for a node of the Merkle tree. -/

def commitString (salt : Bytes) (t : ℕ) (v : Round) (j : ℕ) : Bytes :=
  v.seed j ++ (if j = 15 then v.aux else []) ++ salt ++ int16 t ++ int16 j

def comString (v : Round) : Bytes := (List.range 16).flatMap v.com

def msgString (v : Round) : Bytes := v.key ++ (List.range 16).flatMap v.msgs

def Inst.nodeString (salt : Bytes) (h : ℕ → Bytes) (x : ℕ) : Bytes :=
  [3] ++ h (2 * x) ++ (if 2 * x + 1 < 2 ^ I.depth + I.T then h (2 * x + 1) else []) ++ salt ++ int16 (x - 1)

/-- Two different strings with the same digest. -/
def Inst.Collide (x y : Bytes) : Prop := x ≠ y ∧ I.hash x I.digest = I.hash y I.digest

/-- A collision among the strings that are hashed for repetition `t` in three transcripts, `a` and `b` of which open it. -/
inductive Inst.Broken (salt : Bytes) (t : ℕ) (a b c : Transcript) : Prop
  | commit (τ τ' : Transcript) (j : ℕ) : τ ∈ [a, b, c] → τ' ∈ [a, b, c] → j < 16 → τ.Opens t j → τ'.Opens t j →
      I.Collide (commitString salt t (τ.v t) j) (commitString salt t (τ'.v t) j) → Inst.Broken salt t a b c
  | com (τ τ' : Transcript) : τ ∈ [a, b, c] → τ' ∈ [a, b, c] → I.Collide (comString (τ.v t)) (comString (τ'.v t)) →
      Inst.Broken salt t a b c
  | msg : I.Collide (msgString (a.v t)) (msgString (b.v t)) → Inst.Broken salt t a b c
  | node (k : ℕ) : 1 ≤ k → k ≤ I.depth → I.Collide (I.nodeString salt a.h ((2 ^ I.depth + t) / 2 ^ k)) (I.nodeString salt b.h ((2 ^ I.depth + t) / 2 ^ k)) →
      Inst.Broken salt t a b c

end Spec.Picnic3
