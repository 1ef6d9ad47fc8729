import Verif.Spec.Soundness

/-
Vocabulary for the statement that a signature cannot be changed as long as its challenge stays the same: the strings that a verifier
hashes, and collisions between the strings of two verifications.  It does not refer to the model.
-/

namespace Spec

namespace Picnic3

open Spec.Tree Spec.Picnic1

variable (I : Inst)

/-- The string that is hashed for the challenge. -/
def Inst.challengeString (ct pt msg salt : Bytes) (τ : Transcript) : Bytes :=
  (List.range I.T).flatMap (fun t => I.comDigest (τ.v t)) ++ τ.h 1 ++ salt ++ ct ++ pt ++ msg

/-- The string that is hashed for the children of node `x` of a seed tree. -/
def seedString (salt : Bytes) (rep : ℕ) (s : ℕ → Bytes) (x : ℕ) : Bytes := [1] ++ s x ++ salt ++ int16 rep ++ int16 (x - 1)

/-- The inner nodes of a seed tree that a verifier expands: the revealed ones and everything below them. -/
def Expanded (D n : ℕ) (hidden : List ℕ) (x : ℕ) : Prop := x < 2 ^ D ∧ Node D n x ∧ ∃ k, x / 2 ^ k ∈ revealed D n hidden

open Classical in
/-- The length of the seeds of the children of node `x`: two, or one if there is no right child. -/
noncomputable def Inst.seedBytes (D n x : ℕ) : ℕ := if Node D n (2 * x + 1) then 2 * I.seed else I.seed

/-- Two different seeds at node `x` of a seed tree with the same children. -/
def Inst.SeedCollide (D n : ℕ) (salt salt' : Bytes) (rep : ℕ) (s s' : ℕ → Bytes) (x : ℕ) : Prop :=
  seedString salt rep s x ≠ seedString salt' rep s' x ∧
    (I.hash (seedString salt rep s x) (2 * I.seed)).take (I.seedBytes D n x) =
    (I.hash (seedString salt' rep s' x) (2 * I.seed)).take (I.seedBytes D n x)

/-- A collision between strings that are hashed in two verifications. -/
inductive Inst.Clash (ct pt msg salt : Bytes) (a : Transcript) (ct' pt' msg' salt' : Bytes) (b : Transcript) : Prop
  /-- for the challenge -/
  | challenge : I.Collide (I.challengeString ct pt msg salt a) (I.challengeString ct' pt' msg' salt' b) →
      Inst.Clash ct pt msg salt a ct' pt' msg' salt' b
  /-- for the digest of the commitments of a repetition -/
  | com (t : ℕ) : t < I.T → I.Collide (comString (a.v t)) (comString (b.v t)) → Inst.Clash ct pt msg salt a ct' pt' msg' salt' b
  /-- for the commitment of a party that is opened in both -/
  | commit (t j : ℕ) : t < I.T → j < 16 → a.Opens t j → b.Opens t j →
      I.Collide (commitString salt t (a.v t) j) (commitString salt' t (b.v t) j) → Inst.Clash ct pt msg salt a ct' pt' msg' salt' b
  /-- for the messages of a repetition that is opened in both -/
  | msg (t : ℕ) : t ∈ a.C → t ∈ b.C → I.Collide (msgString (a.v t)) (msgString (b.v t)) → Inst.Clash ct pt msg salt a ct' pt' msg' salt' b
  /-- for a node of the Merkle tree on the path of a repetition that is opened in both -/
  | node (t k : ℕ) : t ∈ a.C → t ∈ b.C → 1 ≤ k → k ≤ I.depth →
      I.Collide (I.nodeString salt a.h ((2 ^ I.depth + t) / 2 ^ k)) (I.nodeString salt' b.h ((2 ^ I.depth + t) / 2 ^ k)) →
      Inst.Clash ct pt msg salt a ct' pt' msg' salt' b
  /-- for a node of the seed tree of a repetition whose preprocessing is opened in both -/
  | closedSeed (t x : ℕ) : t < I.T → t ∉ a.C → t ∉ b.C → 1 ≤ x → x < 16 → I.SeedCollide 4 16 salt salt' t (a.v t).node (b.v t).node x →
      Inst.Clash ct pt msg salt a ct' pt' msg' salt' b
  /-- for a node of the seed tree of a repetition that is opened in both -/
  | openSeed (t x : ℕ) : t ∈ a.C → t ∈ b.C → Expanded 4 16 [hid a.C a.Q t] x → Expanded 4 16 [hid b.C b.Q t] x →
      I.SeedCollide 4 16 salt salt' t (a.v t).node (b.v t).node x → Inst.Clash ct pt msg salt a ct' pt' msg' salt' b
  /-- for a node of the tree of the seeds of all repetitions -/
  | rootSeed (x : ℕ) : Expanded I.depth I.T a.C x → Expanded I.depth I.T b.C x → I.SeedCollide I.depth I.T salt salt' 0 a.s b.s x →
      Inst.Clash ct pt msg salt a ct' pt' msg' salt' b

end Picnic3

namespace Picnic1

variable (I : Inst)

/-- What a verifier gets from a signature: challenge, salt, openings and the opened views. -/
structure Transcript where
  e : List ℕ
  salt : Bytes
  o : ℕ → Opening
  a : ℕ → View
  b : ℕ → View

/-- The string that is hashed for the challenge. -/
def Inst.challengeString (ct pt msg : Bytes) (τ : Transcript) : Bytes :=
  [1] ++ I.all (fun t => arrange (τ.e.getD t 0) (τ.a t).out (τ.b t).out
        (ofBits I.blk (toBits (τ.a t).out + toBits (τ.b t).out + toBits ct))) ++
    I.all (fun t => arrange (τ.e.getD t 0) (I.commit (τ.a t)) (I.commit (τ.b t)) (τ.o t).com) ++
    (if I.unruh then I.all (fun t => arrange (τ.e.getD t 0) (I.G (τ.e.getD t 0) (τ.a t)) (I.G ((τ.e.getD t 0 + 1) % 3) (τ.b t)) (τ.o t).g)
      else []) ++ ct ++ pt ++ τ.salt ++ msg

/-- `τ` is the transcript of a signature. -/
def Inst.TranscriptOf (ct pt msg sig : Bytes) (τ : Transcript) : Prop :=
  sig = I.encode τ.e τ.salt τ.o ∧ τ.salt.length = 32 ∧
  (∀ t < I.T, I.Fits (τ.e.getD t 0) (τ.o t) ∧ (τ.e.getD t 0 ≠ 0 → ZeroPad I.X.n (τ.o t).key) ∧
    I.Opened pt τ.salt t (τ.e.getD t 0) (τ.o t) (τ.a t) (τ.b t)) ∧
  I.Challenge (I.hash (I.challengeString ct pt msg τ) I.digest) τ.e

/-- A collision between strings that are hashed in two verifications. -/
inductive Inst.Clash (ct pt msg : Bytes) (x : Transcript) (ct' pt' msg' : Bytes) (y : Transcript) : Prop
  /-- for the challenge: different strings with the same challenge -/
  | challenge (e : List ℕ) : I.challengeString ct pt msg x ≠ I.challengeString ct' pt' msg' y →
      I.Challenge (I.hash (I.challengeString ct pt msg x) I.digest) e → I.Challenge (I.hash (I.challengeString ct' pt' msg' y) I.digest) e →
      Inst.Clash ct pt msg x ct' pt' msg' y
  /-- for the commitments to the opened views -/
  | view0 (t : ℕ) : t < I.T → I.Collide (I.viewString (x.a t)) (I.viewString (y.a t)) → Inst.Clash ct pt msg x ct' pt' msg' y
  | view1 (t : ℕ) : t < I.T → I.Collide (I.viewString (x.b t)) (I.viewString (y.b t)) → Inst.Clash ct pt msg x ct' pt' msg' y
  /-- for the seeds in them -/
  | seed0 (t : ℕ) : t < I.T → I.Collide (seedString (x.a t)) (seedString (y.a t)) → Inst.Clash ct pt msg x ct' pt' msg' y
  | seed1 (t : ℕ) : t < I.T → I.Collide (seedString (x.b t)) (seedString (y.b t)) → Inst.Clash ct pt msg x ct' pt' msg' y

end Picnic1

end Spec
