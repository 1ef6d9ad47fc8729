import Verif.Spec.Picnic3Sec
import Mathlib.Data.Fintype.BigOperators
import Mathlib.Data.Fintype.Option
import Mathlib.Data.Nat.Choose.Basic

/-
Vocabulary for the soundness error: which challenges can be answered, once the first message of the prover is fixed, with
strings from a given set `L` (the strings that have been hashed so far).  It does not refer to the model.
-/

namespace Spec

/-- The security level of a parameter set in bits. -/
def level : ℕ → Option ℕ
  | 1 => some 128
  | 2 => some 128
  | 3 => some 192
  | 4 => some 192
  | 5 => some 256
  | 6 => some 256
  | 7 => some 128
  | 8 => some 192
  | 9 => some 256
  | 10 => some 128
  | 11 => some 192
  | 12 => some 256
  | _ => none

namespace Picnic1

variable (I : Inst)

/-- The strings that are hashed for the commitment to a view. -/
def seedString (v : View) : Bytes := [4] ++ v.seed
def Inst.viewString (v : View) : Bytes := [0] ++ I.hash (seedString v) I.digest ++ v.key ++ v.gates ++ v.out

/-- Two different strings with the same digest. -/
def Inst.Collide (x y : Bytes) : Prop := x ≠ y ∧ I.hash x I.digest = I.hash y I.digest

/-- The strings for the commitment to `v` are in `L`. -/
def Inst.Known (L : Set Bytes) (v : View) : Prop := seedString v ∈ L ∧ I.viewString v ∈ L

/-- An answer to the challenge `e` in repetition `t`: the opening `o` with the views `a`, `b` of the parties `e`, `e + 1`.  The
verifier computes the output shares `outs` and the commitments `coms` from it. -/
structure Inst.Answer (ct pt salt : Bytes) (outs coms : ℕ → Bytes) (L : Set Bytes) (t e : ℕ) (o : Opening) (a b : View) : Prop where
  fits : I.Fits e o
  pad : e ≠ 0 → ZeroPad I.X.n o.key
  opened : I.Opened pt salt t e o a b
  outs : ∀ j < 3, arrange e a.out b.out (ofBits I.blk (toBits a.out + toBits b.out + toBits ct)) j = outs j
  coms : ∀ j < 3, arrange e (I.commit a) (I.commit b) o.com j = coms j
  known : I.Known L a ∧ I.Known L b

/-- The challenge `e` can be answered in all repetitions. -/
def Inst.Answerable (ct pt salt : Bytes) (outs coms : ℕ → ℕ → Bytes) (L : Set Bytes) (e : Fin I.T → Fin 3) : Prop :=
  ∀ t : Fin I.T, ∃ o a b, I.Answer ct pt salt (outs t) (coms t) L t (e t) o a b

/-- `L` reveals a secret key: it has three views that one repetition of the first message commits to, and their key shares add
up to a key that maps the plaintext to the ciphertext. -/
def Inst.Reveals (ct pt : Bytes) (coms : ℕ → ℕ → Bytes) (L : Set Bytes) : Prop :=
  ∃ t < I.T, ∃ v : ℕ → View, (∀ j < 3, I.Known L (v j) ∧ I.commit (v j) = coms t j ∧ (v j).key.length = I.blk) ∧
    ∀ i < I.X.n, I.X.enc (toBits (v 0).key + toBits (v 1).key + toBits (v 2).key) (toBits pt) i = toBits ct i

end Picnic1

namespace Picnic3

open Picnic1 (toBits)

variable (I : Inst)

/-- A challenge: for every repetition the unopened party, or nothing if the preprocessing is opened; `u` repetitions have an
unopened party. -/
def IsVector (u : ℕ) {T : ℕ} (e : Fin T → Option (Fin 16)) : Prop := (Finset.univ.filter fun t => (e t).isSome).card = u

instance (u : ℕ) {T : ℕ} : DecidablePred (IsVector u (T := T)) := fun _ => inferInstanceAs (Decidable (_ = _))

/-- `C`, `Q` are the challenge `e`. -/
def Asks {T : ℕ} (C Q : List ℕ) (e : Fin T → Option (Fin 16)) : Prop :=
  ∀ t : Fin T, (t.1 ∈ C ↔ (e t).isSome) ∧ ∀ k, e t = some k → hid C Q t = k

/-- The strings that are hashed in a transcript are in `L`: commitments of the opened parties, digests of the commitments, and
messages and paths of the opened repetitions. -/
structure Inst.Hashed (salt : Bytes) (L : Set Bytes) (τ : Transcript) : Prop where
  commit : ∀ t < I.T, ∀ j < 16, τ.Opens t j → commitString salt t (τ.v t) j ∈ L
  com : ∀ t < I.T, comString (τ.v t) ∈ L
  msg : ∀ t ∈ τ.C, msgString (τ.v t) ∈ L
  node : ∀ t ∈ τ.C, ∀ k, 1 ≤ k → k ≤ I.depth → I.nodeString salt τ.h ((2 ^ I.depth + t) / 2 ^ k) ∈ L

/-- The challenge `e` can be answered with strings in `L`; `root` and `digests` are the root of the Merkle tree and the digests of
the commitments. -/
def Inst.Answerable (ct pt salt root : Bytes) (digests : ℕ → Bytes) (L : Set Bytes) (e : Fin I.T → Option (Fin 16)) : Prop :=
  ∃ τ : Transcript, I.Accepts ct pt salt τ ∧ Asks τ.C τ.Q e ∧ I.Hashed salt L τ ∧ τ.h 1 = root ∧
    ∀ t < I.T, I.comDigest (τ.v t) = digests t

/-- `L` reveals a secret key: the strings of the preprocessing of one repetition of the first message are in `L`, and so is a
masked key with messages of the parties; the masked key plus the mask of the key maps the plaintext to the ciphertext. -/
def Inst.Reveals (ct pt salt : Bytes) (digests : ℕ → Bytes) (L : Set Bytes) : Prop :=
  ∃ t < I.T, ∃ (v w : Round) (κ : Bits), I.Prepared salt t v κ ∧ I.comDigest v = digests t ∧ comString v ∈ L ∧
    (∀ j < 16, (v.seed j).length = I.seed ∧ v.com j = I.commit salt t v j ∧ commitString salt t v j ∈ L) ∧ msgString w ∈ L ∧ w.key.length = I.blk ∧
    ∀ i < I.X.n, I.X.enc (toBits w.key + κ) (toBits pt) i = toBits ct i

end Picnic3

end Spec
