import Verif.Spec.Zkb
import Verif.Spec.Challenge
import Verif.Spec.Api

/-
The Picnic signature scheme with ZKB++ (Picnic specification, sections 4 to 6): parameter table, signatures, validity of a
signature, byte encodings.  It does not refer to the model.

There are T parallel repetitions with three parties each.  "hash" is SHAKE128 or SHAKE256; domain separation is by a prefix
byte, and the 16-bit integers that are hashed are little-endian.
-/

namespace Spec.Picnic1

open Finset Spec.Challenge

/-- A parameter set: LowMC instance, number of repetitions, lengths of seeds and digests in bytes, rate of SHAKE in bytes,
whether the Unruh transform is used, and the permutation of SHAKE. -/
structure Inst where
  X : LowMC
  T : ℕ
  seed : ℕ
  digest : ℕ
  rate : ℕ
  unruh : Bool
  f : Bytes → Bytes

/-- Block length, S-boxes, rounds, repetitions, seed and digest length, rate, Unruh transform of the parameter sets. -/
def table : ℕ → Option (ℕ × ℕ × ℕ × ℕ × ℕ × ℕ × ℕ × Bool)
  | 1 => some (128, 10, 20, 219, 16, 32, 168, false)
  | 2 => some (128, 10, 20, 219, 16, 32, 168, true)
  | 3 => some (192, 10, 30, 329, 24, 48, 136, false)
  | 4 => some (192, 10, 30, 329, 24, 48, 136, true)
  | 5 => some (256, 10, 38, 438, 32, 64, 136, false)
  | 6 => some (256, 10, 38, 438, 32, 64, 136, true)
  | 10 => some (129, 43, 4, 219, 16, 32, 168, false)
  | 11 => some (192, 64, 4, 329, 24, 48, 136, false)
  | 12 => some (255, 85, 4, 438, 32, 64, 136, false)
  | _ => none

/-- `I` has the numbers of parameter set `p`. -/
def Inst.Is (I : Inst) (p : ℕ) : Prop :=
  table p = some (I.X.n, I.X.m, I.X.r, I.T, I.seed, I.digest, I.rate, I.unruh)

/-- The bits of a byte string. -/
def toBits (b : Bytes) : Bits := fun i => if msbBit b i then 1 else 0

/-- The byte string of `n` bytes with the given bits. -/
def ofBits (n : ℕ) (v : Bits) : Bytes :=
  (List.range n).map fun i => BitVec.ofNat 8 (∑ k ∈ range 8, (v (8 * i + k)).val * 2 ^ (7 - k))

/-- A 16-bit integer. -/
def int16 (x : ℕ) : Bytes := [BitVec.ofNat 8 x, BitVec.ofNat 8 (x / 256)]

variable (I : Inst)

def Inst.hash (m : Bytes) (n : ℕ) : Bytes := shake I.f I.rate m n

/-- Bytes of a block, and of the gate bits of one party. -/
def Inst.blk : ℕ := bytesFor I.X.n
def Inst.gate : ℕ := bytesFor (3 * I.X.m * I.X.r)

/-! ### seeds and tapes -/

/-- The seeds of all parties and the salt, derived from key and message. -/
def Inst.secrets (sk ct pt msg : Bytes) : Bytes :=
  I.hash (sk ++ msg ++ ct ++ pt ++ int16 I.X.n) (3 * I.T * I.seed + 32)

def Inst.seedOf (s : Bytes) (t j : ℕ) : Bytes := (s.drop ((3 * t + j) * I.seed)).take I.seed
def Inst.saltOf (s : Bytes) : Bytes := s.drop (3 * I.T * I.seed)

/-- The random bytes of party `j` of repetition `t`. -/
def Inst.tape (seed salt : Bytes) (t j len : ℕ) : Bytes :=
  I.hash (I.hash ([2] ++ seed) I.digest ++ salt ++ int16 t ++ int16 j ++ int16 len) len

/-- The first two parties take their key share from the start of their random bytes. -/
def Inst.keyShare (seed salt : Bytes) (t j : ℕ) : Bytes :=
  ofBits I.blk (trunc I.X.n (toBits ((I.tape seed salt t j (I.blk + I.gate)).take I.blk)))

/-- The random bits used for the gates. -/
def Inst.gateTape (seed salt : Bytes) (t j : ℕ) : Bytes :=
  if j = 2 then I.tape seed salt t 2 I.gate else (I.tape seed salt t j (I.blk + I.gate)).drop I.blk

/-! ### views -/

/-- What party `j` of a repetition holds: its seed, key share, gate bits and output share. -/
structure View where
  seed : Bytes
  key : Bytes
  gates : Bytes
  out : Bytes

/-- The view with its tape, as bits. -/
def Inst.bitView (salt : Bytes) (t j : ℕ) (v : View) : Zkb.View :=
  ⟨toBits v.key, toBits v.gates, toBits (I.gateTape v.seed salt t j)⟩

def Inst.commit (v : View) : Bytes :=
  I.hash ([0] ++ I.hash ([4] ++ v.seed) I.digest ++ v.key ++ v.gates ++ v.out) I.digest

/-- Unruh's G: as long as its input; only the third party's key share is included. -/
def Inst.gLen (j : ℕ) : ℕ := I.seed + I.gate + if j = 2 then I.blk else 0
def Inst.G (j : ℕ) (v : View) : Bytes :=
  I.hash (I.hash ([5] ++ v.seed) I.digest ++ (if j = 2 then v.key else []) ++ v.gates ++ int16 (I.gLen j)) (I.gLen j)

/-- The views of an honest computation of repetition `t`. -/
structure Inst.Run (sk pt salt s : Bytes) (t : ℕ) (v : ℕ → View) : Prop where
  seed : ∀ j < 3, (v j).seed = I.seedOf s t j
  key0 : (v 0).key = I.keyShare (v 0).seed salt t 0
  key1 : (v 1).key = I.keyShare (v 1).seed salt t 1
  key2 : (v 2).key = ofBits I.blk (toBits sk + toBits (v 0).key + toBits (v 1).key)
  len : ∀ j < 3, (v j).gates.length = I.gate
  pad : ∀ j < 3, ZeroPad (3 * I.X.m * I.X.r) (v j).gates
  gates : ∀ j < 3, Zkb.Consistent I.X (toBits pt) j (I.bitView salt t j (v j))
    (I.bitView salt t ((j + 1) % 3) (v ((j + 1) % 3)))
  out : ∀ j < 3, (v j).out = ofBits I.blk (Zkb.output I.X (toBits pt) j (I.bitView salt t j (v j)))

/-! ### challenge -/

/-- The values of all parties of all repetitions. -/
def Inst.all (x : ℕ → ℕ → Bytes) : Bytes := (List.range I.T).flatMap fun t => x t 0 ++ x t 1 ++ x t 2

/-- The digest of output shares, commitments, G values, public key, salt and message. -/
def Inst.challengeDigest (outs coms gs : ℕ → ℕ → Bytes) (ct pt salt msg : Bytes) : Bytes :=
  I.hash ([1] ++ I.all outs ++ I.all coms ++ (if I.unruh then I.all gs else []) ++ ct ++ pt ++ salt ++ msg) I.digest

/-- `e` is the challenge for the digest `d`. -/
def Inst.Challenge (d : Bytes) (e : List ℕ) : Prop := IsChallenge I.T (fun d => I.hash ([1] ++ d) I.digest) d e

/-! ### encoding -/

/-- What a signature tells about one repetition: commitment and G of the unopened party, gate bits and seeds of the opened
ones, and the key share of the third party if it is opened. -/
structure Opening where
  com : Bytes
  g : Bytes
  gates : Bytes
  seed0 : Bytes
  seed1 : Bytes
  key : Bytes

def Opening.encode (o : Opening) : Bytes := o.com ++ o.g ++ o.gates ++ o.seed0 ++ o.seed1 ++ o.key

/-- Lengths of the fields for challenge `e`. -/
structure Inst.Fits (e : ℕ) (o : Opening) : Prop where
  com : o.com.length = I.digest
  g : o.g.length = if I.unruh then I.gLen ((e + 2) % 3) else 0
  gates : o.gates.length = I.gate
  seed0 : o.seed0.length = I.seed
  seed1 : o.seed1.length = I.seed
  key : o.key.length = if e = 0 then 0 else I.blk

/-- Two bits per repetition, the less significant one first. -/
def Inst.encodeChallenge (e : List ℕ) : Bytes :=
  ofBits (bytesFor (2 * I.T)) fun p => if p < 2 * I.T then ((e.getD (p / 2) 0 / 2 ^ (p % 2) : ℕ) : ZMod 2) else 0

def Inst.encode (e : List ℕ) (salt : Bytes) (o : ℕ → Opening) : Bytes :=
  I.encodeChallenge e ++ salt ++ (List.range I.T).flatMap fun t => (o t).encode

/-! ### signatures -/

/-- Parties `e` and `e + 1` are opened. -/
def Inst.openViews (e : ℕ) (v : ℕ → View) : Opening where
  com := I.commit (v ((e + 2) % 3))
  g := if I.unruh then I.G ((e + 2) % 3) (v ((e + 2) % 3)) else []
  gates := (v ((e + 1) % 3)).gates
  seed0 := (v e).seed
  seed1 := (v ((e + 1) % 3)).seed
  key := if e = 0 then [] else (v 2).key

/-- `sig` is the signature on `msg` under the private key `sk` with public key (`ct`, `pt`). -/
def Inst.IsSignature (sk ct pt msg sig : Bytes) : Prop :=
  ∃ (v : ℕ → ℕ → View) (e : List ℕ), let s := I.secrets sk ct pt msg
    (∀ t < I.T, I.Run sk pt (I.saltOf s) s t (v t)) ∧
    I.Challenge (I.challengeDigest (fun t j => (v t j).out) (fun t j => I.commit (v t j)) (fun t j => I.G j (v t j))
      ct pt (I.saltOf s) msg) e ∧
    sig = I.encode e (I.saltOf s) fun t => I.openViews (e.getD t 0) (v t)

/-! ### verification -/

/-- `a`, `b` are the views of parties `e`, `e + 1` that the opening describes. -/
structure Inst.Opened (pt salt : Bytes) (t e : ℕ) (o : Opening) (a b : View) : Prop where
  seed0 : a.seed = o.seed0
  seed1 : b.seed = o.seed1
  key0 : a.key = if e = 2 then o.key else I.keyShare o.seed0 salt t e
  key1 : b.key = if e = 1 then o.key else I.keyShare o.seed1 salt t ((e + 1) % 3)
  gates0 : a.gates.length = I.gate
  pad0 : ZeroPad (3 * I.X.m * I.X.r) a.gates
  gates1 : b.gates = o.gates
  consistent : Zkb.Consistent I.X (toBits pt) e (I.bitView salt t e a) (I.bitView salt t ((e + 1) % 3) b)
  out0 : a.out = ofBits I.blk (Zkb.output I.X (toBits pt) e (I.bitView salt t e a))
  out1 : b.out = ofBits I.blk (Zkb.output I.X (toBits pt) ((e + 1) % 3) (I.bitView salt t ((e + 1) % 3) b))

/-- The value of party `j` from the values of parties `e`, `e + 1` and the remaining one. -/
def arrange (e : ℕ) (x y z : Bytes) (j : ℕ) : Bytes := if j = e then x else if j = (e + 1) % 3 then y else z

/-- `sig` is a valid signature on `msg` for the public key (`ct`, `pt`). -/
def Inst.IsValid (ct pt msg sig : Bytes) : Prop :=
  ∃ (e : List ℕ) (salt : Bytes) (o : ℕ → Opening) (a b : ℕ → View),
    sig = I.encode e salt o ∧ salt.length = 32 ∧
    (∀ t < I.T, I.Fits (e.getD t 0) (o t) ∧ (e.getD t 0 ≠ 0 → ZeroPad I.X.n (o t).key) ∧
      I.Opened pt salt t (e.getD t 0) (o t) (a t) (b t)) ∧
    I.Challenge (I.challengeDigest
      (fun t => arrange (e.getD t 0) (a t).out (b t).out
        (ofBits I.blk (toBits (a t).out + toBits (b t).out + toBits ct)))
      (fun t => arrange (e.getD t 0) (I.commit (a t)) (I.commit (b t)) (o t).com)
      (fun t => arrange (e.getD t 0) (I.G (e.getD t 0) (a t)) (I.G ((e.getD t 0 + 1) % 3) (b t)) (o t).g)
      ct pt salt msg) e

/-- `sig` is a valid signature on `msg` for the public key (`ct`, `pt`), and `d` is the digest that a verifier computes
from the opened views. -/
def Inst.ValidWith (ct pt msg sig d : Bytes) : Prop :=
  ∃ (e : List ℕ) (salt : Bytes) (o : ℕ → Opening) (a b : ℕ → View),
    sig = I.encode e salt o ∧ salt.length = 32 ∧
    (∀ t < I.T, I.Fits (e.getD t 0) (o t) ∧ (e.getD t 0 ≠ 0 → ZeroPad I.X.n (o t).key) ∧
      I.Opened pt salt t (e.getD t 0) (o t) (a t) (b t)) ∧
    d = I.challengeDigest
      (fun t => arrange (e.getD t 0) (a t).out (b t).out
        (ofBits I.blk (toBits (a t).out + toBits (b t).out + toBits ct)))
      (fun t => arrange (e.getD t 0) (I.commit (a t)) (I.commit (b t)) (o t).com)
      (fun t => arrange (e.getD t 0) (I.G (e.getD t 0) (a t)) (I.G ((e.getD t 0 + 1) % 3) (b t)) (o t).g)
      ct pt salt msg ∧
    I.Challenge d e

/-- A signature is valid if it is valid with some digest. -/
theorem Inst.isValid_iff (ct pt msg sig : Bytes) : I.IsValid ct pt msg sig ↔ ∃ d, I.ValidWith ct pt msg sig d := by
  constructor
  · rintro ⟨e, salt, o, a, b, h1, h2, h3, h4⟩
    exact ⟨_, e, salt, o, a, b, h1, h2, h3, rfl, h4⟩
  · rintro ⟨_, e, salt, o, a, b, h1, h2, h3, rfl, h4⟩
    exact ⟨e, salt, o, a, b, h1, h2, h3, h4⟩

end Spec.Picnic1
