import Verif.Spec.Picnic1
import Verif.Spec.Tree

/-
The Picnic3 signature scheme (Picnic specification, section 7): parameter table, seed trees, preprocessing, simulated
computation, Merkle tree, challenge, signatures, validity of a signature, byte encodings.  It does not refer to the model.

There are T repetitions with 16 parties each; u of them are opened, with one party left out, and of the others the
preprocessing is opened.  "hash" is SHAKE128 or SHAKE256 (`Inst.Shake`); 16-bit integers are little-endian.  Tree nodes are numbered in heap
order from 1 (the numbers that are hashed start from 0).
-/

namespace Spec.Picnic3

open Finset Spec.Challenge Spec.Tree Spec.Picnic1

/-- A parameter set: LowMC instance, number of repetitions and of opened repetitions, lengths of seeds and digests in bytes,
rate of SHAKE in bytes, and the hash function with output of any length: `xof m i` is byte `i` of the output for `m`. -/
structure Inst where
  X : LowMC
  T : ℕ
  u : ℕ
  seed : ℕ
  digest : ℕ
  rate : ℕ
  xof : Bytes → ℕ → BitVec 8

/-- Block length, S-boxes, rounds, repetitions, opened repetitions, seed and digest length, rate of the parameter sets. -/
def table : ℕ → Option (ℕ × ℕ × ℕ × ℕ × ℕ × ℕ × ℕ × ℕ)
  | 7 => some (129, 43, 4, 250, 36, 16, 32, 168)
  | 8 => some (192, 64, 4, 419, 52, 24, 48, 136)
  | 9 => some (255, 85, 4, 601, 68, 32, 64, 136)
  | _ => none

/-- `I` has the numbers of parameter set `p`. -/
def Inst.Is (I : Inst) (p : ℕ) : Prop :=
  table p = some (I.X.n, I.X.m, I.X.r, I.T, I.u, I.seed, I.digest, I.rate)

variable (I : Inst)

def Inst.hash (m : Bytes) (n : ℕ) : Bytes := (List.range n).map (I.xof m)

/-- The hash function is SHAKE with permutation `f`. -/
def Inst.Shake (f : Bytes → Bytes) : Prop := ∀ m n, I.hash m n = shake f I.rate m n

/-- Bytes of a block, and of one bit for every AND gate. -/
def Inst.blk : ℕ := bytesFor I.X.n
def Inst.gate : ℕ := bytesFor (3 * I.X.m * I.X.r)

/-- Depth of a tree with a leaf for every repetition. -/
def Inst.depth : ℕ := Nat.clog 2 I.T

/-! ### seed trees -/

/-- The salt and the seed at the root, derived from key and message. -/
def Inst.secrets (sk ct pt msg : Bytes) : Bytes := I.hash (sk ++ msg ++ ct ++ pt ++ int16 I.X.n) (32 + I.seed)

/-- The seed of node `x` is one half of the hash of its parent's seed. -/
def Inst.Child (salt : Bytes) (rep : ℕ) (s : ℕ → Bytes) (x : ℕ) : Prop :=
  s x = ((I.hash ([1] ++ s (x / 2) ++ salt ++ int16 rep ++ int16 (x / 2 - 1)) (2 * I.seed)).drop (x % 2 * I.seed)).take I.seed

/-- `s` is the seed tree with `n` leaves that is grown from `root`. -/
def Inst.SeedTree (salt : Bytes) (rep D n : ℕ) (root : Bytes) (s : ℕ → Bytes) : Prop :=
  s 1 = root ∧ ∀ x, 2 ≤ x → Node D n x → I.Child salt rep s x

/-- The other child of the same parent. -/
def sibling (x : ℕ) : ℕ := if x % 2 = 0 then x + 1 else x - 1

open Classical in
/-- The nodes that reveal all leaves but the hidden ones: level by level from the leaves upwards, the siblings of the nodes
on the paths of the hidden leaves that are not on such paths themselves, each once.  If the only child of such a node is the
last leaf, then the leaf takes its place. -/
noncomputable def revealed (D n : ℕ) (hidden : List ℕ) : List ℕ :=
  firsts ((List.range D).flatMap fun d => hidden.filterMap fun h =>
    let x := sibling ((2 ^ D + h) / 2 ^ d)
    if Node D n x ∧ ¬ Up D (Picked D hidden) x then some (if Leaf D n (2 * x) ∧ ¬ Leaf D n (2 * x + 1) then 2 * x else x)
    else none)

/-- The part of a seed tree that lies below the revealed nodes. -/
def Inst.PartialTree (salt : Bytes) (rep D n : ℕ) (hidden : List ℕ) (s : ℕ → Bytes) : Prop :=
  (∀ x ∈ revealed D n hidden, (s x).length = I.seed) ∧
  ∀ x, Node D n x → (∃ k, 1 ≤ k ∧ x / 2 ^ k ∈ revealed D n hidden) → I.Child salt rep s x

/-! ### one repetition -/

/-- A repetition: the seed tree of its parties, the correction bits for the last party's tape, the masked key, the messages
and the commitments of the parties. -/
structure Round where
  node : ℕ → Bytes
  aux : Bytes
  key : Bytes
  msgs : ℕ → Bytes
  com : ℕ → Bytes

/-- The seed of party `j`. -/
def Round.seed (v : Round) (j : ℕ) : Bytes := v.node (16 + j)

/-- The random tape of party `j` in repetition `t`.  For every round of LowMC it has `n` bits that are shares of the masks of
the S-box inputs, and then one bit for each of the `n` AND gates. -/
def Inst.tape (salt : Bytes) (t j : ℕ) (v : Round) : Bits :=
  toBits (I.hash (v.seed j ++ salt ++ int16 t ++ int16 j) (2 * I.gate))

/-- The AND gate bits of the last party are replaced by the correction bits. -/
def Inst.share (salt : Bytes) (t : ℕ) (v : Round) (j p : ℕ) : ZMod 2 :=
  if j = 15 ∧ I.X.n ≤ p % (2 * I.X.n) then toBits v.aux (I.X.n * (p / (2 * I.X.n)) + (p % (2 * I.X.n) - I.X.n))
  else I.tape salt t j v p

def Inst.commit (salt : Bytes) (t : ℕ) (v : Round) (j : ℕ) : Bytes :=
  I.hash (v.seed j ++ (if j = 15 then v.aux else []) ++ salt ++ int16 t ++ int16 j) I.digest

/-! The S-box `(a, b, c)` in bits 3k+2, 3k+1, 3k has the AND gates 3k: ab, 3k+1: bc, 3k+2: ca. -/

/-- The inputs of gate `i`. -/
def in1 (i : ℕ) : ℕ := 3 * (i / 3) + (2 - i % 3)
def in2 (i : ℕ) : ℕ := 3 * (i / 3) + (4 - i % 3) % 3

/-- The S-box layer with input `x`, given the outputs `z` of the gates. -/
def layer (x z : Bits) (i : ℕ) : ZMod 2 :=
  if i % 3 = 2 then x i + z (i - 1)
  else if i % 3 = 1 then x (i + 1) + x i + z (i + 1)
  else x (i + 2) + x (i + 1) + x i + z i

/-- The mask of bit `i` of the state before round `r`; the result is not masked. -/
def Inst.mask (sh : ℕ → Bits) (r i : ℕ) : ZMod 2 :=
  if r = I.X.r then 0 else ∑ j ∈ range 16, sh j (2 * I.X.n * r + i)

/-- Preprocessing is correct: `κ` is the mask of the key, `w r` the masks of the gate outputs in round `r`.  Masks add up along
the linear parts of LowMC, and the parties' gate bits are shares of the product of the masks of the inputs plus the mask of the
output. -/
structure Inst.Masks (sh : ℕ → Bits) (κ : Bits) (w : ℕ → Bits) : Prop where
  key : ∀ i < I.X.n, mulVec I.X.n (I.X.K 0) κ i = I.mask sh 0 i
  round : ∀ r < I.X.r, ∀ i < I.X.n,
    mulVec I.X.n (I.X.L r) (layer (I.mask sh r) (w r)) i + mulVec I.X.n (I.X.K (r + 1)) κ i = I.mask sh (r + 1) i
  gate : ∀ r < I.X.r, ∀ i < I.X.n,
    ∑ j ∈ range 16, sh j (2 * I.X.n * r + I.X.n + i) = I.mask sh r (in1 i) * I.mask sh r (in2 i) + w r i

/-- The correction bits of repetition `t` are the right ones; `κ` is the mask of the key. -/
def Inst.Prepared (salt : Bytes) (t : ℕ) (v : Round) (κ : Bits) : Prop :=
  v.aux.length = I.gate ∧ ZeroPad (3 * I.X.m * I.X.r) v.aux ∧ ∃ w, I.Masks (I.share salt t v) κ w

/-- The masked state before round `r`, given the masked key and the messages. -/
def Inst.public (pt key : Bits) (msg : ℕ → Bits) : ℕ → Bits
  | 0 => pt + mulVec I.X.n (I.X.K 0) key
  | r + 1 =>
    let s := Inst.public pt key msg r
    mulVec I.X.n (I.X.L r) (layer s fun i => s (in1 i) * s (in2 i) + ∑ j ∈ range 16, msg j (I.X.n * r + i)) +
      I.X.RC r + mulVec I.X.n (I.X.K (r + 1)) key

/-- The messages of party `j` are computed from its shares. -/
def Inst.Sends (pt : Bytes) (sh : ℕ → Bits) (v : Round) (j : ℕ) : Prop :=
  (v.msgs j).length = I.gate ∧ ZeroPad (3 * I.X.m * I.X.r) (v.msgs j) ∧
  ∀ r < I.X.r, ∀ i < I.X.n, let s := I.public (toBits pt) (toBits v.key) (fun j => toBits (v.msgs j)) r
    toBits (v.msgs j) (I.X.n * r + i) =
      s (in1 i) * sh j (2 * I.X.n * r + in2 i) + s (in2 i) * sh j (2 * I.X.n * r + in1 i) + sh j (2 * I.X.n * r + I.X.n + i)

/-- The result of the computation. -/
def Inst.result (pt : Bytes) (v : Round) : Bytes :=
  ofBits I.blk (I.public (toBits pt) (toBits v.key) (fun j => toBits (v.msgs j)) I.X.r)

/-- The digests of the commitments and of the messages. -/
def Inst.comDigest (v : Round) : Bytes := I.hash ((List.range 16).flatMap v.com) I.digest
def Inst.msgDigest (v : Round) : Bytes := I.hash (v.key ++ (List.range 16).flatMap v.msgs) I.digest

/-! ### Merkle tree -/

/-- The digest of inner node `x`.  The digest of an inner node without leaves is zero; a leaf that does not exist is left out. -/
def Inst.MerkleNode (salt : Bytes) (h : ℕ → Bytes) (x : ℕ) : Prop :=
  h x = I.hash ([3] ++ h (2 * x) ++ (if 2 * x + 1 < 2 ^ I.depth + I.T then h (2 * x + 1) else []) ++ salt ++ int16 (x - 1)) I.digest

/-- `h` is a Merkle tree, as far as its nodes have leaves in `S` below them, with leaf `t` for the messages of repetition `t`. -/
structure Inst.Merkle (salt : Bytes) (v : ℕ → Round) (S : ℕ → Prop) (h : ℕ → Bytes) : Prop where
  leaf : ∀ t < I.T, S t → h (2 ^ I.depth + t) = I.msgDigest (v t)
  inner : ∀ x, x < 2 ^ I.depth → (∃ t < I.T, S t ∧ ∃ k, (2 ^ I.depth + t) / 2 ^ k = x) → 1 ≤ x → I.MerkleNode salt h x
  absent : ∀ x, x < 2 ^ I.depth → ¬ Node I.depth I.T x → h x = List.replicate I.digest 0

open Classical in
/-- The nodes that, together with the other leaves, determine the root: the tops of the subtrees without such leaves, in the
order of the missing leaves. -/
noncomputable def opened (D n : ℕ) (missing : List ℕ) : List ℕ :=
  firsts (missing.map fun h =>
    (2 ^ D + h) / 2 ^ Nat.findGreatest (fun k => ¬ Up D (Present D n missing) ((2 ^ D + h) / 2 ^ k)) D)

/-! ### challenge -/

/-- The digest of all repetitions, salt, public key and message. -/
def Inst.challengeDigest (v : ℕ → Round) (h : ℕ → Bytes) (ct pt salt msg : Bytes) : Bytes :=
  I.hash ((List.range I.T).flatMap (fun t => I.comDigest (v t)) ++ h 1 ++ salt ++ ct ++ pt ++ msg) I.digest

/-- `C` are the opened repetitions and `Q` their unopened parties for the digest `d`. -/
def Inst.Challenge (d : Bytes) (C Q : List ℕ) : Prop := IsChallenge3 I.T 16 I.u (fun d => I.hash ([1] ++ d) I.digest) d C Q

/-- The unopened party of repetition `t`. -/
def hid (C Q : List ℕ) (t : ℕ) : ℕ := Q.getD (C.idxOf t) 0

/-- The repetitions that are not opened. -/
def closed (T : ℕ) (C : List ℕ) : List ℕ := (List.range T).filter fun t => t ∉ C

/-! ### encoding -/

/-- An opened repetition without party `k`: seeds, correction bits unless the last party is `k`, masked key, messages and
commitment of party `k`. -/
noncomputable def Round.encode (v : Round) (k : ℕ) : Bytes :=
  (revealed 4 16 [k]).flatMap v.node ++ (if k = 15 then [] else v.aux) ++ v.key ++ v.msgs k ++ v.com k

noncomputable def Inst.encode (d salt : Bytes) (C Q : List ℕ) (s h : ℕ → Bytes) (v : ℕ → Round) : Bytes :=
  d ++ salt ++ (revealed I.depth I.T C).flatMap s ++ (opened I.depth I.T (closed I.T C)).flatMap h ++
    (List.range I.T).flatMap fun t => if t ∈ C then (v t).encode (hid C Q t) else []

/-! ### signatures -/

/-- `sig` is the signature on `msg` under the private key `sk` with public key (`ct`, `pt`). -/
def Inst.IsSignature (sk ct pt msg sig : Bytes) : Prop :=
  ∃ (s h : ℕ → Bytes) (v : ℕ → Round) (κ : ℕ → Bits) (C Q : List ℕ),
    let salt := (I.secrets sk ct pt msg).take 32
    I.SeedTree salt 0 I.depth I.T ((I.secrets sk ct pt msg).drop 32) s ∧
    (∀ t < I.T, I.SeedTree salt t 4 16 (s (2 ^ I.depth + t)) (v t).node ∧ I.Prepared salt t (v t) (κ t) ∧
      (v t).key = ofBits I.blk (toBits sk + trunc I.X.n (κ t)) ∧
      ∀ j < 16, I.Sends pt (I.share salt t (v t)) (v t) j ∧ (v t).com j = I.commit salt t (v t) j) ∧
    I.Merkle salt v (fun _ => True) h ∧
    I.Challenge (I.challengeDigest v h ct pt salt msg) C Q ∧
    sig = I.encode (I.challengeDigest v h ct pt salt msg) salt C Q s h v

/-! ### verification -/

/-- The fields of an opened repetition have the right lengths, and unused bits are zero. -/
structure Inst.Fits (k : ℕ) (v : Round) : Prop where
  aux : k ≠ 15 → v.aux.length = I.gate ∧ ZeroPad (3 * I.X.m * I.X.r) v.aux
  key : v.key.length = I.blk
  msgs : (v.msgs k).length = I.gate ∧ ZeroPad (3 * I.X.m * I.X.r) (v.msgs k)
  com : (v.com k).length = I.digest

/-- The checks of verification for the opened repetitions `C` with the unopened parties `Q`: the preprocessing of the other
repetitions is correct; all parties but one follow the protocol in the opened ones, and the result is the ciphertext. -/
def Inst.Checks (ct pt salt : Bytes) (s h : ℕ → Bytes) (v : ℕ → Round) (C Q : List ℕ) : Prop :=
  I.PartialTree salt 0 I.depth I.T C s ∧
  (∀ t < I.T, t ∉ C → I.SeedTree salt t 4 16 (s (2 ^ I.depth + t)) (v t).node ∧ (∃ κ, I.Prepared salt t (v t) κ) ∧
    ∀ j < 16, (v t).com j = I.commit salt t (v t) j) ∧
  (∀ t ∈ C, I.PartialTree salt t 4 16 [hid C Q t] (v t).node ∧ I.Fits (hid C Q t) (v t) ∧
    (∀ j < 16, j ≠ hid C Q t → I.Sends pt (I.share salt t (v t)) (v t) j ∧ (v t).com j = I.commit salt t (v t) j) ∧
    I.result pt (v t) = ct) ∧
  I.Merkle salt v (· ∈ C) h ∧ ∀ x ∈ opened I.depth I.T (closed I.T C), (h x).length = I.digest

/-- `sig` is a valid signature on `msg` for the public key (`ct`, `pt`). -/
def Inst.IsValid (ct pt msg sig : Bytes) : Prop :=
  ∃ (salt : Bytes) (s h : ℕ → Bytes) (v : ℕ → Round) (C Q : List ℕ),
    salt.length = 32 ∧ I.Checks ct pt salt s h v C Q ∧
    I.Challenge (I.challengeDigest v h ct pt salt msg) C Q ∧
    sig = I.encode (I.challengeDigest v h ct pt salt msg) salt C Q s h v

end Spec.Picnic3
