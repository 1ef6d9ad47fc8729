import Verif.Spec.LowMC

/-
The (2,3)-function decomposition of LowMC used by ZKB++ (Giacomelli et al. "ZKBoo"; Chase et al. "Post-quantum
zero-knowledge and signatures from symmetric-key primitives", section 3), at bit level.  It does not refer to the model.

Three parties hold shares of the key.  For every AND gate a party computes one bit, its share of the product, from its own
and the next party's inputs to the gate and from one bit of each of the two parties' random tapes.  A party's state
throughout the computation is determined by its key share and its own gate bits.

Gate number 3m·t + 3k + j is gate j of S-box k in round t; the gates of an S-box with inputs (a, b, c) multiply
(a, b), (b, c), (c, a).
-/

namespace Spec.Zkb

open Finset

/-- The two inputs of gate `j` of S-box `k` when the state is `s`. -/
def gateL (s : Bits) (k j : ℕ) : ZMod 2 := if j = 0 then s (3 * k + 2) else if j = 1 then s (3 * k + 1) else s (3 * k)
def gateR (s : Bits) (k j : ℕ) : ZMod 2 := if j = 0 then s (3 * k + 1) else if j = 1 then s (3 * k) else s (3 * k + 2)

/-- A party's share of a product, from its own inputs (x, y), the next party's inputs (x', y') and tape bits r, r'. -/
def andShare (x y x' y' r r' : ZMod 2) : ZMod 2 := x * y' + x' * y + x * y + r + r'

/-- A party's share of the S-box layer; `w` are the gate bits of this layer. -/
def subShare (m : ℕ) (s w : Bits) : Bits := fun i =>
  if i < 3 * m then
    let a := s (3 * (i / 3) + 2)
    let b := s (3 * (i / 3) + 1)
    let c := s (3 * (i / 3))
    if i % 3 = 2 then a + w (3 * (i / 3) + 1)
    else if i % 3 = 1 then a + b + w (3 * (i / 3) + 2)
    else a + b + c + w (3 * (i / 3))
  else s i

/-- A party's share of the state after `t` rounds.  `first` says whether it is the party that adds the constants. -/
def share (X : LowMC) (first : Bool) (key w pt : Bits) : ℕ → Bits
  | 0 => (if first then pt else 0) + mulVec X.n (X.K 0) key
  | t + 1 =>
    mulVec X.n (X.L t) (subShare X.m (share X first key w pt t) (fun i => w (3 * X.m * t + i))) +
      (if first then X.RC t else 0) + mulVec X.n (X.K (t + 1)) key

/-- A view: key share, gate bits, random tape. -/
structure View where
  key : Bits
  gates : Bits
  tape : Bits

/-- Party `i` and the next party are consistent: all gate bits of party `i` are computed as prescribed.
`i` is the number of the party (0, 1, 2); party 0 adds the constants. -/
def Consistent (X : LowMC) (pt : Bits) (i : ℕ) (v v' : View) : Prop :=
  ∀ t < X.r, ∀ k < X.m, ∀ j < 3,
    let s := share X (i = 0) v.key v.gates pt t
    let s' := share X ((i + 1) % 3 = 0) v'.key v'.gates pt t
    let p := 3 * X.m * t + 3 * k + j
    v.gates p = andShare (gateL s k j) (gateR s k j) (gateL s' k j) (gateR s' k j) (v.tape p) (v'.tape p)

/-- The output share of party `i`. -/
def output (X : LowMC) (pt : Bits) (i : ℕ) (v : View) : Bits := share X (i = 0) v.key v.gates pt X.r

end Spec.Zkb
