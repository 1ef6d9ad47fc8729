import Mathlib.Data.ZMod.Basic
import Mathlib.Algebra.BigOperators.Group.Finset.Basic

/-
Specification of LowMC at bit level (M. Albrecht et al., "Ciphers for MPC and FHE", and Picnic specification,
section 3.1).  It does not refer to the model.

A block or key is a function from bit numbers to ZMod 2 of which the first `n` values matter.
-/

namespace Spec

open Finset

abbrev Bits := ℕ → ZMod 2

/-- The first `n` bits. -/
def trunc (n : ℕ) (v : Bits) : Bits := fun i => if i < n then v i else 0

/-- Matrix times vector over GF(2), dimension n × n. -/
def mulVec (n : ℕ) (A : ℕ → ℕ → ZMod 2) (v : Bits) : Bits :=
  fun i => if i < n then ∑ j ∈ range n, A i j * v j else 0

/-- `A * B = 1` for n × n matrices over GF(2). -/
def IsInv (n : ℕ) (A B : ℕ → ℕ → ZMod 2) : Prop :=
  ∀ i < n, ∀ k < n, ∑ j ∈ range n, A i j * B j k = if i = k then 1 else 0

/-- An instance of LowMC: block and key size `n`, `m` S-boxes per round, `r` rounds, key matrices, linear layer
matrices, round constants. -/
structure LowMC where
  n : ℕ
  m : ℕ
  r : ℕ
  K : ℕ → ℕ → ℕ → ZMod 2
  L : ℕ → ℕ → ℕ → ZMod 2
  RC : ℕ → Bits

/-- The 3-bit S-box `(a, b, c) ↦ (a + bc, a + b + ac, a + b + c + ab)`. -/
def sbox (a b c : ZMod 2) : ZMod 2 × ZMod 2 × ZMod 2 := (a + b * c, a + b + a * c, a + b + c + a * b)

/-- The S-box layer: bits 3k+2, 3k+1, 3k are (a, b, c) of S-box k, for the first `m` triples. -/
def sboxLayer (m : ℕ) (s : Bits) : Bits := fun i =>
  if i < 3 * m then
    let o := sbox (s (3 * (i / 3) + 2)) (s (3 * (i / 3) + 1)) (s (3 * (i / 3)))
    if i % 3 = 2 then o.1 else if i % 3 = 1 then o.2.1 else o.2.2
  else s i

/-- The state after `t` rounds. -/
def LowMC.state (X : LowMC) (key pt : Bits) : ℕ → Bits
  | 0 => pt + mulVec X.n (X.K 0) key
  | t + 1 => mulVec X.n (X.L t) (sboxLayer X.m (X.state key pt t)) + X.RC t + mulVec X.n (X.K (t + 1)) key

/-- LowMC encryption. -/
def LowMC.enc (X : LowMC) (key pt : Bits) : Bits := X.state key pt X.r

end Spec
