import Mathlib.Data.List.Basic
import Mathlib.Algebra.BigOperators.Group.Finset.Basic

/-
The Fiat-Shamir challenge of ZKB++ (Picnic specification, section 6.4.1 "H3"): a sequence of T values in {0, 1, 2}, read off
two bits at a time, most significant bits first, from a digest and, as long as needed, from the digests obtained by hashing
the previous one; pairs with value 3 are skipped.  It does not refer to the model.
-/

namespace Spec.Challenge

/-- The four bit pairs of a byte. -/
def pairs (b : BitVec 8) : List ℕ := [b.toNat / 64, b.toNat / 16 % 4, b.toNat / 4 % 4, b.toNat % 4]

/-- The usable values of a digest. -/
def trits (d : List (BitVec 8)) : List ℕ := (d.flatMap pairs).filter (· < 3)

/-- The usable values of the first `n` digests of the chain that starts at `d`. -/
def stream (next : List (BitVec 8) → List (BitVec 8)) : List (BitVec 8) → ℕ → List ℕ
  | _, 0 => []
  | d, n + 1 => trits d ++ stream next (next d) n

/-- `l` is the challenge sequence of length `T` for the digest `d`. -/
def IsChallenge (T : ℕ) (next : List (BitVec 8) → List (BitVec 8)) (d : List (BitVec 8)) (l : List ℕ) : Prop :=
  ∃ n, T ≤ (stream next d n).length ∧ l = (stream next d n).take T

/-- Bit `i` of a byte string, most significant bit of each byte first. -/
def bit (b : List (BitVec 8)) (i : ℕ) : ℕ := (b.getD (i / 8) 0).toNat / 2 ^ (7 - i % 8) % 2

/-- Value number `i` of an encoded challenge: two bits, the less significant one first. -/
def value (b : List (BitVec 8)) (i : ℕ) : ℕ := bit b (2 * i) + 2 * bit b (2 * i + 1)

/-! ### Picnic3

Picnic specification, section 7.4.5 "HCP": the digest is cut into numbers of `b` bits; digests are chained as above.  The
opened rounds are the first `u` different numbers below T; the chain is continued by one digest and then read again for
the unopened parties, the first `u` numbers below N. -/

/-- Number `i` of a digest, less significant bit first. -/
def chunk (b : ℕ) (d : List (BitVec 8)) (i : ℕ) : ℕ := ∑ j ∈ Finset.range b, bit d (i * b + j) * 2 ^ j

/-- The numbers of a digest. -/
def chunks (b : ℕ) (d : List (BitVec 8)) : List ℕ := (List.range (d.length * 8 / b)).map (chunk b d)

/-- The numbers below `N` in the first `n` digests of the chain that starts at `d`. -/
def stream3 (b N : ℕ) (next : List (BitVec 8) → List (BitVec 8)) : List (BitVec 8) → ℕ → List ℕ
  | _, 0 => []
  | d, n + 1 => (chunks b d).filter (· < N) ++ stream3 b N next (next d) n

/-- The different elements of a list in the order of their first occurrences. -/
def firsts (l : List ℕ) : List ℕ := l.foldl (fun acc x => if x ∈ acc then acc else acc ++ [x]) []

/-- `C`, `Q` are the opened rounds and the unopened parties for the digest `d`: T rounds, N parties, u opened rounds. -/
def IsChallenge3 (T N u : ℕ) (next : List (BitVec 8) → List (BitVec 8)) (d : List (BitVec 8)) (C Q : List ℕ) : Prop :=
  ∃ bC bP k m, (∀ j, bC ≤ j ↔ T ≤ 2 ^ j) ∧ (∀ j, bP ≤ j ↔ N ≤ 2 ^ j) ∧
    u ≤ (firsts (stream3 bC T next d k)).length ∧ (∀ k' < k, (firsts (stream3 bC T next d k')).length < u) ∧
    C = (firsts (stream3 bC T next d k)).take u ∧
    u ≤ (stream3 bP N next (next^[k] d) m).length ∧ Q = (stream3 bP N next (next^[k] d) m).take u

end Spec.Challenge
