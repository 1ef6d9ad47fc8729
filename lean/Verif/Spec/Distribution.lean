import Verif.Spec.Forger

/-
Vocabulary for the distribution of challenges: the challenge that is read off a sequence of digests.  It does not refer to the
model.
-/

namespace Spec.Challenge

/-- A digest of `k` bytes. -/
abbrev Digest (k : ℕ) := Fin k → Fin (2 ^ 8)

/-- The digests as byte strings. -/
def bytes {k : ℕ} (d : Digest k) : Bytes := List.ofFn fun i => BitVec.ofFin (d i)
def texts {k N : ℕ} (D : Fin N → Digest k) : List Bytes := List.ofFn fun i => bytes (D i)

/-- ZKB++: `l` is the challenge of length `T` that is read off the digests `L`. -/
def Reads (T : ℕ) (L : List Bytes) (l : List ℕ) : Prop := T ≤ (L.flatMap trits).length ∧ l = (L.flatMap trits).take T

/-- Picnic3: the numbers below `N` in the digests `L`. -/
def numbers (b N : ℕ) (L : List Bytes) : List ℕ := L.flatMap fun d => (chunks b d).filter (· < N)

/-- Picnic3: `C`, `Q` are the challenge that is read off the digests `L`; the first `k` of them are needed for `C`. -/
def Reads3 (T N u : ℕ) (L : List Bytes) (C Q : List ℕ) : Prop :=
  ∃ bC bP k, (∀ j, bC ≤ j ↔ T ≤ 2 ^ j) ∧ (∀ j, bP ≤ j ↔ N ≤ 2 ^ j) ∧
    u ≤ (firsts (numbers bC T (L.take k))).length ∧ (∀ k' < k, (firsts (numbers bC T (L.take k'))).length < u) ∧
    C = (firsts (numbers bC T (L.take k))).take u ∧
    u ≤ (numbers bP N (L.drop k)).length ∧ Q = (numbers bP N (L.drop k)).take u

/-- The first `n` digests of the chain that starts at `d`. -/
def chain (next : Bytes → Bytes) (d : Bytes) (n : ℕ) : List Bytes := (List.range n).map fun i => next^[i] d

end Spec.Challenge
