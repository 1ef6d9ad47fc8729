import Verif.Spec.Sponge

/-
FIPS 202 in general: Keccak-p[1600, nr], the sponge over an arbitrary permutation of bit strings, the SHA-3 functions.  It does not refer to the
model.
-/

namespace Spec.Keccak

/-- FIPS 202, 3.3: `n` rounds, the first of them with index `ir`. -/
def roundsFrom (ir : Nat) : Nat → St → St
  | 0, A => A
  | n + 1, A => round (ir + n) (roundsFrom ir n A)

/-- FIPS 202, 3.3, algorithm 7: Keccak-p[1600, nr] performs the rounds with indices 24 - nr, ..., 23. -/
def keccakP (nr : Nat) (S : Nat → Bool) : Nat → Bool := toString (roundsFrom (24 - nr) nr (ofString S))

/-- FIPS 202, algorithm 8, steps 1-6, for a permutation `f`. -/
def absorbOf (f : (Nat → Bool) → Nat → Bool) (r : Nat) (N : List Bool) : Nat → Bool :=
  let P := N ++ pad101 r N.length
  (List.range (P.length / r)).foldl
    (fun S k => f fun i => S i ^^ (if i < r then P.getD (r * k + i) false else false)) (fun _ => false)

/-- `f` iterated. -/
def iterOf (f : (Nat → Bool) → Nat → Bool) : Nat → (Nat → Bool) → Nat → Bool
  | 0, S => S
  | q + 1, S => f (iterOf f q S)

/-- FIPS 202, algorithm 8: SPONGE[f, pad10*1, r](N, d). -/
def spongeOf (f : (Nat → Bool) → Nat → Bool) (r : Nat) (N : List Bool) (d : Nat) : List Bool :=
  (List.range d).map fun k => iterOf f (k / r) (absorbOf f r N) (k % r)

/-- FIPS 202, 5.2: KECCAK[c](N, d). -/
def keccakC (c : Nat) (N : List Bool) (d : Nat) : List Bool := spongeOf (keccakP 24) (1600 - c) N d

/-- FIPS 202, 6.1. -/
def sha3_224 (M : List Bool) : List Bool := keccakC 448 (M ++ [false, true]) 224
def sha3_256 (M : List Bool) : List Bool := keccakC 512 (M ++ [false, true]) 256
def sha3_384 (M : List Bool) : List Bool := keccakC 768 (M ++ [false, true]) 384
def sha3_512 (M : List Bool) : List Bool := keccakC 1024 (M ++ [false, true]) 512

/-- The convention of the library for up to seven bits in a byte (/repo/sha3/KeccakSponge-common.h): least significant bit first, the most
significant 1 is the end mark. -/
def delimited (s : Nat) : List Bool := (List.range (Nat.log2 s)).map s.testBit

end Spec.Keccak
