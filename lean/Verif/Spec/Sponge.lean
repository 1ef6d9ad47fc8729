import Verif.Spec.Keccak

/-
FIPS 202, sections 4, 5.1 and 6.2: the sponge construction, the padding rule pad10*1 and SHAKE128 / SHAKE256, all on
bit strings.  It does not refer to the model.
-/

namespace Spec.Keccak

/-- FIPS 202, algorithm 9: pad10*1(x, m) = 1 0^j 1 with j = (-m-2) mod x. -/
def pad101 (x m : Nat) : List Bool := [true] ++ List.replicate ((x - (m + 2) % x) % x) false ++ [true]

/-- FIPS 202, algorithm 8, steps 1-6: the state after absorbing N (bit i of the state for i < 1600). -/
def absorb (r : Nat) (N : List Bool) : Nat → Bool :=
  let P := N ++ pad101 r N.length
  (List.range (P.length / r)).foldl
    (fun S k => keccakP24 fun i => S i ^^ (if i < r then P.getD (r * k + i) false else false)) (fun _ => false)

/-- The state after squeezing `q` blocks. -/
def squeezeState : Nat → (Nat → Bool) → Nat → Bool
  | 0, S => S
  | q + 1, S => keccakP24 (squeezeState q S)

/-- FIPS 202, algorithm 8: SPONGE[Keccak-p[1600, 24], pad10*1, r](N, d). -/
def sponge (r : Nat) (N : List Bool) (d : Nat) : List Bool :=
  (List.range d).map fun k => squeezeState (k / r) (absorb r N) (k % r)

/-- FIPS 202, 6.2: SHAKE128(M, d) = KECCAK[256](M || 1111, d), rate 1344. -/
def shake128 (M : List Bool) (d : Nat) : List Bool := sponge 1344 (M ++ [true, true, true, true]) d

/-- FIPS 202, 6.2: SHAKE256(M, d) = KECCAK[512](M || 1111, d), rate 1088. -/
def shake256 (M : List Bool) (d : Nat) : List Bool := sponge 1088 (M ++ [true, true, true, true]) d

/-- FIPS 202, B.1: the bit string of a byte string. -/
def toBits (b : List (BitVec 8)) : List Bool := (List.range (8 * b.length)).map (bitOf b)

end Spec.Keccak
