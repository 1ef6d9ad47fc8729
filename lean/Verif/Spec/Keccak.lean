/-
FIPS 202, section 3: Keccak-p[1600, 24], defined bit by bit.  It does not refer to the model.
-/

namespace Spec.Keccak

/-- State arrays A[x, y, z] with x, y < 5 and z < 64. -/
abbrev St := Nat → Nat → Nat → Bool

/-- FIPS 202, 3.1.2: converting strings to state arrays. -/
def ofString (S : Nat → Bool) : St := fun x y z => S (64 * (5 * y + x) + z)

/-- FIPS 202, 3.1.3: converting state arrays to strings. -/
def toString (A : St) : Nat → Bool := fun i => A (i / 64 % 5) (i / 320) (i % 64)

/-- Parity of a column. -/
def col (A : St) (x z : Nat) : Bool := A x 0 z ^^ A x 1 z ^^ A x 2 z ^^ A x 3 z ^^ A x 4 z

/-- FIPS 202, 3.2.1 (`x - 1 = x + 4` mod 5, `z - 1 = z + 63` mod 64). -/
def theta (A : St) : St := fun x y z => A x y z ^^ (col A ((x + 4) % 5) z ^^ col A ((x + 1) % 5) ((z + 63) % 64))

/-- FIPS 202, 3.2.2: the lane coordinates visited by `rho`: (1, 0), then (x, y) ↦ (y, 2x + 3y mod 5). -/
def rhoPos : Nat → Nat × Nat
  | 0 => (1, 0)
  | t + 1 => ((rhoPos t).2, (2 * (rhoPos t).1 + 3 * (rhoPos t).2) % 5)

/-- The rotation applied to the lane (x, y): (t+1)(t+2)/2 if the lane is visited at step t, nothing for (0, 0). -/
def rhoOff (x y : Nat) : Nat :=
  (List.range 24).foldl (fun acc t => if rhoPos t = (x, y) then (t + 1) * (t + 2) / 2 else acc) 0

/-- FIPS 202, 3.2.2: A'[x, y, z] = A[x, y, (z - (t+1)(t+2)/2) mod 64]. -/
def rho (A : St) : St := fun x y z => A x y ((z + 64 - rhoOff x y % 64) % 64)

/-- FIPS 202, 3.2.3. -/
def pi (A : St) : St := fun x y z => A ((x + 3 * y) % 5) x z

/-- FIPS 202, 3.2.4. -/
def chi (A : St) : St := fun x y z => A x y z ^^ ((!A ((x + 1) % 5) y z) && A ((x + 2) % 5) y z)

/-- One step of the linear feedback shift register of FIPS 202, algorithm 5: prepend 0, then add R[8] to
R[0], R[4], R[5], R[6], truncate to 8 bits. -/
def lfsrStep (R : Nat → Bool) : Nat → Bool := fun i =>
  let S := fun i => if i = 0 then false else R (i - 1)
  if i = 0 ∨ i = 4 ∨ i = 5 ∨ i = 6 then S i ^^ S 8 else S i

/-- FIPS 202, algorithm 5 (the register as a list of 8 bits). -/
def lfsr : Nat → List Bool
  | 0 => [true, false, false, false, false, false, false, false]
  | t + 1 => (List.range 8).map (lfsrStep fun i => (lfsr t).getD i false)

/-- FIPS 202, algorithm 5. -/
def rc (t : Nat) : Bool := (lfsr (t % 255)).getD 0 false

/-- FIPS 202, algorithm 6, steps 2-3: RC[2^j - 1] = rc(j + 7 i_r) for j = 0..6, all other bits 0. -/
def RC (ir z : Nat) : Bool := (List.range 7).any fun j => z == 2 ^ j - 1 && rc (j + 7 * ir)

/-- FIPS 202, 3.2.5. -/
def iota (ir : Nat) (A : St) : St := fun x y z => if x = 0 ∧ y = 0 then A x y z ^^ RC ir z else A x y z

/-- FIPS 202, 3.3. -/
def round (ir : Nat) (A : St) : St := iota ir (chi (pi (rho (theta A))))

/-- `rounds n A`: rounds 0 .. n-1. -/
def rounds : Nat → St → St
  | 0, A => A
  | n + 1, A => round n (rounds n A)

/-- FIPS 202, 3.3: Keccak-p[1600, 24] on bit strings. -/
def keccakP24 (S : Nat → Bool) : Nat → Bool := toString (rounds 24 (ofString S))

/-- FIPS 202, B.1: bit `i` of a byte string. -/
def bitOf (b : List (BitVec 8)) (i : Nat) : Bool := (b.getD (i / 8) 0).getLsbD (i % 8)

end Spec.Keccak
