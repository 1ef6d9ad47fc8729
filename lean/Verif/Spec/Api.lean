import Verif.Spec.Shake

/-
Specification of the public constants and key encodings (Picnic specification, sections 2 and 6).  It does not refer to the
model.
-/

namespace Spec

/-- LowMC block and key length in bits of each parameter set (1 .. 12). -/
def blockBits : Nat → Option Nat
  | 1 | 2 => some 128
  | 3 | 4 => some 192
  | 5 | 6 => some 256
  | 7 => some 129
  | 8 => some 192
  | 9 => some 255
  | 10 => some 129
  | 11 => some 192
  | 12 => some 255
  | _ => none

/-- The parameter sets that use ZKB++ (Picnic-L1/L3/L5 with FS, UR, and the full S-box layer). -/
def zkbParams : List Nat := [1, 2, 3, 4, 5, 6, 10, 11, 12]

/-- The parameter sets that use the Unruh transform. -/
def urParams : List Nat := [2, 4, 6]

/-- The parameter sets of Picnic3. -/
def picnic3Params : List Nat := [7, 8, 9]

/-- Bytes needed for `n` bits. -/
def bytesFor (n : Nat) : Nat := (n + 7) / 8

/-- Bit `i` of a byte string, most significant bit of each byte first. -/
def msbBit (b : Bytes) (i : Nat) : Bool := (b.getD (i / 8) 0).getLsbD (7 - i % 8)

/-- The unused bits of the last byte of an `n`-bit field are zero. -/
def ZeroPad (n : Nat) (b : Bytes) : Prop := ∀ i, n ≤ i → i < 8 * bytesFor n → msbBit b i = false

/-- `b` starts with an encoded public key (parameter byte, ciphertext block, plaintext block). -/
def PkEncoding (b : Bytes) (p : Nat) (ct pt : Bytes) : Prop :=
  ∃ n rest, blockBits p = some n ∧ b = BitVec.ofNat 8 p :: (ct ++ pt ++ rest) ∧ ct.length = bytesFor n ∧
    pt.length = bytesFor n ∧ ZeroPad n ct ∧ ZeroPad n pt

/-- `b` starts with an encoded private key (parameter byte, secret, ciphertext block, plaintext block). -/
def SkEncoding (b : Bytes) (p : Nat) (sk ct pt : Bytes) : Prop :=
  ∃ n rest, blockBits p = some n ∧ b = BitVec.ofNat 8 p :: (sk ++ ct ++ pt ++ rest) ∧ sk.length = bytesFor n ∧
    ct.length = bytesFor n ∧ pt.length = bytesFor n ∧ ZeroPad n sk ∧ ZeroPad n ct ∧ ZeroPad n pt

end Spec
