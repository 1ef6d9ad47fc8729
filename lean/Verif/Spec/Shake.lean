/-
Specification of the SHAKE sponge (FIPS 202, sections 4 and 6.2) on byte strings, for an arbitrary permutation `f` of
200-byte states.  It does not refer to the model.
-/

namespace Spec

abbrev Bytes := List (BitVec 8)

/-- XOR a block into the first bytes of the state (the capacity part is unchanged). -/
def xorBlock (st blk : Bytes) : Bytes :=
  (List.range st.length).map fun i => st.getD i 0 ^^^ blk.getD i 0

/-- `pad10*1` after the SHAKE suffix bits 1111, for byte strings: the padded string has a length that is a multiple
of `rate`. -/
def padShake (rate : Nat) (m : Bytes) : Bytes :=
  let q := rate - m.length % rate
  if q = 1 then m ++ [0x9F] else m ++ [0x1F] ++ List.replicate (q - 2) 0 ++ [0x80]

/-- Absorb the blocks of `p` (its length is a multiple of `rate`). -/
def absorbPadded (f : Bytes → Bytes) (rate : Nat) (p : Bytes) : Bytes :=
  (List.range (p.length / rate)).foldl (fun st i => f (xorBlock st ((p.drop (rate * i)).take rate)))
    (List.replicate 200 0)

/-- `f` iterated. -/
def iter (f : Bytes → Bytes) : Nat → Bytes → Bytes
  | 0, s => s
  | n + 1, s => iter f n (f s)

/-- The infinite output stream of the sponge, byte `k`. -/
def streamByte (f : Bytes → Bytes) (rate : Nat) (st : Bytes) (k : Nat) : BitVec 8 :=
  (iter f (k / rate) st).getD (k % rate) 0

/-- SHAKE with the given rate (168 bytes for SHAKE128, 136 for SHAKE256): `d` output bytes. -/
def shake (f : Bytes → Bytes) (rate : Nat) (m : Bytes) (d : Nat) : Bytes :=
  (List.range d).map (streamByte f rate (absorbPadded f rate (padShake rate m)))

end Spec
