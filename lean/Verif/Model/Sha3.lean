import Verif.Model.Hash

/-
The parts of /repo/sha3 that the signature code does not call with these arguments or on this machine: all rates and suffixes, data that ends inside
of a byte, fixed output lengths, the one-call function `KeccakWidth1600_Sponge`, other numbers of rounds, big endian machines, and the tables as
computed when `KeccakReference` is defined.
-/

namespace Picnic.Sha3

/-- /repo/sha3/KeccakSponge.inc:133-146 `SpongeInitialize` (`unsigned int` arithmetic) and /repo/sha3/KeccakHash.c:20-32 `Keccak_HashInitialize`;
`none` for a return value other than SUCCESS (the instance is then not used). -/
def hashInitialize (rate capacity hashbitlen : Nat) (delimitedSuffix : Byte) : Option HashInstance :=
  if delimitedSuffix = 0 then none
  else if (rate + capacity) % 2 ^ 32 ≠ 1600 then none
  else if rate = 0 ∨ rate > 1600 ∨ rate % 8 ≠ 0 then none
  else some { state := zeros 200, rate := rate, byteIOIndex := 0, squeezing := false,
              fixedOutputLength := hashbitlen, delimitedSuffix := delimitedSuffix }

/-- /repo/sha3/KeccakHash.c:36-59 `Keccak_HashUpdate`; the Boolean is true for SUCCESS. -/
def hashUpdate (E : Env) (inst : HashInstance) (data : Buf) (databitlen : Nat) : M (HashInstance × Bool) :=
  if databitlen % 8 = 0 then spongeAbsorb E inst data (databitlen / 8)
  else do
    let (inst, ret) ← spongeAbsorb E inst data (databitlen / 8)
    if ret then do
      let lastByte ← rd data (databitlen / 8)
      let delimitedLastBytes : BitVec 16 := lastByte.setWidth 16 ||| (inst.delimitedSuffix.setWidth 16 <<< (databitlen % 8))
      if delimitedLastBytes &&& 0xFF00 = 0 then
        pure ({ inst with delimitedSuffix := (delimitedLastBytes &&& 0xFF).setWidth 8 }, true)
      else do
        let (inst, ret) ← spongeAbsorb E inst [(delimitedLastBytes &&& 0xFF).setWidth 8] 1
        pure ({ inst with delimitedSuffix := ((delimitedLastBytes >>> 8) &&& 0xFF).setWidth 8 }, ret)
    else pure (inst, false)

/-- /repo/sha3/KeccakHash.c:63-70 `Keccak_HashFinal`; the bytes written to `hashval`. -/
def hashFinal (E : Env) (inst : HashInstance) : M (HashInstance × Buf × Bool) := do
  let (inst, ret) ← spongeAbsorbLastFewBits E inst inst.delimitedSuffix
  if ret then do
    let (inst, out) ← spongeSqueeze E inst (inst.fixedOutputLength / 8)
    pure (inst, out, true)
  else pure (inst, [], false)

/-- /repo/sha3/KeccakHash.c:74-79 `Keccak_HashSqueeze`; the bytes written to `data`. -/
def hashSqueeze (E : Env) (inst : HashInstance) (databitlen : Nat) : M (HashInstance × Buf × Bool) :=
  if databitlen % 8 ≠ 0 then pure (inst, [], false)
  else do
    let (inst, out) ← spongeSqueeze E inst (databitlen / 8)
    pure (inst, out, true)

/-- /repo/sha3/KeccakSponge.inc:67-75, the loop over whole input blocks; state and remaining data (offset). -/
def spongeBlocks (E : Env) (input : Buf) (rateInBytes inputByteLen : Nat) : Nat → Nat → Buf → M (Buf × Nat)
  | 0, _, _ => .diverge
  | n + 1, off, state =>
    if inputByteLen - off ≥ rateInBytes then do
      let state ← addBytes state input off 0 rateInBytes
      spongeBlocks E input rateInBytes inputByteLen n (off + rateInBytes) (E.perm state)
    else pure (state, off)

/-- /repo/sha3/KeccakSponge.inc:111-119, the loop over whole output blocks (all but the last). -/
def spongeOut (E : Env) (rateInBytes : Nat) : Nat → Nat → Buf → Buf → M (Buf × Buf × Nat)
  | 0, _, _, _ => .diverge
  | n + 1, outputByteLen, state, out =>
    if outputByteLen > rateInBytes then do
      let b ← extractBytes state 0 rateInBytes
      spongeOut E rateInBytes n (outputByteLen - rateInBytes) (E.perm state) (out ++ b)
    else pure (state, out, outputByteLen)

/-- /repo/sha3/KeccakSponge.inc:34-127 `Sponge` (`KeccakWidth1600_Sponge`): return value and the bytes written to `output`. -/
def sponge (E : Env) (rate capacity : Nat) (input : Buf) (inputByteLen : Nat) (suffix : Byte) (outputByteLen : Nat) : M (Int × Buf) :=
  if (rate + capacity) % 2 ^ 32 ≠ 1600 then pure (1, [])
  else if rate = 0 ∨ rate > 1600 ∨ rate % 8 ≠ 0 then pure (1, [])
  else if suffix = 0 then pure (1, [])
  else do
    let rateInBytes := rate / 8
    let (state, off) ← spongeBlocks E input rateInBytes inputByteLen (inputByteLen + 1) 0 (zeros 200)
    let partialBlock := (inputByteLen - off) % 2 ^ 32
    let state ← addBytes state input off 0 partialBlock
    let state ← addByte state suffix partialBlock
    let state := if suffix.toNat ≥ 0x80 ∧ partialBlock = rateInBytes - 1 then E.perm state else state
    let state ← addByte state 0x80 (rateInBytes - 1)
    let state := E.perm state
    let (state, out, outputByteLen) ← spongeOut E rateInBytes (outputByteLen + 1) outputByteLen state []
    let b ← extractBytes state 0 (outputByteLen % 2 ^ 32)
    pure (0, out ++ b)

/-! ### the permutation -/

/-- /repo/sha3/KeccakP-1600-reference.c:185-206 `KeccakP1600_Permute_Nrounds` (with 12 rounds :208-229 `KeccakP1600_Permute_12rounds`), little endian. -/
def permuteNrounds (state : Buf) (nrounds : Nat) : M Buf := do
  let A ← collect (fun i => ldLane state i) 25
  let A ← keccakOnWords A nrounds
  pure (A.flatMap laneBytes)

/-- /repo/sha3/KeccakP-1600-reference.c:252-262 `fromBytesToWords` -/
def fromBytesToWords (state : Buf) : M (List Lane) :=
  loop (fun i w => do
    let w ← wr w i 0
    loop (fun j w => do
      let b ← rd state (i * (64 / 8) + j)
      let x ← rd w i
      wr w i (x ||| (b.setWidth 64 <<< (8 * j)))) (64 / 8) w) 25 (List.replicate 25 0)

/-- /repo/sha3/KeccakP-1600-reference.c:263-270 `fromWordsToBytes` -/
def fromWordsToBytes (state : Buf) (stateAsWords : List Lane) : M Buf :=
  loop (fun i s => loop (fun j s => do
    let w ← rd stateAsWords i
    wr s (i * (64 / 8) + j) (((w >>> (8 * j)) &&& 0xFF).setWidth 8)) (64 / 8) s) 25 state

/-- /repo/sha3/KeccakP-1600-reference.c:185-250, the branch for machines that are not little endian. -/
def permuteBigEndian (state : Buf) (nrounds : Nat) : M Buf := do
  let A ← fromBytesToWords state
  let A ← keccakOnWords A nrounds
  fromWordsToBytes state A

/-! ### the tables as computed with `KeccakReference` -/

/-- /repo/sha3/KeccakP-1600-reference.c:85-94 `LFSR86540`: result and new register. -/
def lfsr86540 (r : Byte) : Bool × Byte :=
  (decide (r &&& 0x01 ≠ 0), if r &&& 0x80 ≠ 0 then (r <<< 1) ^^^ 0x71 else r <<< 1)

/-- /repo/sha3/KeccakP-1600-reference.c:54-67 `KeccakP1600_InitializeRoundConstants` -/
def initializeRoundConstants : M (List Lane) := do
  let (rc, _) ← loop (fun i (s : List Lane × Byte) => do
    let rc ← wr s.1 i 0
    loop (fun j (s : List Lane × Byte) => do
      let (bit, lfsr) := lfsr86540 s.2
      if bit then do
        let x ← rd s.1 i
        let rc ← wr s.1 i (x ^^^ ((1 : Lane) <<< ((1 <<< j) - 1)))
        pure (rc, lfsr)
      else pure (s.1, lfsr)) 7 (rc, s.2)) 24 (List.replicate 24 0, (1 : Byte))
  pure rc

/-- /repo/sha3/KeccakP-1600-reference.c:69-83 `KeccakP1600_InitializeRhoOffsets` -/
def initializeRhoOffsets : M (List Nat) := do
  let off ← wr (List.replicate 25 0) (kidx 0 0) 0
  let (off, _, _) ← loop (fun t (s : List Nat × Nat × Nat) => do
    let (off, x, y) := s
    let off ← wr off (kidx x y) ((t + 1) * (t + 2) / 2 % 64)
    pure (off, (0 * x + 1 * y) % 5, (2 * x + 3 * y) % 5)) 24 (off, 1, 0)
  pure off

/-! ### access to the state that the sponge does not use -/

/-- /repo/sha3/KeccakP-1600-reference.c:162-167 `KeccakP1600_OverwriteBytes` -/
def overwriteBytes (state data : Buf) (offset length : Nat) : M Buf := do
  assertM (offset < 200)
  assertM ((offset + length) % 2 ^ 32 ≤ 200)
  memcpy state offset data 0 length

/-- /repo/sha3/KeccakP-1600-reference.c:171-175 `KeccakP1600_OverwriteWithZeroes` -/
def overwriteWithZeroes (state : Buf) (byteCount : Nat) : M Buf := do
  assertM (byteCount ≤ 200)
  wrN state 0 (zeros byteCount)

/-- /repo/sha3/KeccakP-1600-reference.c:383-391 `KeccakP1600_ExtractAndAddBytes`: the buffer `output` afterwards (`input` a different object). -/
def extractAndAddBytes (state input output : Buf) (offset length : Nat) : M Buf := do
  assertM (offset < 200)
  assertM ((offset + length) % 2 ^ 32 ≤ 200)
  loop (fun i out => do
    let a ← rd input i
    let s ← rd state (offset + i)
    wr out i (a ^^^ s)) length output

end Picnic.Sha3
