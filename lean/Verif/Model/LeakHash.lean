import Verif.Model.Hash
import Verif.Model.Leak

/-
Model/Hash with observations.
-/

namespace Picnic.Leak

/-- a call of `KeccakP1600_Permute_24rounds`; LeakKeccakP has the observations inside the call (/repo/sha3/KeccakP-1600-reference.c:231-250) -/
def permute (E : Env) (state : Buf) : M Buf := do
  LM.tell .permute
  pure (E.perm state)

/-- /repo/sha3/KeccakP-1600-reference.c:142-146 `KeccakP1600_AddByte` -/
def addByte (state : Buf) (byte : Byte) (offset : Nat) : M Buf := do
  assertM (offset < 200)
  let s ← rd state offset
  wr state offset (s ^^^ byte)

/-- /repo/sha3/KeccakP-1600-reference.c:150-158 `KeccakP1600_AddBytes`; `data + doff` is the data pointer.  The sum
`offset + length` in the second assertion is computed in `unsigned int`, i.e. modulo 2^32. -/
def addBytes (state data : Buf) (doff offset length : Nat) : M Buf := do
  assertM (offset < 200)
  assertM ((offset + length) % 2 ^ 32 ≤ 200)
  loop (fun i state => do
    let s ← rd state (offset + i)
    let d ← rd data (doff + i)
    wr state (offset + i) (s ^^^ d)) length state

/-- /repo/sha3/KeccakP-1600-reference.c:374-379 `KeccakP1600_ExtractBytes`; returns the extracted bytes. -/
def extractBytes (state : Buf) (offset length : Nat) : M Buf := do
  assertM (offset < 200)
  assertM ((offset + length) % 2 ^ 32 ≤ 200)
  rdN state offset length

/-- /repo/sha3/KeccakSponge.inc:174-182, the loop over full blocks:
`for(j=dataByteLen-i; j>=rateInBytes; j-=rateInBytes)`.  Returns the state and the final `i`.
`n` bounds the number of iterations (j decreases). -/
def absorbBlocks (E : Env) (data : Buf) (rateInBytes dataByteLen : Nat) :
    Nat → Nat → Buf → M (Buf × Nat)
  | 0, _, _ => .diverge
  | n + 1, i, state =>
    ifB dataByteLen - i ≥ rateInBytes then do
      let state ← addBytes state data i 0 rateInBytes
      let state ← permute E state
      absorbBlocks E data rateInBytes dataByteLen n (i + rateInBytes) state
    else pure (state, i)

/-- /repo/sha3/KeccakSponge.inc:162-205, the `while(i < dataByteLen)` loop of `SpongeAbsorb`.  `dataByteLen` is the
length argument; `data` the caller's buffer.  `partialBlock` is an `unsigned int`: the conversion at line 189, the
sum at line 190 and the update at line 199 wrap modulo 2^32.  Every terminating execution advances `i` in each
iteration, so `n = dataByteLen + 1` iterations suffice; an iteration with partialBlock = 0 repeats forever and
yields `diverge`. -/
def absorbLoop (E : Env) (data : Buf) (rateInBytes dataByteLen : Nat) :
    Nat → Nat → HashInstance → M HashInstance
  | 0, _, _ => .diverge
  | n + 1, i, inst =>
    ifB i < dataByteLen then do
      note (inst.byteIOIndex == 0)
      ifB inst.byteIOIndex = 0 ∧ dataByteLen ≥ i + rateInBytes then do
        let (state, i') ← absorbBlocks E data rateInBytes dataByteLen (dataByteLen + 1) i inst.state
        absorbLoop E data rateInBytes dataByteLen n i' { inst with state := state }
      else do
        let partialBlock := (dataByteLen - i) % 2 ^ 32
        note (decide ((partialBlock + inst.byteIOIndex) % 2 ^ 32 > rateInBytes))
        let partialBlock :=
          if (partialBlock + inst.byteIOIndex) % 2 ^ 32 > rateInBytes then rateInBytes - inst.byteIOIndex
          else partialBlock
        let state ← addBytes inst.state data i inst.byteIOIndex partialBlock
        let byteIOIndex := (inst.byteIOIndex + partialBlock) % 2 ^ 32
        ifB byteIOIndex = rateInBytes then do
          let state ← permute E state
          absorbLoop E data rateInBytes dataByteLen n (i + partialBlock)
            { inst with state := state, byteIOIndex := 0 }
        else
          absorbLoop E data rateInBytes dataByteLen n (i + partialBlock)
            { inst with state := state, byteIOIndex := byteIOIndex }
    else pure inst

/-- /repo/sha3/KeccakSponge.inc:150-207 `SpongeAbsorb`; the Boolean is true for return value 0. -/
def spongeAbsorb (E : Env) (inst : HashInstance) (data : Buf) (dataByteLen : Nat) : M (HashInstance × Bool) :=
  ifB inst.squeezing then pure (inst, false)
  else do
    let inst ← absorbLoop E data (inst.rate / 8) dataByteLen (dataByteLen + 1) 0 inst
    pure (inst, true)

/-- /repo/sha3/KeccakSponge.inc:211-249 `SpongeAbsorbLastFewBits` -/
def spongeAbsorbLastFewBits (E : Env) (inst : HashInstance) (delimitedData : Byte) : M (HashInstance × Bool) :=
  let rateInBytes := inst.rate / 8
  ifB delimitedData = 0 then pure (inst, false)
  else ifB inst.squeezing then pure (inst, false)
  else do
    let state ← addByte inst.state delimitedData inst.byteIOIndex
    note (decide (delimitedData.toNat ≥ 0x80))
    let state ← ifB delimitedData.toNat ≥ 0x80 ∧ inst.byteIOIndex = rateInBytes - 1 then permute E state
      else pure state
    let state ← addByte state 0x80 (rateInBytes - 1)
    let state ← permute E state
    pure ({ inst with state := state, byteIOIndex := 0, squeezing := true }, true)

/-- /repo/sha3/KeccakSponge.inc:267-275, the loop over full blocks when squeezing.  Returns state, bytes written so
far and the final `i`. -/
def squeezeBlocks (E : Env) (rateInBytes dataByteLen : Nat) :
    Nat → Nat → Buf → Buf → M (Buf × Buf × Nat)
  | 0, _, _, _ => .diverge
  | n + 1, i, state, out =>
    ifB dataByteLen - i ≥ rateInBytes then do
      let state ← permute E state
      let b ← extractBytes state 0 rateInBytes
      squeezeBlocks E rateInBytes dataByteLen n (i + rateInBytes) state (out ++ b)
    else pure (state, out, i)

/-- /repo/sha3/KeccakSponge.inc:265-295, the `while` loop of `SpongeSqueeze`.  `out` collects the bytes written to
`data`; the caller of the model stores them into the destination object (with a bounds check). -/
def squeezeLoop (E : Env) (rateInBytes dataByteLen : Nat) :
    Nat → Nat → HashInstance → Buf → M (HashInstance × Buf)
  | 0, _, _, _ => .diverge
  | n + 1, i, inst, out =>
    ifB i < dataByteLen then do
      note (inst.byteIOIndex == rateInBytes)
      ifB inst.byteIOIndex = rateInBytes ∧ dataByteLen ≥ i + rateInBytes then do
        let (state, out, i') ← squeezeBlocks E rateInBytes dataByteLen (dataByteLen + 1) i inst.state out
        squeezeLoop E rateInBytes dataByteLen n i' { inst with state := state } out
      else do
        let inst ← ifB inst.byteIOIndex = rateInBytes then do
            let state ← permute E inst.state
            pure { inst with state := state, byteIOIndex := 0 }
          else pure inst
        let partialBlock := (dataByteLen - i) % 2 ^ 32
        note (decide ((partialBlock + inst.byteIOIndex) % 2 ^ 32 > rateInBytes))
        let partialBlock :=
          if (partialBlock + inst.byteIOIndex) % 2 ^ 32 > rateInBytes then rateInBytes - inst.byteIOIndex
          else partialBlock
        let b ← extractBytes inst.state inst.byteIOIndex partialBlock
        squeezeLoop E rateInBytes dataByteLen n (i + partialBlock)
          { inst with byteIOIndex := (inst.byteIOIndex + partialBlock) % 2 ^ 32 } (out ++ b)
    else pure (inst, out)

/-- /repo/sha3/KeccakSponge.inc:253-297 `SpongeSqueeze`; returns the `dataByteLen` bytes written to `data`. -/
def spongeSqueeze (E : Env) (inst : HashInstance) (dataByteLen : Nat) : M (HashInstance × Buf) := do
  let inst ← ifB inst.squeezing then pure inst else do
    let (inst, _) ← spongeAbsorbLastFewBits E inst 0x01
    pure inst
  squeezeLoop E (inst.rate / 8) dataByteLen (dataByteLen + 1) 0 inst []

/-- /repo/hash.c:21-29 `HashUpdate` with /repo/sha3/KeccakHash.c:37-60 `Keccak_HashUpdate` (databitlen is a multiple
of 8, so only the first branch is reachable).  `byteLen * 8` is computed in a 64-bit `size_t`. -/
def hashUpdate (E : Env) (ctx : HashInstance) (data : Buf) (byteLen : Nat) : M HashInstance := do
  let databitlen := (byteLen * 8) % 2 ^ 64
  let (ctx, success) ← spongeAbsorb E ctx data (databitlen / 8)
  assertM success
  pure ctx

/-- /repo/hash.c:31-43 `HashInit` -/
def hashInit (E : Env) (P : Params) (hashPrefix : Byte) : M HashInstance := do
  note (decide (P.stateSizeBits = 128))
  note (decide (P.stateSizeBits = 129))
  let ctx := if P.stateSizeBits = 128 ∨ P.stateSizeBits = 129 then keccakHashInitialize 1344 0 0x1F
    else keccakHashInitialize 1088 0 0x1F
  ifB hashPrefix ≠ HASH_PREFIX_NONE then hashUpdate E ctx [hashPrefix] 1 else pure ctx

/-- /repo/hash.c:45-52 `HashFinal` with /repo/sha3/KeccakHash.c:64-71 `Keccak_HashFinal`; the digest pointer is
NULL and `fixedOutputLength` is 0, so nothing is squeezed.  Errors are only printed. -/
def hashFinal (E : Env) (ctx : HashInstance) : M HashInstance := do
  let (ctx, success) ← spongeAbsorbLastFewBits E ctx ctx.delimitedSuffix
  ifB success then do
    let (ctx, _) ← spongeSqueeze E ctx (ctx.fixedOutputLength / 8)
    pure ctx
  else pure ctx

/-- /repo/hash.c:55-62 `HashSqueeze` with /repo/sha3/KeccakHash.c:75-80 `Keccak_HashSqueeze`; returns the bytes
written to `digest`. -/
def hashSqueeze (E : Env) (ctx : HashInstance) (byteLen : Nat) : M (HashInstance × Buf) :=
  spongeSqueeze E ctx (((byteLen * 8) % 2 ^ 64) / 8)

/-- /repo/hash.c:64-72 `toLittleEndian` on a little endian machine is the identity; the two bytes hashed are those
of the `uint16_t` in memory. /repo/hash.c:83-88 `HashUpdateIntLE`. -/
def hashUpdateIntLE (E : Env) (ctx : HashInstance) (x : Nat) : M HashInstance :=
  hashUpdate E ctx (u16bytes (BitVec.ofNat 16 x)) 2

end Picnic.Leak
