import Verif.Model.Picnic3

/-
The challenge expansion of Picnic3 and `HashUpdateIntLE` with the byte order of the machine as a parameter: `be = true` is a big
endian machine, for which /repo/sha3/brg_endian.h sets PLATFORM_BYTE_ORDER to IS_BIG_ENDIAN.  With `be = false` these are
the definitions of Picnic3.lean.  The hash functions are taken to work the same on both kinds of machines.
-/

namespace Picnic

/-- `(x << 8) | (x >> 8)` on `uint16_t`; the shift is computed in `int` and truncated by the return type. -/
def swap16 (x : U16) : U16 := (x <<< 8) ||| (x >>> 8)

/-- /repo/hash.c:64-72 `toLittleEndian` -/
def toLittleEndian (be : Bool) (x : U16) : U16 := if be then swap16 x else x

/-- /repo/hash.c:74-81 `fromLittleEndian` -/
def fromLittleEndian (be : Bool) (x : U16) : U16 := if be then swap16 x else x

/-- The two bytes of a `uint16_t` object in memory. -/
def memU16 (be : Bool) (x : U16) : Buf :=
  if be then [x.extractLsb' 8 8, x.extractLsb' 0 8] else [x.extractLsb' 0 8, x.extractLsb' 8 8]

/-- /repo/hash.c:83-88: the bytes that `HashUpdateIntLE(ctx, x)` hashes -/
def hashedIntLE (be : Bool) (x : U16) : Buf := memU16 be (toLittleEndian be x)

/-- /repo/picnic3_impl.c:416-434 `bitsToChunks` -/
def bitsToChunksE (be : Bool) (chunkLenBits : Nat) (input : Buf) (inputLen cap : Nat) : M (List Nat) := do
  assertM (!(chunkLenBits > inputLen * 8))
  let chunkCount := (inputLen * 8) / chunkLenBits
  collect (fun i => do
    if i < cap then do
      let c ← loop (fun j c => do
        let b ← getBit input (i * chunkLenBits + j)
        let c := (c + b.toNat * 2 ^ j) % 2 ^ 16
        assertM (c < 2 ^ chunkLenBits)
        pure c) chunkLenBits 0
      pure (fromLittleEndian be (BitVec.ofNat 16 c)).toNat
    else .ub .oobWrite) chunkCount

/-- /repo/picnic3_impl.c:464-480; `n` iterations are granted. -/
def fillCE (be : Bool) (E : Env) (P : Params) (bits cap : Nat) : Nat → Buf → List Nat → M (Buf × List Nat)
  | 0, h, challengeC => if challengeC.length < P.numOpenedRounds then .diverge else pure (h, challengeC)
  | n + 1, h, challengeC =>
    if challengeC.length < P.numOpenedRounds then do
      let chunks ← bitsToChunksE be bits h P.digestSizeBytes cap
      let challengeC ← scanC P chunks challengeC
      let h ← rehash E P h
      fillCE be E P bits cap n h challengeC
    else pure (h, challengeC)

/-- /repo/picnic3_impl.c:485-501; `n` iterations are granted. -/
def fillPE (be : Bool) (E : Env) (P : Params) (bits cap : Nat) : Nat → Buf → List Nat → M (Buf × List Nat)
  | 0, h, challengeP => if challengeP.length < P.numOpenedRounds then .diverge else pure (h, challengeP)
  | n + 1, h, challengeP =>
    if challengeP.length < P.numOpenedRounds then do
      let chunks ← bitsToChunksE be bits h P.digestSizeBytes cap
      let challengeP ← scanP P chunks challengeP
      let h ← rehash E P h
      fillPE be E P bits cap n h challengeP
    else pure (h, challengeP)

/-- /repo/picnic3_impl.c:453-508 `expandChallengeHash` -/
def expandChallengeHashE (be : Bool) (E : Env) (P : Params) (challengeHash : Buf) : M (List Nat × List Nat) := do
  let bitsPerChunkC := ceilLog2 P.numMPCRounds
  let bitsPerChunkP := ceilLog2 P.numMPCParties
  let cap := P.digestSizeBytes * 8 / (min bitsPerChunkC bitsPerChunkP)
  let h ← memcpy (E.junkBuf siteHash 0 MAX_DIGEST_SIZE) 0 challengeHash 0 P.digestSizeBytes
  let (h, challengeC) ← fillCE be E P bitsPerChunkC cap E.fuel h []
  let (_, challengeP) ← fillPE be E P bitsPerChunkP cap E.fuel h []
  pure (challengeC, challengeP)

end Picnic
