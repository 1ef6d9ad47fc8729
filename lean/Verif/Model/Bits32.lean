import Verif.Model.Api
import Verif.Model.Ints

/-
The library on a machine with 32-bit `size_t` (the Win32 configurations of /repo/VisualStudio): `byteLen * 8` in /repo/hash.c:23 and :57 is computed modulo 2^32.

Contents: copies of the functions through which the message goes, with the 32-bit `HashUpdate` and `HashSqueeze`; the other functions never pass
a length of 2^29 bytes or more to the hash functions and are those of the other model files.  The integer expressions are those of Model/Ints with 32-bit types.
Sizes of structures that contain pointers are those of 64-bit machines (larger than on 32-bit machines).
-/

namespace Picnic.Bits32

/-- /repo/hash.c:21-29 `HashUpdate` with /repo/sha3/KeccakHash.c:37-60 `Keccak_HashUpdate` (databitlen is a multiple
of 8, so only the first branch is reachable).  `byteLen * 8` is computed in a 32-bit `size_t`. -/
def hashUpdate (E : Env) (ctx : HashInstance) (data : Buf) (byteLen : Nat) : M HashInstance := do
  let databitlen := (byteLen * 8) % 2 ^ 32
  let (ctx, success) ← spongeAbsorb E ctx data (databitlen / 8)
  assertM success
  pure ctx

/-- /repo/hash.c:31-43 `HashInit` -/
def hashInit (E : Env) (P : Params) (hashPrefix : Byte) : M HashInstance := do
  let ctx := if P.stateSizeBits = 128 ∨ P.stateSizeBits = 129 then keccakHashInitialize 1344 0 0x1F
    else keccakHashInitialize 1088 0 0x1F
  if hashPrefix ≠ HASH_PREFIX_NONE then hashUpdate E ctx [hashPrefix] 1 else pure ctx

/-- /repo/hash.c:55-62 `HashSqueeze` with /repo/sha3/KeccakHash.c:75-80 `Keccak_HashSqueeze`; returns the bytes
written to `digest`. -/
def hashSqueeze (E : Env) (ctx : HashInstance) (byteLen : Nat) : M (HashInstance × Buf) :=
  spongeSqueeze E ctx (((byteLen * 8) % 2 ^ 32) / 8)

/-- Hash the given (object, length) pairs after the prefix and squeeze `outLen` bytes: the recurring C sequence
HashInit; HashUpdate*; HashFinal; HashSqueeze.  Used only where the C code performs exactly this sequence.  As in /repo/picnic_impl.c:288-307. -/
def hashAll (E : Env) (P : Params) (hashPrefix : Byte) (parts : List (Buf × Nat)) (outLen : Nat) : M Buf := do
  let ctx ← hashInit E P hashPrefix
  let ctx ← parts.foldlM (fun ctx (p : Buf × Nat) => hashUpdate E ctx p.1 p.2) ctx
  let ctx ← hashFinal E ctx
  let (_, out) ← hashSqueeze E ctx outLen
  pure out

/-- `for i < T: for j < 3: HashUpdate(ctx, get(i,j), len(j))`, /repo/picnic_impl.c:369-390 -/
def hashUpdateTriples (E : Env) (ctx : HashInstance) (xs : List (List Buf)) (T : Nat) (len : Nat → Nat) :
    M HashInstance :=
  loop (fun i ctx => do
    let row ← rd xs i
    loop (fun j ctx => do
      let b ← rd row j
      hashUpdate E ctx b (len j)) 3 ctx) T ctx

/-- /repo/picnic_impl.c:354-432 `H3`; `challengeBits` is the destination buffer. -/
def H3 (E : Env) (P : Params) (circuitOutput plaintext : Buf) (viewOutputs as : List (List Buf))
    (challengeBits salt message : Buf) (messageByteLength : Nat) (gs : Option (List (List Buf))) : M Buf := do
  let challengeBits ← wr challengeBits (numBytes (P.numMPCRounds * 2) - 1) 0
  let ctx ← hashInit E P HASH_PREFIX_1
  let ctx ← hashUpdateTriples E ctx viewOutputs P.numMPCRounds (fun _ => P.stateSizeBytes)
  let ctx ← hashUpdateTriples E ctx as P.numMPCRounds (fun _ => P.digestSizeBytes)
  let ctx ← if P.transform = .UR then do
      let gs ← deref gs
      hashUpdateTriples E ctx gs P.numMPCRounds
        (fun j => if j = 2 then P.unruhGWithInputBytes else P.unruhGWithoutInputBytes)
    else pure ctx
  let ctx ← hashUpdate E ctx circuitOutput P.stateSizeBytes
  let ctx ← hashUpdate E ctx plaintext P.stateSizeBytes
  let ctx ← hashUpdate E ctx salt P.saltSizeBytes
  let ctx ← hashUpdate E ctx message messageByteLength
  let ctx ← hashFinal E ctx
  let (_, hash) ← hashSqueeze E ctx P.digestSizeBytes
  h3Loop E P E.fuel hash { challengeBits := challengeBits, round := 0, done := false }

/-- /repo/picnic_impl.c:618-702 `verify`; `true` is EXIT_SUCCESS. -/
def verify (E : Env) (P : Params) (sig : Signature) (pubKey plaintext message : Buf) (messageByteLength : Nat) :
    M Bool := do
  let rounds ← collect (verifyRound E P sig pubKey plaintext) P.numMPCRounds
  let computed ← H3 E P pubKey plaintext (rounds.map (·.outputs)) (rounds.map (·.hashes))
    (E.junkBuf siteChallenge 2 (numBytes (2 * P.numMPCRounds))) sig.salt message messageByteLength
    (gsArray P (rounds.map (·.gs)))
  memeq sig.challengeBits computed (numBytes (2 * P.numMPCRounds))

/-- /repo/picnic_impl.c:847-866 `computeSeeds`: the slab holding the `3*numMPCRounds` seeds followed by the salt
(/repo/picnic_types.c:171-205 `allocateSeeds`). -/
def computeSeeds (E : Env) (P : Params) (privateKey publicKey plaintext message : Buf) (messageByteLength : Nat) :
    M Buf := do
  let slab := E.junkBuf siteSeeds 0 (P.numMPCRounds * P.numMPCParties * P.seedSizeBytes + P.saltSizeBytes)
  let out ← hashAll E P HASH_PREFIX_NONE
    [(privateKey, P.stateSizeBytes), (message, messageByteLength), (publicKey, P.stateSizeBytes),
     (plaintext, P.stateSizeBytes), intLE P.stateSizeBits]
    (P.seedSizeBytes * (P.numMPCParties * P.numMPCRounds) + P.saltSizeBytes)
  wrN slab 0 out

/-- /repo/picnic_impl.c:869-978 `sign_picnic1`; `none` is EXIT_FAILURE. -/
def signPicnic1 (E : Env) (P : Params) (privateKey pubKey plaintext message : Buf) (messageByteLength : Nat)
    (sig : Signature) : M (Option Signature) := do
  let slab ← computeSeeds E P privateKey pubKey plaintext message messageByteLength
  let salt ← memcpy sig.salt 0 slab (P.numMPCRounds * P.numMPCParties * P.seedSizeBytes) P.saltSizeBytes
  let rounds ← collectOpt (signRound E P privateKey pubKey plaintext salt slab) P.numMPCRounds
  match rounds with
  | none => pure none
  | some rounds => do
    let challengeBits ← H3 E P pubKey plaintext (rounds.map fun r => r.views.map (·.outputShare))
      (rounds.map (·.hashes)) sig.challengeBits salt message messageByteLength (gsArray P (rounds.map (·.gs)))
    let proofs ← collect (fun i => do
      let proof ← rd sig.proofs i
      let c ← getChallenge challengeBits i
      let r ← rd rounds i
      prove P proof c r.seeds r.views r.hashes r.gs) P.numMPCRounds
    pure (some { proofs := proofs, challengeBits := challengeBits, salt := salt })

/-- /repo/picnic3_impl.c:510-547 of `HCP`: the challenge hash.  `challengeHash` is the destination. -/
def HCPhash (E : Env) (P : Params) (challengeHash : Buf) (Ch : List Buf) (hCv salt pubKey plaintext message : Buf)
    (messageByteLength : Nat) : M Buf := do
  assertM (P.numOpenedRounds < P.numMPCRounds)
  let ctx ← hashInit E P HASH_PREFIX_NONE
  let ctx ← loop (fun t ctx => do
    let h ← rd Ch t
    hashUpdate E ctx h P.digestSizeBytes) P.numMPCRounds ctx
  let ctx ← hashUpdate E ctx hCv P.digestSizeBytes
  let ctx ← hashUpdate E ctx salt P.saltSizeBytes
  let ctx ← hashUpdate E ctx pubKey P.stateSizeBytes
  let ctx ← hashUpdate E ctx plaintext P.stateSizeBytes
  let ctx ← hashUpdate E ctx message messageByteLength
  let ctx ← hashFinal E ctx
  let (_, d) ← hashSqueeze E ctx P.digestSizeBytes
  wrN challengeHash 0 d

/-- /repo/picnic3_impl.c:570-729 `verify_picnic3`; `true` is EXIT_SUCCESS.  When `reconstructSeeds` fails the code
jumps to `Exit` and calls `freeRandomTape` on tapes that were never initialised: `badFree`. -/
def verifyPicnic3 (E : Env) (P : Params) (sig : Signature2) (pubKey plaintext message : Buf)
    (messageByteLength : Nat) : M Bool := do
  let treeCv ← createTree P.numMPCRounds P.digestSizeBytes
  let iSeedsTree ← createTree P.numMPCRounds P.seedSizeBytes
  let (ok, iSeedsTree) ← reconstructSeeds E P iSeedsTree sig.challengeC P.numOpenedRounds sig.iSeedInfo
    sig.iSeedInfoLen sig.salt 0
  if !ok then .ub .badFree
  else do
    let seeds ← collectOpt (verifySeeds E P sig iSeedsTree) P.numMPCRounds
    match seeds with
    | none => .ub .badFree
    | some seeds => do
      let tc ← collect (fun t => do
        let s ← rd seeds t
        verifyCommit E P sig s t) P.numMPCRounds
      let Ch ← collect (fun t => do
        let r ← rd tc t
        commitH E P (E.junkBuf siteHash (t + 1) P.digestSizeBytes) r.2) P.numMPCRounds
      let Cv ← collectOpt (fun t => do
        let r ← rd tc t
        verifyOnline E P sig r.1 pubKey plaintext t) P.numMPCRounds
      match Cv with
      | none => pure false
      | some Cv => do
        let missingLeaves ← getMissingLeavesList P sig.challengeC
        let (ok, treeCv) ← addMerkleNodes treeCv missingLeaves (P.numMPCRounds - P.numOpenedRounds) sig.cvInfo
          sig.cvInfoLen
        if !ok then pure false
        else do
          let (ok, treeCv) ← verifyMerkleTree E P treeCv Cv sig.salt
          if !ok then pure false
          else do
            let root ← rd treeCv.nodes 0
            let challengeHash ← HCPhash E P (E.junkBuf siteHash 0 MAX_DIGEST_SIZE) Ch root sig.salt pubKey plaintext
              message messageByteLength
            memeq sig.challengeHash challengeHash P.digestSizeBytes

/-- /repo/picnic3_impl.c:731-744 `computeSaltAndRootSeed` -/
def computeSaltAndRootSeed (E : Env) (P : Params) (saltAndRoot : Buf) (saltAndRootLength : Nat)
    (privateKey pubKey plaintext message : Buf) (messageByteLength : Nat) : M Buf := do
  let out ← hashAll E P HASH_PREFIX_NONE
    [(privateKey, P.stateSizeBytes), (message, messageByteLength), (pubKey, P.stateSizeBytes),
     (plaintext, P.stateSizeBytes), intLE P.stateSizeBits] saltAndRootLength
  wrN saltAndRoot 0 out

/-- /repo/picnic3_impl.c:746-893 `sign_picnic3`; `none` is the return value -1.  `realloc(p, len)` keeps the first `len`
bytes. -/
def signPicnic3 (E : Env) (P : Params) (privateKey pubKey plaintext message : Buf) (messageByteLength : Nat)
    (sig : Signature2) : M (Option Signature2) := do
  let saltAndRoot ← computeSaltAndRootSeed E P
    (E.junkBuf siteSeeds 0 (P.saltSizeBytes + P.seedSizeBytes)) (P.saltSizeBytes + P.seedSizeBytes)
    privateKey pubKey plaintext message messageByteLength
  let salt ← memcpy sig.salt 0 saltAndRoot 0 P.saltSizeBytes
  let root ← rdN saltAndRoot P.saltSizeBytes P.seedSizeBytes
  let iSeedsTree ← generateSeeds E P P.numMPCRounds root salt 0
  let preps ← collect (signPrep E P iSeedsTree salt) P.numMPCRounds
  let online ← collectOpt (fun t => do
    let p ← rd preps t
    signOnline E P p privateKey pubKey plaintext t) P.numMPCRounds
  match online with
  | none => pure none
  | some online => do
    let Ch ← collect (fun t => do
      let p ← rd preps t
      commitH E P (E.junkBuf siteHash (t + 1) P.digestSizeBytes) p.C) P.numMPCRounds
    let Cv ← collect (fun t => do
      let o ← rd online t
      let d ← commitV E P (E.junkBuf siteCommit t P.digestSizeBytes) o.1 o.2
      pure (some d)) P.numMPCRounds
    let treeCv ← createTree P.numMPCRounds P.digestSizeBytes
    let treeCv ← buildMerkleTree E P treeCv Cv salt
    let rootCv ← rd treeCv.nodes 0
    let challengeHash ← HCPhash E P sig.challengeHash Ch rootCv salt pubKey plaintext message messageByteLength
    let (challengeC, challengeP) ← expandChallengeHash E P challengeHash
    let missingLeaves ← getMissingLeavesList P challengeC
    let (cvInfo, cvInfoLen) ← openMerkleTree E treeCv missingLeaves (P.numMPCRounds - P.numOpenedRounds)
    let (iSeedInfoLen, iSeedInfo) ← revealSeeds P iSeedsTree challengeC P.numOpenedRounds
      (E.junkBuf siteTree 0 (P.numMPCRounds * P.seedSizeBytes)) (P.numMPCRounds * P.seedSizeBytes)
    let proofs ← collect (fun t => do
      let p ← rd preps t
      let o ← rd online t
      signProof E P challengeC challengeP p o.1 o.2 t) P.numMPCRounds
    pure (some { salt := salt, iSeedInfo := iSeedInfo.take iSeedInfoLen, iSeedInfoLen := iSeedInfoLen,
                 cvInfo := cvInfo, cvInfoLen := cvInfoLen, challengeHash := challengeHash,
                 challengeC := challengeC, challengeP := challengeP, proofs := proofs })

/-- /repo/picnic.c:267-335 `picnic_sign`; returns the return value, the signature buffer, and `*signature_len`. -/
def picnicSign (E : Env) (sk : Option PrivateKey) (message : Buf) (message_len : Nat) (signature : Buf)
    (signature_len : Nat) : M (Int × Buf × Nat) := do
  let sk ← deref sk
  match getParamSet sk.params with
  | none => pure (-1, signature, signature_len)
  | some P =>
    if !isPicnic3 sk.params then do
      let sig ← signPicnic1 E P sk.data sk.pk.ciphertext sk.pk.plaintext message message_len (allocateSignature E P)
      match sig with
      | none => pure (-1, signature, signature_len)
      | some sig => do
        let r ← serializeSignature P sig signature signature_len
        match r with
        | none => pure (-1, signature, signature_len)
        | some (signature, len) => pure (0, signature, len)
    else do
      let sig ← signPicnic3 E P sk.data sk.pk.ciphertext sk.pk.plaintext message message_len (allocateSignature2 E P)
      match sig with
      | none => pure (-1, signature, signature_len)
      | some sig => do
        let r ← serializeSignature2 P sig signature signature_len
        match r with
        | none => pure (-1, signature, signature_len)
        | some (signature, len) => pure (0, signature, len)

/-- /repo/picnic.c:382-452 `picnic_verify` -/
def picnicVerify (E : Env) (pk : Option PublicKey) (message : Buf) (message_len : Nat) (signature : Buf)
    (signature_len : Nat) : M Int := do
  let pk ← deref pk
  match getParamSet pk.params with
  | none => pure (-1)
  | some P =>
    if !isPicnic3 pk.params then do
      let sig ← deserializeSignature P (allocateSignature E P) signature signature_len
      match sig with
      | none => pure (-1)
      | some sig => do
        let ok ← verify E P sig pk.ciphertext pk.plaintext message message_len
        pure (if ok then 0 else -1)
    else do
      let sig ← deserializeSignature2 E P (allocateSignature2 E P) signature signature_len
      match sig with
      | none => pure (-1)
      | some sig => do
        let ok ← verifyPicnic3 E P sig pk.ciphertext pk.plaintext message message_len
        pure (if ok then 0 else -1)

/-! ### Integer expressions -/

open Spec.CInt

/-- `size_t` and `ptrdiff_t` have 32 bits (/repo/sha3/KeccakHash.h:28 `BitLength` is `size_t`). -/
def narrowTy : Ty → Ty
  | .u64 => .u32
  | .i64 => .i32
  | t => t

/-- The expression with 32-bit types; the values of the objects fit.  The length of a hashed message, in Model/Ints (/repo/hash.c:21-29) up to 2^61 - 1, is at most
2^29 - 1. -/
def narrow : Ex → Ex
  | .val t v => .val (narrowTy t) v
  | .var x t lo hi => .var x (narrowTy t) lo (if hi = 2 ^ 61 - 1 then 2 ^ 29 - 1 else min hi (narrowTy t).max)
  | .bin o a b => .bin o (narrow a) (narrow b)
  | .shl a b => .shl (narrow a) (narrow b)
  | .shr a b => .shr (narrow a) (narrow b)
  | .cast t a => .cast (narrowTy t) (narrow a)

end Picnic.Bits32
