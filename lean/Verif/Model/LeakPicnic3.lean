import Verif.Model.LeakTree
import Verif.Model.Picnic3

/-
Model/Picnic3 (the prover) with observations.
-/

namespace Picnic.Leak

/-- /repo/picnic3_impl.c:71-88 `createRandomTapes`; /repo/picnic_types.c:48-51 `getTapeSizeBytes` -/
def createRandomTapes (E : Env) (P : Params) (seeds : List Buf) (salt : Buf) (t : Nat) : M RandomTape := do
  let tapeSizeBytes := 2 * P.andSizeBytes
  let tapes ← collect (fun i => do
    let seed ← rd seeds i
    let out ← hashAll E P HASH_PREFIX_NONE
      [(seed, P.seedSizeBytes), (salt, P.saltSizeBytes), intLE t, intLE i] tapeSizeBytes
    wrN (zeros tapeSizeBytes) 0 out) P.numMPCParties
  pure { tape := tapes, pos := 0 }

/-- /repo/picnic3_impl.c:90-100 `tapesToWord`; `shares` starts uninitialised. -/
def tapesToWord (E : Env) (tapes : RandomTape) : M (U16 × RandomTape) := do
  let shares ← loop (fun i shares => do
    let t ← rd tapes.tape i
    let bit ← getBit t tapes.pos
    setBit shares i bit) 16 (E.junkBuf siteStack tapes.pos 2)
  let w ← u16ofBytes shares
  pure (w, { tapes with pos := tapes.pos + 1 })

/-- /repo/picnic3_impl.c:107-112 `tapesToWords` -/
def tapesToWords (E : Env) (numWords : Nat) (tapes : RandomTape) : M (List U16 × RandomTape) :=
  loop (fun _ (shares, tapes) => do
    let (w, tapes) ← tapesToWord E tapes
    pure (shares ++ [w], tapes)) numWords (([] : List U16), tapes)

/-- /repo/picnic3_impl.c:114-119 `tapesToParityBits` -/
def tapesToParityBits (E : Env) (output : Buf) (outputBitLen : Nat) (tapes : RandomTape) : M (Buf × RandomTape) :=
  loop (fun i (output, tapes) => do
    let (w, tapes) ← tapesToWord E tapes
    let output ← setBit output i ((parity16 w).setWidth 8)
    pure (output, tapes)) outputBitLen (output, tapes)

/-- `tapes->tape[j]` updated (/repo/picnic3_impl.c:139, 378) -/
def setTapeBit (tapes : RandomTape) (j bitNumber : Nat) (val : Byte) : M RandomTape := do
  let t ← rd tapes.tape j
  let t ← setBit t bitNumber val
  let ts ← wr tapes.tape j t
  pure { tapes with tape := ts }

/-- /repo/picnic3_impl.c:133-140 `aux_mpc_AND`.  The XOR at line 138 is computed in `int` from a `uint16_t` 0/1 value and
truncated to `uint8_t`. -/
def auxMpcAND (E : Env) (P : Params) (mask_a mask_b fresh_output_mask : Byte) (tapes : RandomTape) : M RandomTape := do
  let lastParty := P.numMPCParties - 1
  let (and_helper, tapes) ← tapesToWord E tapes
  let t ← rd tapes.tape lastParty
  let b ← getBit t (tapes.pos - 1)
  let and_helper := parity16 and_helper ^^^ b.setWidth 16
  let aux_bit := (mask_a &&& mask_b) ^^^ and_helper.setWidth 8 ^^^ fresh_output_mask
  setTapeBit tapes lastParty (tapes.pos - 1) aux_bit

/-- /repo/picnic3_impl.c:142-161 `aux_mpc_sbox` -/
def auxMpcSbox (E : Env) (P : Params) (inp out : Buf) (tapes : RandomTape) : M RandomTape :=
  loop (fun k tapes => do
    let i := 3 * k
    let a ← getBit inp (i + 2)
    let b ← getBit inp (i + 1)
    let c ← getBit inp i
    let d ← getBit out (i + 2)
    let e ← getBit out (i + 1)
    let f ← getBit out i
    let fresh_ab := f ^^^ a ^^^ b ^^^ c
    let fresh_bc := d ^^^ a
    let fresh_ca := e ^^^ a ^^^ b
    let tapes ← auxMpcAND E P a b fresh_ab tapes
    let tapes ← auxMpcAND E P b c fresh_bc tapes
    auxMpcAND E P c a fresh_ca tapes) P.numSboxes tapes

/-- /repo/picnic3_impl.c:168-209 `computeAuxTape`; `inputs` is the destination (none = NULL). -/
def computeAuxTape (E : Env) (P : Params) (tag : Nat) (tapes : RandomTape) (inputs : Option Buf) :
    M (RandomTape × Option Buf) := do
  let C := E.lowmc P
  let sz := LOWMC_MAX_STATE_SIZE
  let temp := fun n => E.junkBuf siteMatTemp (100 * tag + n) sz
  let key0 ← stw (E.junkBuf siteStack 0 sz) (P.stateSizeWords - 1) 0
  let (key0, tapes) ← tapesToParityBits E key0 P.stateSizeBits tapes
  let key ← matrixMul (temp 0) (E.junkBuf siteStack 1 sz) key0 (C.KInv 0) P
  note inputs.isSome
  let inputs ← match inputs with
    | some i => do
      let i ← memcpy i 0 key 0 P.stateSizeBytes
      pure (some i)
    | none => pure none
  let (_, _, _, tapes) ← loopDown (fun r (roundKey, x, y, tapes) => do
    let roundKey ← matrixMul (temp (2 * r)) roundKey key (C.K r) P
    let x ← xorArray x x roundKey P.stateSizeWords
    let y ← matrixMul (temp (2 * r + 1)) y x (C.LInv (r - 1)) P
    let (x, tapes) ←
      ifB r = 1 then do
        let x ← memcpy x 0 key0 0 P.stateSizeBytes
        pure (x, tapes)
      else do
        let tapes := { tapes with pos := P.stateSizeBits * 2 * (r - 1) }
        tapesToParityBits E x P.stateSizeBits tapes
    let tapes := { tapes with pos := P.stateSizeBits * 2 * (r - 1) + P.stateSizeBits }
    let tapes ← auxMpcSbox E P x y tapes
    pure (roundKey, x, y, tapes)) P.numRounds
    (E.junkBuf siteRoundKey tag sz, zeros sz, E.junkBuf siteStack 2 sz, tapes)
  pure ({ tapes with pos := 0 }, inputs)

/-- /repo/picnic3_impl.c:213-228 `commit`; `digest` is the destination. -/
def commit (E : Env) (P : Params) (digest seed : Buf) (aux : Option Buf) (salt : Buf) (t j : Nat) : M Buf := do
  note aux.isSome
  let d ← hashAll E P HASH_PREFIX_NONE
    ([(seed, P.seedSizeBytes)] ++ (match aux with | some a => [(a, P.andSizeBytes)] | none => []) ++
     [(salt, P.saltSizeBytes), intLE t, intLE j]) P.digestSizeBytes
  wrN digest 0 d

/-- /repo/picnic3_impl.c:230-240 `commit_h` -/
def commitH (E : Env) (P : Params) (digest : Buf) (C : List Buf) : M Buf := do
  let ctx ← hashInit E P HASH_PREFIX_NONE
  let ctx ← loop (fun i ctx => do
    let h ← rd C i
    hashUpdate E ctx h P.digestSizeBytes) P.numMPCParties ctx
  let ctx ← hashFinal E ctx
  let (_, d) ← hashSqueeze E ctx P.digestSizeBytes
  wrN digest 0 d

/-- /repo/picnic3_impl.c:243-255 `commit_v` -/
def commitV (E : Env) (P : Params) (digest input : Buf) (msgs : Msgs) : M Buf := do
  let ctx ← hashInit E P HASH_PREFIX_NONE
  let ctx ← hashUpdate E ctx input P.stateSizeBytes
  let ctx ← loop (fun i ctx => do
    let m ← rd msgs.msgs i
    hashUpdate E ctx m (numBytes msgs.pos)) P.numMPCParties ctx
  let ctx ← hashFinal E ctx
  let (_, d) ← hashSqueeze E ctx P.digestSizeBytes
  wrN digest 0 d

/-- /repo/picnic3_impl.c:257-264 `wordToMsgs` -/
def wordToMsgs (P : Params) (w : U16) (msgs : Msgs) : M Msgs := do
  let ms ← loop (fun i ms => do
    let w_i ← getBit (u16bytes w) i
    let m ← rd ms i
    let m ← setBit m msgs.pos w_i
    wr ms i m) P.numMPCParties msgs.msgs
  pure { msgs with msgs := ms, pos := msgs.pos + 1 }

/-- /repo/picnic3_impl.c:266-279 `mpc_AND` -/
def mpcAND16 (E : Env) (P : Params) (a b : Byte) (mask_a mask_b : U16) (tapes : RandomTape) (msgs : Msgs) :
    M (Byte × RandomTape × Msgs) := do
  let (and_helper, tapes) ← tapesToWord E tapes
  let s_shares := (extend16 a &&& mask_b) ^^^ (extend16 b &&& mask_a) ^^^ and_helper
  note msgs.unopened.isSome
  let s_shares ← match msgs.unopened with
    | some u => do
      let m ← rd msgs.msgs u
      let unopenedPartyBit ← getBit m msgs.pos
      let s ← setBit (u16bytes s_shares) u unopenedPartyBit
      u16ofBytes s
    | none => pure s_shares
  let msgs ← wordToMsgs P s_shares msgs
  pure ((parity16 s_shares).setWidth 8 ^^^ (a &&& b), tapes, msgs)

/-- /repo/picnic3_impl.c:281-305 `mpc_sbox` -/
def mpcSbox16 (E : Env) (P : Params) (state : Buf) (state_masks : List U16) (tapes : RandomTape) (msgs : Msgs) :
    M (Buf × RandomTape × Msgs) :=
  loop (fun k (state, tapes, msgs) => do
    let i := 3 * k
    let a ← getBit state (i + 2)
    let mask_a ← rd state_masks (i + 2)
    let b ← getBit state (i + 1)
    let mask_b ← rd state_masks (i + 1)
    let c ← getBit state i
    let mask_c ← rd state_masks i
    let (ab, tapes, msgs) ← mpcAND16 E P a b mask_a mask_b tapes msgs
    let (bc, tapes, msgs) ← mpcAND16 E P b c mask_b mask_c tapes msgs
    let (ca, tapes, msgs) ← mpcAND16 E P c a mask_c mask_a tapes msgs
    let state ← setBit state (i + 2) (a ^^^ bc)
    let state ← setBit state (i + 1) (a ^^^ b ^^^ ca)
    let state ← setBit state i (a ^^^ b ^^^ c ^^^ ab)
    pure (state, tapes, msgs)) P.numSboxes (state, tapes, msgs)

/-- /repo/picnic3_impl.c:336-344 `contains` -/
def containsU16 (list : List Nat) (len value : Nat) : M Bool :=
  loop (fun i found => ifB found then pure true else do
    let x ← rd list i
    pure (x == value)) len false

/-- /repo/picnic3_impl.c:346-355 `indexOf` -/
def indexOfU16 (list : List Nat) (len value : Nat) : M Nat := do
  let r ← loop (fun i (r : Option Nat) => match r with
    | some k => pure (some k)
    | none => do
      let x ← rd list i
      ifB x = value then pure (some i) else pure none) len none
  match r with
  | some k => pure k
  | none => .abort

/-- /repo/picnic3_impl.c:357-368 `getAuxBits`; `output` is the destination. -/
def getAuxBits (P : Params) (output : Buf) (tapes : RandomTape) : M Buf := do
  let last := P.numMPCParties - 1
  let n := P.stateSizeBits
  let t ← rd tapes.tape last
  loop (fun j output =>
    loop (fun i output => do
      let b ← getBit t (n + n * 2 * j + i)
      setBit output (n * j + i) b) n output) P.numRounds output

/-- /repo/picnic3_impl.c:383-414 `simulateOnline`; the Boolean is true for return value 0. -/
def simulateOnline (E : Env) (P : Params) (tag : Nat) (maskedKey : Buf) (tapes : RandomTape) (msgs : Msgs)
    (plaintext pubKey : Buf) : M (Bool × RandomTape × Msgs) := do
  let C := E.lowmc P
  let sz := LOWMC_MAX_STATE_SIZE
  let temp := fun n => E.junkBuf siteMatTemp (100 * tag + 50 + n) sz
  let roundKey ← matrixMul (temp 0) (zeros sz) maskedKey (C.K 0) P
  let state ← xorArray (zeros sz) roundKey plaintext P.stateSizeWords
  let (state, _, tapes, msgs) ← loopFrom 1 (P.numRounds + 1) (fun r (state, roundKey, tapes, msgs) => do
    let (tmp_shares, tapes) ← tapesToWords E P.stateSizeBits tapes
    let (state, tapes, msgs) ← mpcSbox16 E P state tmp_shares tapes msgs
    let state ← matrixMul (temp (2 * r)) state state (C.L (r - 1)) P
    let state ← xorArray state state (C.RC (r - 1)) P.stateSizeWords
    let roundKey ← matrixMul (temp (2 * r + 1)) roundKey maskedKey (C.K r) P
    let state ← xorArray state roundKey state P.stateSizeWords
    pure (state, roundKey, tapes, msgs)) (state, roundKey, tapes, msgs)
  let eq ← memeq state pubKey P.stateSizeBytes
  LM.publish (.flag eq)
  pure (eq, tapes, msgs)

/-- /repo/picnic3_impl.c:416-434 `bitsToChunks` on a little endian machine; `cap` is the number of elements of the
array `chunks`. -/
def bitsToChunks (chunkLenBits : Nat) (input : Buf) (inputLen cap : Nat) : M (List Nat) := do
  assertM (!(chunkLenBits > inputLen * 8))
  let chunkCount := (inputLen * 8) / chunkLenBits
  collect (fun i => do
    ifB i < cap then
      loop (fun j c => do
        let b ← getBit input (i * chunkLenBits + j)
        let c := (c + b.toNat * 2 ^ j) % 2 ^ 16
        assertM (c < 2 ^ chunkLenBits)
        pure c) chunkLenBits 0
    else .ub .oobWrite) chunkCount

/-- /repo/picnic3_impl.c:436-450 `appendUnique`; the list holds the first `position` elements of an array of `cap`
elements. -/
def appendUnique (cap : Nat) (list : List Nat) (value : Nat) : M (List Nat) := do
  let found ← containsNode list value
  ifB found then pure list
  else ifB list.length < cap then pure (list ++ [value])
  else .ub .oobWrite

/-- `h = H_1(h)`: /repo/picnic3_impl.c:476-479 and :497-500 -/
def rehash (E : Env) (P : Params) (h : Buf) : M Buf := do
  let d ← hashAll E P HASH_PREFIX_1 [(h, P.digestSizeBytes)] P.digestSizeBytes
  wrN h 0 d

/-- /repo/picnic3_impl.c:467-474, one pass over the chunks (the `break` becomes: do nothing once complete) -/
def scanC (P : Params) (chunks : List Nat) (challengeC : List Nat) : M (List Nat) :=
  foldL chunks (fun challengeC c =>
    ifB challengeC.length = P.numOpenedRounds then pure challengeC
    else ifB c < P.numMPCRounds then appendUnique P.numOpenedRounds challengeC c
    else pure challengeC) challengeC

/-- /repo/picnic3_impl.c:465-480; `n` iterations are granted. -/
def fillC (E : Env) (P : Params) (bits cap : Nat) : Nat → Buf → List Nat → M (Buf × List Nat)
  | 0, h, challengeC => ifB challengeC.length < P.numOpenedRounds then .diverge else pure (h, challengeC)
  | n + 1, h, challengeC =>
    ifB challengeC.length < P.numOpenedRounds then do
      LM.publish (.bytes (h.take P.digestSizeBytes))
      let chunks ← bitsToChunks bits h P.digestSizeBytes cap
      let challengeC ← scanC P chunks challengeC
      let h ← rehash E P h
      fillC E P bits cap n h challengeC
    else pure (h, challengeC)

/-- /repo/picnic3_impl.c:487-495, one pass over the chunks -/
def scanP (P : Params) (chunks : List Nat) (challengeP : List Nat) : M (List Nat) :=
  foldL chunks (fun challengeP c =>
    ifB challengeP.length = P.numOpenedRounds then pure challengeP
    else ifB c < P.numMPCParties then
      ifB challengeP.length < P.numOpenedRounds then pure (challengeP ++ [c]) else .ub .oobWrite
    else pure challengeP) challengeP

/-- /repo/picnic3_impl.c:485-501; `n` iterations are granted. -/
def fillP (E : Env) (P : Params) (bits cap : Nat) : Nat → Buf → List Nat → M (Buf × List Nat)
  | 0, h, challengeP => ifB challengeP.length < P.numOpenedRounds then .diverge else pure (h, challengeP)
  | n + 1, h, challengeP =>
    ifB challengeP.length < P.numOpenedRounds then do
      LM.publish (.bytes (h.take P.digestSizeBytes))
      let chunks ← bitsToChunks bits h P.digestSizeBytes cap
      let challengeP ← scanP P chunks challengeP
      let h ← rehash E P h
      fillP E P bits cap n h challengeP
    else pure (h, challengeP)

/-- /repo/picnic3_impl.c:453-508 `expandChallengeHash`; returns challengeC and challengeP. -/
def expandChallengeHash (E : Env) (P : Params) (challengeHash : Buf) : M (List Nat × List Nat) := do
  let bitsPerChunkC := ceilLog2 P.numMPCRounds
  let bitsPerChunkP := ceilLog2 P.numMPCParties
  let cap := P.digestSizeBytes * 8 / (min bitsPerChunkC bitsPerChunkP)
  let h ← memcpy (E.junkBuf siteHash 0 MAX_DIGEST_SIZE) 0 challengeHash 0 P.digestSizeBytes
  let (h, challengeC) ← fillC E P bitsPerChunkC cap E.fuel h []
  let (_, challengeP) ← fillP E P bitsPerChunkP cap E.fuel h []
  pure (challengeC, challengeP)

/-- /repo/picnic3_impl.c:510-547 of `HCP`: the challenge hash.  `challengeHash` is the destination. -/
def HCPhash (E : Env) (P : Params) (challengeHash : Buf) (Ch : List Buf) (hCv salt pubKey plaintext message : Buf)
    (messageByteLength : Nat) : M Buf := do
  assertM (P.numOpenedRounds < P.numMPCRounds)
  let ctx ← hashInit E P HASH_PREFIX_NONE
  let ctx ← loop (fun t ctx => do
    let h ← rd Ch t
    hashUpdate E ctx h P.digestSizeBytes) P.numMPCRounds ctx
  let ctx ← hashUpdate E ctx hCv P.digestSizeBytes
  let ctx ← hashUpdate E ctx salt P.saltSizeBytes
  let ctx ← hashUpdate E ctx pubKey P.stateSizeBytes
  let ctx ← hashUpdate E ctx plaintext P.stateSizeBytes
  let ctx ← hashUpdate E ctx message messageByteLength
  let ctx ← hashFinal E ctx
  let (_, d) ← hashSqueeze E ctx P.digestSizeBytes
  wrN challengeHash 0 d

/-- /repo/picnic3_impl.c:554-568 `getMissingLeavesList` (an array of numMPCRounds - numOpenedRounds elements) -/
def getMissingLeavesList (P : Params) (challengeC : List Nat) : M (List Nat) :=
  loop (fun i missing => do
    let c ← containsU16 challengeC P.numOpenedRounds i
    ifB !c then
      ifB missing.length < P.numMPCRounds - P.numOpenedRounds then pure (missing ++ [i]) else .ub .oobWrite
    else pure missing) P.numMPCRounds []

/-- `commit(C[t].hashes[j], getLeaf(seeds[t], j), aux, salt, t, j, params)` (/repo/picnic3_impl.c:626-641, 779-783) -/
def commitInto (E : Env) (P : Params) (C : List Buf) (seeds : Tree) (aux : Option Buf) (salt : Buf) (t j : Nat) :
    M (List Buf) := do
  let slot ← rd C j
  let leaf ← getLeaf seeds j
  let d ← commit E P slot leaf aux salt t j
  wr C j d

/-- /repo/picnic3_impl.c:731-744 `computeSaltAndRootSeed` -/
def computeSaltAndRootSeed (E : Env) (P : Params) (saltAndRoot : Buf) (saltAndRootLength : Nat)
    (privateKey pubKey plaintext message : Buf) (messageByteLength : Nat) : M Buf := do
  let out ← hashAll E P HASH_PREFIX_NONE
    [(privateKey, P.stateSizeBytes), (message, messageByteLength), (pubKey, P.stateSizeBytes),
     (plaintext, P.stateSizeBytes), intLE P.stateSizeBits] saltAndRootLength
  wrN saltAndRoot 0 out

/-- /repo/picnic3_impl.c:763-784, repetition t.  The code runs three separate loops over t; the iterations of
different t are independent, the model fuses them. -/
def signPrep (E : Env) (P : Params) (iSeedsTree : Tree) (salt : Buf) (t : Nat) : M Prep := do
  let iSeed ← rd (getLeaves iSeedsTree) t
  let seeds ← generateSeeds E P P.numMPCParties iSeed salt t
  let tapes ← createRandomTapes E P (getLeaves seeds) salt t
  let (tapes, inputs) ← computeAuxTape E P t tapes (some (zeros (P.stateSizeWords * 4)))
  let inputs ← deref inputs
  let last := P.numMPCParties - 1
  let C ← loop (fun j C => commitInto E P C seeds none salt t j) last (allocateCommitment E P P.numMPCParties t)
  let auxBits ← getAuxBits P (zeros MAX_AUX_BYTES) tapes
  let C ← commitInto E P C seeds (some auxBits) salt t last
  pure { seeds := seeds, tapes := tapes, input := inputs, C := C }

/-- /repo/picnic3_impl.c:789-799, repetition t: the masked key and the broadcast messages; `none` on failure. -/
def signOnline (E : Env) (P : Params) (p : Prep) (privateKey pubKey plaintext : Buf) (t : Nat) :
    M (Option (Buf × Msgs)) := do
  let maskedKey ← xorArray p.input p.input privateKey P.stateSizeWords
  let (ok, _, msgs) ← simulateOnline E P t maskedKey p.tapes (allocateMsgs P) plaintext pubKey
  ifB ok then pure (some (maskedKey, msgs)) else pure none

/-- /repo/picnic3_impl.c:837-857, repetition t: the proof of an opened repetition. -/
def signProof (E : Env) (P : Params) (challengeC challengeP : List Nat) (p : Prep) (maskedKey : Buf) (msgs : Msgs)
    (t : Nat) : M (Option Proof2) := do
  let c ← containsU16 challengeC P.numOpenedRounds t
  ifB c then do
    let proof := allocateProof2 E P t
    let P_index ← indexOfU16 challengeC P.numOpenedRounds t
    let hidden ← rd challengeP P_index
    let (seedInfoLen, seedInfo) ← revealSeeds P p.seeds [hidden] 1
      (E.junkBuf siteTree (t + 1) (P.numMPCParties * P.seedSizeBytes)) (P.numMPCParties * P.seedSizeBytes)
    let last := P.numMPCParties - 1
    let aux ← ifB hidden ≠ last then getAuxBits P proof.aux p.tapes else pure proof.aux
    let input ← memcpy proof.input 0 maskedKey 0 P.stateSizeBytes
    let m ← rd msgs.msgs hidden
    let ms ← memcpy proof.msgs 0 m 0 P.andSizeBytes
    let h ← rd p.C hidden
    let C ← memcpy proof.C 0 h 0 P.digestSizeBytes
    pure (some { seedInfo := seedInfo.take seedInfoLen, seedInfoLen := seedInfoLen, aux := aux, C := C,
                 input := input, msgs := ms })
  else pure none

/-- /repo/picnic3_impl.c:746-893 `sign_picnic3`; `none` is the return value -1.  `realloc(p, len)` keeps the first `len`
bytes. -/
def signPicnic3 (E : Env) (P : Params) (privateKey pubKey plaintext message : Buf) (messageByteLength : Nat)
    (sig : Signature2) : M (Option Signature2) := do
  let saltAndRoot ← computeSaltAndRootSeed E P
    (E.junkBuf siteSeeds 0 (P.saltSizeBytes + P.seedSizeBytes)) (P.saltSizeBytes + P.seedSizeBytes)
    privateKey pubKey plaintext message messageByteLength
  let salt ← memcpy sig.salt 0 saltAndRoot 0 P.saltSizeBytes
  let root ← rdN saltAndRoot P.saltSizeBytes P.seedSizeBytes
  let iSeedsTree ← generateSeeds E P P.numMPCRounds root salt 0
  let preps ← collect (signPrep E P iSeedsTree salt) P.numMPCRounds
  let online ← collectOpt (fun t => do
    let p ← rd preps t
    signOnline E P p privateKey pubKey plaintext t) P.numMPCRounds
  match online with
  | none => pure none
  | some online => do
    let Ch ← collect (fun t => do
      let p ← rd preps t
      commitH E P (E.junkBuf siteHash (t + 1) P.digestSizeBytes) p.C) P.numMPCRounds
    let Cv ← collect (fun t => do
      let o ← rd online t
      let d ← commitV E P (E.junkBuf siteCommit t P.digestSizeBytes) o.1 o.2
      pure (some d)) P.numMPCRounds
    let treeCv ← createTree P.numMPCRounds P.digestSizeBytes
    let treeCv ← buildMerkleTree E P treeCv Cv salt
    let rootCv ← rd treeCv.nodes 0
    let challengeHash ← HCPhash E P sig.challengeHash Ch rootCv salt pubKey plaintext message messageByteLength
    let (challengeC, challengeP) ← expandChallengeHash E P challengeHash
    let missingLeaves ← getMissingLeavesList P challengeC
    let (cvInfo, cvInfoLen) ← openMerkleTree E treeCv missingLeaves (P.numMPCRounds - P.numOpenedRounds)
    let (iSeedInfoLen, iSeedInfo) ← revealSeeds P iSeedsTree challengeC P.numOpenedRounds
      (E.junkBuf siteTree 0 (P.numMPCRounds * P.seedSizeBytes)) (P.numMPCRounds * P.seedSizeBytes)
    let proofs ← collect (fun t => do
      let p ← rd preps t
      let o ← rd online t
      signProof E P challengeC challengeP p o.1 o.2 t) P.numMPCRounds
    pure (some { salt := salt, iSeedInfo := iSeedInfo.take iSeedInfoLen, iSeedInfoLen := iSeedInfoLen,
                 cvInfo := cvInfo, cvInfoLen := cvInfoLen, challengeHash := challengeHash,
                 challengeC := challengeC, challengeP := challengeP, proofs := proofs })

/-- /repo/picnic3_impl.c:927-941: the number of bytes of the proofs. -/
def proofsSize (P : Params) (challengeC challengeP : List Nat) (seedInfoLen : Nat → M Nat) (start : Nat) : M Nat :=
  loop (fun t size => do
    let c ← containsU16 challengeC P.numOpenedRounds t
    ifB c then do
      let idx ← indexOfU16 challengeC P.numOpenedRounds t
      let P_t ← rd challengeP idx
      let sl ← seedInfoLen t
      note (decide (P_t ≠ P.numMPCParties - 1))
      let size := if P_t ≠ P.numMPCParties - 1 then size + P.andSizeBytes else size
      pure (size + sl + P.stateSizeBytes + P.andSizeBytes + P.digestSizeBytes)
    else pure size) P.numMPCRounds start

/-- /repo/picnic3_impl.c:996-1059 `serializeSignature2`; `none` is -1. -/
def serializeSignature2 (P : Params) (sig : Signature2) (sigBytes : Buf) (sigBytesLen : Nat) :
    M (Option (Buf × Nat)) := do
  let bytesRequired := P.digestSizeBytes + P.saltSizeBytes + sig.iSeedInfoLen + sig.cvInfoLen
  let bytesRequired ← proofsSize P sig.challengeC sig.challengeP (fun t => do
    let p ← rd sig.proofs t
    pure (match p with | some p => p.seedInfoLen | none => 0)) bytesRequired
  ifB sigBytesLen < bytesRequired then pure none
  else do
    let out ← emit (sigBytes, 0) sig.challengeHash P.digestSizeBytes
    let out ← emit out sig.salt P.saltSizeBytes
    let out ← emit out sig.iSeedInfo sig.iSeedInfoLen
    let out ← emit out sig.cvInfo sig.cvInfoLen
    let out ← loop (fun t out => do
      let c ← containsU16 sig.challengeC P.numOpenedRounds t
      ifB c then do
        let proof ← rd sig.proofs t
        let proof ← deref proof
        let out ← emit out proof.seedInfo proof.seedInfoLen
        let idx ← indexOfU16 sig.challengeC P.numOpenedRounds t
        let P_t ← rd sig.challengeP idx
        let out ← ifB P_t ≠ P.numMPCParties - 1 then emit out proof.aux P.andSizeBytes else pure out
        let out ← emit out proof.input P.stateSizeBytes
        let out ← emit out proof.msgs P.andSizeBytes
        emit out proof.C P.digestSizeBytes
      else pure out) P.numMPCRounds out
    pure (some out)

end Picnic.Leak
