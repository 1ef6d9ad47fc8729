import Verif.Model.Tree

/-
/repo/picnic3_impl.c: the Picnic3 (KKW) prover and verifier, parameter sets 7-9.

Simplifications: as in Zkb.lean; `uint16_t` list entries (leaf and party numbers) are natural numbers, except where
arithmetic on them could wrap (`bitsToChunks`).  The stack array `auxBits` shared by all repetitions is zero at the
start of each repetition in the model; in C it keeps the previous contents, but every call of `getAuxBits` writes the
same set of bits and the other bits are never written.
-/

namespace Picnic

/-- /repo/picnic3_impl.h `proof2_t` -/
structure Proof2 where
  seedInfo : Buf
  seedInfoLen : Nat
  aux : Buf
  C : Buf
  input : Buf
  msgs : Buf
  deriving Repr, Inhabited, DecidableEq

/-- /repo/picnic3_impl.h `signature2_t`.  `proofs[t]` is `none` while the pointers in it are NULL (calloc). -/
structure Signature2 where
  salt : Buf
  iSeedInfo : Buf
  iSeedInfoLen : Nat
  cvInfo : Buf
  cvInfoLen : Nat
  challengeHash : Buf
  challengeC : List Nat
  challengeP : List Nat
  proofs : List (Option Proof2)
  deriving Repr, Inhabited, DecidableEq

/-- /repo/picnic_types.h `msgs_t`; `unopened = -1` is `none`. -/
structure Msgs where
  msgs : List Buf
  pos : Nat
  unopened : Option Nat
  deriving Repr, Inhabited

/-- /repo/picnic3_impl.c:61-69 `parity16` -/
def parity16 (x : U16) : U16 :=
  let y := x ^^^ (x >>> 1)
  let y := y ^^^ (y >>> 2)
  let y := y ^^^ (y >>> 4)
  let y := y ^^^ (y >>> 8)
  y &&& 1

/-- /repo/picnic_types.c:143-155 `allocateSignature2`; the challenge arrays start without assigned elements. -/
def allocateSignature2 (E : Env) (P : Params) : Signature2 :=
  { salt := E.junkBuf siteChallenge 1 P.saltSizeBytes
    iSeedInfo := [], iSeedInfoLen := 0, cvInfo := [], cvInfoLen := 0
    challengeHash := E.junkBuf siteChallenge 0 P.digestSizeBytes
    challengeC := [], challengeP := []
    proofs := List.replicate P.numMPCRounds none }

/-- /repo/picnic_types.c:74-85 `allocateProof2` -/
def allocateProof2 (E : Env) (P : Params) (t : Nat) : Proof2 :=
  { seedInfo := [], seedInfoLen := 0
    C := E.junkBuf siteProof t P.digestSizeBytes
    input := zeros P.stateSizeBytes
    aux := zeros P.andSizeBytes
    msgs := zeros P.andSizeBytes }

/-- /repo/picnic_types.c:290-310 `allocateMsgs`, the entry of one repetition -/
def allocateMsgs (P : Params) : Msgs :=
  { msgs := List.replicate P.numMPCParties (zeros P.andSizeBytes), pos := 0, unopened := none }

/-- /repo/picnic3_impl.c:71-88 `createRandomTapes`; /repo/picnic_types.c:48-51 `getTapeSizeBytes` -/
def createRandomTapes (E : Env) (P : Params) (seeds : List Buf) (salt : Buf) (t : Nat) : M RandomTape := do
  let tapeSizeBytes := 2 * P.andSizeBytes
  let tapes ← collect (fun i => do
    let seed ← rd seeds i
    let out ← hashAll E P HASH_PREFIX_NONE
      [(seed, P.seedSizeBytes), (salt, P.saltSizeBytes), intLE t, intLE i] tapeSizeBytes
    wrN (zeros tapeSizeBytes) 0 out) P.numMPCParties
  pure { tape := tapes, pos := 0 }

/-- /repo/picnic3_impl.c:90-100 `tapesToWord`; `shares` starts uninitialised. -/
def tapesToWord (E : Env) (tapes : RandomTape) : M (U16 × RandomTape) := do
  let shares ← loop (fun i shares => do
    let t ← rd tapes.tape i
    let bit ← getBit t tapes.pos
    setBit shares i bit) 16 (E.junkBuf siteStack tapes.pos 2)
  let w ← u16ofBytes shares
  pure (w, { tapes with pos := tapes.pos + 1 })

/-- /repo/picnic3_impl.c:107-112 `tapesToWords` -/
def tapesToWords (E : Env) (numWords : Nat) (tapes : RandomTape) : M (List U16 × RandomTape) :=
  loop (fun _ (shares, tapes) => do
    let (w, tapes) ← tapesToWord E tapes
    pure (shares ++ [w], tapes)) numWords (([] : List U16), tapes)

/-- /repo/picnic3_impl.c:114-119 `tapesToParityBits` -/
def tapesToParityBits (E : Env) (output : Buf) (outputBitLen : Nat) (tapes : RandomTape) : M (Buf × RandomTape) :=
  loop (fun i (output, tapes) => do
    let (w, tapes) ← tapesToWord E tapes
    let output ← setBit output i ((parity16 w).setWidth 8)
    pure (output, tapes)) outputBitLen (output, tapes)

/-- /repo/picnic3_impl.c:128-131 `extend`: `~(bit - 1)` computed in `int` and truncated to 16 bits -/
def extend16 (bit : Byte) : U16 := ~~~ ((bit.setWidth 16) - 1)

/-- `tapes->tape[j]` updated (/repo/picnic3_impl.c:139, 378) -/
def setTapeBit (tapes : RandomTape) (j bitNumber : Nat) (val : Byte) : M RandomTape := do
  let t ← rd tapes.tape j
  let t ← setBit t bitNumber val
  let ts ← wr tapes.tape j t
  pure { tapes with tape := ts }

/-- /repo/picnic3_impl.c:133-140 `aux_mpc_AND`.  The XOR at line 138 is computed in `int` from a `uint16_t` 0/1 value and
truncated to `uint8_t`. -/
def auxMpcAND (E : Env) (P : Params) (mask_a mask_b fresh_output_mask : Byte) (tapes : RandomTape) : M RandomTape := do
  let lastParty := P.numMPCParties - 1
  let (and_helper, tapes) ← tapesToWord E tapes
  let t ← rd tapes.tape lastParty
  let b ← getBit t (tapes.pos - 1)
  let and_helper := parity16 and_helper ^^^ b.setWidth 16
  let aux_bit := (mask_a &&& mask_b) ^^^ and_helper.setWidth 8 ^^^ fresh_output_mask
  setTapeBit tapes lastParty (tapes.pos - 1) aux_bit

/-- /repo/picnic3_impl.c:142-161 `aux_mpc_sbox` -/
def auxMpcSbox (E : Env) (P : Params) (inp out : Buf) (tapes : RandomTape) : M RandomTape :=
  loop (fun k tapes => do
    let i := 3 * k
    let a ← getBit inp (i + 2)
    let b ← getBit inp (i + 1)
    let c ← getBit inp i
    let d ← getBit out (i + 2)
    let e ← getBit out (i + 1)
    let f ← getBit out i
    let fresh_ab := f ^^^ a ^^^ b ^^^ c
    let fresh_bc := d ^^^ a
    let fresh_ca := e ^^^ a ^^^ b
    let tapes ← auxMpcAND E P a b fresh_ab tapes
    let tapes ← auxMpcAND E P b c fresh_bc tapes
    auxMpcAND E P c a fresh_ca tapes) P.numSboxes tapes

/-- /repo/picnic3_impl.c:168-209 `computeAuxTape`; `inputs` is the destination (none = NULL). -/
def computeAuxTape (E : Env) (P : Params) (tag : Nat) (tapes : RandomTape) (inputs : Option Buf) :
    M (RandomTape × Option Buf) := do
  let C := E.lowmc P
  let sz := LOWMC_MAX_STATE_SIZE
  let temp := fun n => E.junkBuf siteMatTemp (100 * tag + n) sz
  let key0 ← stw (E.junkBuf siteStack 0 sz) (P.stateSizeWords - 1) 0
  let (key0, tapes) ← tapesToParityBits E key0 P.stateSizeBits tapes
  let key ← matrixMul (temp 0) (E.junkBuf siteStack 1 sz) key0 (C.KInv 0) P
  let inputs ← match inputs with
    | some i => do
      let i ← memcpy i 0 key 0 P.stateSizeBytes
      pure (some i)
    | none => pure none
  let (_, _, _, tapes) ← loopDown (fun r (roundKey, x, y, tapes) => do
    let roundKey ← matrixMul (temp (2 * r)) roundKey key (C.K r) P
    let x ← xorArray x x roundKey P.stateSizeWords
    let y ← matrixMul (temp (2 * r + 1)) y x (C.LInv (r - 1)) P
    let (x, tapes) ←
      if r = 1 then do
        let x ← memcpy x 0 key0 0 P.stateSizeBytes
        pure (x, tapes)
      else do
        let tapes := { tapes with pos := P.stateSizeBits * 2 * (r - 1) }
        tapesToParityBits E x P.stateSizeBits tapes
    let tapes := { tapes with pos := P.stateSizeBits * 2 * (r - 1) + P.stateSizeBits }
    let tapes ← auxMpcSbox E P x y tapes
    pure (roundKey, x, y, tapes)) P.numRounds
    (E.junkBuf siteRoundKey tag sz, zeros sz, E.junkBuf siteStack 2 sz, tapes)
  pure ({ tapes with pos := 0 }, inputs)

/-- /repo/picnic3_impl.c:213-228 `commit`; `digest` is the destination. -/
def commit (E : Env) (P : Params) (digest seed : Buf) (aux : Option Buf) (salt : Buf) (t j : Nat) : M Buf := do
  let d ← hashAll E P HASH_PREFIX_NONE
    ([(seed, P.seedSizeBytes)] ++ (match aux with | some a => [(a, P.andSizeBytes)] | none => []) ++
     [(salt, P.saltSizeBytes), intLE t, intLE j]) P.digestSizeBytes
  wrN digest 0 d

/-- /repo/picnic3_impl.c:230-240 `commit_h` -/
def commitH (E : Env) (P : Params) (digest : Buf) (C : List Buf) : M Buf := do
  let ctx ← hashInit E P HASH_PREFIX_NONE
  let ctx ← loop (fun i ctx => do
    let h ← rd C i
    hashUpdate E ctx h P.digestSizeBytes) P.numMPCParties ctx
  let ctx ← hashFinal E ctx
  let (_, d) ← hashSqueeze E ctx P.digestSizeBytes
  wrN digest 0 d

/-- /repo/picnic3_impl.c:243-255 `commit_v` -/
def commitV (E : Env) (P : Params) (digest input : Buf) (msgs : Msgs) : M Buf := do
  let ctx ← hashInit E P HASH_PREFIX_NONE
  let ctx ← hashUpdate E ctx input P.stateSizeBytes
  let ctx ← loop (fun i ctx => do
    let m ← rd msgs.msgs i
    hashUpdate E ctx m (numBytes msgs.pos)) P.numMPCParties ctx
  let ctx ← hashFinal E ctx
  let (_, d) ← hashSqueeze E ctx P.digestSizeBytes
  wrN digest 0 d

/-- /repo/picnic3_impl.c:257-264 `wordToMsgs` -/
def wordToMsgs (P : Params) (w : U16) (msgs : Msgs) : M Msgs := do
  let ms ← loop (fun i ms => do
    let w_i ← getBit (u16bytes w) i
    let m ← rd ms i
    let m ← setBit m msgs.pos w_i
    wr ms i m) P.numMPCParties msgs.msgs
  pure { msgs with msgs := ms, pos := msgs.pos + 1 }

/-- /repo/picnic3_impl.c:266-279 `mpc_AND` -/
def mpcAND16 (E : Env) (P : Params) (a b : Byte) (mask_a mask_b : U16) (tapes : RandomTape) (msgs : Msgs) :
    M (Byte × RandomTape × Msgs) := do
  let (and_helper, tapes) ← tapesToWord E tapes
  let s_shares := (extend16 a &&& mask_b) ^^^ (extend16 b &&& mask_a) ^^^ and_helper
  let s_shares ← match msgs.unopened with
    | some u => do
      let m ← rd msgs.msgs u
      let unopenedPartyBit ← getBit m msgs.pos
      let s ← setBit (u16bytes s_shares) u unopenedPartyBit
      u16ofBytes s
    | none => pure s_shares
  let msgs ← wordToMsgs P s_shares msgs
  pure ((parity16 s_shares).setWidth 8 ^^^ (a &&& b), tapes, msgs)

/-- /repo/picnic3_impl.c:281-305 `mpc_sbox` -/
def mpcSbox16 (E : Env) (P : Params) (state : Buf) (state_masks : List U16) (tapes : RandomTape) (msgs : Msgs) :
    M (Buf × RandomTape × Msgs) :=
  loop (fun k (state, tapes, msgs) => do
    let i := 3 * k
    let a ← getBit state (i + 2)
    let mask_a ← rd state_masks (i + 2)
    let b ← getBit state (i + 1)
    let mask_b ← rd state_masks (i + 1)
    let c ← getBit state i
    let mask_c ← rd state_masks i
    let (ab, tapes, msgs) ← mpcAND16 E P a b mask_a mask_b tapes msgs
    let (bc, tapes, msgs) ← mpcAND16 E P b c mask_b mask_c tapes msgs
    let (ca, tapes, msgs) ← mpcAND16 E P c a mask_c mask_a tapes msgs
    let state ← setBit state (i + 2) (a ^^^ bc)
    let state ← setBit state (i + 1) (a ^^^ b ^^^ ca)
    let state ← setBit state i (a ^^^ b ^^^ c ^^^ ab)
    pure (state, tapes, msgs)) P.numSboxes (state, tapes, msgs)

/-- /repo/picnic3_impl.c:336-344 `contains` -/
def containsU16 (list : List Nat) (len value : Nat) : M Bool :=
  loop (fun i found => if found then pure true else do
    let x ← rd list i
    pure (x == value)) len false

/-- /repo/picnic3_impl.c:346-355 `indexOf` -/
def indexOfU16 (list : List Nat) (len value : Nat) : M Nat := do
  let r ← loop (fun i (r : Option Nat) => match r with
    | some k => pure (some k)
    | none => do
      let x ← rd list i
      pure (if x = value then some i else none)) len none
  match r with
  | some k => pure k
  | none => .abort

/-- /repo/picnic3_impl.c:357-368 `getAuxBits`; `output` is the destination. -/
def getAuxBits (P : Params) (output : Buf) (tapes : RandomTape) : M Buf := do
  let last := P.numMPCParties - 1
  let n := P.stateSizeBits
  let t ← rd tapes.tape last
  loop (fun j output =>
    loop (fun i output => do
      let b ← getBit t (n + n * 2 * j + i)
      setBit output (n * j + i) b) n output) P.numRounds output

/-- /repo/picnic3_impl.c:370-381 `setAuxBits` -/
def setAuxBits (P : Params) (tapes : RandomTape) (input : Buf) : M RandomTape := do
  let last := P.numMPCParties - 1
  let n := P.stateSizeBits
  let t ← rd tapes.tape last
  let t ← loop (fun j t =>
    loop (fun i t => do
      let b ← getBit input (n * j + i)
      setBit t (n + n * 2 * j + i) b) n t) P.numRounds t
  let ts ← wr tapes.tape last t
  pure { tapes with tape := ts }

/-- /repo/picnic3_impl.c:383-414 `simulateOnline`; the Boolean is true for return value 0. -/
def simulateOnline (E : Env) (P : Params) (tag : Nat) (maskedKey : Buf) (tapes : RandomTape) (msgs : Msgs)
    (plaintext pubKey : Buf) : M (Bool × RandomTape × Msgs) := do
  let C := E.lowmc P
  let sz := LOWMC_MAX_STATE_SIZE
  let temp := fun n => E.junkBuf siteMatTemp (100 * tag + 50 + n) sz
  let roundKey ← matrixMul (temp 0) (zeros sz) maskedKey (C.K 0) P
  let state ← xorArray (zeros sz) roundKey plaintext P.stateSizeWords
  let (state, _, tapes, msgs) ← loopFrom 1 (P.numRounds + 1) (fun r (state, roundKey, tapes, msgs) => do
    let (tmp_shares, tapes) ← tapesToWords E P.stateSizeBits tapes
    let (state, tapes, msgs) ← mpcSbox16 E P state tmp_shares tapes msgs
    let state ← matrixMul (temp (2 * r)) state state (C.L (r - 1)) P
    let state ← xorArray state state (C.RC (r - 1)) P.stateSizeWords
    let roundKey ← matrixMul (temp (2 * r + 1)) roundKey maskedKey (C.K r) P
    let state ← xorArray state roundKey state P.stateSizeWords
    pure (state, roundKey, tapes, msgs)) (state, roundKey, tapes, msgs)
  let eq ← memeq state pubKey P.stateSizeBytes
  pure (eq, tapes, msgs)

/-- /repo/picnic3_impl.c:416-434 `bitsToChunks` on a little endian machine; `cap` is the number of elements of the
array `chunks`. -/
def bitsToChunks (chunkLenBits : Nat) (input : Buf) (inputLen cap : Nat) : M (List Nat) := do
  assertM (!(chunkLenBits > inputLen * 8))
  let chunkCount := (inputLen * 8) / chunkLenBits
  collect (fun i => do
    if i < cap then
      loop (fun j c => do
        let b ← getBit input (i * chunkLenBits + j)
        let c := (c + b.toNat * 2 ^ j) % 2 ^ 16
        assertM (c < 2 ^ chunkLenBits)
        pure c) chunkLenBits 0
    else .ub .oobWrite) chunkCount

/-- /repo/picnic3_impl.c:436-450 `appendUnique`; the list holds the first `position` elements of an array of `cap`
elements. -/
def appendUnique (cap : Nat) (list : List Nat) (value : Nat) : M (List Nat) :=
  if list.any (· == value) then pure list
  else if list.length < cap then pure (list ++ [value])
  else .ub .oobWrite

/-- `h = H_1(h)`: /repo/picnic3_impl.c:476-479 and :497-500 -/
def rehash (E : Env) (P : Params) (h : Buf) : M Buf := do
  let d ← hashAll E P HASH_PREFIX_1 [(h, P.digestSizeBytes)] P.digestSizeBytes
  wrN h 0 d

/-- /repo/picnic3_impl.c:467-474, one pass over the chunks (the `break` becomes: do nothing once complete) -/
def scanC (P : Params) (chunks : List Nat) (challengeC : List Nat) : M (List Nat) :=
  chunks.foldlM (fun challengeC c =>
    if challengeC.length = P.numOpenedRounds then pure challengeC
    else if c < P.numMPCRounds then appendUnique P.numOpenedRounds challengeC c
    else pure challengeC) challengeC

/-- /repo/picnic3_impl.c:465-480; `n` iterations are granted. -/
def fillC (E : Env) (P : Params) (bits cap : Nat) : Nat → Buf → List Nat → M (Buf × List Nat)
  | 0, h, challengeC => if challengeC.length < P.numOpenedRounds then .diverge else pure (h, challengeC)
  | n + 1, h, challengeC =>
    if challengeC.length < P.numOpenedRounds then do
      let chunks ← bitsToChunks bits h P.digestSizeBytes cap
      let challengeC ← scanC P chunks challengeC
      let h ← rehash E P h
      fillC E P bits cap n h challengeC
    else pure (h, challengeC)

/-- /repo/picnic3_impl.c:487-495, one pass over the chunks -/
def scanP (P : Params) (chunks : List Nat) (challengeP : List Nat) : M (List Nat) :=
  chunks.foldlM (fun challengeP c =>
    if challengeP.length = P.numOpenedRounds then pure challengeP
    else if c < P.numMPCParties then
      if challengeP.length < P.numOpenedRounds then pure (challengeP ++ [c]) else .ub .oobWrite
    else pure challengeP) challengeP

/-- /repo/picnic3_impl.c:485-501; `n` iterations are granted. -/
def fillP (E : Env) (P : Params) (bits cap : Nat) : Nat → Buf → List Nat → M (Buf × List Nat)
  | 0, h, challengeP => if challengeP.length < P.numOpenedRounds then .diverge else pure (h, challengeP)
  | n + 1, h, challengeP =>
    if challengeP.length < P.numOpenedRounds then do
      let chunks ← bitsToChunks bits h P.digestSizeBytes cap
      let challengeP ← scanP P chunks challengeP
      let h ← rehash E P h
      fillP E P bits cap n h challengeP
    else pure (h, challengeP)

/-- /repo/hash.h `MAX_DIGEST_SIZE` -/
def MAX_DIGEST_SIZE : Nat := 64

/-- /repo/picnic3_impl.c:453-508 `expandChallengeHash`; returns challengeC and challengeP. -/
def expandChallengeHash (E : Env) (P : Params) (challengeHash : Buf) : M (List Nat × List Nat) := do
  let bitsPerChunkC := ceilLog2 P.numMPCRounds
  let bitsPerChunkP := ceilLog2 P.numMPCParties
  let cap := P.digestSizeBytes * 8 / (min bitsPerChunkC bitsPerChunkP)
  let h ← memcpy (E.junkBuf siteHash 0 MAX_DIGEST_SIZE) 0 challengeHash 0 P.digestSizeBytes
  let (h, challengeC) ← fillC E P bitsPerChunkC cap E.fuel h []
  let (_, challengeP) ← fillP E P bitsPerChunkP cap E.fuel h []
  pure (challengeC, challengeP)

/-- /repo/picnic3_impl.c:510-547 of `HCP`: the challenge hash.  `challengeHash` is the destination. -/
def HCPhash (E : Env) (P : Params) (challengeHash : Buf) (Ch : List Buf) (hCv salt pubKey plaintext message : Buf)
    (messageByteLength : Nat) : M Buf := do
  assertM (P.numOpenedRounds < P.numMPCRounds)
  let ctx ← hashInit E P HASH_PREFIX_NONE
  let ctx ← loop (fun t ctx => do
    let h ← rd Ch t
    hashUpdate E ctx h P.digestSizeBytes) P.numMPCRounds ctx
  let ctx ← hashUpdate E ctx hCv P.digestSizeBytes
  let ctx ← hashUpdate E ctx salt P.saltSizeBytes
  let ctx ← hashUpdate E ctx pubKey P.stateSizeBytes
  let ctx ← hashUpdate E ctx plaintext P.stateSizeBytes
  let ctx ← hashUpdate E ctx message messageByteLength
  let ctx ← hashFinal E ctx
  let (_, d) ← hashSqueeze E ctx P.digestSizeBytes
  wrN challengeHash 0 d

/-- /repo/picnic3_impl.c:554-568 `getMissingLeavesList` (an array of numMPCRounds - numOpenedRounds elements) -/
def getMissingLeavesList (P : Params) (challengeC : List Nat) : M (List Nat) :=
  loop (fun i missing => do
    let c ← containsU16 challengeC P.numOpenedRounds i
    if !c then
      if missing.length < P.numMPCRounds - P.numOpenedRounds then pure (missing ++ [i]) else .ub .oobWrite
    else pure missing) P.numMPCRounds []

/-- /repo/picnic3_impl.c:590-611, the seed tree of repetition t; `none` if reconstructSeeds fails. -/
def verifySeeds (E : Env) (P : Params) (sig : Signature2) (iSeedsTree : Tree) (t : Nat) : M (Option Tree) := do
  let c ← containsU16 sig.challengeC P.numOpenedRounds t
  if !c then do
    let leaf ← getLeaf iSeedsTree t
    let tree ← generateSeeds E P P.numMPCParties leaf sig.salt t
    pure (some tree)
  else do
    let tree ← createTree P.numMPCParties P.seedSizeBytes
    let P_index ← indexOfU16 sig.challengeC P.numOpenedRounds t
    let p ← rd sig.challengeP P_index
    let proof ← rd sig.proofs t
    let proof ← deref proof
    let (ok, tree) ← reconstructSeeds E P tree [p] 1 proof.seedInfo proof.seedInfoLen sig.salt t
    pure (if ok then some tree else none)

/-- `commit(C[t].hashes[j], getLeaf(seeds[t], j), aux, salt, t, j, params)` (/repo/picnic3_impl.c:626-641, 779-783) -/
def commitInto (E : Env) (P : Params) (C : List Buf) (seeds : Tree) (aux : Option Buf) (salt : Buf) (t j : Nat) :
    M (List Buf) := do
  let slot ← rd C j
  let leaf ← getLeaf seeds j
  let d ← commit E P slot leaf aux salt t j
  wr C j d

/-- /repo/picnic3_impl.c:31 `MAX_AUX_BYTES` -/
def MAX_AUX_BYTES : Nat := 176

/-- /repo/picnic3_impl.c:616-647, repetition t: tapes and commitments. -/
def verifyCommit (E : Env) (P : Params) (sig : Signature2) (seeds : Tree) (t : Nat) : M (RandomTape × List Buf) := do
  let last := P.numMPCParties - 1
  let tapes ← createRandomTapes E P (getLeaves seeds) sig.salt t
  let C := allocateCommitment E P P.numMPCParties t
  let c ← containsU16 sig.challengeC P.numOpenedRounds t
  if !c then do
    let (tapes, _) ← computeAuxTape E P t tapes none
    let C ← loop (fun j C => commitInto E P C seeds none sig.salt t j) last C
    let auxBits ← getAuxBits P (zeros MAX_AUX_BYTES) tapes
    let C ← commitInto E P C seeds (some auxBits) sig.salt t last
    pure (tapes, C)
  else do
    let idx ← indexOfU16 sig.challengeC P.numOpenedRounds t
    let unopened ← rd sig.challengeP idx
    let C ← loop (fun j C => if j ≠ unopened then commitInto E P C seeds none sig.salt t j else pure C) last C
    let proof ← rd sig.proofs t
    let C ← if last ≠ unopened then do
        let proof ← deref proof
        commitInto E P C seeds (some proof.aux) sig.salt t last
      else pure C
    let proof ← deref proof
    let slot ← rd C unopened
    let d ← memcpy slot 0 proof.C 0 P.digestSizeBytes
    let C ← wr C unopened d
    pure (tapes, C)

/-- /repo/picnic3_impl.c:658-683, repetition t: simulate the online phase.  `none` in the outer option: failure; the
result is `Cv.hashes[t]` (NULL for repetitions that are not opened). -/
def verifyOnline (E : Env) (P : Params) (sig : Signature2) (tapes : RandomTape) (pubKey plaintext : Buf) (t : Nat) :
    M (Option (Option Buf)) := do
  let last := P.numMPCParties - 1
  let c ← containsU16 sig.challengeC P.numOpenedRounds t
  if c then do
    let idx ← indexOfU16 sig.challengeC P.numOpenedRounds t
    let unopened ← rd sig.challengeP idx
    let proof ← rd sig.proofs t
    let proof ← deref proof
    let tapes ← if unopened ≠ last then setAuxBits P tapes proof.aux else pure tapes
    let tp ← rd tapes.tape unopened
    let tp ← wrN tp 0 (zeros (2 * P.andSizeBytes))
    let ts ← wr tapes.tape unopened tp
    let tapes := { tapes with tape := ts }
    let msgs := allocateMsgs P
    let m ← rd msgs.msgs unopened
    let m ← memcpy m 0 proof.msgs 0 P.andSizeBytes
    let ms ← wr msgs.msgs unopened m
    let msgs := { msgs with msgs := ms, unopened := some unopened }
    let (ok, _, msgs) ← simulateOnline E P t proof.input tapes msgs plaintext pubKey
    if !ok then pure none
    else do
      let d ← commitV E P (E.junkBuf siteCommit t P.digestSizeBytes) proof.input msgs
      pure (some (some d))
  else pure (some none)

/-- /repo/picnic3_impl.c:570-729 `verify_picnic3`; `true` is EXIT_SUCCESS.  When `reconstructSeeds` fails the code
jumps to `Exit` and calls `freeRandomTape` on tapes that were never initialised: `badFree`. -/
def verifyPicnic3 (E : Env) (P : Params) (sig : Signature2) (pubKey plaintext message : Buf)
    (messageByteLength : Nat) : M Bool := do
  let treeCv ← createTree P.numMPCRounds P.digestSizeBytes
  let iSeedsTree ← createTree P.numMPCRounds P.seedSizeBytes
  let (ok, iSeedsTree) ← reconstructSeeds E P iSeedsTree sig.challengeC P.numOpenedRounds sig.iSeedInfo
    sig.iSeedInfoLen sig.salt 0
  if !ok then .ub .badFree
  else do
    let seeds ← collectOpt (verifySeeds E P sig iSeedsTree) P.numMPCRounds
    match seeds with
    | none => .ub .badFree
    | some seeds => do
      let tc ← collect (fun t => do
        let s ← rd seeds t
        verifyCommit E P sig s t) P.numMPCRounds
      let Ch ← collect (fun t => do
        let r ← rd tc t
        commitH E P (E.junkBuf siteHash (t + 1) P.digestSizeBytes) r.2) P.numMPCRounds
      let Cv ← collectOpt (fun t => do
        let r ← rd tc t
        verifyOnline E P sig r.1 pubKey plaintext t) P.numMPCRounds
      match Cv with
      | none => pure false
      | some Cv => do
        let missingLeaves ← getMissingLeavesList P sig.challengeC
        let (ok, treeCv) ← addMerkleNodes treeCv missingLeaves (P.numMPCRounds - P.numOpenedRounds) sig.cvInfo
          sig.cvInfoLen
        if !ok then pure false
        else do
          let (ok, treeCv) ← verifyMerkleTree E P treeCv Cv sig.salt
          if !ok then pure false
          else do
            let root ← rd treeCv.nodes 0
            let challengeHash ← HCPhash E P (E.junkBuf siteHash 0 MAX_DIGEST_SIZE) Ch root sig.salt pubKey plaintext
              message messageByteLength
            memeq sig.challengeHash challengeHash P.digestSizeBytes

/-- /repo/picnic3_impl.c:731-744 `computeSaltAndRootSeed` -/
def computeSaltAndRootSeed (E : Env) (P : Params) (saltAndRoot : Buf) (saltAndRootLength : Nat)
    (privateKey pubKey plaintext message : Buf) (messageByteLength : Nat) : M Buf := do
  let out ← hashAll E P HASH_PREFIX_NONE
    [(privateKey, P.stateSizeBytes), (message, messageByteLength), (pubKey, P.stateSizeBytes),
     (plaintext, P.stateSizeBytes), intLE P.stateSizeBits] saltAndRootLength
  wrN saltAndRoot 0 out

/-- The preprocessing of one repetition: seeds, tapes (after computeAuxTape), masked-key mask, commitments.  /repo/picnic3_impl.c:762-784. -/
structure Prep where
  seeds : Tree
  tapes : RandomTape
  input : Buf
  C : List Buf

/-- /repo/picnic3_impl.c:763-784, repetition t.  The code runs three separate loops over t; the iterations of
different t are independent, the model fuses them. -/
def signPrep (E : Env) (P : Params) (iSeedsTree : Tree) (salt : Buf) (t : Nat) : M Prep := do
  let iSeed ← rd (getLeaves iSeedsTree) t
  let seeds ← generateSeeds E P P.numMPCParties iSeed salt t
  let tapes ← createRandomTapes E P (getLeaves seeds) salt t
  let (tapes, inputs) ← computeAuxTape E P t tapes (some (zeros (P.stateSizeWords * 4)))
  let inputs ← deref inputs
  let last := P.numMPCParties - 1
  let C ← loop (fun j C => commitInto E P C seeds none salt t j) last (allocateCommitment E P P.numMPCParties t)
  let auxBits ← getAuxBits P (zeros MAX_AUX_BYTES) tapes
  let C ← commitInto E P C seeds (some auxBits) salt t last
  pure { seeds := seeds, tapes := tapes, input := inputs, C := C }

/-- /repo/picnic3_impl.c:789-799, repetition t: the masked key and the broadcast messages; `none` on failure. -/
def signOnline (E : Env) (P : Params) (p : Prep) (privateKey pubKey plaintext : Buf) (t : Nat) :
    M (Option (Buf × Msgs)) := do
  let maskedKey ← xorArray p.input p.input privateKey P.stateSizeWords
  let (ok, _, msgs) ← simulateOnline E P t maskedKey p.tapes (allocateMsgs P) plaintext pubKey
  pure (if ok then some (maskedKey, msgs) else none)

/-- /repo/picnic3_impl.c:837-857, repetition t: the proof of an opened repetition. -/
def signProof (E : Env) (P : Params) (challengeC challengeP : List Nat) (p : Prep) (maskedKey : Buf) (msgs : Msgs)
    (t : Nat) : M (Option Proof2) := do
  let c ← containsU16 challengeC P.numOpenedRounds t
  if c then do
    let proof := allocateProof2 E P t
    let P_index ← indexOfU16 challengeC P.numOpenedRounds t
    let hidden ← rd challengeP P_index
    let (seedInfoLen, seedInfo) ← revealSeeds P p.seeds [hidden] 1
      (E.junkBuf siteTree (t + 1) (P.numMPCParties * P.seedSizeBytes)) (P.numMPCParties * P.seedSizeBytes)
    let last := P.numMPCParties - 1
    let aux ← if hidden ≠ last then getAuxBits P proof.aux p.tapes else pure proof.aux
    let input ← memcpy proof.input 0 maskedKey 0 P.stateSizeBytes
    let m ← rd msgs.msgs hidden
    let ms ← memcpy proof.msgs 0 m 0 P.andSizeBytes
    let h ← rd p.C hidden
    let C ← memcpy proof.C 0 h 0 P.digestSizeBytes
    pure (some { seedInfo := seedInfo.take seedInfoLen, seedInfoLen := seedInfoLen, aux := aux, C := C,
                 input := input, msgs := ms })
  else pure none

/-- /repo/picnic3_impl.c:746-893 `sign_picnic3`; `none` is the return value -1.  `realloc(p, len)` keeps the first `len`
bytes. -/
def signPicnic3 (E : Env) (P : Params) (privateKey pubKey plaintext message : Buf) (messageByteLength : Nat)
    (sig : Signature2) : M (Option Signature2) := do
  let saltAndRoot ← computeSaltAndRootSeed E P
    (E.junkBuf siteSeeds 0 (P.saltSizeBytes + P.seedSizeBytes)) (P.saltSizeBytes + P.seedSizeBytes)
    privateKey pubKey plaintext message messageByteLength
  let salt ← memcpy sig.salt 0 saltAndRoot 0 P.saltSizeBytes
  let root ← rdN saltAndRoot P.saltSizeBytes P.seedSizeBytes
  let iSeedsTree ← generateSeeds E P P.numMPCRounds root salt 0
  let preps ← collect (signPrep E P iSeedsTree salt) P.numMPCRounds
  let online ← collectOpt (fun t => do
    let p ← rd preps t
    signOnline E P p privateKey pubKey plaintext t) P.numMPCRounds
  match online with
  | none => pure none
  | some online => do
    let Ch ← collect (fun t => do
      let p ← rd preps t
      commitH E P (E.junkBuf siteHash (t + 1) P.digestSizeBytes) p.C) P.numMPCRounds
    let Cv ← collect (fun t => do
      let o ← rd online t
      let d ← commitV E P (E.junkBuf siteCommit t P.digestSizeBytes) o.1 o.2
      pure (some d)) P.numMPCRounds
    let treeCv ← createTree P.numMPCRounds P.digestSizeBytes
    let treeCv ← buildMerkleTree E P treeCv Cv salt
    let rootCv ← rd treeCv.nodes 0
    let challengeHash ← HCPhash E P sig.challengeHash Ch rootCv salt pubKey plaintext message messageByteLength
    let (challengeC, challengeP) ← expandChallengeHash E P challengeHash
    let missingLeaves ← getMissingLeavesList P challengeC
    let (cvInfo, cvInfoLen) ← openMerkleTree E treeCv missingLeaves (P.numMPCRounds - P.numOpenedRounds)
    let (iSeedInfoLen, iSeedInfo) ← revealSeeds P iSeedsTree challengeC P.numOpenedRounds
      (E.junkBuf siteTree 0 (P.numMPCRounds * P.seedSizeBytes)) (P.numMPCRounds * P.seedSizeBytes)
    let proofs ← collect (fun t => do
      let p ← rd preps t
      let o ← rd online t
      signProof E P challengeC challengeP p o.1 o.2 t) P.numMPCRounds
    pure (some { salt := salt, iSeedInfo := iSeedInfo.take iSeedInfoLen, iSeedInfoLen := iSeedInfoLen,
                 cvInfo := cvInfo, cvInfoLen := cvInfoLen, challengeHash := challengeHash,
                 challengeC := challengeC, challengeP := challengeP, proofs := proofs })

/-- /repo/picnic3_impl.c:927-941: the number of bytes of the proofs. -/
def proofsSize (P : Params) (challengeC challengeP : List Nat) (seedInfoLen : Nat → M Nat) (start : Nat) : M Nat :=
  loop (fun t size => do
    let c ← containsU16 challengeC P.numOpenedRounds t
    if c then do
      let idx ← indexOfU16 challengeC P.numOpenedRounds t
      let P_t ← rd challengeP idx
      let sl ← seedInfoLen t
      let size := if P_t ≠ P.numMPCParties - 1 then size + P.andSizeBytes else size
      pure (size + sl + P.stateSizeBytes + P.andSizeBytes + P.digestSizeBytes)
    else pure size) P.numMPCRounds start

/-- /repo/picnic3_impl.c:958-991, repetition t: read the proof of an opened repetition; outer `none`: rejected. -/
def deserializeProof2 (E : Env) (P : Params) (challengeC challengeP : List Nat) (seedInfoLen : Nat) (sigBytes : Buf)
    (t off : Nat) : M (Option (Option Proof2 × Nat)) := do
  let c ← containsU16 challengeC P.numOpenedRounds t
  if c then do
    let proof := allocateProof2 E P t
    let seedInfo ← rdN sigBytes off seedInfoLen
    let off := off + seedInfoLen
    let idx ← indexOfU16 challengeC P.numOpenedRounds t
    let P_t ← rd challengeP idx
    let andBits := 3 * P.numRounds * P.numSboxes
    let aux ← if P_t ≠ P.numMPCParties - 1 then do
        let (aux, off) ← takeInto proof.aux sigBytes off P.andSizeBytes
        let ok ← arePaddingBitsZero aux andBits
        pure (if ok then some (aux, off) else none)
      else pure (some (proof.aux, off))
    match aux with
    | none => pure none
    | some (aux, off) => do
      let (input, off) ← takeInto proof.input sigBytes off P.stateSizeBytes
      let (msgs, off) ← takeInto proof.msgs sigBytes off P.andSizeBytes
      let ok ← arePaddingBitsZero msgs andBits
      if !ok then pure none
      else do
        let (C, off) ← takeInto proof.C sigBytes off P.digestSizeBytes
        pure (some (some { seedInfo := seedInfo, seedInfoLen := seedInfoLen, aux := aux, C := C, input := input,
                           msgs := msgs }, off))
  else pure (some (none, off))

/-- /repo/picnic3_impl.c:895-994 `deserializeSignature2`; `none` is failure. -/
def deserializeSignature2 (E : Env) (P : Params) (sig : Signature2) (sigBytes : Buf) (sigBytesLen : Nat) :
    M (Option Signature2) := do
  let bytesRequired := P.digestSizeBytes + P.saltSizeBytes
  if sigBytesLen < bytesRequired then pure none
  else do
    let (challengeHash, off) ← takeInto sig.challengeHash sigBytes 0 P.digestSizeBytes
    let (salt, off) ← takeInto sig.salt sigBytes off P.saltSizeBytes
    let (challengeC, challengeP) ← expandChallengeHash E P challengeHash
    let iSeedInfoLen ← revealSeedsSize P P.numMPCRounds challengeC P.numOpenedRounds
    let bytesRequired := bytesRequired + iSeedInfoLen
    let missingLeaves ← getMissingLeavesList P challengeC
    let cvInfoLen ← openMerkleTreeSize P P.numMPCRounds missingLeaves (P.numMPCRounds - P.numOpenedRounds)
    let bytesRequired := bytesRequired + cvInfoLen
    let seedInfoLen ← revealSeedsSize P P.numMPCParties [0] 1
    let bytesRequired ← proofsSize P challengeC challengeP (fun _ => pure seedInfoLen) bytesRequired
    if sigBytesLen ≠ bytesRequired then pure none
    else do
      let iSeedInfo ← rdN sigBytes off iSeedInfoLen
      let off := off + iSeedInfoLen
      let cvInfo ← rdN sigBytes off cvInfoLen
      let off := off + cvInfoLen
      let r ← loop (fun t (st : Option (List (Option Proof2) × Nat)) =>
        match st with
        | none => pure none
        | some (proofs, off) => do
          let r ← deserializeProof2 E P challengeC challengeP seedInfoLen sigBytes t off
          match r with
          | none => pure none
          | some (p, off) => pure (some (proofs ++ [p], off))) P.numMPCRounds
        (some (([] : List (Option Proof2)), off))
      match r with
      | none => pure none
      | some (proofs, _) =>
        pure (some { salt := salt, iSeedInfo := iSeedInfo, iSeedInfoLen := iSeedInfoLen, cvInfo := cvInfo,
                     cvInfoLen := cvInfoLen, challengeHash := challengeHash, challengeC := challengeC,
                     challengeP := challengeP, proofs := proofs })

/-- /repo/picnic3_impl.c:996-1059 `serializeSignature2`; `none` is -1. -/
def serializeSignature2 (P : Params) (sig : Signature2) (sigBytes : Buf) (sigBytesLen : Nat) :
    M (Option (Buf × Nat)) := do
  let bytesRequired := P.digestSizeBytes + P.saltSizeBytes + sig.iSeedInfoLen + sig.cvInfoLen
  let bytesRequired ← proofsSize P sig.challengeC sig.challengeP (fun t => do
    let p ← rd sig.proofs t
    pure (match p with | some p => p.seedInfoLen | none => 0)) bytesRequired
  if sigBytesLen < bytesRequired then pure none
  else do
    let out ← emit (sigBytes, 0) sig.challengeHash P.digestSizeBytes
    let out ← emit out sig.salt P.saltSizeBytes
    let out ← emit out sig.iSeedInfo sig.iSeedInfoLen
    let out ← emit out sig.cvInfo sig.cvInfoLen
    let out ← loop (fun t out => do
      let c ← containsU16 sig.challengeC P.numOpenedRounds t
      if c then do
        let proof ← rd sig.proofs t
        let proof ← deref proof
        let out ← emit out proof.seedInfo proof.seedInfoLen
        let idx ← indexOfU16 sig.challengeC P.numOpenedRounds t
        let P_t ← rd sig.challengeP idx
        let out ← if P_t ≠ P.numMPCParties - 1 then emit out proof.aux P.andSizeBytes else pure out
        let out ← emit out proof.input P.stateSizeBytes
        let out ← emit out proof.msgs P.andSizeBytes
        emit out proof.C P.digestSizeBytes
      else pure out) P.numMPCRounds out
    pure (some out)

end Picnic
