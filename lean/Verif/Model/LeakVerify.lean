import Verif.Model.LeakApi

/-
Signature verification (Model/Zkb, Model/Tree, Model/Picnic3, Model/Api) with observations.  Verification handles no
secrets; its observations are the steps counted in Spec/Work.  A loop that the code leaves early (`return` or `goto`
in its body) goes through its remaining iterations doing nothing but one test each.
-/

namespace Picnic.Leak

/-- /repo/picnic_impl.c:276-285 `mpc_xor_constant_verify` -/
def mpcXorConstantVerify (state : List Buf) (inp : Buf) (len : Nat) (challenge : Byte) : M (List Buf) :=
  ifB challenge = 0 then do
    let s ← rd state 0
    let s' ← xorArray s s inp len
    wr state 0 s'
  else ifB challenge = 2 then do
    let s ← rd state 1
    let s' ← xorArray s s inp len
    wr state 1 s'
  else pure state

/-- /repo/picnic_impl.c:466-476 `mpc_AND_verify`; returns out, the tape, view1. -/
def mpcANDVerify (in1 in2 : List Byte) (rand : RandomTape) (view1 view2 : View) :
    M (List Byte × RandomTape × View) := do
  let t0 ← rd rand.tape 0
  let r0 ← getBit t0 rand.pos
  let t1 ← rd rand.tape 1
  let r1 ← getBit t1 rand.pos
  let x0 ← rd in1 0
  let x1 ← rd in1 1
  let y0 ← rd in2 0
  let y1 ← rd in2 1
  let out0 := (x0 &&& y1) ^^^ (x1 &&& y0) ^^^ (x0 &&& y0) ^^^ r0 ^^^ r1
  let cb ← setBit view1.communicatedBits rand.pos out0
  let out1 ← getBit view2.communicatedBits rand.pos
  pure ([out0, out1], { rand with pos := rand.pos + 1 }, { view1 with communicatedBits := cb })

/-- /repo/picnic_impl.c:478-507 `mpc_substitution_verify` -/
def mpcSubstitutionVerify (P : Params) (state : List Buf) (rand : RandomTape) (view1 view2 : View) :
    M (List Buf × RandomTape × View) :=
  loop (fun k (state, rand, view1) => do
    let i := 3 * k
    let (a, b, c) ← readSboxBits state i 2
    let (ab, rand, view1) ← mpcANDVerify a b rand view1 view2
    let (bc, rand, view1) ← mpcANDVerify b c rand view1 view2
    let (ca, rand, view1) ← mpcANDVerify c a rand view1 view2
    let state ← writeSboxBits state i 2 a b c ab bc ca
    pure (state, rand, view1)) P.numSboxes (state, rand, view1)

/-- /repo/picnic_impl.c:517-549 `mpc_LowMC_verify`; returns the two views. -/
def mpcLowMCVerify (E : Env) (P : Params) (tag : Nat) (view1 view2 : View) (tapes : RandomTape) (tmp plaintext : Buf)
    (challenge : Byte) : M (View × View × RandomTape) := do
  let C := E.lowmc P
  let _ ← wrN tmp 0 (zeros (4 * P.stateSizeWords * 4))
  let roundKey := List.replicate 2 (zeros (P.stateSizeWords * 4))
  let state := List.replicate 2 (zeros (P.stateSizeWords * 4))
  let state ← mpcXorConstantVerify state plaintext P.stateSizeWords challenge
  let keyShares := [view1.inputShare, view2.inputShare]
  let roundKey ← mpcMatrixMul E P (100 * tag) roundKey keyShares (C.K 0) 2
  let state ← mpcXor state roundKey P.stateSizeWords 2
  let (state, _, tapes, view1) ← loopFrom 1 (P.numRounds + 1) (fun r (state, roundKey, tapes, view1) => do
    let roundKey ← mpcMatrixMul E P (100 * tag + 2 * r) roundKey keyShares (C.K r) 2
    let (state, tapes, view1) ← mpcSubstitutionVerify P state tapes view1 view2
    let state ← mpcMatrixMulInPlace E P (100 * tag + 2 * r + 1) state (C.L (r - 1)) 2
    let state ← mpcXorConstantVerify state (C.RC (r - 1)) P.stateSizeWords challenge
    let state ← mpcXor state roundKey P.stateSizeWords 2
    pure (state, roundKey, tapes, view1)) (state, roundKey, tapes, view1)
  let s0 ← rd state 0
  let s1 ← rd state 1
  let o1 ← memcpy view1.outputShare 0 s0 0 P.stateSizeBytes
  let o2 ← memcpy view2.outputShare 0 s1 0 P.stateSizeBytes
  pure ({ view1 with outputShare := o1 }, { view2 with outputShare := o2 }, tapes)

/-- /repo/picnic_impl.c:559-604 of `verifyProof`: the input shares and the tapes of the two opened parties -/
def verifyProofTapes (E : Env) (P : Params) (proof : Proof) (view1 view2 : View) (challenge : Byte) (salt : Buf)
    (roundNumber : Nat) (tmp : Buf) (tape : RandomTape) : M (View × View × Buf × RandomTape) := do
  let len := P.stateSizeBytes + P.andSizeBytes
  ifB challenge = 0 then do
    let (status, tmp) ← createRandomTape E P proof.seed1 salt roundNumber 0 tmp len
    let i1 ← memcpy view1.inputShare 0 tmp 0 P.stateSizeBytes
    let view1 := { view1 with inputShare := i1 }
    let tape ← setTape tape 0 tmp P.stateSizeBytes P.andSizeBytes
    let (status, tmp) ← ifB status then createRandomTape E P proof.seed2 salt roundNumber 1 tmp len
      else pure (false, tmp)
    ifB !status then pure (view1, view2, tmp, tape)
    else do
      let i2 ← memcpy view2.inputShare 0 tmp 0 P.stateSizeBytes
      let view2 := { view2 with inputShare := i2 }
      let tape ← setTape tape 1 tmp P.stateSizeBytes P.andSizeBytes
      pure (view1, view2, tmp, tape)
  else ifB challenge = 1 then do
    let (status, tmp) ← createRandomTape E P proof.seed1 salt roundNumber 1 tmp len
    let i1 ← memcpy view1.inputShare 0 tmp 0 P.stateSizeBytes
    let view1 := { view1 with inputShare := i1 }
    let tape ← setTape tape 0 tmp P.stateSizeBytes P.andSizeBytes
    let (status, tape) ← ifB status then createTapeInto E P proof.seed2 salt roundNumber 2 tape 1 P.andSizeBytes
      else pure (false, tape)
    ifB !status then pure (view1, view2, tmp, tape)
    else do
      let i2 ← memcpy view2.inputShare 0 proof.inputShare 0 P.stateSizeBytes
      pure (view1, { view2 with inputShare := i2 }, tmp, tape)
  else ifB challenge = 2 then do
    let (status, tape) ← createTapeInto E P proof.seed1 salt roundNumber 2 tape 0 P.andSizeBytes
    let i1 ← memcpy view1.inputShare 0 proof.inputShare 0 P.stateSizeBytes
    let view1 := { view1 with inputShare := i1 }
    let (status, tmp) ← ifB status then createRandomTape E P proof.seed2 salt roundNumber 0 tmp len
      else pure (false, tmp)
    ifB !status then pure (view1, view2, tmp, tape)
    else do
      let i2 ← memcpy view2.inputShare 0 tmp 0 P.stateSizeBytes
      let view2 := { view2 with inputShare := i2 }
      let tape ← setTape tape 1 tmp P.stateSizeBytes P.andSizeBytes
      pure (view1, view2, tmp, tape)
  else pure (view1, view2, tmp, tape)

/-- /repo/picnic_impl.c:551-616 `verifyProof` -/
def verifyProof (E : Env) (P : Params) (proof : Proof) (view1 view2 : View) (challenge : Byte) (salt : Buf)
    (roundNumber : Nat) (tmp plaintext : Buf) (tape : RandomTape) : M (View × View × RandomTape) := do
  let cb ← memcpy view2.communicatedBits 0 proof.communicatedBits 0 P.andSizeBytes
  let view2 := { view2 with communicatedBits := cb }
  let tape := { tape with pos := 0 }
  let (view1, view2, tmp, tape) ← verifyProofTapes E P proof view1 view2 challenge salt roundNumber tmp tape
  let i1 ← zeroTrailingBits view1.inputShare P.stateSizeBits
  let i2 ← zeroTrailingBits view2.inputShare P.stateSizeBits
  mpcLowMCVerify E P roundNumber { view1 with inputShare := i1 } { view2 with inputShare := i2 } tape tmp plaintext
    challenge

/-- /repo/picnic_impl.c:645-672, repetition `i` of the loop of `verify` -/
def verifyRound (E : Env) (P : Params) (sig : Signature) (pubKey plaintext : Buf) (i : Nat) : M VerifyRound := do
  let proof ← rd sig.proofs i
  let c ← getChallenge sig.challengeBits i
  let tmp := E.junkBuf siteScratch i (max (6 * P.stateSizeBytes) (P.stateSizeBytes + P.andSizeBytes))
  let (view1, view2, _) ← verifyProof E P proof (allocateView P) (allocateView P) c sig.salt i tmp plaintext
    (allocateRandomTape E P i)
  let challenge ← getChallenge sig.challengeBits i
  let ch := challenge.toNat
  let hashes := allocateCommitment E P P.numMPCParties i
  let slot ← rd hashes ch
  let h ← commitView E P proof.seed1 view1 slot
  let hashes ← wr hashes ch h
  let slot ← rd hashes ((ch + 1) % 3)
  let h ← commitView E P proof.seed2 view2 slot
  let hashes ← wr hashes ((ch + 1) % 3) h
  let slot ← rd hashes ((ch + 2) % 3)
  let h ← memcpy slot 0 proof.view3Commitment 0 P.digestSizeBytes
  let hashes ← wr hashes ((ch + 2) % 3) h
  let gs ← ifB P.transform = .UR then do
      let g ← deref (allocateG E P i)
      let slot ← rd g ch
      let h ← unruhG E P ch proof.seed1 view1 slot
      let g ← wr g ch h
      let slot ← rd g ((ch + 1) % 3)
      let h ← unruhG E P ((ch + 1) % 3) proof.seed2 view2 slot
      let g ← wr g ((ch + 1) % 3) h
      note (decide (challenge = 0))
      let len := if challenge = 0 then P.unruhGWithInputBytes else P.unruhGWithoutInputBytes
      let slot ← rd g ((ch + 2) % 3)
      let src ← deref proof.view3UnruhG
      let h ← memcpy slot 0 src 0 len
      let g ← wr g ((ch + 2) % 3) h
      pure (some g)
    else pure (allocateG E P i)
  let outputs : List Buf := List.replicate 3 []
  let outputs ← wr outputs ch view1.outputShare
  let outputs ← wr outputs ((ch + 1) % 3) view2.outputShare
  let view3Output ← xorThree (zeros P.stateSizeBytes) view1.outputShare view2.outputShare pubKey P.stateSizeBytes
  let outputs ← wr outputs ((ch + 2) % 3) view3Output
  pure { hashes := hashes, gs := gs, outputs := outputs }

/-- /repo/picnic_impl.c:618-702 `verify`; `true` is EXIT_SUCCESS. -/
def verify (E : Env) (P : Params) (sig : Signature) (pubKey plaintext message : Buf) (messageByteLength : Nat) :
    M Bool := do
  let rounds ← collect (verifyRound E P sig pubKey plaintext) P.numMPCRounds
  let computed ← H3 E P pubKey plaintext (rounds.map (·.outputs)) (rounds.map (·.hashes))
    (E.junkBuf siteChallenge 2 (numBytes (2 * P.numMPCRounds))) sig.salt message messageByteLength
    (gsArray P (rounds.map (·.gs)))
  memeq sig.challengeBits computed (numBytes (2 * P.numMPCRounds))

/-- /repo/picnic_impl.c:1041-1056 `computeInputShareSize` -/
def computeInputShareSize (P : Params) (challengeBits : Buf) (stateSizeBytes : Nat) : M Nat :=
  loop (fun i size => do
    let challenge ← getChallenge challengeBits i
    note (decide (challenge = 1))
    note (decide (challenge = 1 ∨ challenge = 2))
    pure (if challenge = 1 ∨ challenge = 2 then size + stateSizeBytes else size)) P.numMPCRounds 0

/-- /repo/picnic_impl.c:1058-1067 `isChallengeValid` -/
def isChallengeValid (P : Params) (challengeBits : Buf) : M Bool :=
  loop (fun i ok =>
    ifB ok then do
      let challenge ← getChallenge challengeBits i
      note (decide (challenge.toNat > 2))
      pure (!(challenge.toNat > 2))
    else pure false) P.numMPCRounds true

/-- Take `n` bytes of the input into a field: `memcpy(dst, sigBytes, n); sigBytes += n`.  /repo/picnic_impl.c:1103-1138. -/
def takeInto (dst : Buf) (sigBytes : Buf) (off n : Nat) : M (Buf × Nat) := do
  let b ← memcpy dst 0 sigBytes off n
  pure (b, off + n)

/-- /repo/picnic_impl.c:1113-1143, repetition i of the loop of `deserializeSignature`; `none` once EXIT_FAILURE has
been returned. -/
def deserializeProof (P : Params) (sigBytes challengeBits : Buf) (i : Nat) (proof : Proof) (off : Nat) :
    M (Option (Proof × Nat)) := do
  let challenge ← getChallenge challengeBits i
  let (c, off) ← takeInto proof.view3Commitment sigBytes off P.digestSizeBytes
  let proof := { proof with view3Commitment := c }
  let (proof, off) ← ifB P.transform = .UR then do
      note (decide (challenge = 0))
      let len := if challenge = 0 then P.unruhGWithInputBytes else P.unruhGWithoutInputBytes
      let dst ← deref proof.view3UnruhG
      let (g, off) ← takeInto dst sigBytes off len
      pure ({ proof with view3UnruhG := some g }, off)
    else pure (proof, off)
  let (cb, off) ← takeInto proof.communicatedBits sigBytes off P.andSizeBytes
  let (s1, off) ← takeInto proof.seed1 sigBytes off P.seedSizeBytes
  let (s2, off) ← takeInto proof.seed2 sigBytes off P.seedSizeBytes
  let proof := { proof with communicatedBits := cb, seed1 := s1, seed2 := s2 }
  note (decide (challenge = 1))
  ifB challenge = 1 ∨ challenge = 2 then do
    let (inp, off) ← takeInto proof.inputShare sigBytes off P.stateSizeBytes
    let okPad ← arePaddingBitsZero inp P.stateSizeBits
    ifB okPad then pure (some ({ proof with inputShare := inp }, off)) else pure none
  else pure (some (proof, off))

/-- /repo/picnic_impl.c:1113-1143, the loop of `deserializeSignature` -/
def deserializeProofs (P : Params) (proofs0 : List Proof) (sigBytes challengeBits : Buf) (off : Nat) :
    M (Option (List Proof × Nat)) :=
  loop (fun i (st : Option (List Proof × Nat)) => do
    note st.isSome
    match st with
    | none => pure none
    | some (proofs, off) => do
      let proof ← rd proofs0 i
      let r ← deserializeProof P sigBytes challengeBits i proof off
      match r with
      | none => pure none
      | some (proof, off) => pure (some (proofs ++ [proof], off))) P.numMPCRounds
    (some (([] : List Proof), off))

/-- /repo/picnic_impl.c:1081-1146 `deserializeSignature`; `none` is EXIT_FAILURE. -/
def deserializeSignature (P : Params) (sig : Signature) (sigBytes : Buf) (sigBytesLen : Nat) :
    M (Option Signature) := do
  ifB sigBytesLen < numBytes (2 * P.numMPCRounds) then pure none
  else do
    let inputShareSize ← computeInputShareSize P sigBytes P.stateSizeBytes
    let bytesExpected := numBytes (2 * P.numMPCRounds) + P.saltSizeBytes +
      P.numMPCRounds * (2 * P.seedSizeBytes + P.andSizeBytes + P.digestSizeBytes) + inputShareSize
    note (decide (P.transform = .UR))
    let bytesExpected := if P.transform = .UR then bytesExpected + P.unruhGWithoutInputBytes * P.numMPCRounds
      else bytesExpected
    ifB sigBytesLen < bytesExpected then pure none
    else do
      let (challengeBits, off) ← takeInto sig.challengeBits sigBytes 0 (numBytes (2 * P.numMPCRounds))
      let valid ← isChallengeValid P challengeBits
      ifB !valid then pure none
      else do
        let (salt, off) ← takeInto sig.salt sigBytes off P.saltSizeBytes
        let r ← deserializeProofs P sig.proofs sigBytes challengeBits off
        match r with
        | none => pure none
        | some (proofs, _) =>
          pure (some { proofs := proofs, challengeBits := challengeBits, salt := salt })

/-- /repo/tree.c:293-302 `revealSeedsSize` -/
def revealSeedsSize (P : Params) (numNodes : Nat) (hideList : List Nat) (hideListSize : Nat) : M Nat := do
  let tree ← createTree numNodes P.seedSizeBytes
  let revealed ← getRevealedNodes tree hideList hideListSize
  pure (revealed.length * P.seedSizeBytes)

/-- /repo/tree.c:332-360 `reconstructSeeds`; the Boolean is true for return value 0. -/
def reconstructSeeds (E : Env) (P : Params) (tree : Tree) (hideList : List Nat) (hideListSize : Nat) (input : Buf)
    (inputLen : Nat) (salt : Buf) (repIndex : Nat) : M (Bool × Tree) := do
  ifB inputLen > INT_MAX then pure (false, tree)
  else do
    let revealed ← getRevealedNodes tree hideList hideListSize
    let (ok, tree, _, _) ← foldL revealed (fun (st : Bool × Tree × Int × Nat) node =>
      ifB !st.1 then pure st
      else do
        let inLen := st.2.2.1 - P.seedSizeBytes
        ifB inLen < 0 then pure (false, st.2.1, inLen, st.2.2.2)
        else do
          let tree ← setNode st.2.1 node input st.2.2.2 P.seedSizeBytes
          pure (true, tree, inLen, st.2.2.2 + P.seedSizeBytes)) (true, tree, (inputLen : Int), 0)
    ifB !ok then pure (false, tree)
    else do
      let tree ← expandSeeds E P tree salt repIndex
      pure (true, tree)

/-- /repo/tree.c:473-484 `openMerkleTreeSize` -/
def openMerkleTreeSize (P : Params) (numNodes : Nat) (missingLeaves : List Nat) (missingLeavesSize : Nat) : M Nat := do
  let tree ← createTree numNodes P.digestSizeBytes
  let revealed ← getRevealedMerkleNodes tree missingLeaves missingLeavesSize
  pure (revealed.length * P.digestSizeBytes)

/-- /repo/tree.c:509-546 `addMerkleNodes`; the Boolean is true for return value 0.  The assertion at line 523 tests
`contains(revealed, revealedSize, 0)`. -/
def addMerkleNodes (tree : Tree) (missingLeaves : List Nat) (missingLeavesSize : Nat) (input : Buf) (inputSize : Nat) :
    M (Bool × Tree) := do
  assertM (missingLeavesSize < tree.numLeaves)
  ifB inputSize > INT_MAX then pure (false, tree)
  else do
    let revealed ← getRevealedMerkleNodes tree missingLeaves missingLeavesSize
    let root ← containsNode revealed 0
    assertM (!root)
    let (ok, tree, intLen, _) ← foldL revealed (fun (st : Bool × Tree × Int × Nat) node =>
      ifB !st.1 then pure st
      else do
        let intLen := st.2.2.1 - tree.dataSize
        ifB intLen < 0 then pure (false, st.2.1, intLen, st.2.2.2)
        else do
          let tree' ← setNode st.2.1 node input st.2.2.2 tree.dataSize
          pure (true, tree', intLen, st.2.2.2 + tree.dataSize)) (true, tree, (inputSize : Int), 0)
    ifB !ok then pure (false, tree)
    else ifB intLen ≠ 0 then pure (false, tree)
    else pure (true, tree)

/-- /repo/tree.c:549-581 `verifyMerkleTree`; the Boolean is true for return value 0. -/
def verifyMerkleTree (E : Env) (P : Params) (tree : Tree) (leafData : List (Option Buf)) (salt : Buf) :
    M (Bool × Tree) := do
  let (ok, tree) ← setLeaves tree leafData true
  ifB !ok then pure (false, tree)
  else do
    let tree ← hashUp E P tree salt
    let h ← rd tree.haveNode 0
    note h
    pure (h, tree)

/-- /repo/picnic3_impl.c:370-381 `setAuxBits` -/
def setAuxBits (P : Params) (tapes : RandomTape) (input : Buf) : M RandomTape := do
  let last := P.numMPCParties - 1
  let n := P.stateSizeBits
  let t ← rd tapes.tape last
  let t ← loop (fun j t =>
    loop (fun i t => do
      let b ← getBit input (n * j + i)
      setBit t (n + n * 2 * j + i) b) n t) P.numRounds t
  let ts ← wr tapes.tape last t
  pure { tapes with tape := ts }

/-- /repo/picnic3_impl.c:590-611, the seed tree of repetition t; `none` if reconstructSeeds fails. -/
def verifySeeds (E : Env) (P : Params) (sig : Signature2) (iSeedsTree : Tree) (t : Nat) : M (Option Tree) := do
  let c ← containsU16 sig.challengeC P.numOpenedRounds t
  ifB !c then do
    let leaf ← getLeaf iSeedsTree t
    let tree ← generateSeeds E P P.numMPCParties leaf sig.salt t
    pure (some tree)
  else do
    let tree ← createTree P.numMPCParties P.seedSizeBytes
    let P_index ← indexOfU16 sig.challengeC P.numOpenedRounds t
    let p ← rd sig.challengeP P_index
    let proof ← rd sig.proofs t
    let proof ← deref proof
    let (ok, tree) ← reconstructSeeds E P tree [p] 1 proof.seedInfo proof.seedInfoLen sig.salt t
    note ok
    pure (if ok then some tree else none)

/-- /repo/picnic3_impl.c:616-647, repetition t: tapes and commitments. -/
def verifyCommit (E : Env) (P : Params) (sig : Signature2) (seeds : Tree) (t : Nat) : M (RandomTape × List Buf) := do
  let last := P.numMPCParties - 1
  let tapes ← createRandomTapes E P (getLeaves seeds) sig.salt t
  let C := allocateCommitment E P P.numMPCParties t
  let c ← containsU16 sig.challengeC P.numOpenedRounds t
  ifB !c then do
    let (tapes, _) ← computeAuxTape E P t tapes none
    let C ← loop (fun j C => commitInto E P C seeds none sig.salt t j) last C
    let auxBits ← getAuxBits P (zeros MAX_AUX_BYTES) tapes
    let C ← commitInto E P C seeds (some auxBits) sig.salt t last
    pure (tapes, C)
  else do
    let idx ← indexOfU16 sig.challengeC P.numOpenedRounds t
    let unopened ← rd sig.challengeP idx
    let C ← loop (fun j C => ifB j ≠ unopened then commitInto E P C seeds none sig.salt t j else pure C) last C
    let proof ← rd sig.proofs t
    let C ← ifB last ≠ unopened then do
        let proof ← deref proof
        commitInto E P C seeds (some proof.aux) sig.salt t last
      else pure C
    let proof ← deref proof
    let slot ← rd C unopened
    let d ← memcpy slot 0 proof.C 0 P.digestSizeBytes
    let C ← wr C unopened d
    pure (tapes, C)

/-- /repo/picnic3_impl.c:658-683, repetition t: simulate the online phase.  `none` in the outer option: failure; the
result is `Cv.hashes[t]` (NULL for repetitions that are not opened). -/
def verifyOnline (E : Env) (P : Params) (sig : Signature2) (tapes : RandomTape) (pubKey plaintext : Buf) (t : Nat) :
    M (Option (Option Buf)) := do
  let last := P.numMPCParties - 1
  let c ← containsU16 sig.challengeC P.numOpenedRounds t
  ifB c then do
    let idx ← indexOfU16 sig.challengeC P.numOpenedRounds t
    let unopened ← rd sig.challengeP idx
    let proof ← rd sig.proofs t
    let proof ← deref proof
    let tapes ← ifB unopened ≠ last then setAuxBits P tapes proof.aux else pure tapes
    let tp ← rd tapes.tape unopened
    let tp ← wrN tp 0 (zeros (2 * P.andSizeBytes))
    let ts ← wr tapes.tape unopened tp
    let tapes := { tapes with tape := ts }
    let msgs := allocateMsgs P
    let m ← rd msgs.msgs unopened
    let m ← memcpy m 0 proof.msgs 0 P.andSizeBytes
    let ms ← wr msgs.msgs unopened m
    let msgs := { msgs with msgs := ms, unopened := some unopened }
    let (ok, _, msgs) ← simulateOnline E P t proof.input tapes msgs plaintext pubKey
    ifB !ok then pure none
    else do
      let d ← commitV E P (E.junkBuf siteCommit t P.digestSizeBytes) proof.input msgs
      pure (some (some d))
  else pure (some none)

/-- /repo/picnic3_impl.c:570-729 `verify_picnic3`; `true` is EXIT_SUCCESS.  When `reconstructSeeds` fails the code
jumps to `Exit` and calls `freeRandomTape` on tapes that were never initialised: `badFree`. -/
def verifyPicnic3 (E : Env) (P : Params) (sig : Signature2) (pubKey plaintext message : Buf)
    (messageByteLength : Nat) : M Bool := do
  let treeCv ← createTree P.numMPCRounds P.digestSizeBytes
  let iSeedsTree ← createTree P.numMPCRounds P.seedSizeBytes
  let (ok, iSeedsTree) ← reconstructSeeds E P iSeedsTree sig.challengeC P.numOpenedRounds sig.iSeedInfo
    sig.iSeedInfoLen sig.salt 0
  ifB !ok then .ub .badFree
  else do
    let seeds ← collectOpt (verifySeeds E P sig iSeedsTree) P.numMPCRounds
    match seeds with
    | none => .ub .badFree
    | some seeds => do
      let tc ← collect (fun t => do
        let s ← rd seeds t
        verifyCommit E P sig s t) P.numMPCRounds
      let Ch ← collect (fun t => do
        let r ← rd tc t
        commitH E P (E.junkBuf siteHash (t + 1) P.digestSizeBytes) r.2) P.numMPCRounds
      let Cv ← collectOpt (fun t => do
        let r ← rd tc t
        verifyOnline E P sig r.1 pubKey plaintext t) P.numMPCRounds
      match Cv with
      | none => pure false
      | some Cv => do
        let missingLeaves ← getMissingLeavesList P sig.challengeC
        let (ok, treeCv) ← addMerkleNodes treeCv missingLeaves (P.numMPCRounds - P.numOpenedRounds) sig.cvInfo
          sig.cvInfoLen
        ifB !ok then pure false
        else do
          let (ok, treeCv) ← verifyMerkleTree E P treeCv Cv sig.salt
          ifB !ok then pure false
          else do
            let root ← rd treeCv.nodes 0
            let challengeHash ← HCPhash E P (E.junkBuf siteHash 0 MAX_DIGEST_SIZE) Ch root sig.salt pubKey plaintext
              message messageByteLength
            memeq sig.challengeHash challengeHash P.digestSizeBytes

/-- /repo/picnic3_impl.c:958-991, repetition t: read the proof of an opened repetition; outer `none`: rejected. -/
def deserializeProof2 (E : Env) (P : Params) (challengeC challengeP : List Nat) (seedInfoLen : Nat) (sigBytes : Buf)
    (t off : Nat) : M (Option (Option Proof2 × Nat)) := do
  let c ← containsU16 challengeC P.numOpenedRounds t
  ifB c then do
    let proof := allocateProof2 E P t
    let seedInfo ← rdN sigBytes off seedInfoLen
    let off := off + seedInfoLen
    let idx ← indexOfU16 challengeC P.numOpenedRounds t
    let P_t ← rd challengeP idx
    let andBits := 3 * P.numRounds * P.numSboxes
    let aux ← ifB P_t ≠ P.numMPCParties - 1 then do
        let (aux, off) ← takeInto proof.aux sigBytes off P.andSizeBytes
        let ok ← arePaddingBitsZero aux andBits
        note ok
        pure (if ok then some (aux, off) else none)
      else pure (some (proof.aux, off))
    match aux with
    | none => pure none
    | some (aux, off) => do
      let (input, off) ← takeInto proof.input sigBytes off P.stateSizeBytes
      let (msgs, off) ← takeInto proof.msgs sigBytes off P.andSizeBytes
      let ok ← arePaddingBitsZero msgs andBits
      ifB !ok then pure none
      else do
        let (C, off) ← takeInto proof.C sigBytes off P.digestSizeBytes
        pure (some (some { seedInfo := seedInfo, seedInfoLen := seedInfoLen, aux := aux, C := C, input := input,
                           msgs := msgs }, off))
  else pure (some (none, off))

/-- /repo/picnic3_impl.c:958-991, the loop of `deserializeSignature2` -/
def deserializeProofs2 (E : Env) (P : Params) (challengeC challengeP : List Nat) (seedInfoLen : Nat) (sigBytes : Buf)
    (off : Nat) : M (Option (List (Option Proof2) × Nat)) :=
  loop (fun t (st : Option (List (Option Proof2) × Nat)) => do
    note st.isSome
    match st with
    | none => pure none
    | some (proofs, off) => do
      let r ← deserializeProof2 E P challengeC challengeP seedInfoLen sigBytes t off
      match r with
      | none => pure none
      | some (p, off) => pure (some (proofs ++ [p], off))) P.numMPCRounds
    (some (([] : List (Option Proof2)), off))

/-- /repo/picnic3_impl.c:895-994 `deserializeSignature2`; `none` is failure. -/
def deserializeSignature2 (E : Env) (P : Params) (sig : Signature2) (sigBytes : Buf) (sigBytesLen : Nat) :
    M (Option Signature2) := do
  let bytesRequired := P.digestSizeBytes + P.saltSizeBytes
  ifB sigBytesLen < bytesRequired then pure none
  else do
    let (challengeHash, off) ← takeInto sig.challengeHash sigBytes 0 P.digestSizeBytes
    let (salt, off) ← takeInto sig.salt sigBytes off P.saltSizeBytes
    let (challengeC, challengeP) ← expandChallengeHash E P challengeHash
    let iSeedInfoLen ← revealSeedsSize P P.numMPCRounds challengeC P.numOpenedRounds
    let bytesRequired := bytesRequired + iSeedInfoLen
    let missingLeaves ← getMissingLeavesList P challengeC
    let cvInfoLen ← openMerkleTreeSize P P.numMPCRounds missingLeaves (P.numMPCRounds - P.numOpenedRounds)
    let bytesRequired := bytesRequired + cvInfoLen
    let seedInfoLen ← revealSeedsSize P P.numMPCParties [0] 1
    let bytesRequired ← proofsSize P challengeC challengeP (fun _ => pure seedInfoLen) bytesRequired
    ifB sigBytesLen ≠ bytesRequired then pure none
    else do
      let iSeedInfo ← rdN sigBytes off iSeedInfoLen
      let off := off + iSeedInfoLen
      let cvInfo ← rdN sigBytes off cvInfoLen
      let off := off + cvInfoLen
      let r ← deserializeProofs2 E P challengeC challengeP seedInfoLen sigBytes off
      match r with
      | none => pure none
      | some (proofs, _) =>
        pure (some { salt := salt, iSeedInfo := iSeedInfo, iSeedInfoLen := iSeedInfoLen, cvInfo := cvInfo,
                     cvInfoLen := cvInfoLen, challengeHash := challengeHash, challengeC := challengeC,
                     challengeP := challengeP, proofs := proofs })

/-- /repo/picnic.c:382-452 `picnic_verify` -/
def picnicVerify (E : Env) (pk : Option PublicKey) (message : Buf) (message_len : Nat) (signature : Buf)
    (signature_len : Nat) : M Int := do
  let pk ← deref pk
  note (getParamSet pk.params).isSome
  match getParamSet pk.params with
  | none => pure (-1)
  | some P =>
    ifB !isPicnic3 pk.params then do
      let sig ← deserializeSignature P (allocateSignature E P) signature signature_len
      note sig.isSome
      match sig with
      | none => pure (-1)
      | some sig => do
        let ok ← verify E P sig pk.ciphertext pk.plaintext message message_len
        ifB ok then pure 0 else pure (-1)
    else do
      let sig ← deserializeSignature2 E P (allocateSignature2 E P) signature signature_len
      note sig.isSome
      match sig with
      | none => pure (-1)
      | some sig => do
        let ok ← verifyPicnic3 E P sig pk.ciphertext pk.plaintext message message_len
        ifB ok then pure 0 else pure (-1)

end Picnic.Leak
