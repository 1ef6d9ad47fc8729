import Verif.Model.Api

/-
What the heap blocks contain that signing releases.  The signing functions of Model/Zkb and Model/Picnic3, with the contents of some of the blocks at the
moment of `free` as an additional result.  No block is overwritten between its last use and `free` (there is no such code in /repo).
-/

namespace Picnic

/-- /repo/picnic_impl.c:869-978 `sign_picnic1`; the blocks released in lines 970 and 975 are the views and seeds of all repetitions (`SignRound`). -/
def signPicnic1Released (E : Env) (P : Params) (privateKey pubKey plaintext message : Buf) (messageByteLength : Nat)
    (sig : Signature) : M (Option (Signature × List SignRound)) := do
  let slab ← computeSeeds E P privateKey pubKey plaintext message messageByteLength
  let salt ← memcpy sig.salt 0 slab (P.numMPCRounds * P.numMPCParties * P.seedSizeBytes) P.saltSizeBytes
  let rounds ← collectOpt (signRound E P privateKey pubKey plaintext salt slab) P.numMPCRounds
  match rounds with
  | none => pure none
  | some rounds => do
    let challengeBits ← H3 E P pubKey plaintext (rounds.map fun r => r.views.map (·.outputShare))
      (rounds.map (·.hashes)) sig.challengeBits salt message messageByteLength (gsArray P (rounds.map (·.gs)))
    let proofs ← collect (fun i => do
      let proof ← rd sig.proofs i
      let c ← getChallenge challengeBits i
      let r ← rd rounds i
      prove P proof c r.seeds r.views r.hashes r.gs) P.numMPCRounds
    pure (some ({ proofs := proofs, challengeBits := challengeBits, salt := salt }, rounds))

/-- /repo/picnic3_impl.c:746-893 `sign_picnic3`; the blocks released in lines 876-884 are, for every repetition, the seed tree, the random tapes
(`Prep`), the masked key and the messages.  The simulation in line 796 changes positions in the tapes, not their bits. -/
def signPicnic3Released (E : Env) (P : Params) (privateKey pubKey plaintext message : Buf) (messageByteLength : Nat)
    (sig : Signature2) : M (Option (Signature2 × List Prep × List (Buf × Msgs))) := do
  let saltAndRoot ← computeSaltAndRootSeed E P
    (E.junkBuf siteSeeds 0 (P.saltSizeBytes + P.seedSizeBytes)) (P.saltSizeBytes + P.seedSizeBytes)
    privateKey pubKey plaintext message messageByteLength
  let salt ← memcpy sig.salt 0 saltAndRoot 0 P.saltSizeBytes
  let root ← rdN saltAndRoot P.saltSizeBytes P.seedSizeBytes
  let iSeedsTree ← generateSeeds E P P.numMPCRounds root salt 0
  let preps ← collect (signPrep E P iSeedsTree salt) P.numMPCRounds
  let online ← collectOpt (fun t => do
    let p ← rd preps t
    signOnline E P p privateKey pubKey plaintext t) P.numMPCRounds
  match online with
  | none => pure none
  | some online => do
    let Ch ← collect (fun t => do
      let p ← rd preps t
      commitH E P (E.junkBuf siteHash (t + 1) P.digestSizeBytes) p.C) P.numMPCRounds
    let Cv ← collect (fun t => do
      let o ← rd online t
      let d ← commitV E P (E.junkBuf siteCommit t P.digestSizeBytes) o.1 o.2
      pure (some d)) P.numMPCRounds
    let treeCv ← createTree P.numMPCRounds P.digestSizeBytes
    let treeCv ← buildMerkleTree E P treeCv Cv salt
    let rootCv ← rd treeCv.nodes 0
    let challengeHash ← HCPhash E P sig.challengeHash Ch rootCv salt pubKey plaintext message messageByteLength
    let (challengeC, challengeP) ← expandChallengeHash E P challengeHash
    let missingLeaves ← getMissingLeavesList P challengeC
    let (cvInfo, cvInfoLen) ← openMerkleTree E treeCv missingLeaves (P.numMPCRounds - P.numOpenedRounds)
    let (iSeedInfoLen, iSeedInfo) ← revealSeeds P iSeedsTree challengeC P.numOpenedRounds
      (E.junkBuf siteTree 0 (P.numMPCRounds * P.seedSizeBytes)) (P.numMPCRounds * P.seedSizeBytes)
    let proofs ← collect (fun t => do
      let p ← rd preps t
      let o ← rd online t
      signProof E P challengeC challengeP p o.1 o.2 t) P.numMPCRounds
    pure (some ({ salt := salt, iSeedInfo := iSeedInfo.take iSeedInfoLen, iSeedInfoLen := iSeedInfoLen,
                  cvInfo := cvInfo, cvInfoLen := cvInfoLen, challengeHash := challengeHash,
                  challengeC := challengeC, challengeP := challengeP, proofs := proofs }, preps, online))

end Picnic
