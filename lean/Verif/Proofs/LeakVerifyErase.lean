import Verif.Model.LeakVerify
import Verif.Proofs.LeakErase

/-
Forgetting the observations of the verification functions gives the functional model back.
-/

namespace Picnic.Leak

@[er] theorem out_mpcXorConstantVerify (state : List Buf) (inp : Buf) (len : Nat) (challenge : Byte) :
    (mpcXorConstantVerify state inp len challenge).out = Picnic.mpcXorConstantVerify state inp len challenge := by
  unfold mpcXorConstantVerify Picnic.mpcXorConstantVerify
  erd

@[er] theorem out_mpcANDVerify (in1 in2 : List Byte) (rand : RandomTape) (view1 view2 : View) :
    (mpcANDVerify in1 in2 rand view1 view2).out = Picnic.mpcANDVerify in1 in2 rand view1 view2 := by
  unfold mpcANDVerify Picnic.mpcANDVerify
  erd

@[er] theorem out_mpcSubstitutionVerify (P : Params) (state : List Buf) (rand : RandomTape) (view1 view2 : View) :
    (mpcSubstitutionVerify P state rand view1 view2).out = Picnic.mpcSubstitutionVerify P state rand view1 view2 := by
  unfold mpcSubstitutionVerify Picnic.mpcSubstitutionVerify
  erd

@[er] theorem out_mpcLowMCVerify (E : Env) (P : Params) (tag : Nat) (view1 view2 : View) (tapes : RandomTape) (tmp plaintext : Buf) (challenge : Byte) :
    (mpcLowMCVerify E P tag view1 view2 tapes tmp plaintext challenge).out = Picnic.mpcLowMCVerify E P tag view1 view2 tapes tmp plaintext challenge := by
  unfold mpcLowMCVerify Picnic.mpcLowMCVerify
  erd

@[er] theorem out_verifyProofTapes (E : Env) (P : Params) (proof : Proof) (view1 view2 : View) (challenge : Byte) (salt : Buf) (roundNumber : Nat) (tmp : Buf) (tape : RandomTape) :
    (verifyProofTapes E P proof view1 view2 challenge salt roundNumber tmp tape).out = Picnic.verifyProofTapes E P proof view1 view2 challenge salt roundNumber tmp tape := by
  unfold verifyProofTapes Picnic.verifyProofTapes
  erd

@[er] theorem out_verifyProof (E : Env) (P : Params) (proof : Proof) (view1 view2 : View) (challenge : Byte) (salt : Buf) (roundNumber : Nat) (tmp plaintext : Buf) (tape : RandomTape) :
    (verifyProof E P proof view1 view2 challenge salt roundNumber tmp plaintext tape).out = Picnic.verifyProof E P proof view1 view2 challenge salt roundNumber tmp plaintext tape := by
  unfold verifyProof Picnic.verifyProof
  erd

@[er] theorem out_verifyRound (E : Env) (P : Params) (sig : Signature) (pubKey plaintext : Buf) (i : Nat) :
    (verifyRound E P sig pubKey plaintext i).out = Picnic.verifyRound E P sig pubKey plaintext i := by
  unfold verifyRound Picnic.verifyRound
  erd

@[er] theorem out_verify (E : Env) (P : Params) (sig : Signature) (pubKey plaintext message : Buf) (messageByteLength : Nat) :
    (verify E P sig pubKey plaintext message messageByteLength).out = Picnic.verify E P sig pubKey plaintext message messageByteLength := by
  unfold verify Picnic.verify
  erd

@[er] theorem out_computeInputShareSize (P : Params) (challengeBits : Buf) (stateSizeBytes : Nat) :
    (computeInputShareSize P challengeBits stateSizeBytes).out = Picnic.computeInputShareSize P challengeBits stateSizeBytes := by
  unfold computeInputShareSize Picnic.computeInputShareSize
  erd

@[er] theorem out_isChallengeValid (P : Params) (challengeBits : Buf) :
    (isChallengeValid P challengeBits).out = Picnic.isChallengeValid P challengeBits := by
  unfold isChallengeValid Picnic.isChallengeValid
  erd

@[er] theorem out_takeInto (dst : Buf) (sigBytes : Buf) (off n : Nat) :
    (takeInto dst sigBytes off n).out = Picnic.takeInto dst sigBytes off n := by
  unfold takeInto Picnic.takeInto
  erd

@[er] theorem out_deserializeProof (P : Params) (sigBytes challengeBits : Buf) (i : Nat) (proof : Proof) (off : Nat) :
    (deserializeProof P sigBytes challengeBits i proof off).out = Picnic.deserializeProof P sigBytes challengeBits i proof off := by
  unfold deserializeProof Picnic.deserializeProof
  erd

@[er] theorem out_deserializeSignature (P : Params) (sig : Signature) (sigBytes : Buf) (sigBytesLen : Nat) :
    (deserializeSignature P sig sigBytes sigBytesLen).out = Picnic.deserializeSignature P sig sigBytes sigBytesLen := by
  unfold deserializeSignature Picnic.deserializeSignature deserializeProofs
  simp only [er]
  refine if_congr Iff.rfl rfl (bind_ext rfl fun n => if_congr Iff.rfl rfl (bind_ext rfl fun c => bind_ext rfl fun v =>
    if_congr Iff.rfl rfl (bind_ext rfl fun c' => ?_)))
  obtain ⟨c, off⟩ := c
  obtain ⟨c', off'⟩ := c'
  refine bind_ext (loop_ext _ _ fun i st => ?_) fun r => ?_
  · rcases st with _ | ⟨ps, off⟩
    · rfl
    · simp only [er]
      refine bind_ext rfl fun p => bind_ext rfl fun r => ?_
      rcases r with _ | ⟨p, off⟩ <;> rfl
  · rcases r with _ | ⟨p, off⟩ <;> rfl

@[er] theorem out_revealSeedsSize (P : Params) (numNodes : Nat) (hideList : List Nat) (hideListSize : Nat) :
    (revealSeedsSize P numNodes hideList hideListSize).out = Picnic.revealSeedsSize P numNodes hideList hideListSize := by
  unfold revealSeedsSize Picnic.revealSeedsSize
  erd

@[er] theorem out_reconstructSeeds (E : Env) (P : Params) (tree : Tree) (hideList : List Nat) (hideListSize : Nat) (input : Buf) (inputLen : Nat) (salt : Buf) (repIndex : Nat) :
    (reconstructSeeds E P tree hideList hideListSize input inputLen salt repIndex).out = Picnic.reconstructSeeds E P tree hideList hideListSize input inputLen salt repIndex := by
  unfold reconstructSeeds Picnic.reconstructSeeds
  erd

@[er] theorem out_openMerkleTreeSize (P : Params) (numNodes : Nat) (missingLeaves : List Nat) (missingLeavesSize : Nat) :
    (openMerkleTreeSize P numNodes missingLeaves missingLeavesSize).out = Picnic.openMerkleTreeSize P numNodes missingLeaves missingLeavesSize := by
  unfold openMerkleTreeSize Picnic.openMerkleTreeSize
  erd

@[er] theorem out_addMerkleNodes (tree : Tree) (missingLeaves : List Nat) (missingLeavesSize : Nat) (input : Buf) (inputSize : Nat) :
    (addMerkleNodes tree missingLeaves missingLeavesSize input inputSize).out = Picnic.addMerkleNodes tree missingLeaves missingLeavesSize input inputSize := by
  unfold addMerkleNodes Picnic.addMerkleNodes
  erd

@[er] theorem out_verifyMerkleTree (E : Env) (P : Params) (tree : Tree) (leafData : List (Option Buf)) (salt : Buf) :
    (verifyMerkleTree E P tree leafData salt).out = Picnic.verifyMerkleTree E P tree leafData salt := by
  unfold verifyMerkleTree Picnic.verifyMerkleTree
  erd

@[er] theorem out_setAuxBits (P : Params) (tapes : RandomTape) (input : Buf) :
    (setAuxBits P tapes input).out = Picnic.setAuxBits P tapes input := by
  unfold setAuxBits Picnic.setAuxBits
  erd

@[er] theorem out_verifySeeds (E : Env) (P : Params) (sig : Signature2) (iSeedsTree : Tree) (t : Nat) :
    (verifySeeds E P sig iSeedsTree t).out = Picnic.verifySeeds E P sig iSeedsTree t := by
  unfold verifySeeds Picnic.verifySeeds
  erd

@[er] theorem out_verifyCommit (E : Env) (P : Params) (sig : Signature2) (seeds : Tree) (t : Nat) :
    (verifyCommit E P sig seeds t).out = Picnic.verifyCommit E P sig seeds t := by
  unfold verifyCommit Picnic.verifyCommit
  erd

@[er] theorem out_verifyOnline (E : Env) (P : Params) (sig : Signature2) (tapes : RandomTape) (pubKey plaintext : Buf) (t : Nat) :
    (verifyOnline E P sig tapes pubKey plaintext t).out = Picnic.verifyOnline E P sig tapes pubKey plaintext t := by
  unfold verifyOnline Picnic.verifyOnline
  erd

@[er] theorem out_verifyPicnic3 (E : Env) (P : Params) (sig : Signature2) (pubKey plaintext message : Buf) (messageByteLength : Nat) :
    (verifyPicnic3 E P sig pubKey plaintext message messageByteLength).out = Picnic.verifyPicnic3 E P sig pubKey plaintext message messageByteLength := by
  unfold verifyPicnic3 Picnic.verifyPicnic3
  erd

@[er] theorem out_deserializeProof2 (E : Env) (P : Params) (challengeC challengeP : List Nat) (seedInfoLen : Nat) (sigBytes : Buf) (t off : Nat) :
    (deserializeProof2 E P challengeC challengeP seedInfoLen sigBytes t off).out = Picnic.deserializeProof2 E P challengeC challengeP seedInfoLen sigBytes t off := by
  unfold deserializeProof2 Picnic.deserializeProof2
  erd

@[er] theorem out_deserializeSignature2 (E : Env) (P : Params) (sig : Signature2) (sigBytes : Buf) (sigBytesLen : Nat) :
    (deserializeSignature2 E P sig sigBytes sigBytesLen).out = Picnic.deserializeSignature2 E P sig sigBytes sigBytesLen := by
  unfold deserializeSignature2 Picnic.deserializeSignature2 deserializeProofs2
  simp only [er]
  refine if_congr Iff.rfl rfl (bind_ext rfl fun c => bind_ext rfl fun s => bind_ext rfl fun ch => bind_ext rfl fun l1 =>
    bind_ext rfl fun l2 => bind_ext rfl fun l3 => bind_ext rfl fun l4 => bind_ext rfl fun l5 =>
    if_congr Iff.rfl rfl (bind_ext rfl fun b1 => bind_ext rfl fun b2 => ?_))
  refine bind_ext (loop_ext _ _ fun i st => ?_) fun r => ?_
  · rcases st with _ | ⟨ps, off⟩
    · rfl
    · simp only [er]
      refine bind_ext rfl fun r => ?_
      rcases r with _ | ⟨p, off⟩ <;> rfl
  · rcases r with _ | ⟨p, off⟩ <;> rfl

@[er] theorem out_picnicVerify (E : Env) (pk : Option PublicKey) (message : Buf) (message_len : Nat) (signature : Buf) (signature_len : Nat) :
    (picnicVerify E pk message message_len signature signature_len).out = Picnic.picnicVerify E pk message message_len signature signature_len := by
  unfold picnicVerify Picnic.picnicVerify
  rw [out_bind, out_deref]
  refine bind_ext rfl fun pk => ?_
  rw [out_bind, out_note, ok_bind']
  cases getParamSet pk.params with
  | none => rfl
  | some P =>
    simp only [er]
    refine if_congr Iff.rfl (bind_ext rfl fun s => ?_) (bind_ext rfl fun s => ?_)
    · cases s with
      | none => rfl
      | some s =>
        simp only [er]
        refine bind_ext rfl fun r => ?_
        cases r <;> rfl
    · cases s with
      | none => rfl
      | some s =>
        simp only [er]
        refine bind_ext rfl fun r => ?_
        cases r <;> rfl

end Picnic.Leak
