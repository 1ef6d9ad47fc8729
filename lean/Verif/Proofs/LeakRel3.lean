import Verif.Proofs.LeakRel2

/-
The functions of Picnic3 and the interface in two runs.
-/

namespace Picnic.Leak

@[lw] theorem u16bytes_len (w : U16) : (u16bytes w).length = 2 := rfl

attribute [lw] allocateProof2

theorem le_getLeaves {a b : Tree} (h : le a b) : le (getLeaves a) (getLeaves b) := by
  unfold getLeaves
  rw [h.2.2.2.2.2.1, h.2.2.2.2.2.2]
  exact le_drop _ h.2.1

macro_rules
  | `(tactic| lowx) => `(tactic| exact le_getLeaves (by simp [lw, *]))

theorem rel_createRandomTapes {E E' : Env} {P : Params} {seeds seeds' : List Buf} {salt salt' : Buf} {t t' : Nat}
    (hE : EnvRel E E') (h_seeds : le seeds seeds') (h_salt : le salt salt') (h_t : t = t') :
    Rel le (createRandomTapes E P seeds salt t) (createRandomTapes E' P seeds' salt' t') := by
  unfold createRandomTapes
  prep <;> rel

theorem rel_tapesToWord {E E' : Env} {tapes tapes' : RandomTape} (hE : EnvRel E E') (h_tapes : le tapes tapes') :
    Rel le (tapesToWord E tapes) (tapesToWord E' tapes') := by
  unfold tapesToWord
  prep <;> rel

theorem rel_tapesToWords {E E' : Env} {numWords numWords' : Nat} {tapes tapes' : RandomTape} (hE : EnvRel E E')
    (h_numWords : numWords = numWords') (h_tapes : le tapes tapes') :
    Rel le (tapesToWords E numWords tapes) (tapesToWords E' numWords' tapes') := by
  unfold tapesToWords
  prep <;> rel

theorem rel_tapesToParityBits {E E' : Env} {output output' : Buf} {outputBitLen outputBitLen' : Nat}
    {tapes tapes' : RandomTape} (hE : EnvRel E E') (h_output : le output output')
    (h_outputBitLen : outputBitLen = outputBitLen') (h_tapes : le tapes tapes') :
    Rel le (tapesToParityBits E output outputBitLen tapes) (tapesToParityBits E' output' outputBitLen' tapes') := by
  unfold tapesToParityBits
  prep <;> rel

theorem rel_setTapeBit {tapes tapes' : RandomTape} {j j' : Nat} {bitNumber bitNumber' : Nat} {val val' : Byte}
    (h_tapes : le tapes tapes') (h_j : j = j') (h_bitNumber : bitNumber = bitNumber') :
    Rel le (setTapeBit tapes j bitNumber val) (setTapeBit tapes' j' bitNumber' val') := by
  unfold setTapeBit
  prep <;> rel

theorem rel_auxMpcAND {E E' : Env} {P : Params} {mask_a mask_a' : Byte} {mask_b mask_b' : Byte}
    {fresh_output_mask fresh_output_mask' : Byte} {tapes tapes' : RandomTape} (hE : EnvRel E E')
    (h_tapes : le tapes tapes') :
    Rel le (auxMpcAND E P mask_a mask_b fresh_output_mask tapes) (auxMpcAND E' P mask_a' mask_b' fresh_output_mask' tapes') := by
  unfold auxMpcAND
  prep <;> rel

theorem rel_auxMpcSbox {E E' : Env} {P : Params} {inp inp' : Buf} {out out' : Buf} {tapes tapes' : RandomTape}
    (hE : EnvRel E E') (h_inp : le inp inp') (h_out : le out out') (h_tapes : le tapes tapes') :
    Rel le (auxMpcSbox E P inp out tapes) (auxMpcSbox E' P inp' out' tapes') := by
  unfold auxMpcSbox
  prep <;> rel

theorem rel_computeAuxTape {E E' : Env} {P : Params} {tag tag' : Nat} {tapes tapes' : RandomTape}
    {inputs inputs' : Option Buf} (hE : EnvRel E E') (h_tag : tag = tag') (h_tapes : le tapes tapes')
    (h_inputs : le inputs inputs') :
    Rel le (computeAuxTape E P tag tapes inputs) (computeAuxTape E' P tag' tapes' inputs') := by
  unfold computeAuxTape
  rw [hE.lowmc]
  prep <;> rel

theorem rel_commit {E E' : Env} {P : Params} {digest digest' : Buf} {seed seed' : Buf} {aux aux' : Option Buf}
    {salt salt' : Buf} {t t' : Nat} {j j' : Nat} (hE : EnvRel E E') (h_digest : le digest digest')
    (h_seed : le seed seed') (h_aux : le aux aux') (h_salt : le salt salt') (h_t : t = t') (h_j : j = j') :
    Rel le (commit E P digest seed aux salt t j) (commit E' P digest' seed' aux' salt' t' j') := by
  unfold commit
  prep <;> rel

theorem rel_commitH {E E' : Env} {P : Params} {digest digest' : Buf} {C C' : List Buf} (hE : EnvRel E E')
    (h_digest : le digest digest') (h_C : le C C') :
    Rel le (commitH E P digest C) (commitH E' P digest' C') := by
  unfold commitH
  prep <;> rel

theorem rel_commitV {E E' : Env} {P : Params} {digest digest' : Buf} {input input' : Buf} {msgs msgs' : Msgs}
    (hE : EnvRel E E') (h_digest : le digest digest') (h_input : le input input') (h_msgs : le msgs msgs') :
    Rel le (commitV E P digest input msgs) (commitV E' P digest' input' msgs') := by
  unfold commitV
  prep <;> rel

theorem rel_wordToMsgs {P : Params} {w w' : U16} {msgs msgs' : Msgs} (h_msgs : le msgs msgs') :
    Rel le (wordToMsgs P w msgs) (wordToMsgs P w' msgs') := by
  unfold wordToMsgs
  prep <;> rel

theorem rel_mpcAND16 {E E' : Env} {P : Params} {a a' : Byte} {b b' : Byte} {mask_a mask_a' : U16}
    {mask_b mask_b' : U16} {tapes tapes' : RandomTape} {msgs msgs' : Msgs} (hE : EnvRel E E')
    (h_tapes : le tapes tapes') (h_msgs : le msgs msgs') :
    Rel le (mpcAND16 E P a b mask_a mask_b tapes msgs) (mpcAND16 E' P a' b' mask_a' mask_b' tapes' msgs') := by
  unfold mpcAND16
  obtain ⟨_, _, u⟩ := msgs
  obtain ⟨_, _, u'⟩ := msgs'
  cases u <;> cases u' <;> prep <;> rel

theorem rel_mpcSbox16 {E E' : Env} {P : Params} {state state' : Buf} {state_masks state_masks' : List U16}
    {tapes tapes' : RandomTape} {msgs msgs' : Msgs} (hE : EnvRel E E') (h_state : le state state')
    (h_state_masks : le state_masks state_masks') (h_tapes : le tapes tapes') (h_msgs : le msgs msgs') :
    Rel le (mpcSbox16 E P state state_masks tapes msgs) (mpcSbox16 E' P state' state_masks' tapes' msgs') := by
  unfold mpcSbox16
  prep <;> rel

theorem rel_containsU16 {list list' : List Nat} {len len' : Nat} {value value' : Nat} (h_list : list = list')
    (h_len : len = len') (h_value : value = value') :
    Rel le (containsU16 list len value) (containsU16 list' len' value') := by
  unfold containsU16
  prep <;> rel

theorem rel_indexOfU16 {list list' : List Nat} {len len' : Nat} {value value' : Nat} (h_list : list = list')
    (h_len : len = len') (h_value : value = value') :
    Rel le (indexOfU16 list len value) (indexOfU16 list' len' value') := by
  unfold indexOfU16
  prep <;> rel

theorem rel_getAuxBits {P : Params} {output output' : Buf} {tapes tapes' : RandomTape}
    (h_output : le output output') (h_tapes : le tapes tapes') :
    Rel le (getAuxBits P output tapes) (getAuxBits P output' tapes') := by
  unfold getAuxBits
  prep <;> rel

theorem rel_simulateOnline {E E' : Env} {P : Params} {tag tag' : Nat} {maskedKey maskedKey' : Buf}
    {tapes tapes' : RandomTape} {msgs msgs' : Msgs} {plaintext plaintext' : Buf} {pubKey pubKey' : Buf}
    (hE : EnvRel E E') (h_tag : tag = tag') (h_maskedKey : le maskedKey maskedKey') (h_tapes : le tapes tapes')
    (h_msgs : le msgs msgs') (h_plaintext : le plaintext plaintext') (h_pubKey : le pubKey pubKey') :
    Rel le (simulateOnline E P tag maskedKey tapes msgs plaintext pubKey) (simulateOnline E' P tag' maskedKey' tapes' msgs' plaintext' pubKey') := by
  unfold simulateOnline
  rw [hE.lowmc]
  prep <;> rel

theorem rel_getBit_pub {a b : Buf} {n i : Nat} (h : le a b) (ht : a.take n = b.take n) (hi : i < 8 * n) :
    Rel Eq (getBit a i) (getBit b i) := by
  have : a[i / 8]? = b[i / 8]? := by
    have h1 := congrArg (fun l => l[i / 8]?) ht
    simpa only [List.getElem?_take, show i / 8 < n by omega, if_true] using h1
  refine rel_bind (R := Eq) (rel_bind rel_tell fun _ _ _ => ?_) fun x y hxy => ?_
  · rw [this]; exact rel_refl _
  · subst hxy; exact rel_refl _

theorem rel_bitsToChunks {chunkLenBits chunkLenBits' inputLen inputLen' cap cap' : Nat} {input input' : Buf}
    (h1 : chunkLenBits = chunkLenBits') (h2 : le input input') (h3 : inputLen = inputLen') (h4 : cap = cap')
    (ht : input.take inputLen = input'.take inputLen') :
    Rel le (bitsToChunks chunkLenBits input inputLen cap) (bitsToChunks chunkLenBits' input' inputLen' cap') := by
  subst h1 h3 h4
  refine rel_bind (rel_assertM rfl) fun _ _ _ => rel_collect rfl fun i hi => rel_ite Iff.rfl (fun _ _ => ?_) fun _ _ => rel_ub
  refine rel_loop rfl (fun j hj c d hcd => ?_) rfl
  have hb : i * chunkLenBits + j < 8 * inputLen := by
    have := Nat.div_mul_le_self (inputLen * 8) chunkLenBits
    have := Nat.mul_le_mul_right chunkLenBits (show i + 1 ≤ _ from hi)
    rw [Nat.add_mul] at this
    omega
  cases hcd
  exact rel_bind (rel_getBit_pub h2 ht hb) fun x y hxy => by subst hxy; dsimp only; rel

theorem rel_appendUnique {cap cap' : Nat} {list list' : List Nat} {value value' : Nat} (h_cap : cap = cap')
    (h_list : list = list') (h_value : value = value') :
    Rel le (appendUnique cap list value) (appendUnique cap' list' value') := by
  unfold appendUnique
  prep <;> rel

theorem rel_rehash {E E' : Env} {P : Params} {h h' : Buf} (hE : EnvRel E E') (h_h : le h h') :
    Rel le (rehash E P h) (rehash E' P h') := by
  unfold rehash
  prep <;> rel

theorem rel_scanC {P : Params} {chunks chunks' : List Nat} {challengeC challengeC' : List Nat}
    (h_chunks : chunks = chunks') (h_challengeC : challengeC = challengeC') :
    Rel le (scanC P chunks challengeC) (scanC P chunks' challengeC') := by
  unfold scanC
  prep <;> rel

theorem rel_fillC {E E' : Env} {P : Params} {bits bits' : Nat} {cap cap' : Nat} {x0 : Nat} {x1 x1' : Buf}
    {x2 x2' : List Nat} (hE : EnvRel E E') (h_bits : bits = bits') (h_cap : cap = cap') (h_x1 : le x1 x1')
    (h_x2 : x2 = x2') :
    Rel le (fillC E P bits cap x0 x1 x2) (fillC E' P bits' cap' x0 x1' x2') := by
  induction x0 generalizing x1 x1' x2 x2' with
  | zero =>
    unfold fillC
    prep <;> rel
  | succ n ih =>
    unfold fillC
    prep <;> rel

theorem rel_scanP {P : Params} {chunks chunks' : List Nat} {challengeP challengeP' : List Nat}
    (h_chunks : chunks = chunks') (h_challengeP : challengeP = challengeP') :
    Rel le (scanP P chunks challengeP) (scanP P chunks' challengeP') := by
  unfold scanP
  prep <;> rel

theorem rel_fillP {E E' : Env} {P : Params} {bits bits' : Nat} {cap cap' : Nat} {x0 : Nat} {x1 x1' : Buf}
    {x2 x2' : List Nat} (hE : EnvRel E E') (h_bits : bits = bits') (h_cap : cap = cap') (h_x1 : le x1 x1')
    (h_x2 : x2 = x2') :
    Rel le (fillP E P bits cap x0 x1 x2) (fillP E' P bits' cap' x0 x1' x2') := by
  induction x0 generalizing x1 x1' x2 x2' with
  | zero =>
    unfold fillP
    prep <;> rel
  | succ n ih =>
    unfold fillP
    prep <;> rel

theorem rel_expandChallengeHash {E E' : Env} {P : Params} {challengeHash challengeHash' : Buf} (hE : EnvRel E E')
    (h_challengeHash : le challengeHash challengeHash') :
    Rel le (expandChallengeHash E P challengeHash) (expandChallengeHash E' P challengeHash') := by
  unfold expandChallengeHash
  rw [hE.fuel]
  prep <;> rel

theorem rel_HCPhash {E E' : Env} {P : Params} {challengeHash challengeHash' : Buf} {Ch Ch' : List Buf}
    {hCv hCv' : Buf} {salt salt' : Buf} {pubKey pubKey' : Buf} {plaintext plaintext' : Buf} {message message' : Buf}
    {messageByteLength messageByteLength' : Nat} (hE : EnvRel E E')
    (h_challengeHash : le challengeHash challengeHash') (h_Ch : le Ch Ch') (h_hCv : le hCv hCv')
    (h_salt : le salt salt') (h_pubKey : le pubKey pubKey') (h_plaintext : le plaintext plaintext')
    (h_message : le message message') (h_messageByteLength : messageByteLength = messageByteLength') :
    Rel le (HCPhash E P challengeHash Ch hCv salt pubKey plaintext message messageByteLength) (HCPhash E' P challengeHash' Ch' hCv' salt' pubKey' plaintext' message' messageByteLength') := by
  unfold HCPhash
  prep <;> rel

theorem rel_getMissingLeavesList {P : Params} {challengeC challengeC' : List Nat}
    (h_challengeC : challengeC = challengeC') :
    Rel le (getMissingLeavesList P challengeC) (getMissingLeavesList P challengeC') := by
  unfold getMissingLeavesList
  prep <;> rel

theorem rel_commitInto {E E' : Env} {P : Params} {C C' : List Buf} {seeds seeds' : Tree} {aux aux' : Option Buf}
    {salt salt' : Buf} {t t' : Nat} {j j' : Nat} (hE : EnvRel E E') (h_C : le C C') (h_seeds : le seeds seeds')
    (h_aux : le aux aux') (h_salt : le salt salt') (h_t : t = t') (h_j : j = j') :
    Rel le (commitInto E P C seeds aux salt t j) (commitInto E' P C' seeds' aux' salt' t' j') := by
  unfold commitInto
  prep <;> rel

theorem rel_computeSaltAndRootSeed {E E' : Env} {P : Params} {saltAndRoot saltAndRoot' : Buf}
    {saltAndRootLength saltAndRootLength' : Nat} {privateKey privateKey' : Buf} {pubKey pubKey' : Buf}
    {plaintext plaintext' : Buf} {message message' : Buf} {messageByteLength messageByteLength' : Nat}
    (hE : EnvRel E E') (h_saltAndRoot : le saltAndRoot saltAndRoot')
    (h_saltAndRootLength : saltAndRootLength = saltAndRootLength') (h_privateKey : le privateKey privateKey')
    (h_pubKey : le pubKey pubKey') (h_plaintext : le plaintext plaintext') (h_message : le message message')
    (h_messageByteLength : messageByteLength = messageByteLength') :
    Rel le (computeSaltAndRootSeed E P saltAndRoot saltAndRootLength privateKey pubKey plaintext message messageByteLength) (computeSaltAndRootSeed E' P saltAndRoot' saltAndRootLength' privateKey' pubKey' plaintext' message' messageByteLength') := by
  unfold computeSaltAndRootSeed
  prep <;> rel

theorem rel_signPrep {E E' : Env} {P : Params} {iSeedsTree iSeedsTree' : Tree} {salt salt' : Buf} {t t' : Nat}
    (hE : EnvRel E E') (h_iSeedsTree : le iSeedsTree iSeedsTree') (h_salt : le salt salt') (h_t : t = t') :
    Rel le (signPrep E P iSeedsTree salt t) (signPrep E' P iSeedsTree' salt' t') := by
  unfold signPrep
  prep <;> rel

theorem rel_signOnline {E E' : Env} {P : Params} {p p' : Prep} {privateKey privateKey' : Buf}
    {pubKey pubKey' : Buf} {plaintext plaintext' : Buf} {t t' : Nat} (hE : EnvRel E E') (h_p : le p p')
    (h_privateKey : le privateKey privateKey') (h_pubKey : le pubKey pubKey') (h_plaintext : le plaintext plaintext')
    (h_t : t = t') :
    Rel le (signOnline E P p privateKey pubKey plaintext t) (signOnline E' P p' privateKey' pubKey' plaintext' t') := by
  unfold signOnline
  prep <;> rel

theorem rel_signProof {E E' : Env} {P : Params} {challengeC challengeC' : List Nat}
    {challengeP challengeP' : List Nat} {p p' : Prep} {maskedKey maskedKey' : Buf} {msgs msgs' : Msgs} {t t' : Nat}
    (hE : EnvRel E E') (h_challengeC : challengeC = challengeC') (h_challengeP : challengeP = challengeP')
    (h_p : le p p') (h_maskedKey : le maskedKey maskedKey') (h_msgs : le msgs msgs') (h_t : t = t') :
    Rel le (signProof E P challengeC challengeP p maskedKey msgs t) (signProof E' P challengeC' challengeP' p' maskedKey' msgs' t') := by
  unfold signProof
  prep <;> rel

theorem rel_signPicnic3 {E E' : Env} {P : Params} {privateKey privateKey' : Buf} {pubKey pubKey' : Buf}
    {plaintext plaintext' : Buf} {message message' : Buf} {messageByteLength messageByteLength' : Nat}
    {sig sig' : Signature2} (hE : EnvRel E E') (h_privateKey : le privateKey privateKey')
    (h_pubKey : le pubKey pubKey') (h_plaintext : le plaintext plaintext') (h_message : le message message')
    (h_messageByteLength : messageByteLength = messageByteLength') (h_sig : le sig sig') :
    Rel le (signPicnic3 E P privateKey pubKey plaintext message messageByteLength sig) (signPicnic3 E' P privateKey' pubKey' plaintext' message' messageByteLength' sig') := by
  unfold signPicnic3
  prep <;> rel

theorem rel_proofsSize {P : Params} {challengeC challengeC' challengeP challengeP' : List Nat} {f f' : Nat → M Nat}
    {start start' : Nat} (h_challengeC : challengeC = challengeC') (h_challengeP : challengeP = challengeP')
    (h_f : ∀ t, Rel le (f t) (f' t)) (h_start : start = start') :
    Rel le (proofsSize P challengeC challengeP f start) (proofsSize P challengeC' challengeP' f' start') := by
  unfold proofsSize
  prep <;> rel

theorem rel_serializeSignature2 {P : Params} {sig sig' : Signature2} {sigBytes sigBytes' : Buf}
    {sigBytesLen sigBytesLen' : Nat} (h_sig : le sig sig') (h_sigBytes : le sigBytes sigBytes')
    (h_sigBytesLen : sigBytesLen = sigBytesLen') :
    Rel le (serializeSignature2 P sig sigBytes sigBytesLen) (serializeSignature2 P sig' sigBytes' sigBytesLen') := by
  unfold serializeSignature2
  prep <;> rel

end Picnic.Leak
