import Verif.Proofs.P3Tree
import Verif.Proofs.P3Correct

/-
/repo/picnic3_impl.c: `verify_picnic3`, as a function of the decoded signature.
-/

namespace Picnic

open Spec Spec.Tree

/-! ### description -/

/-- The unopened party of round `t`. -/
def hidOf (C Q : List ℕ) (t : ℕ) : ℕ := Q.getD (C.idxOf t) 0

/-- The proof of round `t`. -/
def pfOf (s : Signature2) (t : ℕ) : Proof2 := (s.proofs.getD t none).getD default

/-- The decoded proof of one round has the sizes that the parameter set prescribes. -/
structure Pf2WF (P : Params) (p : Proof2) : Prop where
  seedLen : p.seedInfo.length = 4 * P.seedSizeBytes
  seedInfoLen : p.seedInfoLen = 4 * P.seedSizeBytes
  aux : p.aux.length = P.andSizeBytes
  C : p.C.length = P.digestSizeBytes
  input : p.input.length = P.stateSizeBytes
  msgs : p.msgs.length = P.andSizeBytes

/-- A decoded signature whose parts have the right sizes. -/
structure Sig2WF (P : Params) (s : Signature2) : Prop where
  chal : ChalWF P s.challengeC s.challengeP
  salt : s.salt.length = P.saltSizeBytes
  hash : s.challengeHash.length = P.digestSizeBytes
  iSeedInfo : s.iSeedInfo.length = (revN (ceilLog2 P.numMPCRounds) P.numMPCRounds s.challengeC).length * P.seedSizeBytes
  iSeedInfoLen : s.iSeedInfoLen = s.iSeedInfo.length
  cvInfo : s.cvInfo.length = (mrevN (ceilLog2 P.numMPCRounds) P.numMPCRounds (missing P.numMPCRounds s.challengeC)).length * P.digestSizeBytes
  cvInfoLen : s.cvInfoLen = s.cvInfo.length
  proofs : s.proofs.length = P.numMPCRounds
  proof : ∀ t ∈ s.challengeC, s.proofs.getD t none = some (pfOf s t) ∧ Pf2WF P (pfOf s t)

/-- The seed of round `t`, if it is not opened. -/
noncomputable def vLeaf (E : Env) (P : Params) (s : Signature2) (t : ℕ) : Buf :=
  recS E P s.salt 0 (ceilLog2 P.numMPCRounds) P.numMPCRounds s.challengeC s.iSeedInfo (2 ^ ceilLog2 P.numMPCRounds - 1 + t)

/-- The nodes of the seed tree of round `t`. -/
noncomputable def vNode (E : Env) (P : Params) (s : Signature2) (t : ℕ) (i : ℕ) : Buf :=
  if t ∈ s.challengeC then recS E P s.salt t 4 16 [hidOf s.challengeC s.challengeP t] (pfOf s t).seedInfo i
  else seedVl E P s.salt t (vLeaf E P s t) 4 16 i

/-- The tapes of round `t`. -/
noncomputable def vTape (E : Env) (P : Params) (s : Signature2) (t j : ℕ) : Buf := p3Tape E P s.salt t j (vNode E P s t (2 ^ 4 - 1 + j))

/-- The auxiliary bits for given tapes. -/
noncomputable def auxOf (E : Env) (P : Params) (tp : ℕ → Buf) : Buf := ofBits (auxBitsOf P (auxTp P (E.lowmc P) tp 15)) P.andSizeBytes

/-- The commitments of round `t`. -/
noncomputable def vCom (E : Env) (P : Params) (s : Signature2) (t j : ℕ) : Buf :=
  if t ∈ s.challengeC then
    if j = hidOf s.challengeC s.challengeP t then (pfOf s t).C
    else p3Com E P s.salt t j (vNode E P s t (2 ^ 4 - 1 + j)) (if j = 15 then (pfOf s t).aux else [])
  else p3Com E P s.salt t j (vNode E P s t (2 ^ 4 - 1 + j)) (if j = 15 then auxOf E P (vTape E P s t) else [])

/-- The tapes in the online phase of round `t`. -/
noncomputable def vOTape (E : Env) (P : Params) (s : Signature2) (t j : ℕ) : Buf :=
  if j = hidOf s.challengeC s.challengeP t then zeros (2 * P.andSizeBytes)
  else if j = 15 then setAuxP P (vTape E P s t 15) (pfOf s t).aux else vTape E P s t j

/-- The messages known at the start of the online phase. -/
def vMs (P : Params) (s : Signature2) (t j : ℕ) : Buf := if j = hidOf s.challengeC s.challengeP t then (pfOf s t).msgs else zeros P.andSizeBytes

/-- The output of round `t`. -/
noncomputable def vOut (E : Env) (P : Params) (s : Signature2) (pt : Buf) (t : ℕ) : Buf :=
  ofBits (onState P (E.lowmc P) (fun j => bitsOf (vOTape E P s t j)) (fun j => bitsOf (vMs P s t j)) (some (hidOf s.challengeC s.challengeP t))
    (bitsOf (pfOf s t).input) (bitsOf pt) P.numRounds) P.stateSizeBytes

/-- The messages of round `t` after the online phase. -/
noncomputable def vMsgs (E : Env) (P : Params) (s : Signature2) (pt : Buf) (t j : ℕ) : Buf :=
  ofBits (onMsg P (E.lowmc P) (fun j => bitsOf (vOTape E P s t j)) (fun j => bitsOf (vMs P s t j)) (some (hidOf s.challengeC s.challengeP t))
    (bitsOf (pfOf s t).input) (bitsOf pt) j) P.andSizeBytes

/-- The view commitment of round `t`. -/
noncomputable def vCv (E : Env) (P : Params) (s : Signature2) (pt : Buf) (t : ℕ) : Option Buf :=
  if t ∈ s.challengeC then some (H E P HASH_PREFIX_NONE ((pfOf s t).input ++ cat 16 (vMsgs E P s pt t)) P.digestSizeBytes) else none

noncomputable def vCh (E : Env) (P : Params) (s : Signature2) (t : ℕ) : Buf := H E P HASH_PREFIX_NONE (cat 16 (vCom E P s t)) P.digestSizeBytes

/-- The root of the Merkle tree. -/
noncomputable def vRoot (E : Env) (P : Params) (s : Signature2) (pt : Buf) : Buf :=
  vVl E P s.salt (ceilLog2 P.numMPCRounds) P.numMPCRounds
    (mrevN (ceilLog2 P.numMPCRounds) P.numMPCRounds (missing P.numMPCRounds s.challengeC)) s.cvInfo (vCv E P s pt) 0

/-- The challenge hash that the verifier computes. -/
noncomputable def vHash (E : Env) (P : Params) (s : Signature2) (pk pt msg : Buf) : Buf :=
  H E P HASH_PREFIX_NONE (hcpInput P (vCh E P s) (vRoot E P s pt) s.salt (pk.take P.stateSizeBytes) (pt.take P.stateSizeBytes) msg) P.digestSizeBytes

/-! ### proofs -/

variable {E : Env} {P : Params} {s : Signature2}

theorem hid_lt {C Q : List ℕ} {t : ℕ} (h3 : P3WF P) (hc : ChalWF P C Q) (ht : t ∈ C) : C.idxOf t < Q.length ∧ hidOf C Q t < 16 := by
  have h1 : C.idxOf t < Q.length := by rw [hc.lenQ, ← hc.lenC]; exact List.idxOf_lt_length_iff.2 ht
  refine ⟨h1, ?_⟩
  unfold hidOf
  rw [← h3.parties, List.getD_eq_getElem _ _ h1]
  exact hc.ltQ _ (List.getElem_mem _)

theorem rd_hid {C Q : List ℕ} {t : ℕ} (h3 : P3WF P) (hc : ChalWF P C Q) (ht : t ∈ C) : rd Q (C.idxOf t) = Outcome.ok (hidOf C Q t) := by
  have h := (hid_lt h3 hc ht).1
  unfold rd hidOf
  rw [List.getElem?_eq_getElem h, List.getD_eq_getElem _ _ h]

theorem contains_ok {C Q : List ℕ} (hc : ChalWF P C Q) (t : ℕ) : containsU16 C P.numOpenedRounds t = Outcome.ok (decide (t ∈ C)) := by
  rw [← hc.lenC]; exact containsU16_ok

theorem index_ok {C Q : List ℕ} {t : ℕ} (hc : ChalWF P C Q) (ht : t ∈ C) : indexOfU16 C P.numOpenedRounds t = Outcome.ok (C.idxOf t) := by
  rw [← hc.lenC]; exact indexOfU16_ok ht

theorem rd_proof {t : ℕ} (hs : Sig2WF P s) (ht : t ∈ s.challengeC) : rd s.proofs t = Outcome.ok (some (pfOf s t)) := by
  have h := hs.chal.ltC t ht
  have h2 := (hs.proof t ht).1
  rw [← hs.proofs] at h
  rw [List.getD_eq_getElem _ _ h] at h2
  unfold rd
  rw [List.getElem?_eq_getElem h, h2]

theorem vNode_length {t i : ℕ} (h3 : P3WF P) (hs : Sig2WF P s) : (vNode E P s t i).length = P.seedSizeBytes := by
  unfold vNode
  split_ifs with h
  · refine recS_length ?_ _
    rw [revN_16 (hid_lt h3 hs.chal h).2, (hs.proof t h).2.seedLen]
  · exact seedVl_length (recS_length hs.iSeedInfo.ge _) _ _ _

theorem vTape_length {t j : ℕ} : (vTape E P s t j).length = 2 * P.andSizeBytes := p3Tape_length

theorem verifySeeds_ok {t : ℕ} {hv : ℕ → Bool} (hE : PermWF E) (hP : SeedWF P) (h3 : P3WF P) (hs : Sig2WF P s) (ht : t < P.numMPCRounds) :
    verifySeeds E P s (mkTree (ceilLog2 P.numMPCRounds) P.numMPCRounds P.seedSizeBytes hv
      (recS E P s.salt 0 (ceilLog2 P.numMPCRounds) P.numMPCRounds s.challengeC s.iSeedInfo)) t =
      Outcome.ok (some (mkTree 4 16 P.seedSizeBytes (if t ∈ s.challengeC then
        hvX (exb 4 16) fun i => decide (i ∈ revN 4 16 [hidOf s.challengeC s.challengeP t]) else exb 4 16) (vNode E P s t))) := by
  unfold verifySeeds
  rw [contains_ok hs.chal, ok_bind]
  by_cases h : t ∈ s.challengeC
  · obtain ⟨hp1, hp2⟩ := hs.proof t h
    have hh := (hid_lt h3 hs.chal h).2
    have h4 := h3.seed
    rw [decide_eq_true h, if_neg (by simp), h3.parties, createTree_ok (by decide) (by decide), ok_bind, index_ok hs.chal h, ok_bind,
      rd_hid h3 hs.chal h, ok_bind, rd_proof hs h, ok_bind]
    simp only [deref]
    rw [ok_bind, log16, hp2.seedInfoLen, ← hp2.seedLen]
    have := reconstruct_ok (E := E) (P := P) (D := 4) (n := 16) (rep := t) (l := [hidOf s.challengeC s.challengeP t]) (input := (pfOf s t).seedInfo)
      (salt := s.salt) hE hP (by decide) (by decide) (by decide) hs.salt (by simpa using hh) (by rw [revN_16 hh]; exact hp2.seedLen)
      (by rw [hp2.seedLen]; unfold INT_MAX; omega)
    refine bind_of this ?_
    dsimp only
    rw [if_pos rfl, if_pos h, pure_eq_ok]
    have e : vNode E P s t = recS E P s.salt t 4 16 [hidOf s.challengeC s.challengeP t] (pfOf s t).seedInfo := by
      funext i; unfold vNode; rw [if_pos h]
    rw [e]
  · rw [decide_eq_false h, if_pos (by simp), getLeaf_mk ht, ok_bind, h3.parties, generateSeeds_ok hE hP (by decide) (by decide)
      (recS_length hs.iSeedInfo.ge _) hs.salt, ok_bind, pure_eq_ok, if_neg h, log16]
    have e : vNode E P s t = seedVl E P s.salt t (vLeaf E P s t) 4 16 := by
      funext i; unfold vNode; rw [if_neg h]
    rw [e]
    rfl

/-- The loop over the first parties. -/
theorem commitLoop_ok {c g : ℕ → Buf} {body : ℕ → List Buf → M (List Buf)}
    (h : ∀ j < 15, ∀ f : ℕ → Buf, f j = c j → body j (arrN 16 f) = Outcome.ok (arrN 16 (Function.update f j (g j)))) :
    loop body 15 (arrN 16 c) = Outcome.ok (arrN 16 fun j => if j < 15 then g j else c j) := by
  have key : ∀ k ≤ 15, loop body k (arrN 16 c) = Outcome.ok (arrN 16 fun i => if i < k then g i else c i) := by
    intro k
    induction k with
    | zero => intro _; simp [loop]
    | succ k ih =>
      intro hk
      rw [loop, ih (by omega), ok_bind, h k (by omega) _ (by simp)]
      refine congrArg Outcome.ok (arrN_congr fun i hi => ?_)
      by_cases e : i = k
      · subst e; simp
      · rw [Function.update_of_ne e]
        by_cases e2 : i < k
        · rw [if_pos e2, if_pos (by omega)]
        · rw [if_neg e2, if_neg (by omega)]
  exact key 15 le_rfl

theorem alloc_eq (E : Env) (P : Params) (t : ℕ) : allocateCommitment E P 16 t = arrN 16 fun j => E.junkBuf siteCommit (t * 16 + j) P.digestSizeBytes := rfl

/-- Commitments of a round that is not opened (and of the signer): `auxBits` is the buffer of the auxiliary bits. -/
theorem commitAll_ok {t : ℕ} {hv : ℕ → Bool} {vl : ℕ → Buf} {salt aux : Buf} (hE : PermWF E) (h3 : P3WF P) (hsalt : salt.length = P.saltSizeBytes)
    (hvl : ∀ i, (vl i).length = P.seedSizeBytes) (ha : P.andSizeBytes ≤ aux.length) :
    (do
      let C ← loop (fun j C => commitInto E P C (mkTree 4 16 P.seedSizeBytes hv vl) none salt t j) 15 (allocateCommitment E P 16 t)
      commitInto E P C (mkTree 4 16 P.seedSizeBytes hv vl) (some aux) salt t 15) =
    Outcome.ok (arrN 16 fun j => p3Com E P salt t j (vl (2 ^ 4 - 1 + j)) (if j = 15 then aux.take P.andSizeBytes else [])) := by
  rw [alloc_eq, commitLoop_ok (g := fun j => p3Com E P salt t j (vl (2 ^ 4 - 1 + j)) []) fun j hj f hf => by
    rw [commitInto_ok hE h3 (by omega) (by rw [hf]; simp) (hvl _) hsalt (by intro a h; cases h)]
    rfl]
  rw [ok_bind, commitInto_ok hE h3 (by omega) (by simp) (hvl _) hsalt (by intro a h; injection h with h; subst h; exact ha)]
  refine congrArg Outcome.ok (arrN_congr fun j hj => ?_)
  by_cases e : j = 15
  · subst e; rw [Function.update_self, if_pos rfl]; rfl
  · rw [Function.update_of_ne e, if_pos (by omega), if_neg e]

theorem verifyCommit_ok {t : ℕ} {hv : ℕ → Bool} (hE : PermWF E) (hP : ParamsWF P) (h3 : P3WF P) (hC : ConstsWF P (E.lowmc P)) (hI : InvLen P (E.lowmc P))
    (hs : Sig2WF P s) (ht : t < P.numMPCRounds) :
    verifyCommit E P s (mkTree 4 16 P.seedSizeBytes hv (vNode E P s t)) t =
      Outcome.ok (tapes16 (if t ∈ s.challengeC then vTape E P s t else auxTp P (E.lowmc P) (vTape E P s t)) 0, arrN 16 (vCom E P s t)) := by
  have h4 := h3.and
  unfold verifyCommit
  dsimp only
  rw [getLeaves_mk, createRandomTapes_ok hE h3 (fun j _ => vNode_length h3 hs) hs.salt, ok_bind, contains_ok hs.chal, ok_bind]
  change (if !decide (t ∈ s.challengeC) then _ else _) = _
  by_cases h : t ∈ s.challengeC
  · obtain ⟨hp1, hp2⟩ := hs.proof t h
    have hh := (hid_lt h3 hs.chal h).2
    obtain ⟨k, hk⟩ : ∃ k, k = hidOf s.challengeC s.challengeP t := ⟨_, rfl⟩
    rw [decide_eq_true h, if_neg (by simp), index_ok hs.chal h, ok_bind, rd_hid h3 hs.chal h, ok_bind, h3.parties, alloc_eq, ← hk]
    rw [← hk] at hh
    have hcom : ∀ j, j ≠ k → vCom E P s t j = p3Com E P s.salt t j (vNode E P s t (2 ^ 4 - 1 + j)) (if j = 15 then (pfOf s t).aux else []) := by
      intro j hj; unfold vCom; rw [if_pos h, ← hk, if_neg hj]
    have hcomk : vCom E P s t k = (pfOf s t).C := by unfold vCom; rw [if_pos h, ← hk, if_pos rfl]
    rw [commitLoop_ok (g := fun j => if j ≠ k then p3Com E P s.salt t j (vNode E P s t (2 ^ 4 - 1 + j)) [] else E.junkBuf siteCommit (t * 16 + j) P.digestSizeBytes) fun j hj f hf => by
      by_cases e : j ≠ k
      · rw [if_pos e, if_pos e, commitInto_ok hE h3 (by omega) (by rw [hf]; simp) (vNode_length h3 hs) hs.salt (by intro a h; cases h)]
        rfl
      · rw [if_neg e, if_neg e, ← hf, Function.update_eq_self]; rfl]
    rw [ok_bind, rd_proof hs h, ok_bind]
    rw [if_pos h]
    have htail : ∀ c : ℕ → Buf, (∀ j < 16, j ≠ k → c j = vCom E P s t j) → (c k).length = P.digestSizeBytes →
        (do
          let proof ← deref (some (pfOf s t))
          let slot ← rd (arrN 16 c) k
          let d ← memcpy slot 0 proof.C 0 P.digestSizeBytes
          let C ← wr (arrN 16 c) k d
          pure (tapes16 (vTape E P s t) 0, C) : M (RandomTape × List Buf)) = Outcome.ok (tapes16 (vTape E P s t) 0, arrN 16 (vCom E P s t)) := by
      intro c hc hck
      simp only [deref]
      rw [ok_bind, rd_arrN hh, ok_bind, memcpy_full hp2.C hck, ok_bind, wr_arrN hh, ok_bind, pure_eq_ok]
      refine congrArg (fun x => Outcome.ok (tapes16 (vTape E P s t) 0, x)) (arrN_congr fun j hj => ?_)
      by_cases e : j = k
      · subst e; rw [Function.update_self, hcomk]
      · rw [Function.update_of_ne e, hc j hj e]
    by_cases hl : (15 : ℕ) ≠ k
    · rw [if_pos hl]
      simp only [deref]
      rw [ok_bind, commitInto_ok hE h3 (by omega) (by simp) (vNode_length h3 hs) hs.salt (by intro a h; injection h with h; subst h; exact hp2.aux.ge), ok_bind]
      refine htail _ (fun j hj e => ?_) ?_
      · rw [hcom j e]
        by_cases e15 : j = 15
        · subst e15
          rw [Function.update_self, if_pos rfl, Option.map_some, Option.getD_some, List.take_of_length_le hp2.aux.le]
        · rw [Function.update_of_ne e15, if_pos (by omega), if_pos e, if_neg e15]
      · rw [Function.update_of_ne (Ne.symm hl)]
        by_cases e : k < 15
        · rw [if_pos e, if_neg (by simp)]; simp
        · rw [if_neg e]; simp
    · rw [if_neg hl, pure_eq_ok, ok_bind]
      refine htail _ (fun j hj e => ?_) ?_
      · rw [hcom j e, if_pos (by omega), if_pos e, if_neg (by omega)]
      · rw [if_neg (by omega)]; simp
  · rw [decide_eq_false h, if_pos (by simp), if_neg h]
    refine bind_of (computeAuxTape_ok hP h3 hC hI (fun j _ => vTape_length) (by intro i h; cases h)) ?_
    dsimp only
    have hlen : (auxTp P (E.lowmc P) (vTape E P s t) 15).length = 2 * P.andSizeBytes := by rw [auxTp_length]; exact vTape_length
    have hall := commitAll_ok (E := E) (P := P) (t := t) (hv := hv) (vl := vNode E P s t) (salt := s.salt)
      (aux := ofBits (auxBitsOf P (auxTp P (E.lowmc P) (vTape E P s t) 15)) MAX_AUX_BYTES) hE h3 hs.salt (fun i => vNode_length h3 hs) (by rw [ofBits_length]; unfold MAX_AUX_BYTES; omega)
    rw [h3.parties]
    change (do
      let C ← loop (fun j C => commitInto E P C (mkTree 4 16 P.seedSizeBytes hv (vNode E P s t)) none s.salt t j) 15 (allocateCommitment E P 16 t)
      let auxBits ← getAuxBits P (zeros MAX_AUX_BYTES) (tapes16 (auxTp P (E.lowmc P) (vTape E P s t)) 0)
      let C ← commitInto E P C (mkTree 4 16 P.seedSizeBytes hv (vNode E P s t)) (some auxBits) s.salt t 15
      pure (tapes16 (auxTp P (E.lowmc P) (vTape E P s t)) 0, C) : M (RandomTape × List Buf)) = _
    rw [getAuxBits_ok hP h3 hlen (by unfold MAX_AUX_BYTES; omega)]
    simp only [ok_bind]
    rw [← bind_assoc, hall, ok_bind, pure_eq_ok]
    refine congrArg (fun x => Outcome.ok (tapes16 (auxTp P (E.lowmc P) (vTape E P s t)) 0, x)) (arrN_congr fun j hj => ?_)
    unfold vCom
    rw [if_neg h]
    congr 1
    by_cases e : j = 15
    · rw [if_pos e, if_pos e, ofBits_take (by unfold MAX_AUX_BYTES; omega)]; rfl
    · rw [if_neg e, if_neg e]

theorem verifyOnline_ok {t : ℕ} {pk pt : Buf} (hE : PermWF E) (hP : ParamsWF P) (h3 : P3WF P) (hC : ConstsWF P (E.lowmc P))
    (hs : Sig2WF P s) (hpt : 4 * P.stateSizeWords ≤ pt.length) (hpk : P.stateSizeBytes ≤ pk.length) (tp : ℕ → Buf)
    (htp : t ∈ s.challengeC → tp = vTape E P s t) :
    verifyOnline E P s (tapes16 tp 0) pk pt t = Outcome.ok
      (if t ∈ s.challengeC then if (vOut E P s pt t == pk.take P.stateSizeBytes) = true then some (vCv E P s pt t) else none else some none) := by
  unfold verifyOnline
  dsimp only
  rw [contains_ok hs.chal, ok_bind]
  by_cases h : t ∈ s.challengeC
  · obtain ⟨hp1, hp2⟩ := hs.proof t h
    have hh := (hid_lt h3 hs.chal h).2
    have hby := hP.bytes
    rw [htp h, decide_eq_true h, if_pos rfl, if_pos h, index_ok hs.chal h, ok_bind, rd_hid h3 hs.chal h, ok_bind, rd_proof hs h, ok_bind, h3.parties]
    simp only [deref]
    rw [ok_bind]
    obtain ⟨k, hk⟩ : ∃ k, k = hidOf s.challengeC s.challengeP t := ⟨_, rfl⟩
    rw [← hk] at hh ⊢
    have hol : ∀ j, (vOTape E P s t j).length = 2 * P.andSizeBytes := by
      intro j
      unfold vOTape
      split_ifs
      · simp
      · rw [setAuxP_length]; exact vTape_length
      · exact vTape_length
    have hml : ∀ j, (vMs P s t j).length = P.andSizeBytes := by
      intro j
      unfold vMs
      split_ifs
      · exact hp2.msgs
      · simp
    have htail : ∀ c : ℕ → Buf, (∀ j < 16, j ≠ k → c j = vOTape E P s t j) → (c k).length = 2 * P.andSizeBytes →
        (do
          let tp ← rd (tapes16 c 0).tape k
          let tp ← wrN tp 0 (zeros (2 * P.andSizeBytes))
          let ts ← wr (tapes16 c 0).tape k tp
          let tapes : RandomTape := { (tapes16 c 0) with tape := ts }
          let msgs := allocateMsgs P
          let m ← rd msgs.msgs k
          let m ← memcpy m 0 (pfOf s t).msgs 0 P.andSizeBytes
          let ms ← wr msgs.msgs k m
          let msgs : Msgs := { msgs with msgs := ms, unopened := some k }
          let (ok, _, msgs) ← simulateOnline E P t (pfOf s t).input tapes msgs pt pk
          if !ok then pure none
          else do
            let d ← commitV E P (E.junkBuf siteCommit t P.digestSizeBytes) (pfOf s t).input msgs
            pure (some (some d)) : M (Option (Option Buf))) = Outcome.ok
              (if (vOut E P s pt t == pk.take P.stateSizeBytes) = true then some (vCv E P s pt t) else none) := by
      intro c hc hck
      change (do
          let tp ← rd (arrN 16 c) k
          let tp ← wrN tp 0 (zeros (2 * P.andSizeBytes))
          let ts ← wr (arrN 16 c) k tp
          let m ← rd (List.replicate P.numMPCParties (zeros P.andSizeBytes)) k
          let m ← memcpy m 0 (pfOf s t).msgs 0 P.andSizeBytes
          let ms ← wr (List.replicate P.numMPCParties (zeros P.andSizeBytes)) k m
          let (ok, _, msgs) ← simulateOnline E P t (pfOf s t).input { tape := ts, pos := 0 } { msgs := ms, pos := 0, unopened := some k } pt pk
          if !ok then pure none
          else do
            let d ← commitV E P (E.junkBuf siteCommit t P.digestSizeBytes) (pfOf s t).input msgs
            pure (some (some d)) : M (Option (Option Buf))) = _
      rw [rd_arrN hh, ok_bind, wrN_full (by rw [hck]; simp), ok_bind, wr_arrN hh, ok_bind]
      have hrep : List.replicate P.numMPCParties (zeros P.andSizeBytes) = arrN 16 fun _ => zeros P.andSizeBytes := by
        rw [h3.parties]; simp [arrN, List.map_const']
      rw [hrep, rd_arrN hh, ok_bind, memcpy_full hp2.msgs (by simp), ok_bind, wr_arrN hh, ok_bind]
      have e1 : arrN 16 (Function.update c k (zeros (2 * P.andSizeBytes))) = arrN 16 (vOTape E P s t) := arrN_congr fun j hj => by
        by_cases e : j = k
        · subst e; rw [Function.update_self, vOTape, ← hk, if_pos rfl]
        · rw [Function.update_of_ne e, hc j hj e]
      have e2 : arrN 16 (Function.update (fun _ => zeros P.andSizeBytes) k (pfOf s t).msgs) = arrN 16 (vMs P s t) := arrN_congr fun j hj => by
        by_cases e : j = k
        · subst e; rw [Function.update_self, vMs, ← hk, if_pos rfl]
        · rw [Function.update_of_ne e, vMs, ← hk, if_neg e]
      rw [e1, e2]
      refine bind_of (simulateOnline_ok (u := some k) hP h3 hC (by intro q hq; injection hq with hq; omega) (fun j _ => hol j) (fun j _ => hml j)
        (by rw [hp2.input]; omega) hpt hpk) ?_
      dsimp only
      have eo : vOut E P s pt t = ofBits (onState P (E.lowmc P) (fun j => bitsOf (vOTape E P s t j)) (fun j => bitsOf (vMs P s t j)) (some k)
        (bitsOf (pfOf s t).input) (bitsOf pt) P.numRounds) P.stateSizeBytes := by unfold vOut; rw [← hk]
      rw [← eo]
      cases hq : (vOut E P s pt t == pk.take P.stateSizeBytes) with
      | false => rfl
      | true =>
        rw [if_neg (by simp), if_pos rfl, commitV_ok hE h3 (by simp) (by rw [hp2.input]) (fun j _ => ofBits_length _ _), ok_bind, pure_eq_ok,
          List.take_of_length_le hp2.input.le]
        unfold vCv vMsgs
        rw [if_pos h, ← hk]
    by_cases hl : k ≠ 15
    · rw [if_pos hl, setAuxBits_ok hP h3 vTape_length hp2.aux, ok_bind]
      refine htail _ (fun j hj e => ?_) ?_
      · unfold vOTape
        rw [← hk, if_neg e]
        by_cases e15 : j = 15
        · subst e15; rw [Function.update_self, if_pos rfl]
        · rw [Function.update_of_ne e15, if_neg e15]
      · rw [Function.update_of_ne hl]; exact vTape_length
    · rw [if_neg hl, pure_eq_ok, ok_bind]
      refine htail _ (fun j hj e => ?_) vTape_length
      unfold vOTape
      rw [← hk, if_neg e, if_neg (by omega)]
  · rw [decide_eq_false h, if_neg (by simp), if_neg h]; rfl

theorem verifyPicnic3_ok {pk pt msg : Buf} {mlen : ℕ} (hE : PermWF E) (hP : ParamsWF P) (hSd : SeedWF P) (hMk : MerkleWF P) (h3 : P3WF P) (hSz : P3Sz P)
    (hC : ConstsWF P (E.lowmc P)) (hI : InvLen P (E.lowmc P)) (hs : Sig2WF P s)
    (hpt : 4 * P.stateSizeWords ≤ pt.length) (hpk : P.stateSizeBytes ≤ pk.length) (hm : mlen ≤ msg.length) (hm2 : mlen + 200 ≤ 2 ^ 32) :
    verifyPicnic3 E P s pk pt msg mlen = Outcome.ok
      (decide (∀ t ∈ s.challengeC, vOut E P s pt t = pk.take P.stateSizeBytes) && (s.challengeHash == vHash E P s pk pt (msg.take mlen))) := by
  have hT1 := h3.Tpos
  have hT2 := h3.T
  have hu := h3.upos
  have hu2 := h3.u
  have hd := h3.dig
  have hsd := h3.seed
  have hbw := h3.bytes
  have hlg := ceilLog2_le (by omega : 1 ≤ P.numMPCRounds) (by omega)
  have hD := clog_pos (by omega : 2 ≤ P.numMPCRounds) (by omega)
  have hp : 1 ≤ 2 ^ ceilLog2 P.numMPCRounds := Nat.one_le_two_pow
  obtain ⟨hr1, hr2⟩ := rev_le h3 hSz hs.chal.lenC hs.chal.nodup hs.chal.ltC
  have hml := missing_length hs.chal.nodup hs.chal.ltC
  rw [hs.chal.lenC] at hml
  obtain ⟨m1, m2, m3, m4, m5, m6, m7⟩ := mrev_facts h3 hs.chal.lenC hs.chal.ltC
  have hi1 : (revN (ceilLog2 P.numMPCRounds) P.numMPCRounds s.challengeC).length * P.seedSizeBytes ≤ 601 * 32 := Nat.mul_le_mul (by omega) hsd
  have hi2 : (mrevN (ceilLog2 P.numMPCRounds) P.numMPCRounds (missing P.numMPCRounds s.challengeC)).length * P.digestSizeBytes ≤ 601 * 64 :=
    Nat.mul_le_mul (by omega) hd
  unfold verifyPicnic3
  rw [createTree_ok (by omega) (by omega), ok_bind, createTree_ok (by omega) (by omega), ok_bind, hs.iSeedInfoLen]
  have hrec := reconstruct_ok (E := E) (P := P) (D := ceilLog2 P.numMPCRounds) (n := P.numMPCRounds) (rep := 0) (l := s.challengeC) (input := s.iSeedInfo)
    (salt := s.salt) hE hSd hD (by omega) hlg hs.salt hs.chal.ltC hs.iSeedInfo (by rw [hs.iSeedInfo]; unfold INT_MAX; omega)
  rw [hs.chal.lenC] at hrec
  refine bind_of hrec ?_
  dsimp only
  rw [if_neg (by simp), collectOpt_some fun t ht => verifySeeds_ok hE hSd h3 hs ht, ok_bind]
  dsimp only
  rw [collect_arrN (g := fun t => (tapes16 (if t ∈ s.challengeC then vTape E P s t else auxTp P (E.lowmc P) (vTape E P s t)) 0, arrN 16 (vCom E P s t))) fun t ht => by
    rw [rd_arrN ht, ok_bind, verifyCommit_ok hE hP h3 hC hI hs ht]]
  rw [ok_bind]
  have hcl : ∀ t, t < P.numMPCRounds → ∀ j < 16, (vCom E P s t j).length = P.digestSizeBytes := by
    intro t _ j _
    unfold vCom
    split_ifs with h1 h2
    · exact (hs.proof t h1).2.C
    · exact p3Com_length
    · exact p3Com_length
    · exact p3Com_length
    · exact p3Com_length
  rw [collect_arrN (g := vCh E P s) fun t ht => by
    rw [rd_arrN ht, ok_bind, commitH_ok hE h3 (by simp) (hcl t ht)]; rfl]
  rw [ok_bind, collectOpt_ok (g := fun t => if t ∈ s.challengeC then if (vOut E P s pt t == pk.take P.stateSizeBytes) = true then some (vCv E P s pt t) else none else some none)
    fun t ht => by
      rw [rd_arrN ht, ok_bind]
      exact verifyOnline_ok hE hP h3 hC hs hpt hpk _ (fun h => by rw [if_pos h])]
  rw [ok_bind]
  by_cases hall : ∀ t ∈ s.challengeC, vOut E P s pt t = pk.take P.stateSizeBytes
  · rw [decide_eq_true hall, Bool.true_and]
    have hcv : ∀ t < P.numMPCRounds, (if t ∈ s.challengeC then if (vOut E P s pt t == pk.take P.stateSizeBytes) = true then some (vCv E P s pt t) else none else some none) =
        some (vCv E P s pt t) := by
      intro t _
      by_cases h : t ∈ s.challengeC
      · rw [if_pos h, if_pos (by simpa using hall t h)]
      · rw [if_neg h, vCv, if_neg h]
    rw [if_pos (show ∀ t < P.numMPCRounds, (if t ∈ s.challengeC then if (vOut E P s pt t == pk.take P.stateSizeBytes) = true then some (vCv E P s pt t) else none else some none).isSome = true
      from fun t ht => by rw [hcv t ht]; rfl), filterMap_some (g' := vCv E P s pt) hcv]
    dsimp only
    rw [getMissingLeavesList_ok hs.chal.lenC hs.chal.nodup hs.chal.ltC, ok_bind]
    have hadd := addMerkleNodes_ok (D := ceilLog2 P.numMPCRounds) (n := P.numMPCRounds) (ds := P.digestSizeBytes) (input := s.cvInfo)
      (by omega) (m1 ..) m2 m3 m4 hs.cvInfo (by unfold INT_MAX; omega)
    rw [show (missing P.numMPCRounds s.challengeC).length = P.numMPCRounds - P.numOpenedRounds by omega, ← hs.cvInfo, ← hs.cvInfoLen] at hadd
    refine bind_of hadd ?_
    dsimp only
    rw [if_neg (by simp)]
    have hcvl : ∀ t, ∀ d, vCv E P s pt t = some d → d.length = P.digestSizeBytes ∧ t ∈ s.challengeC := by
      intro t d hd
      unfold vCv at hd
      by_cases h : t ∈ s.challengeC
      · rw [if_pos h] at hd; injection hd with hd; exact ⟨by rw [← hd]; exact H_length _ _ _ _ _, h⟩
      · rw [if_neg h] at hd; cases hd
    refine bind_of (verifyMerkleTree_ok hE hMk (by omega) hlg hs.salt (fun j hj d hd => ⟨(hcvl j d hd).1.ge, m7 j (hcvl j d hd).2⟩) hs.cvInfo) ?_
    dsimp only
    have hroot : vHv (ceilLog2 P.numMPCRounds) P.numMPCRounds (mrevN (ceilLog2 P.numMPCRounds) P.numMPCRounds (missing P.numMPCRounds s.challengeC)) (vCv E P s pt) 0 = true := by
      have := (verify_complete (E := E) (P := P) (salt := s.salt) (D := ceilLog2 P.numMPCRounds) (n := P.numMPCRounds)
        (l := missing P.numMPCRounds s.challengeC) (rv := mrevN (ceilLog2 P.numMPCRounds) P.numMPCRounds (missing P.numMPCRounds s.challengeC))
        (ld := fun j => some ((vCv E P s pt j).getD (zeros P.digestSizeBytes))) (ld' := vCv E P s pt) (by omega) hlg (fun j hj => ⟨_, rfl, by
          unfold vCv
          split_ifs
          · rw [Option.getD_some, H_length]
          · simp⟩) (fun j hj => by
          by_cases h : j ∈ s.challengeC
          · rw [if_neg (fun hm => (mem_missing.1 hm).2 h)]
            unfold vCv
            rw [if_pos h]; rfl
          · rw [if_pos (mem_missing.2 ⟨hj, h⟩), vCv, if_neg h]) m5 0 (exb_root (by omega) hlg) (Or.inl ((up_root (present_atDepth hlg)).2 m6))).1
      exact this
    rw [hroot, if_neg (by simp)]
    have hrl : (vRoot E P s pt).length = P.digestSizeBytes :=
      mvl_length (fun i => leafVl_length (fun i => inVl_length hs.cvInfo.ge i) fun j hj d hd => (hcvl j d hd).1.ge) 0
    change (do
      let root ← rd (arrN (2 ^ ceilLog2 P.numMPCRounds - 1 + P.numMPCRounds) (vVl E P s.salt (ceilLog2 P.numMPCRounds) P.numMPCRounds
        (mrevN (ceilLog2 P.numMPCRounds) P.numMPCRounds (missing P.numMPCRounds s.challengeC)) s.cvInfo (vCv E P s pt))) 0
      let challengeHash ← HCPhash E P (E.junkBuf siteHash 0 MAX_DIGEST_SIZE) (arrN P.numMPCRounds (vCh E P s)) root s.salt pk pt msg mlen
      memeq s.challengeHash challengeHash P.digestSizeBytes : M Bool) = _
    rw [rd_arrN (by omega), ok_bind]
    change (do
      let challengeHash ← HCPhash E P (E.junkBuf siteHash 0 MAX_DIGEST_SIZE) (arrN P.numMPCRounds (vCh E P s)) (vRoot E P s pt) s.salt pk pt msg mlen
      memeq s.challengeHash challengeHash P.digestSizeBytes : M Bool) = _
    rw [HCPhash_ok (ch := vCh E P s) hE h3 (by simp [MAX_DIGEST_SIZE]; omega) (fun t _ => H_length _ _ _ _ _) hrl hs.salt hpk (by omega) hm hm2, ok_bind]
    have hvl : (vHash E P s pk pt (msg.take mlen)).length = P.digestSizeBytes := H_length _ _ _ _ _
    change memeq s.challengeHash (vHash E P s pk pt (msg.take mlen) ++ _) P.digestSizeBytes = _
    rw [memeq_ok hs.hash.ge (by rw [List.length_append]; omega), List.take_of_length_le hs.hash.le, List.take_append_of_le_length hvl.ge, List.take_of_length_le hvl.le]
  · rw [decide_eq_false hall, Bool.false_and, if_neg]
    · rfl
    · intro hc
      refine hall fun t ht => ?_
      have := hc t (hs.chal.ltC t ht)
      rw [if_pos ht] at this
      by_contra hne
      rw [if_neg (by simpa using hne)] at this
      cases this

end Picnic
