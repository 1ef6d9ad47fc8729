import Verif.Proofs.P3Sign

/-
A signature made by `sign_picnic3` passes `verify_picnic3`.
-/

namespace Picnic

open Spec Spec.Tree

variable {E : Env} {P : Params} {salt root key pk pt msg : Buf} {C Q : List ℕ}

theorem getD_arrN {α : Type} {N i : ℕ} {f : ℕ → α} {d : α} (h : i < N) : (arrN N f).getD i d = f i := by
  simp [arrN, List.getD_eq_getElem?_getD, h]

theorem sSig_proof (hc : ChalWF P C Q) {t : ℕ} (ht : t ∈ C) :
    (sSig E P salt root key pk pt msg C Q).proofs.getD t none = some (sPf E P salt root key pt t (hidOf C Q t)) := by
  change (arrN _ _).getD t none = _
  rw [getD_arrN (hc.ltC t ht), if_pos ht]

theorem pfOf_sSig (hc : ChalWF P C Q) {t : ℕ} (ht : t ∈ C) :
    pfOf (sSig E P salt root key pk pt msg C Q) t = sPf E P salt root key pt t (hidOf C Q t) := by
  unfold pfOf
  rw [sSig_proof hc ht]; rfl

theorem sPf_wf {t k : ℕ} (h3 : P3WF P) (hr : root.length = P.seedSizeBytes) (hk : k < 16) : Pf2WF P (sPf E P salt root key pt t k) where
  seedLen := by
    change (List.flatMap _ _).length = _
    rw [flatMap_blocks_length fun r _ => sNode_length hr t r, revN_16 hk]
  seedInfoLen := rfl
  aux := by
    change (if k ≠ 15 then _ else _ : Buf).length = _
    split
    · exact auxOf_length
    · simp
  C := p3Com_length
  input := by
    have := h3.bytes
    change (List.take _ _).length = _
    rw [List.length_take, sMk_length]; omega
  msgs := sMsgs_length t k

theorem sSig_wf (h3 : P3WF P) (hc : ChalWF P C Q) (hsl : salt.length = P.saltSizeBytes) (hr : root.length = P.seedSizeBytes) :
    Sig2WF P (sSig E P salt root key pk pt msg C Q) where
  chal := hc
  salt := hsl
  hash := H_length _ _ _ _ _
  iSeedInfo := flatMap_blocks_length fun r _ => sTree_length hr r
  iSeedInfoLen := (flatMap_blocks_length fun r _ => sTree_length hr r).symm
  cvInfo := flatMap_blocks_length fun r _ => sMerkle_length r
  cvInfoLen := (flatMap_blocks_length fun r _ => sMerkle_length r).symm
  proofs := by
    change (arrN _ _).length = _
    simp [arrN]
  proof := fun t ht => by
    rw [pfOf_sSig hc ht]
    exact ⟨sSig_proof hc ht, sPf_wf h3 hr (hid_lt h3 hc ht).2⟩

section
variable (h3 : P3WF P) (hc : ChalWF P C Q) (hr : root.length = P.seedSizeBytes)
include h3 hc hr

theorem vNode_unopened {t : ℕ} (ht : t < P.numMPCRounds) (htC : t ∉ C) : vNode E P (sSig E P salt root key pk pt msg C Q) t = sNode E P salt root t := by
  have hT1 := h3.Tpos
  have hT2 := h3.T
  have hu := h3.upos
  funext i
  unfold vNode
  rw [if_neg (by exact htC)]
  unfold vLeaf
  have := recS_leaf (E := E) (P := P) (D := ceilLog2 P.numMPCRounds) (n := P.numMPCRounds) (rep := 0) (j := t) (l := C) (salt := salt) (root := root)
    (clog_pos (by omega) (by omega)) (by omega) (ceilLog2_le (by omega) (by omega)) hr hc.ltC
    (by intro h; have h := hc.lenC; subst ‹C = []›; simp at h; omega) ht htC
  change seedVl E P salt t (recS E P salt 0 _ _ C (List.flatMap (sTree E P salt root) _) _) 4 16 i = _
  unfold sTree
  rw [this]
  rfl

theorem vNode_opened {t j : ℕ} (ht : t ∈ C) (hj : j < 16) (hjk : j ≠ hidOf C Q t) :
    vNode E P (sSig E P salt root key pk pt msg C Q) t (2 ^ 4 - 1 + j) = sNode E P salt root t (2 ^ 4 - 1 + j) := by
  unfold vNode
  rw [if_pos (by exact ht), pfOf_sSig hc ht]
  have hk := (hid_lt h3 hc ht).2
  exact recS_leaf (by decide) (by decide) (by decide) (sTree_length hr _) (List.forall_mem_singleton.2 hk) (by simp) hj
    (fun h => hjk (List.mem_singleton.1 h))

theorem vCom_eq {t j : ℕ} (ht : t < P.numMPCRounds) (hj : j < 16) : vCom E P (sSig E P salt root key pk pt msg C Q) t j = sCom E P salt root t j := by
  unfold vCom
  by_cases h : t ∈ C
  · rw [if_pos (by exact h), pfOf_sSig hc h]
    by_cases hjk : j = hidOf C Q t
    · rw [if_pos (by exact hjk), hjk]; rfl
    · rw [if_neg (by exact hjk), vNode_opened h3 hc hr h hj hjk]
      unfold sCom
      congr 1
      by_cases e : j = 15
      · rw [if_pos e, if_pos e]
        exact if_pos (by omega)
      · rw [if_neg e, if_neg e]
  · rw [if_neg (by exact h)]
    have hn := vNode_unopened (E := E) (salt := salt) (key := key) (pk := pk) (pt := pt) (msg := msg) h3 hc hr ht h
    have htp : vTape E P (sSig E P salt root key pk pt msg C Q) t = sTape E P salt root t := by
      funext i; unfold vTape sTape; rw [hn]; rfl
    rw [hn, htp]; rfl

theorem vCh_eq {t : ℕ} (ht : t < P.numMPCRounds) : vCh E P (sSig E P salt root key pk pt msg C Q) t = sCh E P salt root t := by
  unfold vCh sCh
  rw [cat_congr fun j hj => vCom_eq h3 hc hr ht hj]

/-- In the online phase, verifier and signer use the same tapes. -/
theorem vOTape_eq {t j p : ℕ} (hP : ParamsWF P) (ht : t ∈ C) (hj : j < 16) (hjk : j ≠ hidOf C Q t) (hp : p < P.stateSizeBits * 2 * P.numRounds) :
    bitsOf (auxTp P (E.lowmc P) (sTape E P salt root t) j) p = bitsOf (vOTape E P (sSig E P salt root key pk pt msg C Q) t j) p := by
  have htp : vTape E P (sSig E P salt root key pk pt msg C Q) t j = sTape E P salt root t j := by
    unfold vTape sTape; rw [vNode_opened h3 hc hr ht hj hjk]; rfl
  have htape := h3.tape
  have hn := hP.nPos
  have e2 : P.stateSizeBits * 2 * P.numRounds = 2 * (P.stateSizeBits * P.numRounds) := by ring
  unfold vOTape
  rw [if_neg (by exact hjk)]
  by_cases e : j = 15
  · subst e
    rw [if_pos rfl, htp, pfOf_sSig hc ht, show (sPf E P salt root key pt t (hidOf C Q t)).aux = auxOf E P (sTape E P salt root t) from if_pos (by omega)]
    have hl15 := sTape_length (E := E) (P := P) (salt := salt) (root := root) t 15
    have hp8 : p < 8 * (sTape E P salt root t 15).length := by rw [hl15]; omega
    unfold setAuxP
    rw [bitsOf_ofBits _ hp8]
    by_cases hcnd : P.stateSizeBits ≤ p % (P.stateSizeBits * 2)
    · rw [if_pos ⟨hp, hcnd⟩]
      have hdm := Nat.div_add_mod p (P.stateSizeBits * 2)
      have hml := Nat.mod_lt p (show 0 < P.stateSizeBits * 2 by omega)
      have hr' : p / (P.stateSizeBits * 2) < P.numRounds := Nat.div_lt_of_lt_mul hp
      have hq : p % (P.stateSizeBits * 2) - P.stateSizeBits < P.stateSizeBits := by omega
      obtain ⟨d1, d2⟩ := mul_div_mod (r := p / (P.stateSizeBits * 2)) hq
      have hb : P.stateSizeBits * (p / (P.stateSizeBits * 2)) + (p % (P.stateSizeBits * 2) - P.stateSizeBits) < P.stateSizeBits * P.numRounds := by
        have : P.stateSizeBits * (p / (P.stateSizeBits * 2) + 1) ≤ P.stateSizeBits * P.numRounds := Nat.mul_le_mul_left _ hr'
        rw [Nat.mul_succ] at this; omega
      unfold auxOf
      rw [bitsOf_ofBits _ (by omega), auxBitsOf, if_pos hb, d1, d2]
      congr 1
      omega
    · rw [if_neg (by rintro ⟨_, h⟩; exact hcnd h)]
      unfold auxTp
      rw [if_pos rfl, bitsOf_ofBits _ hp8, auxTape, if_neg (by rintro ⟨_, h⟩; exact hcnd h)]
  · rw [if_neg e, htp, auxTp_ne e]

theorem online_eq {t : ℕ} {pt' : Buf} (hP : ParamsWF P) (hpt : pt'.take P.stateSizeBytes = pt.take P.stateSizeBytes) (ht : t ∈ C) :
    vOut E P (sSig E P salt root key pk pt msg C Q) pt' t = sOut E P salt root key pt t ∧
    ∀ j < 16, vMsgs E P (sSig E P salt root key pk pt msg C Q) pt' t j = sMsgs E P salt root key pt t j := by
  have hby := hP.bytes
  have hR := hP.rounds
  have hn := hP.nPos
  have htape := h3.tape
  have hptb : ∀ i < P.stateSizeBits, bitsOf pt i = bitsOf pt' i := fun i hi => by
    rw [← bitsOf_take (b := pt) (n := P.stateSizeBytes) (by omega), ← hpt, bitsOf_take (by omega)]
  have hmsk : (vMs P (sSig E P salt root key pk pt msg C Q) t (hidOf C Q t)) = sMsgs E P salt root key pt t (hidOf C Q t) := by
    unfold vMs
    rw [if_pos (by rfl), pfOf_sSig hc ht]; rfl
  have hlock := onState_lockstep (P := P) (C := E.lowmc P) (tb := fun j => bitsOf (auxTp P (E.lowmc P) (sTape E P salt root t) j))
    (tb' := fun j => bitsOf (vOTape E P (sSig E P salt root key pk pt msg C Q) t j)) (mu := fun _ => bitsOf (zeros P.andSizeBytes))
    (mu' := fun j => bitsOf (vMs P (sSig E P salt root key pk pt msg C Q) t j)) (k := hidOf C Q t)
    (mk := bitsOf (sMk E P salt root key t)) (mk' := bitsOf (pfOf (sSig E P salt root key pk pt msg C Q) t).input) (pt := bitsOf pt) (pt' := bitsOf pt')
    (by have := h3.full; omega)
    (fun j hj hjk p hp => vOTape_eq h3 hc hr hP ht hj hjk hp)
    (fun i hi => by
      rw [pfOf_sSig hc ht]
      exact (bitsOf_take (by omega)).symm)
    hptb
    (fun r hr' i hi => by
      have hb : P.stateSizeBits * r + i < P.stateSizeBits * P.numRounds := by
        have : P.stateSizeBits * (r + 1) ≤ P.stateSizeBits * P.numRounds := Nat.mul_le_mul_left _ hr'
        rw [Nat.mul_succ] at this; omega
      obtain ⟨d1, d2⟩ := mul_div_mod (r := r) hi
      rw [hmsk]
      unfold sMsgs
      rw [bitsOf_ofBits _ (by omega), onMsg, if_pos hb, d1, d2])
  refine ⟨?_, fun j hj => ?_⟩
  · unfold vOut sOut
    refine ofBits_congr fun i _ => ?_
    by_cases hi : i < P.stateSizeBits
    · exact (hlock.1 _ le_rfl i hi).symm
    · rw [onState_ge hR (by omega), onState_ge hR (by omega)]
  · unfold vMsgs sMsgs
    refine ofBits_congr fun p _ => ?_
    unfold onMsg
    by_cases hp : p < P.stateSizeBits * P.numRounds
    · rw [if_pos hp, if_pos hp]
      exact (hlock.2 _ (Nat.div_lt_of_lt_mul hp) j hj _ (Nat.mod_lt _ hn)).symm
    · rw [if_neg hp, if_neg hp]
      by_cases e : j = hidOf C Q t
      · rw [e]
        dsimp only
        rw [hmsk]
        by_cases hp8 : p < 8 * P.andSizeBytes
        · unfold sMsgs
          rw [bitsOf_ofBits _ hp8, onMsg, if_neg hp]
        · rw [bitsOf_zeros]
          exact bitsOf_ge (by rw [sMsgs_length]; omega)
      · dsimp only
        unfold vMs
        rw [if_neg (by exact e)]

theorem vRoot_eq {pt' : Buf} (hP : ParamsWF P) (hpt : pt'.take P.stateSizeBytes = pt.take P.stateSizeBytes) :
    vRoot E P (sSig E P salt root key pk pt msg C Q) pt' = sMerkle E P salt root key pt 0 := by
  have hT1 := h3.Tpos
  have hT2 := h3.T
  have hlg := ceilLog2_le (by omega : 1 ≤ P.numMPCRounds) (by omega)
  obtain ⟨m1, m2, m3, m4, m5, ⟨y, hy⟩, m7⟩ := mrev_facts h3 hc.lenC hc.ltC
  have hpre := present_atDepth (l := missing P.numMPCRounds C) hlg
  exact (verify_complete (E := E) (P := P) (salt := salt) (l := missing P.numMPCRounds C) (ld := fun t => some (sCv E P salt root key pt t))
    (ld' := vCv E P (sSig E P salt root key pk pt msg C Q) pt') (by omega) hlg
    (fun j _ => ⟨_, rfl, (H_length _ _ _ _ _).ge⟩) (fun j hj => by
      unfold vCv
      by_cases h : j ∈ C
      · rw [if_pos (by exact h), if_neg (by rw [mem_missing]; simp [h]), cat_congr (online_eq h3 hc hr hP hpt h).2, pfOf_sSig hc h]
        rfl
      · rw [if_neg (by exact h), if_pos (by rw [mem_missing]; exact ⟨hj, h⟩)]) m5 0
    (exb_root (by omega) hlg) (Or.inl ((up_root hpre).2 ⟨y, hy⟩))).2

theorem vHash_eq {pk' pt' : Buf} (hP : ParamsWF P) (hpt : pt'.take P.stateSizeBytes = pt.take P.stateSizeBytes)
    (hpk : pk'.take P.stateSizeBytes = pk.take P.stateSizeBytes) :
    vHash E P (sSig E P salt root key pk pt msg C Q) pk' pt' msg = sHash E P salt root key pk pt msg := by
  unfold vHash sHash hcpInput
  rw [cat_congr fun t ht => vCh_eq h3 hc hr ht, vRoot_eq h3 hc hr hP hpt, hpt, hpk]
  rfl

end

/-- Signatures of `sign_picnic3` are accepted by `verify_picnic3`. -/
theorem sign_verify {mlen : ℕ} {pk' pt' m' : Buf} (hE : PermWF E) (hP : ParamsWF P) (hSd : SeedWF P) (hMk : MerkleWF P) (h3 : P3WF P) (hSz : P3Sz P)
    (hC : ConstsWF P (E.lowmc P)) (hI : InvLen P (E.lowmc P)) (hI2 : InvOK P (E.lowmc P)) (hc : ChalWF P C Q) (hsl : salt.length = P.saltSizeBytes)
    (hr : root.length = P.seedSizeBytes) (hpt' : 4 * P.stateSizeWords ≤ pt'.length) (hpk' : P.stateSizeBytes ≤ pk'.length) (hm : mlen ≤ m'.length)
    (hm2 : mlen + 200 ≤ 2 ^ 32) (hmsg : m'.take mlen = msg) (hpt : pt'.take P.stateSizeBytes = pt.take P.stateSizeBytes)
    (hpk : pk'.take P.stateSizeBytes = pk.take P.stateSizeBytes)
    (henc : ofBits ((lowmcOf P (E.lowmc P)).enc (bitsOf key) (bitsOf pt)) P.stateSizeBytes = pk.take P.stateSizeBytes) :
    verifyPicnic3 E P (sSig E P salt root key pk pt msg C Q) pk' pt' m' mlen = Outcome.ok true := by
  rw [verifyPicnic3_ok hE hP hSd hMk h3 hSz hC hI (sSig_wf h3 hc hsl hr) hpt' hpk' hm hm2, hmsg, vHash_eq h3 hc hr hP hpt hpk]
  congr 1
  rw [Bool.and_eq_true]
  refine ⟨decide_eq_true fun t ht => ?_, ?_⟩
  · rw [(online_eq h3 hc hr hP hpt ht).1, sOut_enc hP h3 hI2, henc, hpk]
  · exact beq_self_eq_true _

end Picnic
