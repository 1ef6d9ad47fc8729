import Verif.Proofs.Conf3Sig

/-
Verification of Picnic3 signatures in terms of Verif/Spec/Picnic3.lean.
-/

namespace Picnic

open Spec Spec.Challenge Spec.Tree Spec.Picnic3 Finset
open Spec.Picnic1 (toBits int16)

variable {E : Env} {P : Params} {ct pt msg : Buf} {sg : Signature2} {t : ℕ}

theorem single_lt {k : ℕ} (hk : k < 16) : ∀ h ∈ [k], h < 16 := fun h hh => by rw [List.mem_singleton.1 hh]; exact hk

theorem padZero_gate (hP : ParamsWF P) (h3 : P3WF P) {b : Buf} (hl : b.length = P.andSizeBytes) :
    PadZero b (3 * P.numRounds * P.numSboxes) ↔ ∀ p, P.stateSizeBits * P.numRounds ≤ p → bitsOf b p = 0 := by
  have e : 3 * P.numRounds * P.numSboxes = P.stateSizeBits * P.numRounds := by rw [← h3.full]; ring
  rw [e]
  refine ⟨fun h p hp => ?_, fun h p hp _ => h p hp⟩
  have h2 : b.length = (P.stateSizeBits * P.numRounds + 7) / 8 := by rw [hl, hP.andBytes, gates_eq h3]
  by_cases hpl : p < 8 * ((P.stateSizeBits * P.numRounds + 7) / 8)
  · exact h p hp hpl
  · exact bitsOf_ge (by omega)

/-- Round `t` as verification reconstructs it. -/
noncomputable def vRound (E : Env) (P : Params) (sg : Signature2) (pt : Buf) (t : ℕ) : Round :=
  ⟨fun x => vNode E P sg t (x - 1), if t ∈ sg.challengeC then (pfOf sg t).aux else auxOf E P (vTape E P sg t), (pfOf sg t).input,
    vMsgs E P sg pt t, vCom E P sg t⟩

theorem vRound_seed {j : ℕ} : (vRound E P sg pt t).seed j = vNode E P sg t (2 ^ 4 - 1 + j) := by
  change vNode E P sg t (16 + j - 1) = _
  rw [show 16 + j - 1 = 2 ^ 4 - 1 + j by omega]

theorem vRound_tape (hP : ParamsWF P) (j : ℕ) : (inst3 E P).tape sg.salt t j (vRound E P sg pt t) = bitsOf (vTape E P sg t j) := by
  rw [tape3_eq hP, vRound_seed]; rfl

/-- The messages of the unopened party are those in the signature. -/
theorem vMsgs_hid (h3 : P3WF P) (hs : Sig2WF P sg) (ht : t ∈ sg.challengeC) :
    vMsgs E P sg pt t (hidOf sg.challengeC sg.challengeP t) = (pfOf sg t).msgs := by
  have hl := (hs.proof t ht).2.msgs
  unfold vMsgs
  refine buf_ext (by rw [ofBits_length, hl]) fun p hp => ?_
  rw [ofBits_length] at hp
  rw [bitsOf_ofBits _ hp, onMsg]
  by_cases hpn : p < P.stateSizeBits * P.numRounds
  · rw [if_pos hpn, onShare, shareB, if_pos rfl, vMs, if_pos rfl, Nat.div_add_mod]
  · rw [if_neg hpn, vMs, if_pos rfl]

/-- A round that is not opened. -/
theorem vRound_closed (hP : ParamsWF P) (h3 : P3WF P) (hI : InvOK P (E.lowmc P)) (ht : t ∉ sg.challengeC) :
    (inst3 E P).SeedTree sg.salt t 4 16 (vLeaf E P sg t) (vRound E P sg pt t).node ∧
    (∃ κ, (inst3 E P).Prepared sg.salt t (vRound E P sg pt t) κ) ∧
    ∀ j < 16, (vRound E P sg pt t).com j = (inst3 E P).commit sg.salt t (vRound E P sg pt t) j := by
  have ha : (vRound E P sg pt t).aux = auxOf E P (vTape E P sg t) := if_neg ht
  refine ⟨?_, ⟨kap P (E.lowmc P) (vTape E P sg t), (prepared_iff hP h3 hI (fun j _ => vRound_tape hP j) vTape_length _).2 ⟨ha, fun _ _ => rfl⟩⟩, fun j _ => ?_⟩
  · have e : (vRound E P sg pt t).node = fun x => seedVl E P sg.salt t (vLeaf E P sg t) 4 16 (x - 1) := by
      funext x
      change vNode E P sg t (x - 1) = _
      rw [vNode, if_neg ht]
    rw [e]
    exact seedTree_mk (by decide) (by decide)
  · rw [commit_eq, vRound_seed, ha]
    change vCom E P sg t j = _
    rw [vCom, if_neg ht]

/-- An opened round. -/
theorem vRound_opened (hP : ParamsWF P) (h3 : P3WF P) (hs : Sig2WF P sg) (ht : t ∈ sg.challengeC)
    (hpad : Pad2 P (pfOf sg t)) {k : ℕ} (hk : k = hidOf sg.challengeC sg.challengeP t) :
    (inst3 E P).PartialTree sg.salt t 4 16 [k] (vRound E P sg pt t).node ∧
    (revealed 4 16 [k]).flatMap (vRound E P sg pt t).node = (pfOf sg t).seedInfo ∧
    (inst3 E P).Fits k (vRound E P sg pt t) ∧
    (∀ j < 16, j ≠ k → (inst3 E P).Sends (pt.take P.stateSizeBytes) ((inst3 E P).share sg.salt t (vRound E P sg pt t)) (vRound E P sg pt t) j ∧
      (vRound E P sg pt t).com j = (inst3 E P).commit sg.salt t (vRound E P sg pt t) j) ∧
    (inst3 E P).result (pt.take P.stateSizeBytes) (vRound E P sg pt t) = vOut E P sg pt t := by
  have hb := hP.bytes
  have hk16 : k < 16 := hk ▸ (hid_lt h3 hs.chal ht).2
  obtain ⟨-, hw⟩ := hs.proof t ht
  have ha : (vRound E P sg pt t).aux = (pfOf sg t).aux := if_pos ht
  have enode : (vRound E P sg pt t).node = fun x => recS E P sg.salt t 4 16 [k] (pfOf sg t).seedInfo (x - 1) := by
    funext x
    change vNode E P sg t (x - 1) = _
    rw [vNode, if_pos ht, hk]
  have hpt := partial_mk (E := E) (P := P) (salt := sg.salt) (rep := t) (D := 4) (n := 16) (l := [k]) (input := (pfOf sg t).seedInfo)
    (by decide) (by decide) (by decide) (single_lt hk16) (by rw [revN_16 hk16, hw.seedLen])
  have hsends := sends_of (E := E) (v := vRound E P sg pt t) (pt := pt.take P.stateSizeBytes) (sh := (inst3 E P).share sg.salt t (vRound E P sg pt t))
    (tb := fun j => bitsOf (vOTape E P sg t j)) (mu := fun j => bitsOf (vMs P sg t j)) (u := some k)
    (mk := bitsOf (pfOf sg t).input) (pt' := bitsOf pt) hP h3
    (shareOK_set h3 (fun j _ => Or.inl (vRound_tape hP j)) vTape_length (aux := (pfOf sg t).aux) (fun _ => ha) (fun j _ hjk => by
      rw [vOTape, if_neg (by rw [← hk]; exact hjk)]))
    (fun _ _ => rfl) (fun i hi => bitsOf_take (by omega))
    (fun j hj hu p hp => by
      have : j ≠ hidOf sg.challengeC sg.challengeP t := fun e => hu (by rw [hk, e])
      rw [vMs, if_neg this, bitsOf_zeros])
    (fun j hj => by rw [hk]; rfl)
  refine ⟨by rw [enode]; exact hpt.1, by rw [enode]; exact hpt.2, ⟨fun h15 => ?_, ?_, ?_, ?_⟩, fun j hj hjk => ⟨hsends.2 j hj (fun e => hjk (by injection e with e; exact e.symm)), ?_⟩, ?_⟩
  · rw [ha, inst3_gate hP, zeroPad_gate hP h3 hw.aux]
    exact ⟨hw.aux, (padZero_gate hP h3 hw.aux).1 hpad.1⟩
  · rw [inst3_blk hP]; exact hw.input
  · have e : (vRound E P sg pt t).msgs k = (pfOf sg t).msgs := by
      rw [hk]; exact vMsgs_hid h3 hs ht
    rw [e, inst3_gate hP, zeroPad_gate hP h3 hw.msgs]
    exact ⟨hw.msgs, (padZero_gate hP h3 hw.msgs).1 hpad.2⟩
  · change (vCom E P sg t k).length = P.digestSizeBytes
    rw [vCom, if_pos ht, if_pos hk, hw.C]
  · rw [commit_eq, vRound_seed, ha]
    change vCom E P sg t j = _
    rw [vCom, if_pos ht, if_neg (by rw [← hk]; exact hjk)]
  · rw [result_eq hP (hsends.1 P.numRounds le_rfl), hk]; rfl

/-- The Merkle tree of verification. -/
noncomputable def vTree (E : Env) (P : Params) (sg : Signature2) (pt : Buf) (x : ℕ) : Buf :=
  if x = 0 then zeros P.digestSizeBytes else vVl E P sg.salt (ceilLog2 P.numMPCRounds) P.numMPCRounds
    (mrevN (ceilLog2 P.numMPCRounds) P.numMPCRounds (missing P.numMPCRounds sg.challengeC)) sg.cvInfo (vCv E P sg pt) (x - 1)

/-- What verification accepts is valid. -/
theorem valid_of (hP : ParamsWF P) (h3 : P3WF P) (hI : InvOK P (E.lowmc P)) (hs : Sig2WF P sg) (hpad : ∀ t ∈ sg.challengeC, Pad2 P (pfOf sg t))
    (hout : ∀ t ∈ sg.challengeC, vOut E P sg pt t = ct.take P.stateSizeBytes) (hh : sg.challengeHash = vHash E P sg ct pt msg)
    (hch : IsChallenge3 P.numMPCRounds P.numMPCParties P.numOpenedRounds (nextDigest E P) sg.challengeHash sg.challengeC sg.challengeP) :
    (inst3 E P).IsValid (ct.take P.stateSizeBytes) (pt.take P.stateSizeBytes) msg (sig2Bytes P sg) := by
  have hT1 := h3.Tpos
  have hT2 := h3.T
  have hlg := ceilLog2_le (by omega : 1 ≤ P.numMPCRounds) (by omega)
  have hD := clog_pos (by omega : 2 ≤ P.numMPCRounds) (by omega)
  have hp1 : 1 ≤ 2 ^ ceilLog2 P.numMPCRounds := Nat.one_le_two_pow
  have hc := hs.chal
  obtain ⟨m1, m2, m3, m4, m5, m6, m7⟩ := mrev_facts h3 hc.lenC hc.ltC
  have hpt := partial_mk (E := E) (P := P) (salt := sg.salt) (rep := 0) (input := sg.iSeedInfo) hD (by omega) hlg hc.ltC hs.iSeedInfo
  have hmk := merkle_mk (E := E) (P := P) (salt := sg.salt) (input := sg.cvInfo) (S := (· ∈ sg.challengeC)) (v := vRound E P sg pt)
    (ld := vCv E P sg pt) (l := missing P.numMPCRounds sg.challengeC)
    (inst3_depth h3).symm hlg (fun t ht => by rw [mem_missing]; simp [ht]) (fun t ht htl => by
      have : t ∈ sg.challengeC := by
        by_contra h
        exact htl (mem_missing.2 ⟨ht, h⟩)
      rw [vCv, if_pos this]; rfl) m5
  have hroot : vTree E P sg pt 1 = vRoot E P sg pt := rfl
  have hdig : (inst3 E P).challengeDigest (vRound E P sg pt) (vTree E P sg pt) (ct.take P.stateSizeBytes) (pt.take P.stateSizeBytes) sg.salt msg =
      sg.challengeHash := by
    rw [hh]
    exact challengeDigest3_eq hroot fun t ht => rfl
  refine ⟨sg.salt, fun x => recS E P sg.salt 0 (ceilLog2 P.numMPCRounds) P.numMPCRounds sg.challengeC sg.iSeedInfo (x - 1), vTree E P sg pt,
    vRound E P sg pt, sg.challengeC, sg.challengeP, hs.salt.trans h3.salt, ⟨by rw [inst3_depth h3]; exact hpt.1, fun t _ hC => ?_, fun t hC => ?_, hmk, ?_⟩, ?_, ?_⟩
  · have h := vRound_closed (pt := pt) hP h3 hI hC
    have e : vLeaf E P sg t = recS E P sg.salt 0 (ceilLog2 P.numMPCRounds) P.numMPCRounds sg.challengeC sg.iSeedInfo (2 ^ (inst3 E P).depth + t - 1) := by
      rw [vLeaf, inst3_depth h3, show 2 ^ ceilLog2 P.numMPCRounds + t - 1 = 2 ^ ceilLog2 P.numMPCRounds - 1 + t by omega]
    rw [e] at h
    exact h
  · obtain ⟨a1, a2, a3, a4, a5⟩ := vRound_opened (E := E) (pt := pt) hP h3 hs hC (hpad t hC) rfl
    exact ⟨a1, a3, a4, a5.trans (hout t hC)⟩
  · intro x hx
    obtain ⟨x1, x2⟩ := (opened_mem h3 hc).1 hx
    have hld2 : ∀ j < P.numMPCRounds, j ∈ missing P.numMPCRounds sg.challengeC → vCv E P sg pt j = none := fun j hj hjm => by
      rw [vCv, if_neg (mem_missing.1 hjm).2]
    change (vTree E P sg pt x).length = P.digestSizeBytes
    rw [vTree, if_neg (by omega), vVl_opened hlg hld2 m5 x2, inVl_length hs.cvInfo.ge]
  · rw [hdig]
    exact (challenge3_iff h3).2 hch
  · rw [hdig]
    refine (encode3_eq rfl rfl ?_ ?_ rfl rfl fun t ht hC => ?_).symm
    · rw [inst3_depth h3]
      exact hpt.2.symm
    · rw [opened_flatMap h3 hc]
      have hld2 : ∀ j < P.numMPCRounds, j ∈ missing P.numMPCRounds sg.challengeC → vCv E P sg pt j = none := fun j hj hjm => by
        rw [vCv, if_neg (mem_missing.1 hjm).2]
      conv_lhs => rw [← flatMap_inVl (ds := P.digestSizeBytes) m2 hs.cvInfo]
      refine List.flatMap_congr fun r hr => ?_
      rw [vTree, if_neg (by omega), Nat.add_sub_cancel, vVl_opened hlg hld2 m5 hr]
    · obtain ⟨a1, a2, a3, a4, a5⟩ := vRound_opened (E := E) (pt := pt) hP h3 hs hC (hpad t hC) rfl
      refine encodeRound_eq a2.symm (fun _ => (if_pos hC).symm) rfl (vMsgs_hid h3 hs hC).symm ?_
      change _ = vCom E P sg t _
      rw [vCom, if_pos hC, if_pos rfl]

/-- What verification rejects is not valid. -/
theorem valid_to (hP : ParamsWF P) (h3 : P3WF P) (hI : InvOK P (E.lowmc P)) {sig : Buf}
    (h : (inst3 E P).IsValid (ct.take P.stateSizeBytes) (pt.take P.stateSizeBytes) msg sig) :
    ∃ sg : Signature2, Sig2WF P sg ∧ (∀ t < P.numMPCRounds, t ∉ sg.challengeC → sg.proofs.getD t none = none) ∧
      (∀ t ∈ sg.challengeC, hidOf sg.challengeC sg.challengeP t = 15 → (pfOf sg t).aux = zeros P.andSizeBytes) ∧
      (∀ t ∈ sg.challengeC, Pad2 P (pfOf sg t)) ∧
      (∀ t ∈ sg.challengeC, vOut E P sg pt t = ct.take P.stateSizeBytes) ∧ sg.challengeHash = vHash E P sg ct pt msg ∧
      IsChallenge3 P.numMPCRounds P.numMPCParties P.numOpenedRounds (nextDigest E P) sg.challengeHash sg.challengeC sg.challengeP ∧
      sig = sig2Bytes P sg := by
  have hT1 := h3.Tpos
  have hT2 := h3.T
  have hb := hP.bytes
  have hlg := ceilLog2_le (by omega : 1 ≤ P.numMPCRounds) (by omega)
  have hD := clog_pos (by omega : 2 ≤ P.numMPCRounds) (by omega)
  have hp1 : 1 ≤ 2 ^ ceilLog2 P.numMPCRounds := Nat.one_le_two_pow
  obtain ⟨salt, s, h, v, C, Q, hsalt, ⟨hS, hcl, hop, hM, hMl⟩, hch, hsig⟩ := h
  have hch' := (challenge3_iff h3).1 hch
  have hc := isChallenge3_wf hch'
  have hne : C ≠ [] := by
    have := h3.upos
    have := hc.lenC
    rintro rfl
    simp at this
    omega
  obtain ⟨m1, m2, m3, m4, m5, m6, m7⟩ := mrev_facts h3 hc.lenC hc.ltC
  generalize hd : (inst3 E P).challengeDigest v h (ct.take P.stateSizeBytes) (pt.take P.stateSizeBytes) salt msg = d at *
  have hdl : d.length = P.digestSizeBytes := by
    rw [← hd]
    unfold Picnic3.Inst.challengeDigest
    rw [inst3_hash]
    exact H_length _ _ _ _ _
  rw [inst3_depth h3] at hS hcl
  -- the decoded signature
  obtain ⟨pf, hpf⟩ : ∃ pf : ℕ → Proof2, pf = fun t => { seedInfo := (revealed 4 16 [hid C Q t]).flatMap (v t).node, seedInfoLen := 4 * P.seedSizeBytes, aux := if hid C Q t ≠ 15 then (v t).aux else zeros P.andSizeBytes, C := (v t).com (hid C Q t), input := (v t).key, msgs := (v t).msgs (hid C Q t) } := ⟨_, rfl⟩
  obtain ⟨sg, hsg⟩ : ∃ sg : Signature2, sg =
    { salt := salt
      iSeedInfo := (revealed (ceilLog2 P.numMPCRounds) P.numMPCRounds C).flatMap s
      iSeedInfoLen := ((revealed (ceilLog2 P.numMPCRounds) P.numMPCRounds C).flatMap s).length
      cvInfo := (mrevN (ceilLog2 P.numMPCRounds) P.numMPCRounds (missing P.numMPCRounds C)).flatMap fun r => h (r + 1)
      cvInfoLen := ((mrevN (ceilLog2 P.numMPCRounds) P.numMPCRounds (missing P.numMPCRounds C)).flatMap fun r => h (r + 1)).length
      challengeHash := d
      challengeC := C
      challengeP := Q
      proofs := arrN P.numMPCRounds fun t => if t ∈ C then some (pf t) else none } := ⟨_, rfl⟩
  have gC : sg.challengeC = C := by rw [hsg]
  have gQ : sg.challengeP = Q := by rw [hsg]
  have gS : sg.salt = salt := by rw [hsg]
  have gI : sg.iSeedInfo = (revealed (ceilLog2 P.numMPCRounds) P.numMPCRounds C).flatMap s := by rw [hsg]
  have gV : sg.cvInfo = (mrevN (ceilLog2 P.numMPCRounds) P.numMPCRounds (missing P.numMPCRounds C)).flatMap fun r => h (r + 1) := by rw [hsg]
  have gH : sg.challengeHash = d := by rw [hsg]
  have gP : ∀ t < P.numMPCRounds, sg.proofs.getD t none = if t ∈ C then some (pf t) else none := fun t ht => by
    rw [hsg]
    change (arrN _ _).getD t none = _
    rw [getD_arrN ht]
  have gPf : ∀ t ∈ C, pfOf sg t = pf t := fun t ht => by
    rw [pfOf, gP t (hc.ltC t ht), if_pos ht]; rfl
  have hk16 : ∀ t ∈ C, hid C Q t < 16 := fun t ht => (hid_lt h3 hc ht).2
  have hcvl : ∀ r ∈ mrevN (ceilLog2 P.numMPCRounds) P.numMPCRounds (missing P.numMPCRounds C), (h (r + 1)).length = P.digestSizeBytes := fun r hr =>
    hMl (r + 1) ((opened_mem h3 hc).2 ⟨by omega, by rwa [Nat.add_sub_cancel]⟩)
  have hgl : ∀ t ∈ C, Pf2WF P (pf t) := fun t ht => by
    obtain ⟨o1, o2, o3, o4⟩ := hop t ht
    rw [hpf]
    constructor
    · change ((revealed 4 16 [hid C Q t]).flatMap (v t).node).length = _
      rw [revealed_flatMap (D := 4) (n := 16) (by decide) (by decide) (by decide) (single_lt (hk16 t ht)), flatMap_blocks_length (s := P.seedSizeBytes), revN_16 (hk16 t ht)]
      intro r hr
      exact o1.1 _ ((revN_mem (by decide) (by decide) (by decide) (single_lt (hk16 t ht))).1 hr)
    · rfl
    · change (if hid C Q t ≠ 15 then (v t).aux else zeros P.andSizeBytes).length = _
      split_ifs with h15
      · rw [(o2.aux h15).1, inst3_gate hP]
      · simp
    · exact o2.com
    · change (v t).key.length = _
      rw [o2.key, inst3_blk hP]
    · change ((v t).msgs (hid C Q t)).length = _
      rw [o2.msgs.1, inst3_gate hP]
  have hwf : Sig2WF P sg := by
    constructor
    · rw [gC, gQ]; exact hc
    · rw [gS, hsalt, h3.salt]
    · rw [gH, hdl]
    · rw [gI, gC, revealed_flatMap hD (by omega) hlg hc.ltC, flatMap_blocks_length]
      intro r hr
      exact hS.1 _ ((revN_mem hD (by omega) hlg hc.ltC).1 hr)
    · rw [hsg]
    · rw [gV, gC, flatMap_blocks_length hcvl]
    · rw [hsg]
    · rw [hsg]; simp
    · intro t ht
      rw [gC] at ht
      rw [gP t (hc.ltC t ht), if_pos ht, gPf t ht]
      exact ⟨rfl, hgl t ht⟩
  -- nodes of the seed trees
  have hleaf : ∀ t < P.numMPCRounds, t ∉ C → vLeaf E P sg t = s (2 ^ ceilLog2 P.numMPCRounds + t) := fun t ht hC => by
    obtain ⟨k, hk⟩ := revealed_cover hD (by omega) hlg hc.ltC hne ht hC
    have hN : Node (ceilLog2 P.numMPCRounds) P.numMPCRounds (2 ^ ceilLog2 P.numMPCRounds + t) := up_self ⟨by omega, by omega⟩
    rw [vLeaf, gS, gC, partial_val hD (by omega) hlg hc.ltC hS gI _ k hN hk,
      show 2 ^ ceilLog2 P.numMPCRounds + t - 1 = 2 ^ ceilLog2 P.numMPCRounds - 1 + t by omega]
  have hnodeC : ∀ t < P.numMPCRounds, t ∉ C → ∀ j < 16, vNode E P sg t (2 ^ 4 - 1 + j) = (v t).seed j := fun t ht hC j hj => by
    rw [vNode, if_neg (by rwa [gC]), gS, hleaf t ht hC, Round.seed, seedTree_val (by decide) (hcl t ht hC).1 _ (node16 hj),
      show 16 + j - 1 = 2 ^ 4 - 1 + j by omega]
  have hnodeO : ∀ t ∈ C, ∀ j < 16, j ≠ hid C Q t → vNode E P sg t (2 ^ 4 - 1 + j) = (v t).seed j := fun t ht j hj hjk => by
    obtain ⟨k, hk⟩ := revealed_cover (D := 4) (n := 16) (by decide) (by decide) (by decide) (single_lt (hk16 t ht)) (by simp) hj (by simpa using hjk)
    rw [vNode, if_pos (by rwa [gC]), gS, gC, gQ, Round.seed,
      partial_val (by decide) (by decide) (by decide) (single_lt (hk16 t ht)) (hop t ht).1 (input := (pfOf sg t).seedInfo) (by rw [gPf t ht, hpf]) (16 + j) k
        (node16 hj) hk, show 16 + j - 1 = 2 ^ 4 - 1 + j by omega]
    rfl
  have htapeC : ∀ t < P.numMPCRounds, t ∉ C → ∀ j < 16, (inst3 E P).tape salt t j (v t) = bitsOf (vTape E P sg t j) := fun t ht hC j hj => by
    rw [tape3_eq hP, ← hnodeC t ht hC j hj, vTape, gS]
  have htapeO : ∀ t ∈ C, ∀ j < 16, j ≠ hid C Q t → (inst3 E P).tape salt t j (v t) = bitsOf (vTape E P sg t j) := fun t ht j hj hjk => by
    rw [tape3_eq hP, ← hnodeO t ht j hj hjk, vTape, gS]
  -- commitments
  have hcom : ∀ t < P.numMPCRounds, ∀ j < 16, vCom E P sg t j = (v t).com j := fun t ht j hj => by
    by_cases hC : t ∈ C
    · rw [vCom, if_pos (by rwa [gC]), gC, gQ, gPf t hC, show hidOf C Q t = hid C Q t from rfl]
      by_cases hjk : j = hid C Q t
      · rw [if_pos hjk, hpf, hjk]
      · rw [if_neg hjk, ((hop t hC).2.2.1 j hj hjk).2, commit_eq, gS, hnodeO t hC j hj hjk]
        by_cases h15 : j = 15
        · rw [if_pos h15, if_pos h15, hpf]
          dsimp only
          rw [if_pos (fun e => hjk (h15.trans e.symm))]
        · rw [if_neg h15, if_neg h15]
    · rw [vCom, if_neg (by rwa [gC]), (hcl t ht hC).2.2 j hj, commit_eq, gS, hnodeC t ht hC j hj]
      obtain ⟨κ, hκ⟩ := (hcl t ht hC).2.1
      rw [((prepared_iff hP h3 hI (htapeC t ht hC) vTape_length κ).1 hκ).1]
  -- simulated computation
  have honl : ∀ t ∈ C, (∀ j < 16, (v t).msgs j = vMsgs E P sg pt t j) ∧ (inst3 E P).result (pt.take P.stateSizeBytes) (v t) = vOut E P sg pt t := fun t ht => by
    have hin : (pfOf sg t).input = (v t).key := by rw [gPf t ht, hpf]
    have hst := sends_to (E := E) (v := v t) (pt := pt.take P.stateSizeBytes) (sh := (inst3 E P).share salt t (v t))
      (tb := fun j => bitsOf (vOTape E P sg t j)) (mu := fun j => bitsOf (vMs P sg t j)) (u := some (hid C Q t))
      (mk := bitsOf (pfOf sg t).input) (pt' := bitsOf pt) hP h3
      (shareOK_set h3 (tp := vTape E P sg t) (fun j hj => by
          by_cases hjk : j = hid C Q t
          · exact Or.inr hjk
          · exact Or.inl (htapeO t ht j hj hjk)) vTape_length (aux := (pfOf sg t).aux) (fun h15 => by
          rw [gPf t ht, hpf]
          dsimp only
          rw [if_pos h15]) (fun j _ hjk => by
          rw [vOTape, if_neg (by rw [gC, gQ]; exact hjk)]))
      (fun _ _ => by rw [hin]) (fun i hi => bitsOf_take (by omega))
      (fun j hj hu p hp => by
        have : j ≠ hidOf sg.challengeC sg.challengeP t := fun e => hu (by rw [e, gC, gQ]; rfl)
        rw [vMs, if_neg this, bitsOf_zeros])
      (fun j hj => ⟨fun e => by
          injection e with e
          have hvm : vMs P sg t j = (v t).msgs j := by
            rw [vMs, if_pos (by rw [gC, gQ]; exact e.symm), gPf t ht, hpf, ← e]
          rw [hvm]
          exact ⟨by rw [← e, (hop t ht).2.1.msgs.1, inst3_gate hP], rfl⟩,
        fun e => ((hop t ht).2.2.1 j hj (fun e2 => e (by rw [e2]))).1⟩)
    refine ⟨fun j hj => ?_, ?_⟩
    · rw [hst.2 j hj, vMsgs, gC, gQ]; rfl
    · rw [result_eq hP (hst.1 P.numRounds le_rfl), vOut, gC, gQ]; rfl
  -- root
  have hroot : h 1 = vRoot E P sg pt := by
    have hld : ∀ t < P.numMPCRounds, t ∉ missing P.numMPCRounds C → vCv E P sg pt t = some ((inst3 E P).msgDigest (v t)) := fun t ht htl => by
      have hC : t ∈ C := by
        by_contra h
        exact htl (mem_missing.2 ⟨ht, h⟩)
      rw [vCv, if_pos (by rwa [gC]), msgDigest_eq, cat_congr (honl t hC).1, gPf t hC, hpf]
    have hld2 : ∀ t < P.numMPCRounds, t ∈ missing P.numMPCRounds C → vCv E P sg pt t = none := fun t ht htl => by
      rw [vCv, if_neg (by rw [gC]; exact (mem_missing.1 htl).2)]
    have := merkle_val (E := E) (P := P) (v := v) (S := (· ∈ C)) (l := missing P.numMPCRounds C) (inst3_depth h3).symm hlg
      (fun t ht => by rw [mem_missing]; simp [ht]) hld hld2 m5 hcvl hM gV 0 (by
        obtain ⟨y, hy⟩ := m6
        have hyd := present_atDepth hlg y hy
        refine ⟨y, ceilLog2 P.numMPCRounds, hy, le_rfl, ?_⟩
        rw [pow_succ] at hyd
        exact Nat.div_eq_of_lt_le (by omega) (by omega))
    rw [vRoot, gS, gC]
    exact this
  have hhash : sg.challengeHash = vHash E P sg ct pt msg := by
    rw [gH, ← hd, vHash, gS]
    refine challengeDigest3_eq hroot fun t ht => ?_
    rw [vCh, cat_congr (hcom t ht)]
  refine ⟨sg, hwf, fun t ht hC => ?_, fun t ht h15 => ?_, fun t ht => ?_, fun t ht => ?_, hhash, ?_, ?_⟩
  · rw [gC] at hC
    rw [gP t ht, if_neg hC]
  · rw [gC] at ht
    rw [gC, gQ] at h15
    rw [gPf t ht, hpf]
    exact if_neg (fun hn => hn h15)
  · rw [gC] at ht
    obtain ⟨o1, o2, o3, o4⟩ := hop t ht
    have hw := hgl t ht
    rw [gPf t ht]
    refine ⟨(padZero_gate hP h3 hw.aux).2 ?_, (padZero_gate hP h3 hw.msgs).2 ?_⟩
    · by_cases h15 : hid C Q t ≠ 15
      · have e : (pf t).aux = (v t).aux := by rw [hpf]; exact if_pos h15
        rw [e]
        exact (zeroPad_gate hP h3 (e ▸ hw.aux)).1 (o2.aux h15).2
      · have e : (pf t).aux = zeros P.andSizeBytes := by rw [hpf]; exact if_neg h15
        rw [e]
        exact fun p _ => bitsOf_zeros _ _
    · have e : (pf t).msgs = (v t).msgs (hid C Q t) := by rw [hpf]
      rw [e]
      exact (zeroPad_gate hP h3 (e ▸ hw.msgs)).1 o2.msgs.2
  · rw [gC] at ht
    rw [← (honl t ht).2, (hop t ht).2.2.2]
  · rw [gH, gC, gQ]; exact hch'
  · rw [hsig]
    refine encode3_eq gH gS ?_ ?_ gC gQ fun t ht hC => ?_
    · rw [gI, inst3_depth h3]; rfl
    · rw [gV, opened_flatMap h3 hc]
    · rw [gPf t hC, hpf]
      exact encodeRound_eq rfl (fun h15 => if_pos h15) rfl rfl rfl

end Picnic
