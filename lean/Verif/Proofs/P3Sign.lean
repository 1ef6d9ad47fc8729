import Verif.Proofs.P3Verify

/-
/repo/picnic3_impl.c: `sign_picnic3`.
-/

namespace Picnic

open Spec Spec.Tree

/-! ### description -/

section
variable (E : Env) (P : Params) (key pk pt msg : Buf)

/-- Salt and root seed. -/
def sSaltRoot : Buf := H E P HASH_PREFIX_NONE
  (key.take P.stateSizeBytes ++ (msg ++ (pk.take P.stateSizeBytes ++ (pt.take P.stateSizeBytes ++ le16 P.stateSizeBits)))) (P.saltSizeBytes + P.seedSizeBytes)
def sSalt : Buf := (sSaltRoot E P key pk pt msg).take P.saltSizeBytes
def sRoot : Buf := (sSaltRoot E P key pk pt msg).drop P.saltSizeBytes

end

section
variable (E : Env) (P : Params) (salt root key pk pt msg : Buf)

/-- The tree of the round seeds. -/
noncomputable def sTree : ℕ → Buf := seedVl E P salt 0 root (ceilLog2 P.numMPCRounds) P.numMPCRounds
noncomputable def sLeaf (t : ℕ) : Buf := sTree E P salt root (2 ^ ceilLog2 P.numMPCRounds - 1 + t)
/-- The seed tree of round `t`. -/
noncomputable def sNode (t : ℕ) : ℕ → Buf := seedVl E P salt t (sLeaf E P salt root t) 4 16
noncomputable def sTape (t j : ℕ) : Buf := p3Tape E P salt t j (sNode E P salt root t (2 ^ 4 - 1 + j))
/-- The masked key. -/
noncomputable def sMk (t : ℕ) : Buf := ofBits (fun i => kap P (E.lowmc P) (sTape E P salt root t) i + bitsOf key i) (4 * P.stateSizeWords)
noncomputable def sOut (t : ℕ) : Buf :=
  ofBits (onState P (E.lowmc P) (fun j => bitsOf (auxTp P (E.lowmc P) (sTape E P salt root t) j)) (fun _ => bitsOf (zeros P.andSizeBytes)) none
    (bitsOf (sMk E P salt root key t)) (bitsOf pt) P.numRounds) P.stateSizeBytes
noncomputable def sMsgs (t j : ℕ) : Buf :=
  ofBits (onMsg P (E.lowmc P) (fun j => bitsOf (auxTp P (E.lowmc P) (sTape E P salt root t) j)) (fun _ => bitsOf (zeros P.andSizeBytes)) none
    (bitsOf (sMk E P salt root key t)) (bitsOf pt) j) P.andSizeBytes
noncomputable def sCv (t : ℕ) : Buf :=
  H E P HASH_PREFIX_NONE ((sMk E P salt root key t).take P.stateSizeBytes ++ cat 16 (sMsgs E P salt root key pt t)) P.digestSizeBytes
noncomputable def sCom (t j : ℕ) : Buf :=
  p3Com E P salt t j (sNode E P salt root t (2 ^ 4 - 1 + j)) (if j = 15 then auxOf E P (sTape E P salt root t) else [])
noncomputable def sCh (t : ℕ) : Buf := H E P HASH_PREFIX_NONE (cat 16 (sCom E P salt root t)) P.digestSizeBytes
/-- The Merkle tree of the view commitments. -/
noncomputable def sMerkle : ℕ → Buf := bVl E P salt (ceilLog2 P.numMPCRounds) P.numMPCRounds fun t => some (sCv E P salt root key pt t)
noncomputable def sHash : Buf :=
  H E P HASH_PREFIX_NONE (hcpInput P (sCh E P salt root) (sMerkle E P salt root key pt 0) salt (pk.take P.stateSizeBytes) (pt.take P.stateSizeBytes) msg)
    P.digestSizeBytes

/-- The proof of round `t` with unopened party `k`. -/
noncomputable def sPf (t k : ℕ) : Proof2 :=
  { seedInfo := (revN 4 16 [k]).flatMap (sNode E P salt root t)
    seedInfoLen := 4 * P.seedSizeBytes
    aux := if k ≠ 15 then auxOf E P (sTape E P salt root t) else zeros P.andSizeBytes
    C := sCom E P salt root t k
    input := (sMk E P salt root key t).take P.stateSizeBytes
    msgs := sMsgs E P salt root key pt t k }

/-- The signature with challenge `C`, `Q`. -/
noncomputable def sSig (C Q : List ℕ) : Signature2 :=
  { salt := salt
    iSeedInfo := (revN (ceilLog2 P.numMPCRounds) P.numMPCRounds C).flatMap (sTree E P salt root)
    iSeedInfoLen := (revN (ceilLog2 P.numMPCRounds) P.numMPCRounds C).length * P.seedSizeBytes
    cvInfo := (mrevN (ceilLog2 P.numMPCRounds) P.numMPCRounds (missing P.numMPCRounds C)).flatMap (sMerkle E P salt root key pt)
    cvInfoLen := (mrevN (ceilLog2 P.numMPCRounds) P.numMPCRounds (missing P.numMPCRounds C)).length * P.digestSizeBytes
    challengeHash := sHash E P salt root key pk pt msg
    challengeC := C
    challengeP := Q
    proofs := arrN P.numMPCRounds fun t => if t ∈ C then some (sPf E P salt root key pt t (hidOf C Q t)) else none }

end

/-! ### proofs -/

variable {E : Env} {P : Params} {salt root key pk pt msg : Buf}

theorem sSaltRoot_length : (sSaltRoot E P key pk pt msg).length = P.saltSizeBytes + P.seedSizeBytes := H_length _ _ _ _ _
theorem sSalt_length : (sSalt E P key pk pt msg).length = P.saltSizeBytes := by
  unfold sSalt; rw [List.length_take, sSaltRoot_length]; omega
theorem sRoot_length : (sRoot E P key pk pt msg).length = P.seedSizeBytes := by
  unfold sRoot; rw [List.length_drop, sSaltRoot_length]; omega

theorem sTree_length (hr : root.length = P.seedSizeBytes) (i : ℕ) : (sTree E P salt root i).length = P.seedSizeBytes := seedVl_length hr _ _ _
theorem sNode_length (hr : root.length = P.seedSizeBytes) (t i : ℕ) : (sNode E P salt root t i).length = P.seedSizeBytes :=
  seedVl_length (sTree_length hr _) _ _ _
theorem sTape_length (t j : ℕ) : (sTape E P salt root t j).length = 2 * P.andSizeBytes := p3Tape_length
theorem auxOf_length {tp : ℕ → Buf} : (auxOf E P tp).length = P.andSizeBytes := ofBits_length _ _
theorem sMsgs_length (t j : ℕ) : (sMsgs E P salt root key pt t j).length = P.andSizeBytes := ofBits_length _ _
theorem sMk_length (t : ℕ) : (sMk E P salt root key t).length = 4 * P.stateSizeWords := ofBits_length _ _
theorem sMerkle_length (i : ℕ) : (sMerkle E P salt root key pt i).length = P.digestSizeBytes :=
  mvl_length (fun i => leafVl_length (by simp) fun j _ d hd => by injection hd with hd; rw [← hd]; exact (H_length _ _ _ _ _).ge) i

/-- The simulated computation outputs the encryption of the plaintext under the private key. -/
theorem sOut_enc (hP : ParamsWF P) (h3 : P3WF P) (hI : InvOK P (E.lowmc P)) (t : ℕ) :
    sOut E P salt root key pt t = ofBits ((lowmcOf P (E.lowmc P)).enc (bitsOf key) (bitsOf pt)) P.stateSizeBytes := by
  unfold sOut
  rw [onState_enc (key := bitsOf key) hP h3 hI (sTape_length t 15) fun i hi => ?_]
  have := hP.words
  unfold sMk
  rw [bitsOf_ofBits _ (by omega), add_comm]

theorem signPrep_ok {t : ℕ} {hv : ℕ → Bool} (hE : PermWF E) (hP : ParamsWF P) (hSd : SeedWF P) (h3 : P3WF P) (hC : ConstsWF P (E.lowmc P)) (hI : InvLen P (E.lowmc P))
    (hsalt : salt.length = P.saltSizeBytes) (hr : root.length = P.seedSizeBytes) (ht : t < P.numMPCRounds) :
    signPrep E P (mkTree (ceilLog2 P.numMPCRounds) P.numMPCRounds P.seedSizeBytes hv (sTree E P salt root)) salt t =
      Outcome.ok { seeds := mkTree 4 16 P.seedSizeBytes (exb 4 16) (sNode E P salt root t)
                   tapes := tapes16 (auxTp P (E.lowmc P) (sTape E P salt root t)) 0
                   input := ofBits (kap P (E.lowmc P) (sTape E P salt root t)) P.stateSizeBytes ++ (zeros (P.stateSizeWords * 4)).drop P.stateSizeBytes
                   C := arrN 16 (sCom E P salt root t) } := by
  have h4 := h3.and
  have hbw := h3.bytes
  unfold signPrep
  rw [getLeaves_mk, rd_arrN ht, ok_bind, h3.parties, generateSeeds_ok hE hSd (by decide) (by decide) (sTree_length hr _) hsalt, ok_bind, log16, getLeaves_mk,
    show seedVl E P salt t (sTree E P salt root (2 ^ ceilLog2 P.numMPCRounds - 1 + t)) 4 16 = sNode E P salt root t from rfl,
    createRandomTapes_ok (s := fun j => sNode E P salt root t (2 ^ 4 - 1 + j)) hE h3 (fun j _ => sNode_length hr t _) hsalt, ok_bind]
  refine bind_of (computeAuxTape_ok hP h3 hC hI (fun j _ => sTape_length t j) (by
    intro i h; injection h with h; rw [← h, zeros_length]; omega)) ?_
  dsimp only
  rw [Option.map_some]
  simp only [deref]
  rw [ok_bind]
  have hlen : (auxTp P (E.lowmc P) (sTape E P salt root t) 15).length = 2 * P.andSizeBytes := by rw [auxTp_length]; exact sTape_length t 15
  have hall := commitAll_ok (E := E) (P := P) (t := t) (hv := exb 4 16) (vl := sNode E P salt root t) (salt := salt)
    (aux := ofBits (auxBitsOf P (auxTp P (E.lowmc P) (sTape E P salt root t) 15)) MAX_AUX_BYTES) hE h3 hsalt (fun i => sNode_length hr t i)
    (by rw [ofBits_length]; unfold MAX_AUX_BYTES; omega)
  have hga := getAuxBits_ok (P := P) (tp := auxTp P (E.lowmc P) (sTape E P salt root t)) (pos := 0) (len := MAX_AUX_BYTES) hP h3 hlen (by unfold MAX_AUX_BYTES; omega)
  change (do
      let C ← loop (fun j C => commitInto E P C (mkTree 4 16 P.seedSizeBytes (exb 4 16) (sNode E P salt root t)) none salt t j) 15 (allocateCommitment E P 16 t)
      let auxBits ← getAuxBits P (zeros MAX_AUX_BYTES) (tapes16 (auxTp P (E.lowmc P) (sTape E P salt root t)) 0)
      let C ← commitInto E P C (mkTree 4 16 P.seedSizeBytes (exb 4 16) (sNode E P salt root t)) (some auxBits) salt t 15
      pure ({ seeds := _, tapes := _, input := _, C := C } : Prep) : M Prep) = _
  rw [hga]
  simp only [ok_bind]
  rw [← bind_assoc, hall, ok_bind, pure_eq_ok]
  refine congrArg (fun x => Outcome.ok ({ seeds := _, tapes := _, input := _, C := x } : Prep)) (arrN_congr fun j hj => ?_)
  unfold sCom
  congr 1
  by_cases e : j = 15
  · rw [if_pos e, if_pos e, ofBits_take (by unfold MAX_AUX_BYTES; omega)]; rfl
  · rw [if_neg e, if_neg e]

theorem signOnline_ok {t : ℕ} {p : Prep} (hP : ParamsWF P) (h3 : P3WF P) (hC : ConstsWF P (E.lowmc P))
    (hkey : 4 * P.stateSizeWords ≤ key.length) (hpt : 4 * P.stateSizeWords ≤ pt.length) (hpk : P.stateSizeBytes ≤ pk.length)
    (ht : p.tapes = tapes16 (auxTp P (E.lowmc P) (sTape E P salt root t)) 0)
    (hi : p.input = ofBits (kap P (E.lowmc P) (sTape E P salt root t)) P.stateSizeBytes ++ (zeros (P.stateSizeWords * 4)).drop P.stateSizeBytes) :
    signOnline E P p key pk pt t = Outcome.ok (if (sOut E P salt root key pt t == pk.take P.stateSizeBytes) = true then
      some (sMk E P salt root key t, msgs16 (sMsgs E P salt root key pt t) (P.stateSizeBits * P.numRounds) none) else none) := by
  have hw := hP.words
  have hby := hP.bytes
  have hbw := h3.bytes
  have hin : p.input = ofBits (kap P (E.lowmc P) (sTape E P salt root t)) (4 * P.stateSizeWords) := by
    rw [hi]
    refine buf_ext (by simp; omega) fun i hi' => ?_
    simp only [List.length_append, ofBits_length, List.length_drop, zeros_length] at hi'
    rw [bitsOf_ofBits _ (by omega)]
    by_cases h : i < 8 * P.stateSizeBytes
    · rw [bitsOf_append_left (by simpa using h), bitsOf_ofBits _ h]
    · obtain ⟨q, rfl⟩ : ∃ q, i = 8 * (ofBits (kap P (E.lowmc P) (sTape E P salt root t)) P.stateSizeBytes).length + q := ⟨i - 8 * P.stateSizeBytes, by simp; omega⟩
      rw [bitsOf_append_right, bitsOf_drop, bitsOf_zeros, kap, mulVec_ge (by simp; omega)]
  unfold signOnline
  rw [hin, xorArray_ofBits hkey, ok_bind, ht]
  have hmk : ofBits (kap P (E.lowmc P) (sTape E P salt root t) + bitsOf key) (4 * P.stateSizeWords) = sMk E P salt root key t := rfl
  rw [hmk]
  have hrep : allocateMsgs P = msgs16 (fun _ => zeros P.andSizeBytes) 0 none := by
    unfold allocateMsgs
    rw [h3.parties]
    congr 1
  rw [hrep]
  refine bind_of (simulateOnline_ok (u := none) hP h3 hC (by intro q hq; cases hq) (fun j _ => by rw [auxTp_length]; exact sTape_length t j) (fun j _ => by simp)
    (by rw [sMk_length]; omega) hpt hpk) ?_
  rfl

theorem signProof_ok {t : ℕ} {C Q : List ℕ} {p : Prep} (hP : ParamsWF P) (h3 : P3WF P) (hc : ChalWF P C Q) (hr : root.length = P.seedSizeBytes)
    (hps : p.seeds = mkTree 4 16 P.seedSizeBytes (exb 4 16) (sNode E P salt root t))
    (ht : p.tapes = tapes16 (auxTp P (E.lowmc P) (sTape E P salt root t)) 0) (hpC : p.C = arrN 16 (sCom E P salt root t)) :
    signProof E P C Q p (sMk E P salt root key t) (msgs16 (sMsgs E P salt root key pt t) (P.stateSizeBits * P.numRounds) none) t =
      Outcome.ok (if t ∈ C then some (sPf E P salt root key pt t (hidOf C Q t)) else none) := by
  have hsd := h3.seed
  have hbw := h3.bytes
  unfold signProof
  rw [contains_ok hc, ok_bind]
  by_cases h : t ∈ C
  · have hh := (hid_lt h3 hc h).2
    rw [decide_eq_true h, if_pos rfl, if_pos h]
    dsimp only
    rw [index_ok hc h, ok_bind, rd_hid h3 hc h, ok_bind, hps, ht, hpC, h3.parties]
    obtain ⟨k, hk⟩ : ∃ k, k = hidOf C Q t := ⟨_, rfl⟩
    rw [← hk] at hh ⊢
    obtain ⟨hrun, hnd, hrv⟩ := revN_spec (D := 4) (n := 16) (l := [k]) (by decide) (by decide) (by decide) (by simpa using hh)
    have hpk' : AtDepth 4 (Picked 4 [k]) := picked_atDepth (n := 16) (by decide) (by simpa using hh)
    have hrl := revN_16 hh
    have hrs := revealSeeds_ok (P := P) (D := 4) (n := 16) (size := 16 * P.seedSizeBytes) (hv := exb 4 16) (vl := sNode E P salt root t) (l := [k])
      (rv := revN 4 16 [k]) (out := E.junkBuf siteTree (t + 1) (16 * P.seedSizeBytes)) (hrun ..)
      (fun r hr => exb_lt (exb_iff.2 (rev_node (by decide) (by decide) hpk' ((hrv r).1 hr)).1)) (fun r _ => sNode_length hr t r)
      (by rw [hrl]; omega) (by simp) (by unfold INT_MAX; omega)
    refine bind_of hrs ?_
    dsimp only
    have hfl : ((revN 4 16 [k]).flatMap (sNode E P salt root t)).length = (revN 4 16 [k]).length * P.seedSizeBytes :=
      flatMap_blocks_length fun r _ => sNode_length hr t r
    have htail : ∀ aux, (do
        let input ← memcpy (allocateProof2 E P t).input 0 (sMk E P salt root key t) 0 P.stateSizeBytes
        let m ← rd (arrN 16 (sMsgs E P salt root key pt t)) k
        let ms ← memcpy (allocateProof2 E P t).msgs 0 m 0 P.andSizeBytes
        let h ← rd (arrN 16 (sCom E P salt root t)) k
        let C ← memcpy (allocateProof2 E P t).C 0 h 0 P.digestSizeBytes
        pure (some (Proof2.mk (((revN 4 16 [k]).flatMap (sNode E P salt root t) ++
          (E.junkBuf siteTree (t + 1) (16 * P.seedSizeBytes)).drop ((revN 4 16 [k]).length * P.seedSizeBytes)).take ((revN 4 16 [k]).length * P.seedSizeBytes))
          ((revN 4 16 [k]).length * P.seedSizeBytes) aux C input ms)) : M (Option Proof2)) = Outcome.ok (some { sPf E P salt root key pt t k with aux := aux }) := by
      intro aux
      rw [memcpy_ok (by rw [sMk_length]; omega) (by simp [allocateProof2]), ok_bind, rd_arrN hh, ok_bind,
        memcpy_full (sMsgs_length t k) (by simp [allocateProof2]), ok_bind, rd_arrN hh, ok_bind, memcpy_full (show (sCom E P salt root t k).length = _ from p3Com_length) (by simp [allocateProof2]), ok_bind, pure_eq_ok]
      unfold sPf
      rw [List.take_append_of_le_length hfl.ge, List.take_of_length_le hfl.le, hrl]
      congr 3
      simp [allocateProof2]
    by_cases hl : k ≠ 15
    · rw [if_pos hl]
      have hlen : (auxTp P (E.lowmc P) (sTape E P salt root t) 15).length = 2 * P.andSizeBytes := by rw [auxTp_length]; exact sTape_length t 15
      have hga := getAuxBits_ok (P := P) (tp := auxTp P (E.lowmc P) (sTape E P salt root t)) (pos := 0) (len := P.andSizeBytes) hP h3 hlen le_rfl
      refine bind_of (show getAuxBits P (allocateProof2 E P t).aux (tapes16 (auxTp P (E.lowmc P) (sTape E P salt root t)) 0) = _ from hga) ?_
      refine (htail _).trans ?_
      unfold sPf
      rw [if_pos hl]
      rfl
    · rw [if_neg hl]
      refine (htail _).trans ?_
      unfold sPf
      rw [if_neg hl]
      rfl
  · rw [decide_eq_false h, if_neg (by simp), if_neg h]; rfl

/-- The result of `sign_picnic3`. -/
noncomputable def signR (E : Env) (P : Params) (key pk pt msg : Buf) : M (Option Signature2) :=
  if ofBits ((lowmcOf P (E.lowmc P)).enc (bitsOf key) (bitsOf pt)) P.stateSizeBytes = pk.take P.stateSizeBytes then
    match expandR E P E.fuel (sHash E P (sSalt E P key pk pt msg) (sRoot E P key pk pt msg) key pk pt msg) with
    | none => .diverge
    | some (C, Q) => .ok (some (sSig E P (sSalt E P key pk pt msg) (sRoot E P key pk pt msg) key pk pt msg C Q))
  else .ok none

theorem signPicnic3_ok {mlen : ℕ} (hE : PermWF E) (hP : ParamsWF P) (hSd : SeedWF P) (hMk : MerkleWF P) (h3 : P3WF P) (hSz : P3Sz P)
    (hC : ConstsWF P (E.lowmc P)) (hI : InvLen P (E.lowmc P)) (hI2 : InvOK P (E.lowmc P)) (hkey : 4 * P.stateSizeWords ≤ key.length)
    (hpt : 4 * P.stateSizeWords ≤ pt.length) (hpk : P.stateSizeBytes ≤ pk.length) (hm : mlen ≤ msg.length) (hm2 : mlen + 200 ≤ 2 ^ 32) :
    signPicnic3 E P key pk pt msg mlen (allocateSignature2 E P) = signR E P key pk pt (msg.take mlen) := by
  have hT1 := h3.Tpos
  have hT2 := h3.T
  have hu := h3.upos
  have hu2 := h3.u
  have hd := h3.dig
  have hsd := h3.seed
  have hsa := h3.salt
  have hbw := h3.bytes
  have hwd := h3.words
  have hlg := ceilLog2_le (by omega : 1 ≤ P.numMPCRounds) (by omega)
  have hD := clog_pos (by omega : 2 ≤ P.numMPCRounds) (by omega)
  have hp : 1 ≤ 2 ^ ceilLog2 P.numMPCRounds := Nat.one_le_two_pow
  obtain ⟨m', hm'⟩ : ∃ m', m' = msg.take mlen := ⟨_, rfl⟩
  obtain ⟨salt, hsalt⟩ : ∃ x, x = sSalt E P key pk pt m' := ⟨_, rfl⟩
  obtain ⟨root, hroot⟩ : ∃ x, x = sRoot E P key pk pt m' := ⟨_, rfl⟩
  have hsl : salt.length = P.saltSizeBytes := by rw [hsalt]; exact sSalt_length
  have hrl : root.length = P.seedSizeBytes := by rw [hroot]; exact sRoot_length
  unfold signPicnic3 computeSaltAndRootSeed
  rw [hashAll_ok hE (by
    intro q hq
    simp only [List.mem_cons, List.not_mem_nil, or_false, intLE_eq] at hq
    rcases hq with rfl | rfl | rfl | rfl | rfl <;> simp <;> omega) (by omega), ok_bind]
  simp only [List.flatMap_cons, List.flatMap_nil, List.append_nil, intLE_eq]
  rw [List.take_of_length_le (le16_length _).le, ← hm']
  change (do
    let saltAndRoot ← wrN (E.junkBuf siteSeeds 0 (P.saltSizeBytes + P.seedSizeBytes)) 0 (sSaltRoot E P key pk pt m')
    _) = _
  have hsrl := sSaltRoot_length (E := E) (P := P) (key := key) (pk := pk) (pt := pt) (msg := m')
  rw [wrN_full (by rw [hsrl]; simp), ok_bind, memcpy_ok (by omega) (by simp [allocateSignature2]), ok_bind, rdN_ok (by omega), ok_bind]
  have e1 : (allocateSignature2 E P).salt.take 0 ++ ((sSaltRoot E P key pk pt m').drop 0).take P.saltSizeBytes ++ (allocateSignature2 E P).salt.drop (0 + P.saltSizeBytes) = salt := by
    rw [List.take_zero, List.nil_append, List.drop_zero, List.drop_eq_nil_of_le (by simp [allocateSignature2]), List.append_nil, hsalt]; rfl
  have e2 : ((sSaltRoot E P key pk pt m').drop P.saltSizeBytes).take P.seedSizeBytes = root := by
    rw [List.take_of_length_le (by rw [List.length_drop]; omega), hroot]; rfl
  rw [e1, e2, generateSeeds_ok hE hSd (by omega) (by omega) hrl hsl, ok_bind]
  rw [show seedVl E P salt 0 root (ceilLog2 P.numMPCRounds) P.numMPCRounds = sTree E P salt root from rfl]
  refine bind_of (collect_arrN fun t ht => signPrep_ok (root := root) hE hP hSd h3 hC hI hsl hrl ht) ?_
  rw [collectOpt_ok (g := fun t => if (sOut E P salt root key pt t == pk.take P.stateSizeBytes) = true then
      some (sMk E P salt root key t, msgs16 (sMsgs E P salt root key pt t) (P.stateSizeBits * P.numRounds) none) else none) fun t ht => by
    rw [rd_arrN ht, ok_bind]
    exact signOnline_ok hP h3 hC hkey hpt hpk rfl rfl]
  rw [ok_bind]
  unfold signR
  simp only [sOut_enc hP h3 hI2]
  rw [← hsalt, ← hroot]
  by_cases henc : ofBits ((lowmcOf P (E.lowmc P)).enc (bitsOf key) (bitsOf pt)) P.stateSizeBytes = pk.take P.stateSizeBytes
  · rw [if_pos henc]
    have hb : (ofBits ((lowmcOf P (E.lowmc P)).enc (bitsOf key) (bitsOf pt)) P.stateSizeBytes == pk.take P.stateSizeBytes) = true := by simpa using henc
    simp only [hb]
    rw [if_pos (show ∀ t < P.numMPCRounds, (if True then some (sMk E P salt root key t, msgs16 (sMsgs E P salt root key pt t) (P.stateSizeBits * P.numRounds) none)
      else none).isSome = true from fun t _ => by rw [if_pos trivial]; rfl),
      filterMap_some (g' := fun t => (sMk E P salt root key t, msgs16 (sMsgs E P salt root key pt t) (P.stateSizeBits * P.numRounds) none)) fun t _ => if_pos trivial]
    dsimp only
    rw [collect_arrN (g := sCh E P salt root) fun t ht => by
      rw [rd_arrN ht, ok_bind]
      dsimp only
      rw [commitH_ok (c := sCom E P salt root t) hE h3 (by simp) (fun j _ => p3Com_length)]; rfl]
    rw [ok_bind, collect_arrN (g := fun t => some (sCv E P salt root key pt t)) fun t ht => by
      rw [rd_arrN ht, ok_bind]
      dsimp only
      rw [commitV_ok hE h3 (by simp) (by rw [sMk_length]; omega) (fun j _ => sMsgs_length t j), ok_bind]; rfl]
    rw [ok_bind, createTree_ok (by omega) (by omega), ok_bind, buildMerkleTree_ok hE hMk hlg hsl (fun j _ d hd => by
      injection hd with hd; rw [← hd]; exact (H_length _ _ _ _ _).ge), ok_bind]
    change (do
      let rootCv ← rd (arrN (2 ^ ceilLog2 P.numMPCRounds - 1 + P.numMPCRounds) (sMerkle E P salt root key pt)) 0
      _) = _
    rw [rd_arrN (by omega), ok_bind, HCPhash_ok (ch := sCh E P salt root) hE h3 (by simp [allocateSignature2]) (fun t _ => H_length _ _ _ _ _)
      (sMerkle_length 0) hsl hpk (by omega) hm hm2, ok_bind, ← hm']
    have e3 : H E P HASH_PREFIX_NONE (hcpInput P (sCh E P salt root) (sMerkle E P salt root key pt 0) salt (pk.take P.stateSizeBytes)
        (pt.take P.stateSizeBytes) m') P.digestSizeBytes ++ (allocateSignature2 E P).challengeHash.drop P.digestSizeBytes = sHash E P salt root key pk pt m' := by
      rw [List.drop_eq_nil_of_le (by simp [allocateSignature2]), List.append_nil]; rfl
    rw [e3, expandChallengeHash_ok hE h3 (show (sHash E P salt root key pk pt m').length = _ from H_length _ _ _ _ _)]
    cases hx : expandR E P E.fuel (sHash E P salt root key pk pt m') with
    | none => rfl
    | some r =>
      obtain ⟨C, Q⟩ := r
      have hc := expandR_wf h3 hx
      obtain ⟨hr1, hr2⟩ := rev_le h3 hSz hc.lenC hc.nodup hc.ltC
      have hml := missing_length hc.nodup hc.ltC
      rw [hc.lenC] at hml
      obtain ⟨m1, m2, m3, m4, m5, m6, m7⟩ := mrev_facts h3 hc.lenC hc.ltC
      dsimp only
      rw [ok_bind]
      dsimp only
      rw [getMissingLeavesList_ok hc.lenC hc.nodup hc.ltC, ok_bind]
      have hop := openMerkleTree_ok (E := E) (D := ceilLog2 P.numMPCRounds) (n := P.numMPCRounds) (ds := P.digestSizeBytes)
        (hv := bHv (ceilLog2 P.numMPCRounds) P.numMPCRounds fun t => some (sCv E P salt root key pt t)) (vl := sMerkle E P salt root key pt)
        (m1 ..) (fun r hr => exb_lt (m3 r hr)) (fun r _ => sMerkle_length r)
      rw [show (missing P.numMPCRounds C).length = P.numMPCRounds - P.numOpenedRounds by omega] at hop
      refine bind_of hop ?_
      dsimp only
      obtain ⟨n1, n2, n3⟩ := revN_spec hD (by omega) hlg hc.ltC
      have hpk' : AtDepth (ceilLog2 P.numMPCRounds) (Picked (ceilLog2 P.numMPCRounds) C) := picked_atDepth hlg hc.ltC
      have hrs := revealSeeds_ok (P := P) (D := ceilLog2 P.numMPCRounds) (n := P.numMPCRounds) (size := P.numMPCRounds * P.seedSizeBytes)
        (hv := exb (ceilLog2 P.numMPCRounds) P.numMPCRounds) (vl := sTree E P salt root) (l := C)
        (out := E.junkBuf siteTree 0 (P.numMPCRounds * P.seedSizeBytes)) (n1 ..)
        (fun r hr => exb_lt (exb_iff.2 (rev_node (by omega) hlg hpk' ((n3 r).1 hr)).1)) (fun r _ => sTree_length hrl r)
        (Nat.mul_le_mul_right _ hr1) (by simp) (by
          have : P.numMPCRounds * P.seedSizeBytes ≤ 601 * 32 := Nat.mul_le_mul hT2 hsd
          unfold INT_MAX; omega)
      rw [hc.lenC] at hrs
      refine bind_of hrs ?_
      dsimp only
      rw [collect_arrN (g := fun t => if t ∈ C then some (sPf E P salt root key pt t (hidOf C Q t)) else none) fun t ht => by
        rw [rd_arrN ht, ok_bind, rd_arrN ht, ok_bind]
        exact signProof_ok hP h3 hc hrl rfl rfl rfl]
      rw [ok_bind, pure_eq_ok]
      have hfl : ((revN (ceilLog2 P.numMPCRounds) P.numMPCRounds C).flatMap (sTree E P salt root)).length = (revN (ceilLog2 P.numMPCRounds) P.numMPCRounds C).length * P.seedSizeBytes :=
        flatMap_blocks_length fun r _ => sTree_length hrl r
      rw [List.take_append_of_le_length hfl.ge, List.take_of_length_le hfl.le]
      rfl
  · rw [if_neg henc]
    have hb : ¬ (ofBits ((lowmcOf P (E.lowmc P)).enc (bitsOf key) (bitsOf pt)) P.stateSizeBytes == pk.take P.stateSizeBytes) = true := by simpa using henc
    simp only [hb]
    rw [if_neg]
    · rfl
    · intro h
      have := h 0 (by omega)
      rw [if_neg (by simp)] at this
      cases this

end Picnic
