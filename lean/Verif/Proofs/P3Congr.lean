import Verif.Proofs.P3Api

/-
The Picnic3 signer and verifier depend on the first ⌈n/8⌉ bytes of the parts of the keys only.
-/

namespace Picnic

open Spec Spec.Tree Finset

theorem on_congr {P : Params} {C : LowMCConsts} {tb mu : ℕ → ℕ → ZMod 2} {u : Option ℕ} {mk mk' pt pt' : Bits} (hn : P.stateSizeBits % 3 = 0)
    (hpos : 0 < P.stateSizeBits) (hmk : ∀ i < P.stateSizeBits, mk i = mk' i) (hpt : ∀ i < P.stateSizeBits, pt i = pt' i) :
    (∀ r, ∀ i < P.stateSizeBits, onState P C tb mu u mk pt r i = onState P C tb mu u mk' pt' r i) ∧
    ∀ j p, onMsg P C tb mu u mk pt j p = onMsg P C tb mu u mk' pt' j p := by
  have hst : ∀ r, ∀ i < P.stateSizeBits, onState P C tb mu u mk pt r i = onState P C tb mu u mk' pt' r i := by
    intro r
    induction r with
    | zero =>
      intro i hi
      rw [onState, onState, Pi.add_apply, Pi.add_apply, hpt i hi, mulVec_congr hmk]
    | succ r ih =>
      intro i hi
      rw [onState, onState, mulVec_congr hmk]
      simp only [Pi.add_apply]
      congr 2
      refine congrFun (mulVec_congr fun q hq => ?_) i
      exact sboxB_congr hn ih (fun q hq => andB_congr hn ih (fun _ _ => rfl) hq) hq
  refine ⟨hst, fun j p => ?_⟩
  unfold onMsg
  by_cases hp : p < P.stateSizeBits * P.numRounds
  · rw [if_pos hp, if_pos hp]
    exact shareB_congr hn (hst _) rfl (Nat.mod_lt _ hpos)
  · rw [if_neg hp, if_neg hp]

/-! ### uninitialised memory and the iteration bound play no role -/

section
variable {E : Env} {P : Params} {junk' : ℕ → ℕ → ℕ → Byte} {fuel' : ℕ}

theorem H_env : H { E with junk := junk', fuel := fuel' } P = H E P := rfl
theorem expandR_env {n : ℕ} : expandR { E with junk := junk', fuel := fuel' } P n = expandR E P n := rfl
theorem sSalt_env : sSalt { E with junk := junk', fuel := fuel' } P = sSalt E P := rfl
theorem sRoot_env : sRoot { E with junk := junk', fuel := fuel' } P = sRoot E P := rfl
theorem p3Tape_env : p3Tape { E with junk := junk', fuel := fuel' } P = p3Tape E P := rfl
theorem p3Com_env : p3Com { E with junk := junk', fuel := fuel' } P = p3Com E P := rfl
theorem auxOf_env : auxOf { E with junk := junk', fuel := fuel' } P = auxOf E P := rfl

theorem seedAt_env {salt root : Buf} {rep : ℕ} : ∀ i, seedAt { E with junk := junk', fuel := fuel' } P salt rep root i = seedAt E P salt rep root i := by
  intro i
  induction i using Nat.strong_induction_on with
  | _ i ih =>
    conv_lhs => rw [seedAt]
    conv_rhs => rw [seedAt]
    by_cases h : i = 0
    · rw [dif_pos h, dif_pos h]
    · rw [dif_neg h, dif_neg h, ih _ (by omega)]; rfl

theorem seedVl_env : seedVl { E with junk := junk', fuel := fuel' } P = seedVl E P := by
  funext salt rep root D n i
  unfold seedVl
  rw [seedAt_env]

theorem mvl_env {salt : Buf} {D n : ℕ} {hv : ℕ → Bool} {vl : ℕ → Buf} : mvl { E with junk := junk', fuel := fuel' } P salt D n hv vl = mvl E P salt D n hv vl := by
  have key : ∀ k i, 2 ^ D - 1 - i = k → mvl { E with junk := junk', fuel := fuel' } P salt D n hv vl i = mvl E P salt D n hv vl i := by
    intro k
    induction k using Nat.strong_induction_on with
    | _ k ih =>
      intro i hk
      conv_lhs => rw [mvl]
      conv_rhs => rw [mvl]
      by_cases h : i < 2 ^ D - 1
      · rw [dif_pos h, dif_pos h, ih _ (by omega) (2 * i + 1) rfl, ih _ (by omega) (2 * i + 2) rfl, H_env]
      · rw [dif_neg h, dif_neg h]
  funext i
  exact key _ i rfl

theorem sTree_env : sTree { E with junk := junk', fuel := fuel' } P = sTree E P := by
  unfold sTree; rw [seedVl_env]
theorem sNode_env : sNode { E with junk := junk', fuel := fuel' } P = sNode E P := by
  unfold sNode sLeaf; rw [seedVl_env, sTree_env]
theorem sTape_env : sTape { E with junk := junk', fuel := fuel' } P = sTape E P := by
  unfold sTape; rw [sNode_env]; rfl
theorem sMk_env : sMk { E with junk := junk', fuel := fuel' } P = sMk E P := by
  unfold sMk; rw [sTape_env]
theorem sMsgs_env : sMsgs { E with junk := junk', fuel := fuel' } P = sMsgs E P := by
  unfold sMsgs; rw [sTape_env, sMk_env]
theorem sCv_env : sCv { E with junk := junk', fuel := fuel' } P = sCv E P := by
  unfold sCv; rw [sMk_env, sMsgs_env, H_env]
theorem sCom_env : sCom { E with junk := junk', fuel := fuel' } P = sCom E P := by
  unfold sCom; rw [sNode_env, sTape_env, p3Com_env, auxOf_env]
theorem sMerkle_env : sMerkle { E with junk := junk', fuel := fuel' } P = sMerkle E P := by
  unfold sMerkle bVl; rw [sCv_env]; funext a b c d; rw [mvl_env]
theorem sHash_env : sHash { E with junk := junk', fuel := fuel' } P = sHash E P := by
  unfold sHash sCh; rw [sMerkle_env, sCom_env, H_env]
theorem sPf_env : sPf { E with junk := junk', fuel := fuel' } P = sPf E P := by
  unfold sPf; rw [sNode_env, sTape_env, sCom_env, sMk_env, sMsgs_env, auxOf_env]
theorem sSig_env : sSig { E with junk := junk', fuel := fuel' } P = sSig E P := by
  unfold sSig; rw [sTree_env, sMerkle_env, sHash_env, sPf_env]

theorem recS_env {salt input : Buf} {rep D n : ℕ} {l : List ℕ} : recS { E with junk := junk', fuel := fuel' } P salt rep D n l input = recS E P salt rep D n l input := by
  funext i
  unfold recS
  induction i using Nat.strong_induction_on with
  | _ i ih =>
    conv_lhs => rw [vlX]
    conv_rhs => rw [vlX]
    by_cases h : i = 0
    · rw [dif_pos h, dif_pos h]
    · rw [dif_neg h, dif_neg h, ih _ (by omega)]; rfl
theorem vNode_env : vNode { E with junk := junk', fuel := fuel' } P = vNode E P := by
  unfold vNode vLeaf; simp only [recS_env, seedVl_env]
theorem vTape_env : vTape { E with junk := junk', fuel := fuel' } P = vTape E P := by
  unfold vTape; rw [vNode_env]; rfl
theorem vCom_env : vCom { E with junk := junk', fuel := fuel' } P = vCom E P := by
  unfold vCom; rw [vNode_env, vTape_env]; rfl
theorem vOTape_env : vOTape { E with junk := junk', fuel := fuel' } P = vOTape E P := by
  unfold vOTape; rw [vTape_env]
theorem vOut_env : vOut { E with junk := junk', fuel := fuel' } P = vOut E P := by
  unfold vOut; rw [vOTape_env]
theorem vMsgs_env : vMsgs { E with junk := junk', fuel := fuel' } P = vMsgs E P := by
  unfold vMsgs; rw [vOTape_env]
theorem vCv_env : vCv { E with junk := junk', fuel := fuel' } P = vCv E P := by
  unfold vCv; rw [vMsgs_env]; rfl
theorem vRoot_env : vRoot { E with junk := junk', fuel := fuel' } P = vRoot E P := by
  unfold vRoot vVl; simp only [vCv_env, mvl_env]
theorem vHash_env : vHash { E with junk := junk', fuel := fuel' } P = vHash E P := by
  unfold vHash vCh; rw [vCom_env, vRoot_env]; rfl
theorem accepts3_env : Accepts3 { E with junk := junk', fuel := fuel' } P = Accepts3 E P := by
  unfold Accepts3; rw [vOut_env, vHash_env]

end

section
variable {E : Env} {P : Params} {key key' pk pk' pt pt' msg : Buf}

theorem out_congr {tb mu : ℕ → ℕ → ZMod 2} {u : Option ℕ} {mk mk' pt pt' : Bits} (hP : ParamsWF P) (h3 : P3WF P)
    (hmk : ∀ i < P.stateSizeBits, mk i = mk' i) (hpt : ∀ i < P.stateSizeBits, pt i = pt' i) (C : LowMCConsts) :
    ofBits (onState P C tb mu u mk pt P.numRounds) P.stateSizeBytes = ofBits (onState P C tb mu u mk' pt' P.numRounds) P.stateSizeBytes := by
  have h := (on_congr (C := C) (tb := tb) (mu := mu) (u := u) (by have := h3.full; omega) hP.nPos hmk hpt).1
  refine ofBits_congr fun i _ => ?_
  by_cases hi : i < P.stateSizeBits
  · exact h _ i hi
  · rw [onState_ge hP.rounds (by omega), onState_ge hP.rounds (by omega)]

theorem bits_take (h : pt'.take P.stateSizeBytes = pt.take P.stateSizeBytes) : ∀ i < 8 * P.stateSizeBytes, bitsOf pt' i = bitsOf pt i := fun i hi => by
  rw [← bitsOf_take (b := pt) (n := P.stateSizeBytes) hi, ← h, bitsOf_take hi]

/-- The verifier. -/
theorem vOut_congr {s : Signature2} (hP : ParamsWF P) (h3 : P3WF P) (h : pt'.take P.stateSizeBytes = pt.take P.stateSizeBytes) (t : ℕ) :
    vOut E P s pt' t = vOut E P s pt t :=
  out_congr hP h3 (fun _ _ => rfl) (fun i hi => bits_take h i (by have := hP.bytes; omega)) _

theorem vHash_congr {s : Signature2} (hP : ParamsWF P) (h3 : P3WF P) (h : pt'.take P.stateSizeBytes = pt.take P.stateSizeBytes)
    (h2 : pk'.take P.stateSizeBytes = pk.take P.stateSizeBytes) : vHash E P s pk' pt' msg = vHash E P s pk pt msg := by
  have hb := hP.bytes
  have hm : ∀ t, vMsgs E P s pt' t = vMsgs E P s pt t := fun t => by
    funext j
    unfold vMsgs
    exact ofBits_congr fun i _ => (on_congr (by have := h3.full; omega) hP.nPos (fun _ _ => rfl) (fun i hi => bits_take h i (by omega))).2 j i
  have hcv : vCv E P s pt' = vCv E P s pt := by
    funext t
    unfold vCv
    rw [hm]
  unfold vHash vRoot
  rw [hcv, h, h2]

theorem accepts3_congr {msg b : Buf} {n : ℕ} {C Q : List ℕ} (hP : ParamsWF P) (h3 : P3WF P) (h : pt'.take P.stateSizeBytes = pt.take P.stateSizeBytes)
    (h2 : pk'.take P.stateSizeBytes = pk.take P.stateSizeBytes) : Accepts3 E P pk' pt' msg b n C Q ↔ Accepts3 E P pk pt msg b n C Q := by
  unfold Accepts3
  rw [vHash_congr hP h3 h h2, h2]
  simp only [vOut_congr hP h3 h]

/-- The signer. -/
theorem sSig_congr {salt root : Buf} {C Q : List ℕ} (hP : ParamsWF P) (h3 : P3WF P) (hk : key'.take P.stateSizeBytes = key.take P.stateSizeBytes)
    (h : pt'.take P.stateSizeBytes = pt.take P.stateSizeBytes) (h2 : pk'.take P.stateSizeBytes = pk.take P.stateSizeBytes) :
    sHash E P salt root key' pk' pt' msg = sHash E P salt root key pk pt msg ∧
    sSig E P salt root key' pk' pt' msg C Q = sSig E P salt root key pk pt msg C Q := by
  have hb := hP.bytes
  have hw := hP.words
  have hbw := h3.bytes
  have hmkb : ∀ t, ∀ i < 8 * P.stateSizeBytes, bitsOf (sMk E P salt root key' t) i = bitsOf (sMk E P salt root key t) i := fun t i hi => by
    unfold sMk
    rw [bitsOf_ofBits _ (by omega), bitsOf_ofBits _ (by omega), bits_take hk i hi]
  have hmk : ∀ t, (sMk E P salt root key' t).take P.stateSizeBytes = (sMk E P salt root key t).take P.stateSizeBytes := fun t =>
    (take_eq_iff (by rw [sMk_length]; omega) (by rw [sMk_length]; omega)).2 (hmkb t)
  have hm : ∀ t, sMsgs E P salt root key' pt' t = sMsgs E P salt root key pt t := fun t => by
    funext j
    unfold sMsgs
    exact ofBits_congr fun i _ => (on_congr (by have := h3.full; omega) hP.nPos (fun i hi => hmkb t i (by omega)) (fun i hi => bits_take h i (by omega))).2 j i
  have hcv : sCv E P salt root key' pt' = sCv E P salt root key pt := by
    funext t
    unfold sCv
    rw [hm, hmk]
  have hme : sMerkle E P salt root key' pt' = sMerkle E P salt root key pt := by
    unfold sMerkle
    rw [hcv]
  have hH : sHash E P salt root key' pk' pt' msg = sHash E P salt root key pk pt msg := by
    unfold sHash
    rw [hme, h, h2]
  have hpf : ∀ t k, sPf E P salt root key' pt' t k = sPf E P salt root key pt t k := fun t k => by
    unfold sPf
    rw [hm, hmk]
  refine ⟨hH, ?_⟩
  unfold sSig
  rw [hH, hme]
  simp only [hpf]

end

end Picnic
